import Verif.Soft.Level
import Verif.Soft.Props
/-! # Software threads: a thread as a whole, over all levels (C44) -/
namespace Verif.Soft

/-- If the priority of a thread is changed only while it is not pending and not about to
be, then it is pending at most at its own level, `is_pending` tells whether it is pending
at all, and it is resumed once for each request that found it not pending. Without the
restriction this is refuted by `C44_false`. -/
theorem C44_settled_partial {count : Nat} (hc : count ≤ 32) {prio : Nat → Nat} (hp : ∀ t, prio t < 27) {acts : List Act} {t : Nat} (ht : t < count)
    (hw : Always count (Settled count t) (init prio) acts) (hn : NoClear acts) {s : State} (hr : run count (init prio) acts = some s) :
    (∀ p, p < 27 → Pending count s t p → p = s.prio t) ∧ (isPending count s t = true ↔ ∃ p, p < 27 ∧ Pending count s t p) ∧
    requestsOf t s.log = runsOf t s.log + if isPending count s t = true then 1 else 0 := by
  obtain ⟨i, u, e⟩ := run_total hc ht hw hn (init_invA count hp) (init_invU t prio) (init_invR count prio) (by simp [init, requestsOf, runsOf]) hr
  have hpr := i.pr t
  have hone : ∀ p, p < 27 → Pending count s t p → p = s.prio t := fun p hp h => u.one p hp ((pending_iff hc ht hp).1 h)
  have hip : isPending count s t = true ↔ Pending count s t (s.prio t) := by simp [isPending, Pending]
  refine ⟨hone, ?_, ?_⟩
  · rw [hip]
    constructor
    · intro h; exact ⟨_, hpr, h⟩
    · rintro ⟨p, h1, h2⟩
      exact hone p h1 h2 ▸ h2
  · rw [e]
    congr 1
    have := hip.trans (pending_iff hc ht hpr)
    cases hb : (s.mem (27 - s.prio t)).getLsbD t
    · rw [if_neg (fun h => by rw [this, hb] at h; simp at h)]; rfl
    · rw [if_pos (this.2 hb)]; rfl

/-- A test for `Settled`. -/
def settledB (count thr : Nat) (s : State) : Act → Bool
  | .setPrio t _ => t != thr ||
    ((List.range 27).all fun q => s.mem (cellIdx count thr q) &&& pendingBit thr == 0) && s.stack.all fun f =>
      match f with
      | .req u (.cell _) => u != thr
      | _ => true
  | _ => true

theorem settledB_sound (count thr : Nat) (s : State) (a : Act) (h : settledB count thr s a = true) : Settled count thr s a := by
  cases a with
  | setPrio t p =>
    intro e
    simp only [settledB, e, bne_self_eq_false, Bool.false_or, Bool.and_eq_true, List.all_eq_true, List.mem_range, beq_iff_eq] at h
    refine ⟨fun q hq hn => hn (h.1 q hq), fun q hq => ?_⟩
    have := h.2 _ hq
    simp at this
  | _ => trivial

/-- Everything is completed, the priority of thread 2 changed, and thread 2 requested again:
it was resumed from level 0, and then from level 1. -/
def settled : List Act := nestC ++ [.setPrio 2 1, .pend 2] ++ steps 10 ++ [.pend 2] ++ steps 10

example : Always 3 (Settled 3 2) (init prioA) settled ∧ NoClear settled ∧ (run 3 (init prioA) settled).isSome = true ∧
    requests 2 0 (ran 3 prioA settled).log = 1 ∧ requests 2 1 (ran 3 prioA settled).log = 2 ∧ requestsOf 2 (ran 3 prioA settled).log = 3 ∧
    runsOf 2 (ran 3 prioA settled).log = 2 ∧ isPending 3 (ran 3 prioA settled) 2 = true := by
  refine ⟨alwaysB_sound (settledB_sound 3 2) (by decide +kernel), ?_, by decide +kernel, by decide +kernel, by decide +kernel, by decide +kernel,
    by decide +kernel, by decide +kernel⟩
  intro t h
  simp [settled, nestC, nestA, steps, -List.reduceReplicate] at h

/-- When nothing is in progress, such a thread has been resumed exactly as often as it was
requested while not pending, if no thread was requested at a level in progress. -/
theorem C44_idle_partial {count : Nat} (hc : count ≤ 32) {prio : Nat → Nat} (hp : ∀ t, prio t < 27) {acts : List Act} {t : Nat} (ht : t < count)
    (hw : Always count (Settled count t) (init prio) acts) (hw' : Always count (fun s a => PrioStill s a ∧ NoSame s a) (init prio) acts)
    (hn : NoClear acts) {s : State} (hr : run count (init prio) acts = some s) (hidle : s.stack = []) : runsOf t s.log = requestsOf t s.log := by
  obtain ⟨-, h2, h3⟩ := C44_settled_partial hc hp ht hw hn hr
  have : ¬ isPending count s t = true := by
    rw [h2]
    rintro ⟨p, h, h'⟩
    exact C41_interrupted_partial hc hp hw' hr hidle t p ht h h'
  rw [h3, if_neg this]; rfl

example : let acts := nestC ++ [.setPrio 2 1, .pend 2] ++ steps 10 ++ [.ret] ++ steps 10
    Always 3 (Settled 3 2) (init prioA) acts ∧ Always 3 (fun s a => PrioStill s a ∧ NoSame s a) (init prioA) acts ∧ NoClear acts ∧
    (run 3 (init prioA) acts).isSome = true ∧ (ran 3 prioA acts).stack = [] ∧ requestsOf 2 (ran 3 prioA acts).log = 2 := by
  refine ⟨alwaysB_sound (settledB_sound 3 2) (by decide +kernel), alwaysB_sound (P := fun s a => prioStillB s a && noSameB s a)
    (fun s a h => by rw [Bool.and_eq_true] at h; exact ⟨prioStillB_sound s a h.1, noSameB_sound s a h.2⟩) (by decide +kernel), ?_,
    by decide +kernel, by decide +kernel, by decide +kernel⟩
  intro t h
  simp [nestC, nestA, steps, -List.reduceReplicate] at h

end Verif.Soft
