import Verif.Soft.FixInv
import Verif.Soft.Props
/-! # Software threads: the requests that are forgotten, and what it takes (C40, C41)

`C41_false` is due to one expression: the `- 1` in line 273 of `row_next`. Without it
no history, however interrupted, leaves a thread behind. -/
namespace Verif.Soft

/-- The state after a history from the start, with the repaired `row_next`. -/
def ranR (count : Nat) (prio : Nat → Nat) (acts : List Act) : State := (runR count (init prio) acts).getD (init prio)

/-- With the repaired `row_next`: when nothing is in progress, nothing is pending. There is
no restriction on the requests, on what interrupts them, or on the changes of priorities. -/
theorem C41_repaired {count : Nat} (hc : count ≤ 32) {prio : Nat → Nat} (hp : ∀ t, prio t < 27) {acts : List Act} {s : State}
    (hr : runR count (init prio) acts = some s) (hidle : s.stack = []) : ∀ t p, t < count → p < 27 → ¬ Pending count s t p := by
  intro t p ht hq hpend
  obtain ⟨i, w⟩ := runR_inv hc (init_invA count hp) (init_invF count prio) hr
  rw [pending_iff hc ht hq] at hpend
  have := above_empty_fix i w (by rw [hidle]; simp) (by rw [hidle]; simp) ht hq hpend
  rw [hidle] at this
  simp [running] at this

/-- The history of `C41_false`, and the return of the second run: with the code the thread
is left pending after one run, with the repair it runs twice. -/
example : let acts := selfPend ++ [.ret] ++ steps 20
    (runR 1 (init fun _ => 5) acts).isSome = true ∧ (ranR 1 (fun _ => 5) acts).stack = [] ∧ runs 0 5 (ranR 1 (fun _ => 5) acts).log = 2 ∧
    (ran 1 (fun _ => 5) acts).stack = [] ∧ runs 0 5 (ran 1 (fun _ => 5) acts).log = 1 ∧ isPending 1 (ran 1 (fun _ => 5) acts) 0 = true := by
  decide +kernel

/-- With the repaired `row_next`, when a thread is resumed at level `p` and another one is
pending at a higher level `q`, then a request at level `q` is in progress that has not
reached its second update. -/
theorem C40_repaired {count : Nat} (hc : count ≤ 32) {prio : Nat → Nat} (hp : ∀ t, prio t < 27) {acts : List Act} {s s' : State}
    (hr : runR count (init prio) acts = some s) {a : Act} (hs : stepR count s a = some s') {t p : Nat} (hl : s'.log = .run t p :: s.log) :
    ∀ u q, u < count → q < 27 → p < q → Pending count s u q → ∃ v, .req v (.header q) ∈ s.stack := by
  intro u q hu hq hpq hpend
  obtain ⟨-, r, cell, bit, rest, hst, rfl, -⟩ := run_event (runR_event hs hl) hl
  obtain ⟨i, w⟩ := runR_inv hc (init_invA count hp) (init_invF count prio) hr
  rw [pending_iff hc hu hq] at hpend
  have hrun : running s.stack = r.priority := by rw [hst]; rfl
  rcases w.cov u q hu hq hpend with h | ⟨f, hf, hcf | hcf⟩
  · rcases w.bits q hq h with h | h
    · omega
    · rw [hst] at h; simp [startAbove] at h
  · cases f with
    | req v pc =>
      cases pc with
      | header q' =>
        have : q' = q := hcf
        exact ⟨v, this ▸ hf⟩
      | _ => exact absurd hcf id
    | _ => exact absurd hcf id
  · have := level_le i.ok f hf _ (covers_level hcf)
    omega

/-- The history of `C40_false`: thread 1 (level 3) has requested thread 2 (level 0) and
itself. It is resumed before thread 2. -/
example : let acts := inversion.dropLast
    (runR 3 (init prioA) acts).isSome = true ∧ runs 1 3 (ranR 3 prioA acts).log = 1 ∧
    ((stepR 3 (ranR 3 prioA acts) .step).getD (init prioA)).log = .run 1 3 :: (ranR 3 prioA acts).log ∧
    isPending 3 (ranR 3 prioA acts) 2 = true := by decide +kernel

/-- With the repaired `row_next`: a request above the running level, which is itself not made
while another request or the start of a `preempt` is interrupted, has run the thread when
it returns, whatever interrupts it and whatever was requested before. (`clear_pending` is
not called, and the priority of the thread is not changed before the request returns.) -/
theorem C43_repaired {count : Nat} (hc : count ≤ 32) {prio : Nat → Nat} (hp : ∀ t, prio t < 27) {acts acts' : List Act} {t : Nat}
    (ht : t < count) (hn : NoClear (acts ++ .pend t :: acts')) (hps : ∀ p, .setPrio t p ∉ acts') {s s' : State}
    (hr : runR count (init prio) acts = some s) (hr' : runR count s (.pend t :: acts') = some s') (hback : s'.stack = s.stack)
    (hst : ∀ f ∈ s.stack, f ≠ .start) (hreq : ∀ u pc, .req u pc ∉ s.stack) (habove : recorded s < s.prio t + 1) :
    runs t (s.prio t) s.log < runs t (s.prio t) s'.log := by
  obtain ⟨i, w⟩ := runR_inv hc (init_invA count hp) (init_invF count prio) hr
  obtain ⟨i', w'⟩ := runR_inv hc i w hr'
  have k := runR_invR hc (fun t h => hn t (by simp [h])) (init_invA count hp) (init_invR count prio) hr
  have k' := runR_invR hc (fun t h => hn t (by rw [List.mem_append]; exact .inr h)) i k hr'
  have hpt := i.pr t
  have hnr : ∀ f ∈ s.stack, f.isReq = false := by
    intro f hf
    cases f with
    | req u pc => exact absurd hf (hreq u pc)
    | _ => rfl
  have hnot : (s.mem (27 - s.prio t)).getLsbD t = false := by
    refine Bool.eq_false_iff.2 fun h => ?_
    have := above_empty_fix i w hst hnr ht hpt h
    rw [i.cur] at habove
    omega
  have hnot' : (s'.mem (27 - s.prio t)).getLsbD t = false := by
    refine Bool.eq_false_iff.2 fun h => ?_
    have := above_empty_fix i' w' (by rw [hback]; exact hst) (by rw [hback]; exact hnr) ht hpt h
    rw [i.cur] at habove
    rw [hback] at this
    omega
  have e := k.acc t (s.prio t) ht hpt
  have e' := k'.acc t (s.prio t) ht hpt
  simp only [hnot, hnot', Bool.false_eq_true, ↓reduceIte, Nat.add_zero] at e e'
  rw [← e, ← e']
  have hs1 : stepR count s (.pend t) = some { s with stack := .req t .load :: s.stack } := by simp only [stepR, step, ht, ↓reduceIte]
  have i1 := stepR_invA hc i hs1
  simp only [runR, hs1] at hr'
  have := runR_reqIn hc ht hpt hps i1 hr' (n := requests t (s.prio t) s.log) (rest := s.stack) (.inr ⟨rfl, hnot, [], .load, rfl, .inl ⟨rfl, rfl⟩⟩)
  rcases this with h | ⟨-, -, pre, pc, h, -⟩
  · exact h
  · rw [hback] at h
    have := congrArg List.length h
    simp only [List.length_append, List.length_cons] at this
    omega

/-- The history of `C43_false`: thread 0 has requested itself, and has now run for it; a
later request from outside of all threads runs it once more. -/
example : let acts := selfPend ++ [.ret] ++ steps 20
    let acts' := steps 20 ++ [.ret] ++ steps 20
    NoClear (acts ++ .pend 0 :: acts') ∧ (∀ p, Act.setPrio 0 p ∉ acts') ∧ (runR 1 (init fun _ => 5) (acts ++ .pend 0 :: acts')).isSome = true ∧
    (ranR 1 (fun _ => 5) acts).stack = [] ∧ (ranR 1 (fun _ => 5) (acts ++ .pend 0 :: acts')).stack = [] ∧
    recorded (ranR 1 (fun _ => 5) acts) = 0 ∧ runs 0 5 (ranR 1 (fun _ => 5) (acts ++ .pend 0 :: acts')).log = 3 := by
  refine ⟨?_, ?_, by decide +kernel, by decide +kernel, by decide +kernel, by decide +kernel, by decide +kernel⟩
  · intro t h
    simp [selfPend, steps, -List.reduceReplicate] at h
  · intro p h
    simp [steps, -List.reduceReplicate] at h

/-- The repaired scheduler does not go wrong where the code does not. -/
theorem C41_repaired_no_fault {count : Nat} (hc : count ≤ 32) {prio : Nat → Nat} (hp : ∀ t, prio t < 27) {acts : List Act} (h : PrioOk acts) :
    ∃ s, runR count (init prio) acts = some s := runR_some hc h (init_invA count hp)

example : PrioOk selfPend := by
  intro t p h
  simp [selfPend, steps] at h

/-- The repair changes nothing in the histories in which no thread is requested at a level in
progress (those of `C41_interrupted_partial`). -/
theorem C41_repair_conservative {count : Nat} (hc : count ≤ 32) {prio : Nat → Nat} (hp : ∀ t, prio t < 27) {acts : List Act}
    (hw : Always count (fun s a => PrioStill s a ∧ NoSame s a) (init prio) acts) : runR count (init prio) acts = run count (init prio) acts :=
  runR_same hc hw (init_invA count hp) (init_invI count prio)

/-- All three threads run in this history. -/
example : Always 3 (fun s a => PrioStill s a ∧ NoSame s a) (init prioA) interruptedB ∧ (runR 3 (init prioA) interruptedB).isSome = true ∧
    runs 2 0 (ranR 3 prioA interruptedB).log = 1 :=
  ⟨alwaysB_sound (P := fun s a => prioStillB s a && noSameB s a)
    (fun s a h => by rw [Bool.and_eq_true] at h; exact ⟨prioStillB_sound s a h.1, noSameB_sound s a h.2⟩) (by decide +kernel),
    by decide +kernel, by decide +kernel⟩

end Verif.Soft
