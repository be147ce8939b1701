import Verif.Exec.StrInv
import Verif.Exec.ChanRecvPot
import Verif.Exec.Rest
import Verif.Pulse.ReadPot
import Verif.Ring.FeedKept
/-! # The tasks that read streams come to rest -/
namespace Verif.Exec.Str
open Verif.Soft (upd Frame)
open Verif.Exec (Task upd2 entering inside)
open Verif.Exec.Chan (Res)
open Verif.Exec.Rest

variable {n m count : Nat}

/-- What is left to read. -/
def Ch.hi : Ch n m → Nat
  | .oneshot c => Chan.rHi c.rpc
  | .pulse c => Pulse.Read.hi c
  | .ring _ c => Ring.Feed.hi c ⟨[], false⟩

/-- The accesses up to the next `Poll::Pending` or the next progress. -/
def Ch.lo : Ch n m → Nat
  | .oneshot c => Chan.rLo c.rpc
  | .pulse c => Pulse.Read.rLo c.rpc
  | .ring _ c => Ring.Feed.rLo c.rpc

theorem lo_le (c : Ch n m) : c.lo ≤ 8 := by
  cases c with
  | oneshot c => exact Chan.rLo_le _
  | pulse c => exact Pulse.Read.rLo_le _
  | ring cap c => exact Ring.Feed.rLo_le _

theorem recv_pot {N : Prop} {t : Nat} {c c' : Ch n m} {r : Res} {w : Option Nat} (f : c.Fit N t) (hg : ¬ c.Over) (h : c.recv t = some (c', r, w)) :
    Ring.Feed.Less c.hi c'.hi c.lo c'.lo r w := by
  cases c with
  | oneshot c =>
    obtain ⟨c1, hs, h⟩ := Option.map_eq_some_iff.1 h
    simp only [Prod.mk.injEq] at h
    obtain ⟨rfl, rfl, rfl⟩ := h
    exact Chan.recv_pot f.oth hg hs
  | pulse c =>
    obtain ⟨c1, hs, h⟩ := Option.map_eq_some_iff.1 h
    simp only [Prod.mk.injEq] at h
    obtain ⟨rfl, rfl, rfl⟩ := h
    exact Pulse.Read.recv_pot f.oth hg hs
  | ring cap c =>
    obtain ⟨c1, hs, h⟩ := Option.map_eq_some_iff.1 h
    simp only [Prod.mk.injEq] at h
    obtain ⟨rfl, rfl, rfl⟩ := h
    exact (Ring.Feed.recv_pot f.1.2 ⟨[], false⟩ (Ring.Read.reach_inv f.1.1 f.1.2 f.2.reach).2.1.1.cur f.2.oth hg hs).2

/-- A call on the stack weighs more than resuming all fibers. -/
def wB (n : Nat) : Nat := 9 * n + 1

/-- Progress of a channel weighs more than the wake it causes. -/
def wG (count n : Nat) : Nat := wB n * push count + 9

/-- What is left to do on a channel. -/
def cpot (G : Nat) (c : Ch n m) : Nat := G * c.hi + c.lo

/-- What is left to do on the channels of all tasks. -/
def reads (G : Nat) (s : State n m) : Nat := sumTo (fun q => sumTo (fun i => cpot G (s.chan q i)) (s.task q).len) s.made

/-- What is left to do. -/
def pot (count : Nat) (s : State n m) : Nat :=
  wB s.made * spot count s.soft.stack + 9 * tok count s.queue + reads (wG count s.made) s

/-- The element of the history that makes progress. -/
def due (s : State n m) : Option (Act n) :=
  if s.soft.stack = [] then none
  else
    match inside s.soft.stack with
    | none => some .step
    | some t => if s.queue t = [] then some .ret else some .poll

/-- An access of the software threads or of a task they run. -/
def Own (a : Act n) : Prop := a = .step ∨ a = .poll ∨ a = .ret

theorem due_own {s : State n m} {a : Act n} (h : due s = some a) : Own a := by
  unfold due at h
  repeat' (split at h)
  all_goals first
    | (simp at h; done)
    | (simp only [Option.some.injEq] at h; subst h; simp [Own])

theorem due_none {s : State n m} : due s = none ↔ s.soft.stack = [] := by
  unfold due
  repeat' split
  all_goals simp_all

theorem due_of {s : State n m} {a : Act n} (h : s.soft.stack ≠ []) : due s = some a ↔
    (match inside s.soft.stack with
    | none => some .step
    | some t => if s.queue t = [] then some .ret else some .poll) = some a := by simp only [due, h, ↓reduceIte]

/-- A channel has less left, or its task waits; with the wake. -/
theorem chan_pot {B P l' l h h' : Nat} {r : Res} {w : Option Nat} (hl : Ring.Feed.Less h h' l l' r w) (h8 : l' ≤ 8) :
    (B * P + 9) * h' + l' + (if w = none then 0 else B * P) < (B * P + 9) * h + l + (if r = .pending then 9 else 0) := by
  have hm : ∀ a b : Nat, a ≤ b → (B * P + 9) * a ≤ (B * P + 9) * b := fun a b h => Nat.mul_le_mul_left _ h
  rcases hl with e | ⟨rfl, e, rfl⟩ | ⟨e, rfl, rfl⟩
  · have := hm (h' + 1) h e
    rw [Nat.mul_add] at this
    split <;> omega
  · simp only [↓reduceIte]; omega
  · have := hm _ _ e
    simp only [↓reduceIte]; omega

theorem wake_pot {s s' : State n m} {w : Option Nat} (h : wake count s w = some s') :
    spot count s'.soft.stack ≤ spot count s.soft.stack + (if w = none then 0 else push count) ∧
      s'.queue = s.queue ∧ s'.chan = s.chan ∧ s'.task = s.task ∧ s'.made = s.made := by
  cases w with
  | none => simp only [wake, Option.some.injEq] at h; subst h; simp
  | some t =>
    simp only [wake] at h
    cases hs : Soft.step count s.soft (.pend t) with
    | none => rw [hs] at h; simp at h
    | some x =>
      rw [hs] at h
      simp only [Option.some.injEq] at h
      subst h
      exact ⟨by simpa using spot_pend hs, rfl, rfl, rfl, rfl⟩

/-- A task goes on. -/
theorem read_pot {s s1 s' : State n m} {w : Option Nat} {t q j : Nat} {qs : List Nat} {c : Ch n m} {r : Res} (h' : wake count s1 w = some s')
    (hk : q < s.made) (ht : t < count) (hq : s.queue t = q :: qs) (hj : j < (s.task q).len) (e1 : s1.chan = upd2 s.chan q j c)
    (e2 : ∀ x, (s1.task x).len = (s.task x).len) (e3 : s1.queue = if r = .pending then upd s.queue t qs else s.queue) (e4 : s1.soft = s.soft) (e5 : s1.made = s.made)
    (e6 : cpot (wG count s.made) c + (if w = none then 0 else wB s.made * push count) <
      cpot (wG count s.made) (s.chan q j) + (if r = .pending then 9 else 0)) : pot count s' < pot count s := by
  obtain ⟨w1, w2, w3, w4, w5⟩ := wake_pot h'
  have hpop := tok_pop hq ht
  have hin := sumTo_one (f := fun i => cpot (wG count s.made) (s.chan q i)) (f' := fun i => cpot (wG count s.made) (upd2 s.chan q j c q i)) (j := j)
    (fun x hx => by simp [upd2, hx]) hj
  have hout := sumTo_one (f := fun q => sumTo (fun i => cpot (wG count s.made) (s.chan q i)) (s.task q).len)
    (f' := fun x => sumTo (fun i => cpot (wG count s.made) (upd2 s.chan q j c x i)) (s.task x).len) (j := q)
    (fun x hx => by simp [upd2, hx]) hk
  simp only [upd2, and_self, ↓reduceIte] at hin
  have hreads : reads (wG count s'.made) s' = sumTo (fun x => sumTo (fun i => cpot (wG count s.made) (upd2 s.chan q j c x i)) (s.task x).len) s.made := by
    unfold reads
    rw [w3, w4, w5, e1, e5]
    simp only [e2]
  have hrs : reads (wG count s.made) s = sumTo (fun q => sumTo (fun i => cpot (wG count s.made) (s.chan q i)) (s.task q).len) s.made := rfl
  rw [e4] at w1
  have hmul : wB s.made * spot count s'.soft.stack ≤
      wB s.made * spot count s.soft.stack + (if w = none then 0 else wB s.made * push count) := by
    have := Nat.mul_le_mul_left (wB s.made) w1
    rw [Nat.mul_add] at this
    split <;> simp_all
  have htok : tok count (if r = .pending then upd s.queue t qs else s.queue) + (if r = .pending then 1 else 0) ≤ tok count s.queue := by
    split <;> omega
  have hm : s'.made = s.made := w5.trans e5
  unfold pot
  rw [hreads, hm, w2, e3]
  simp only [upd2] at hout
  simp only [upd2]
  simp only [true_and] at hin hout
  rw [hrs]
  by_cases hr : r = .pending
  · subst hr
    simp only [↓reduceIte] at e6 htok ⊢; omega
  · simp only [hr, ↓reduceIte] at e6 htok ⊢; omega

/-- The running task goes on. -/
theorem task_pot {s s1 s' : State n m} {w : Option Nat} (i : Inv False count s none) {t : Nat} (hin : inside s.soft.stack = some t) {q : Nat} {qs : List Nat}
    (hq : s.queue t = q :: qs) (h : act count s .poll = some (s1, w)) (h' : wake count s1 w = some s') : pot count s' < pot count s := by
  obtain ⟨hk, hkt, hkd⟩ := i.que t q (by rw [hq]; simp)
  have ht : t < count := hkt ▸ i.thr q hk
  have hlen := i.len q hk
  simp only [act, hin, hq, hkd, Bool.false_eq_true, ↓reduceIte] at h
  split at h
  · simp only [Option.some.injEq, Prod.mk.injEq] at h
    obtain ⟨rfl, rfl⟩ := h
    simp only [wake, Option.some.injEq] at h'
    subst h'
    have hpop := tok_pop hq ht
    have : reads (wG count s.made) { s with task := upd s.task q { s.task q with live := true, done := true }, queue := upd s.queue t qs } = reads (wG count s.made) s := by
      unfold reads
      refine sumTo_congr fun x _ => ?_
      simp only [upd]
      split <;> simp_all
    simp only [pot, this]; omega
  · rename_i hne
    have hj : (s.task q).pos < (s.task q).len := by omega
    have hl : ∀ y : Task, y.len = (s.task q).len → ∀ x, (upd s.task q y x).len = (s.task x).len := by
      intro y hy x
      simp only [upd]
      split
      · rename_i e; rw [e, hy]
      · rfl
    cases hr : (s.chan q (s.task q).pos).recv (s.task q).thr with
    | none => rw [hr] at h; simp at h
    | some p =>
      obtain ⟨c, r, w'⟩ := p
      rw [hr] at h
      have := chan_pot (B := wB s.made) (P := push count) (recv_pot (i.fit q _ hk) (i.cur q hk) hr) (lo_le c)
      cases r <;> simp only [Option.some.injEq, Prod.mk.injEq] at h <;> obtain ⟨rfl, rfl⟩ := h
      · exact read_pot (r := .more) h' hk ht hq hj rfl (hl _ rfl) rfl rfl rfl (by simp only [cpot, wG]; exact this)
      · exact read_pot (r := .pending) h' hk ht hq hj rfl (hl _ rfl) rfl rfl rfl (by simp only [cpot, wG]; exact this)
      · exact read_pot (r := .ready) h' hk ht hq hj rfl (hl _ rfl) rfl rfl rfl (by simp only [cpot, wG]; exact this)

/-- An access, with the wake. -/
theorem step_pot (hcn : count ≤ 32) {s s' : State n m} {a : Act n} (i : Inv False count s none) (ha : Own a)
    (h : step count s a = some s') : pot count s' < pot count s ∨ s' = s ∧ due s ≠ some a := by
  simp only [step] at h
  cases hs : act count s a with
  | none => rw [hs] at h; simp at h
  | some p =>
    obtain ⟨s1, w⟩ := p
    rw [hs] at h
    simp only at h
    rcases ha with rfl | rfl | rfl
    · simp only [act] at hs
      cases hst : Soft.step count s.soft .step with
      | none => rw [hst] at hs; simp at hs
      | some soft =>
        rw [hst] at hs
        simp only at hs
        rcases spot_step hcn i.a i.o hst with ⟨e, -, -⟩ | ⟨rfl, e1, e2⟩
        · left
          have hB : wB s.made * spot count soft.stack + wB s.made ≤ wB s.made * spot count s.soft.stack := by
            have := Nat.mul_le_mul_left (wB s.made) e
            rw [Nat.mul_succ] at this; exact this
          have hwB : wB s.made = 9 * s.made + 1 := rfl
          split at hs <;> simp only [Option.some.injEq, Prod.mk.injEq] at hs <;> obtain ⟨rfl, rfl⟩ := hs <;>
            simp only [wake, Option.some.injEq] at h <;> subst h
          · rename_i t _
            have := tok_set count (queue := s.queue) (t := t) (l := chain s t) (n := s.made) (Nat.le_trans (List.length_filter_le _ _) (by simp))
            simp only [pot, reads]; omega
          · simp only [pot, reads]; omega
        · right
          rw [e1] at hs
          simp only [Option.some.injEq, Prod.mk.injEq] at hs
          obtain ⟨rfl, rfl⟩ := hs
          simp only [wake, Option.some.injEq] at h
          refine ⟨h.symm, ?_⟩
          by_cases e0 : s.soft.stack = []
          · rw [due_none.2 e0]; simp
          · rw [ne_eq, due_of e0]
            rcases e2 with e2 | e2
            · exact absurd e2 e0
            · split
              · contradiction
              · split <;> simp
    · have hs0 := hs
      simp only [act] at hs
      cases hin : inside s.soft.stack with
      | none =>
        rw [hin] at hs
        simp only [Option.some.injEq, Prod.mk.injEq] at hs
        obtain ⟨rfl, rfl⟩ := hs
        simp only [wake, Option.some.injEq] at h
        refine .inr ⟨h.symm, ?_⟩
        simp only [due, hin]
        split <;> simp
      | some t =>
        rw [hin] at hs
        simp only at hs
        split at hs
        · rename_i hq
          simp only [Option.some.injEq, Prod.mk.injEq] at hs
          obtain ⟨rfl, rfl⟩ := hs
          simp only [wake, Option.some.injEq] at h
          refine .inr ⟨h.symm, ?_⟩
          simp only [due, hin, hq]
          split <;> simp
        · rename_i q qs hq
          exact .inl (task_pot i hin hq hs0 h)
    · simp only [act] at hs
      cases hin : inside s.soft.stack with
      | none =>
        rw [hin] at hs
        simp only [Option.some.injEq, Prod.mk.injEq] at hs
        obtain ⟨rfl, rfl⟩ := hs
        simp only [wake, Option.some.injEq] at h
        refine .inr ⟨h.symm, ?_⟩
        simp only [due, hin]
        split <;> simp
      | some t =>
        rw [hin] at hs
        simp only at hs
        split at hs
        · simp only [Soft.step, Option.some.injEq, Prod.mk.injEq] at hs
          obtain ⟨rfl, rfl⟩ := hs
          simp only [wake, Option.some.injEq] at h
          subst h
          left
          have := Nat.mul_le_mul_left (wB s.made) (spot_ret (count := count) hin)
          rw [Nat.mul_succ] at this
          have hwB : wB s.made = 9 * s.made + 1 := rfl
          simp only [pot, reads]; omega
        · rename_i hq
          simp only [Option.some.injEq, Prod.mk.injEq] at hs
          obtain ⟨rfl, rfl⟩ := hs
          simp only [wake, Option.some.injEq] at h
          refine .inr ⟨h.symm, ?_⟩
          simp only [due, hin, hq]
          split <;> simp

/-- The receiver does nothing for the sender. -/
theorem recv_kept {t : Nat} {c c' : Ch n m} {r : Res} {w : Option Nat} (h : c.recv t = some (c', r, w)) :
    c'.rests = c.rests ∧ (c.Left → c'.Left) := by
  cases c with
  | oneshot c =>
    obtain ⟨c1, hs, h⟩ := Option.map_eq_some_iff.1 h
    simp only [Prod.mk.injEq] at h
    obtain ⟨rfl, rfl, rfl⟩ := h
    obtain ⟨h1, h2⟩ := Chan.recv_kept (c' := c1.1) (r := c1.2) hs
    exact ⟨by simp only [Ch.rests, h1], h2⟩
  | pulse c =>
    obtain ⟨c1, hs, h⟩ := Option.map_eq_some_iff.1 h
    simp only [Prod.mk.injEq] at h
    obtain ⟨rfl, rfl, rfl⟩ := h
    obtain ⟨h1, h2⟩ := Pulse.Read.recv_kept (c' := c1.1) (r := c1.2) hs
    exact ⟨by simp only [Ch.rests, h1], h2⟩
  | ring cap c =>
    obtain ⟨c1, hs, h⟩ := Option.map_eq_some_iff.1 h
    simp only [Prod.mk.injEq] at h
    obtain ⟨rfl, rfl, rfl⟩ := h
    obtain ⟨h1, h2⟩ := Ring.Feed.recv_kept (c' := c1.1) (r := c1.2) hs
    exact ⟨by simp only [Ch.rests, h1], h2⟩

/-- What the software threads and the tasks leave alone. -/
structure Kept (s s' : State n m) : Prop where
  made : s'.made = s.made
  len : ∀ q, (s'.task q).len = (s.task q).len
  live : ∀ q, (s.task q).live = true → (s'.task q).live = true
  snd : ∀ q i, (s'.chan q i).rests = (s.chan q i).rests
  left : ∀ q i, (s.chan q i).Left → (s'.chan q i).Left

theorem Kept.refl (s : State n m) : Kept s s := ⟨rfl, fun _ => rfl, fun _ => id, fun _ _ => rfl, fun _ _ => id⟩

theorem Kept.trans {s s1 s' : State n m} (h : Kept s s1) (h' : Kept s1 s') : Kept s s' :=
  ⟨h'.made.trans h.made, fun q => (h'.len q).trans (h.len q), fun q e => h'.live q (h.live q e), fun q i => (h'.snd q i).trans (h.snd q i),
    fun q i e => h'.left q i (h.left q i e)⟩

theorem own_kept {s s' : State n m} {a : Act n} (ha : Own a) (h : step count s a = some s') : Kept s s' := by
  simp only [step] at h
  split at h
  · simp at h
  · rename_i s1 w hs
    obtain ⟨-, -, e1, e2, e3⟩ := wake_pot h
    suffices hk : Kept s s1 from ⟨e3.trans hk.made, by rw [e2]; exact hk.len, by rw [e2]; exact hk.live, by rw [e1]; exact hk.snd, by rw [e1]; exact hk.left⟩
    clear h e1 e2 e3
    rcases ha with rfl | rfl | rfl <;> simp only [act] at hs
    all_goals (repeat' (split at hs))
    all_goals first
      | (simp at hs; done)
      | (simp only [Option.some.injEq, Prod.mk.injEq] at hs; obtain ⟨rfl, -⟩ := hs
         refine ⟨rfl, fun q => ?_, fun q hq => ?_, fun q i => ?_, fun q i => ?_⟩
         · first | rfl | (simp only [upd]; split <;> simp_all)
         · first | exact hq | (simp only [upd]; split <;> simp_all)
         · first
             | rfl
             | (simp only [upd2]
                split
                · rename_i e
                  obtain ⟨rfl, rfl⟩ := e
                  exact (recv_kept (by assumption)).1
                · rfl)
         · first
             | exact id
             | (simp only [upd2]
                split
                · rename_i e
                  obtain ⟨rfl, rfl⟩ := e
                  exact (recv_kept (by assumption)).2
                · exact id))

theorem rounds_kept : ∀ {as : List (Act n)} {s s' : State n m}, (∀ a ∈ as, Own a) → run count s as = some s' → Kept s s'
  | [], s, s', _, h => by simp only [run, Option.some.injEq] at h; subst h; exact .refl _
  | a :: as, s, s', ha, h => by
    simp only [run] at h
    split at h
    · simp at h
    · rename_i s1 hs
      exact (own_kept (ha a (by simp)) hs).trans (rounds_kept (fun x hx => ha x (by simp [hx])) h)

/-- While the senders rest, the ends of no channel disturb each other. -/
theorem rests_apart {c : Ch n m} (h : c.rests = true) : c.Apart := by
  cases c with
  | oneshot c =>
    have h : c.spc.resting = true := h
    revert h
    cases hs : c.spc <;> intro h <;>
      first | (simp [Oneshot.SPc.resting] at h; done) | exact ⟨by rw [hs]; simp [Oneshot.SPc.freeing], by rw [hs]; simp [Oneshot.SPc.leaving]⟩
  | pulse c =>
    have h : c.spc.resting = true := h
    revert h
    cases hs : c.spc <;> intro h <;>
      first | (simp [Pulse.SPc.resting] at h; done) | exact ⟨by rw [hs]; simp [Pulse.SPc.freeing], by rw [hs]; simp [Pulse.SPc.leaving]⟩
  | ring cap c =>
    have h : c.spc.resting = true := h
    revert h
    cases hs : c.spc <;> intro h <;>
      first | (simp [Ring.SPc.resting] at h; done) | exact ⟨by rw [hs]; simp [Ring.SPc.freeing], by rw [hs]; simp [Ring.SPc.leaving]⟩

theorem rests_noClash {c : Ch n m} (h : c.rests = true) : c.NoClash := by
  cases c with
  | oneshot c => trivial
  | pulse c => trivial
  | ring cap c =>
    have h : c.spc.resting = true := h
    rintro ⟨i, hi, -⟩
    revert h hi
    cases c.spc <;> simp [Ring.SPc.resting, Ring.SPc.slot]

theorem rest_always {P : State n m → Prop} (hP : ∀ s : State n m, (∀ q i, (s.chan q i).rests = true) → P s) : ∀ {as : List (Act n)} {s : State n m},
    (∀ a ∈ as, Own a) → (∀ q i, (s.chan q i).rests = true) → Always count P s as
  | [], s, _, h => hP s h
  | a :: as, s, ha, h =>
    ⟨hP s h, fun s' hs => rest_always hP (fun x hx => ha x (by simp [hx])) fun q i => by rw [(own_kept (ha a (by simp)) hs).snd]; exact h q i⟩

/-- When nothing runs, nothing happens. -/
theorem idle_act {s : State n m} {a : Act n} (e : s.soft.stack = []) (ha : Own a) : act count s a = some (s, none) := by
  have ein : inside s.soft.stack = none := by rw [e]; rfl
  rcases ha with rfl | rfl | rfl <;> simp only [act, ein]
  simp only [Soft.step, e, entering]

theorem idle_step {s s' : State n m} {a : Act n} (e : s.soft.stack = []) (ha : Own a) (h : step count s a = some s') : s' = s := by
  simp only [step, idle_act e ha, wake, Option.some.injEq] at h
  exact h.symm

theorem idle_noSame : ∀ {as : List (Act n)} {s : State n m}, s.soft.stack = [] → (∀ a ∈ as, Own a) → AlwaysAct count (NoSame count) s as
  | [], _, _, _ => trivial
  | a :: as, s, e, h =>
    ⟨fun t ht => by simp [wakes, idle_act e (h a (by simp))] at ht,
      fun s' hs => idle_step e (h a (by simp)) hs ▸ idle_noSame e fun x hx => h x (by simp [hx])⟩

theorem idle_always {P : State n m → Prop} : ∀ {as : List (Act n)} {s : State n m}, s.soft.stack = [] → (∀ a ∈ as, Own a) → P s → Always count P s as
  | [], _, _, _, p => p
  | a :: as, s, e, h, p =>
    ⟨p, fun s' hs => idle_step e (h a (by simp)) hs ▸ idle_always e (fun x hx => h x (by simp [hx])) p⟩

theorem alwaysAct_append {P : State n m → Act n → Prop} : ∀ {as bs : List (Act n)} {s : State n m}, AlwaysAct count P s as →
    (∀ s', run count s as = some s' → AlwaysAct count P s' bs) → AlwaysAct count P s (as ++ bs)
  | [], _, _, _, h => h _ rfl
  | a :: as, bs, s, h, h' => ⟨h.1, fun s1 hs => alwaysAct_append (h.2 s1 hs) fun s' hr => h' s' (by simp [run, hs, hr])⟩

theorem always_append {P : State n m → Prop} : ∀ {as bs : List (Act n)} {s : State n m}, Always count P s as →
    (∀ s', run count s as = some s' → Always count P s' bs) → Always count P s (as ++ bs)
  | [], _, _, _, h => h _ rfl
  | a :: as, bs, s, h, h' => ⟨h.1, fun s1 hs => always_append (h.2 s1 hs) fun s' hr => h' s' (by simp [run, hs, hr])⟩

theorem run_append : ∀ {as bs : List (Act n)} {s s' : State n m}, run count s as = some s' → run count s (as ++ bs) = run count s' bs
  | [], _, _, _, h => by simp only [run, Option.some.injEq] at h; rw [h]; rfl
  | a :: as, bs, s, s', h => by
    simp only [run] at h
    split at h
    · simp at h
    · rename_i s1 hs
      simp only [List.cons_append, run, hs]
      exact run_append h

theorem always_last {P : State n m → Prop} : ∀ {as : List (Act n)} {s s' : State n m}, Always count P s as → run count s as = some s' → P s'
  | [], _, _, a, h => by simp only [run, Option.some.injEq] at h; exact h ▸ a
  | a :: as, s, s', al, h => by
    simp only [run] at h
    split at h
    · simp at h
    · rename_i s1 hs; exact always_last (al.2 s1 hs) h

theorem run_runs : ∀ (as : List (Act n)) (s : State n m), run count s as = runs (step count) s as
  | [], _ => rfl
  | a :: as, s => by
    simp only [run, runs]
    cases step count s a with
    | none => rfl
    | some s1 => exact run_runs as s1

theorem round_own {r : List (Act n)} (h : Round r) : (∀ a, Own a → a ∈ r) ∧ ∀ a ∈ r, Own a :=
  ⟨by
    rintro a (rfl | rfl | rfl)
    · exact h.1.1
    · exact h.1.2.1
    · exact h.1.2.2, h.2⟩

theorem rounds_own {rounds : List (List (Act n))} (h : ∀ r ∈ rounds, Round r) : ∀ a ∈ rounds.flatten, Own a := fun a ha => by
  obtain ⟨r, hr, h'⟩ := List.mem_flatten.1 ha
  exact (h r hr).2 a h'

/-- After that many rounds nothing runs. -/
theorem rests (hcn : count ≤ 32) {s : State n m} (i : Inv False count s none) : ∃ b, ∀ (rounds : List (List (Act n))) (s' : State n m),
    (∀ r ∈ rounds, Round r) → b ≤ rounds.length → run count s rounds.flatten = some s' → s'.soft.stack = [] := by
  refine ⟨pot count s + 1, fun rounds s' hr hl h => due_none.1 ?_⟩
  rw [run_runs] at h
  refine settles (step count) Own (fun x => Inv False count x none) (pot count) due ?_ ?_ ?_ i (fun r hx => round_own (hr r hx)) h hl
  · rintro x a x' i ha h
    exact ⟨step_inv hcn i False.elim h, step_pot hcn i ha h⟩
  · rintro x a x' - ha hd h
    exact idle_step (due_none.1 hd) ha h
  · rintro x a - h
    exact due_own h

end Verif.Exec.Str
