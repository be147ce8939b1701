import Verif.Soft.Irq
import Verif.Soft.Header
/-! # Properties of the software threads (C40–C45)

`prio` gives the priorities at the start; `acts` is any history of calls and accesses. -/
namespace Verif.Soft

/-! ## Sample histories -/

/-- `n` accesses (a running body ignores them). -/
def steps (n : Nat) : List Act := List.replicate n .step

/-- Thread 0 has level 1, thread 1 level 3, all others level 0. -/
def prioA : Nat → Nat := fun t => if t = 0 then 1 else if t = 1 then 3 else 0

/-- Thread 0 runs, requests thread 2 (below it) and thread 1 (above it, which runs at
once); the history ends in the body of thread 1. -/
def nestA : List Act := [.pend 0] ++ steps 20 ++ [.pend 2] ++ steps 20 ++ [.pend 1] ++ steps 20

/-- As before, up to just before thread 2 is resumed. -/
def nestB : List Act := nestA ++ [.ret] ++ steps 20 ++ [.ret] ++ steps 7

/-- As before, and everything is completed. -/
def nestC : List Act := nestA ++ [.ret] ++ steps 20 ++ [.ret] ++ steps 30 ++ [.ret] ++ steps 30

/-- A thread requests itself while it runs. -/
def selfPend : List Act := [.pend 0] ++ steps 20 ++ [.pend 0] ++ steps 20 ++ [.ret] ++ steps 20

/-- Thread 1 (level 3) requests thread 2 (level 0) and itself; then it ends. The history
stops just before thread 2 is resumed. -/
def inversion : List Act := [.pend 1] ++ steps 20 ++ [.pend 2] ++ steps 20 ++ [.pend 1] ++ steps 20 ++ [.ret] ++ steps 6

/-- A request of thread 1 (level 3) is interrupted between its two updates, and thread 2
(level 0) requested. The history stops just before thread 2 is resumed. -/
def interrupted : List Act := [.pend 1] ++ steps 2 ++ [.pend 2] ++ steps 7

/-- 40 threads: thread 0 (level 1) requests thread 35 (level 0). -/
def large : List Act := [.pend 0] ++ steps 20 ++ [.pend 35] ++ steps 20 ++ [.ret] ++ steps 38

/-- Threads 1 and 2 have the same level. The first clears the second. -/
def cleared : List Act := [.pend 0] ++ steps 20 ++ [.pend 2] ++ steps 20 ++ [.pend 3] ++ steps 20 ++ [.ret] ++ steps 20 ++ [.clear 3] ++ steps 20 ++ [.ret] ++ steps 1

/-- A request of thread 1 (level 3) is interrupted between its two updates, thread 2
(level 0) requested; in its body thread 1 is requested again, to no effect, and thread 0
(level 1). -/
def interruptedA : List Act :=
  interrupted ++ steps 20 ++ [.pend 1] ++ steps 20 ++ [.pend 0] ++ steps 20 ++ [.ret] ++ steps 20 ++ [.ret] ++ steps 20

/-- As before, and everything is completed. -/
def interruptedB : List Act := interruptedA ++ steps 20 ++ [.ret] ++ steps 20 ++ [.ret] ++ steps 20 ++ [.ret] ++ steps 20

/-! ## C40 -/

/-- When a thread is resumed at level `p`, no thread is pending at a higher level,
provided that requests are not interrupted and that no thread is requested at a level
that is in progress. The full property has neither of the two restrictions: it is
refuted by `C40_false`. -/
theorem C40_priority_order_partial {count : Nat} (hc : count ≤ 32) {prio : Nat → Nat} (hp : ∀ t, prio t < 27) {acts : List Act}
    (hw : Always count (fun s a => Whole s a ∧ NoSame s a) (init prio) acts) {s s' : State} (hr : run count (init prio) acts = some s)
    {a : Act} (hs : step count s a = some s') {t p : Nat} (hl : s'.log = .run t p :: s.log) :
    ∀ u q, u < count → q < 27 → p < q → ¬ Pending count s u q := by
  intro u q hu hq hpq hpend
  have i := run_invA hc (init_invA count hp) hr
  have w := run_invW hc hw (init_invA count hp) (init_invW count prio) hr
  obtain ⟨-, r, cell, bit, rest, hst, rfl, -⟩ := run_event hs hl
  rw [pending_iff hc hu hq] at hpend
  have hrun : running s.stack = r.priority := by rw [hst]; rfl
  have : q + 1 ≤ running s.stack := by
    rcases w.cov u q hu hq hpend with h | h | ⟨f, hf, hcf⟩
    · rcases (w.bits q hq h).2 with h | h
      · exact h
      · rw [hst] at h; simp [startAbove] at h
    · rw [hst] at h; simp at h
    · exact level_le i.ok f hf _ (covers_level hcf)
  omega

example : Always 3 (fun s a => Whole s a ∧ NoSame s a) (init prioA) nestB ∧
    (step 3 (ran 3 prioA nestB) .step).map (fun s => s.log) = some (.run 2 0 :: (ran 3 prioA nestB).log) :=
  ⟨alwaysB_sound (P := fun s a => wholeB s a && noSameB s a)
    (fun s a h => by rw [Bool.and_eq_true] at h; exact ⟨wholeB_sound s a h.1, noSameB_sound s a h.2⟩) (by decide +kernel), by decide +kernel⟩

/-- Pools of every size: the level of a resumed thread is strictly above the level it
preempts. -/
theorem C40_strictly_above {count : Nat} {prio : Nat → Nat} (hp : ∀ t, prio t < 27) {acts : List Act} {s s' : State}
    (hr : run count (init prio) acts = some s) {a : Act} (hs : step count s a = some s') {t p : Nat} (hl : s'.log = .run t p :: s.log) :
    running s.stack.tail < p + 1 := by
  have i := run_invH (init_invH count hp) hr
  obtain ⟨-, r, cell, bit, rest, hst, rfl, -⟩ := run_event hs hl
  have j := i.ok
  rw [hst] at j ⊢
  obtain ⟨k2, k3, -⟩ := j.1
  simp only [List.tail_cons, ← k2]
  omega

example : (step 3 (ran 3 prioA (nestA.take 49)) .step).map (fun s => s.log) = some (.run 1 3 :: (ran 3 prioA (nestA.take 49)).log) ∧
    running (ran 3 prioA (nestA.take 49)).stack.tail = 2 := by decide +kernel

/-- With a pool of 40 threads. -/
example : (step 40 (ran 40 prioA (nestA.take 49)) .step).map (fun s => s.log) = some (.run 1 3 :: (ran 40 prioA (nestA.take 49)).log) ∧
    running (ran 40 prioA (nestA.take 49)).stack.tail = 2 := by decide +kernel

/-- Without the second restriction, a thread of level 0 is resumed while one of level 3
is pending: the level-3 thread requested itself while it was running. -/
theorem C40_false : ∃ (count : Nat) (prio : Nat → Nat) (acts : List Act) (s s' : State) (t p u q : Nat),
    count ≤ 32 ∧ (∀ t, prio t < 27) ∧ Always count Whole (init prio) acts ∧ run count (init prio) acts = some s ∧
    step count s .step = some s' ∧ s'.log = .run t p :: s.log ∧ u < count ∧ q < 27 ∧ p < q ∧ Pending count s u q := by
  refine ⟨3, prioA, inversion, ran 3 prioA inversion, (step 3 (ran 3 prioA inversion) .step).getD (init prioA), 2, 0, 1, 3, by omega, ?_,
    alwaysB_sound (P := wholeB) wholeB_sound (by decide +kernel), run_ran (by decide +kernel), ?_, by decide +kernel, by omega, by omega, by omega, ?_⟩
  · intro t; unfold prioA; split
    · omega
    · split <;> omega
  · have : (step 3 (ran 3 prioA inversion) .step).isSome = true := by decide +kernel
    obtain ⟨x, hx⟩ := Option.isSome_iff_exists.1 this
    rw [hx]; rfl
  · unfold Pending; decide +kernel

/-- Without the first restriction: thread 1 is requested at level 3; between the two
updates an interrupt handler requests thread 2 at level 0, which is resumed first. -/
theorem C40_false_interrupt : ∃ (count : Nat) (prio : Nat → Nat) (acts : List Act) (s s' : State) (t p u q : Nat),
    count ≤ 32 ∧ (∀ t, prio t < 27) ∧ Always count NoSame (init prio) acts ∧ run count (init prio) acts = some s ∧
    step count s .step = some s' ∧ s'.log = .run t p :: s.log ∧ u < count ∧ q < 27 ∧ p < q ∧ Pending count s u q := by
  refine ⟨3, prioA, interrupted, ran 3 prioA interrupted, (step 3 (ran 3 prioA interrupted) .step).getD (init prioA), 2, 0, 1, 3, by omega, ?_,
    alwaysB_sound (P := noSameB) noSameB_sound (by decide +kernel), run_ran (by decide +kernel), ?_, by decide +kernel, by omega, by omega, by omega, ?_⟩
  · intro t; unfold prioA; split
    · omega
    · split <;> omega
  · have : (step 3 (ran 3 prioA interrupted) .step).isSome = true := by decide +kernel
    obtain ⟨x, hx⟩ := Option.isSome_iff_exists.1 this
    rw [hx]; rfl
  · unfold Pending; decide +kernel

/-- When requests are interrupted, only these can be passed over: when a thread is resumed
at level `p` and another one is pending at a higher level `q`, then a request at level
`q` is in progress that has not reached its second update. Still restricted to histories in
which no thread is requested at a level that is in progress. -/
theorem C40_interrupted_partial {count : Nat} (hc : count ≤ 32) {prio : Nat → Nat} (hp : ∀ t, prio t < 27) {acts : List Act}
    (hw : Always count (fun s a => PrioStill s a ∧ NoSame s a) (init prio) acts) {s s' : State} (hr : run count (init prio) acts = some s)
    {a : Act} (hs : step count s a = some s') {t p : Nat} (hl : s'.log = .run t p :: s.log) :
    ∀ u q, u < count → q < 27 → p < q → Pending count s u q → ∃ v, .req v (.header q) ∈ s.stack := by
  intro u q hu hq hpq hpend
  obtain ⟨-, r, cell, bit, rest, hst, rfl, -⟩ := run_event hs hl
  have i := run_invA hc (init_invA count hp) hr
  have w := run_invI hc hw (init_invA count hp) (init_invI count prio) hr
  rw [pending_iff hc hu hq] at hpend
  have hrun : running s.stack = r.priority := by rw [hst]; rfl
  rcases w.cov u q hu hq hpend with h | ⟨f, hf, hcf | hcf⟩
  · rcases (w.bits q hq h).2 with h | h
    · omega
    · rw [hst] at h; simp [startAbove] at h
  · cases f with
    | req v pc =>
      cases pc with
      | header q' =>
        have : q' = q := hcf
        exact ⟨v, this ▸ hf⟩
      | _ => exact absurd hcf id
    | _ => exact absurd hcf id
  · have := level_le i.ok f hf _ (covers_level hcf)
    omega

/-- Thread 2 is resumed at level 0 while thread 1 is pending at level 3: its request is in
progress. -/
example : Always 3 (fun s a => PrioStill s a ∧ NoSame s a) (init prioA) interrupted ∧
    ((step 3 (ran 3 prioA interrupted) .step).getD (init prioA)).log = .run 2 0 :: (ran 3 prioA interrupted).log ∧
    isPending 3 (ran 3 prioA interrupted) 1 = true ∧ (ran 3 prioA interrupted).stack.contains (.req 1 (.header 3)) = true :=
  ⟨alwaysB_sound (P := fun s a => prioStillB s a && noSameB s a)
    (fun s a h => by rw [Bool.and_eq_true] at h; exact ⟨prioStillB_sound s a h.1, noSameB_sound s a h.2⟩) (by decide +kernel),
    by decide +kernel, by decide +kernel, by decide +kernel⟩

/-! ## C41 -/

/-- When nothing is in progress, nothing is pending, provided that requests are not
interrupted and that no thread is requested at a level that is in progress. The full
property does not have the second restriction: it is refuted by `C41_false`. -/
theorem C41_none_forgotten_partial {count : Nat} (hc : count ≤ 32) {prio : Nat → Nat} (hp : ∀ t, prio t < 27) {acts : List Act}
    (hw : Always count (fun s a => Whole s a ∧ NoSame s a) (init prio) acts) {s : State} (hr : run count (init prio) acts = some s)
    (hidle : s.stack = []) : ∀ t p, t < count → p < 27 → ¬ Pending count s t p := by
  intro t p ht hq hpend
  have i := run_invA hc (init_invA count hp) hr
  have w := run_invW hc hw (init_invA count hp) (init_invW count prio) hr
  rw [pending_iff hc ht hq] at hpend
  have := above_empty i w (by rw [hidle]; simp) (by rw [hidle]; simp) ht hq hpend
  rw [hidle] at this
  simp [running] at this

example : Always 3 (fun s a => Whole s a ∧ NoSame s a) (init prioA) nestC ∧ (ran 3 prioA nestC).stack = [] ∧
    (ran 3 prioA nestC).log.length = 6 :=
  ⟨alwaysB_sound (P := fun s a => wholeB s a && noSameB s a)
    (fun s a h => by rw [Bool.and_eq_true] at h; exact ⟨wholeB_sound s a h.1, noSameB_sound s a h.2⟩) (by decide +kernel),
    by decide +kernel, by decide +kernel⟩

/-- When nothing is in progress, nothing is pending, even if requests are interrupted at any
point, provided that no thread is requested at a level that is in progress. The full
property does not have this restriction. -/
theorem C41_interrupted_partial {count : Nat} (hc : count ≤ 32) {prio : Nat → Nat} (hp : ∀ t, prio t < 27) {acts : List Act}
    (hw : Always count (fun s a => PrioStill s a ∧ NoSame s a) (init prio) acts) {s : State} (hr : run count (init prio) acts = some s)
    (hidle : s.stack = []) : ∀ t p, t < count → p < 27 → ¬ Pending count s t p := by
  intro t p ht hq hpend
  have i := run_invA hc (init_invA count hp) hr
  have w := run_invI hc hw (init_invA count hp) (init_invI count prio) hr
  rw [pending_iff hc ht hq] at hpend
  have := above_empty_irq i w (by rw [hidle]; simp) (by rw [hidle]; simp) ht hq hpend
  rw [hidle] at this
  simp [running] at this

/-- Requests are interrupted here, and all three threads run. -/
example : Always 3 (fun s a => PrioStill s a ∧ NoSame s a) (init prioA) interruptedB ∧ alwaysB 3 wholeB (init prioA) interruptedB = false ∧
    (ran 3 prioA interruptedB).stack = [] ∧ runs 0 1 (ran 3 prioA interruptedB).log = 1 ∧ runs 1 3 (ran 3 prioA interruptedB).log = 1 ∧
    runs 2 0 (ran 3 prioA interruptedB).log = 1 :=
  ⟨alwaysB_sound (P := fun s a => prioStillB s a && noSameB s a)
    (fun s a h => by rw [Bool.and_eq_true] at h; exact ⟨prioStillB_sound s a h.1, noSameB_sound s a h.2⟩) (by decide +kernel),
    by decide +kernel, by decide +kernel, by decide +kernel, by decide +kernel, by decide +kernel⟩

/-- A thread that requests itself while it runs is left pending when the outermost
`preempt` returns. -/
theorem C41_false : ∃ (count : Nat) (prio : Nat → Nat) (acts : List Act) (s : State) (t p : Nat), count ≤ 32 ∧ (∀ t, prio t < 27) ∧
    Always count Whole (init prio) acts ∧ run count (init prio) acts = some s ∧ s.stack = [] ∧ t < count ∧ p < 27 ∧ Pending count s t p := by
  refine ⟨1, fun _ => 5, selfPend, ran 1 _ selfPend, 0, 5, by omega, fun _ => (by decide : 5 < 27),
    alwaysB_sound (P := wholeB) wholeB_sound (by decide +kernel), run_ran (by decide +kernel), by decide +kernel, by omega, by omega, ?_⟩
  unfold Pending; decide +kernel

/-- And it stays so: a further request of the same thread returns without effect. -/
theorem C41_false_starved : ∃ (prio : Nat → Nat) (s s' : State), (∀ t, prio t < 27) ∧ run 1 (init prio) selfPend = some s ∧ s.stack = [] ∧
    run 1 (init prio) (selfPend ++ [.pend 0] ++ steps 20) = some s' ∧ s'.stack = [] ∧ Pending 1 s' 0 5 ∧ runs 0 5 s'.log = runs 0 5 s.log := by
  refine ⟨fun _ => 5, ran 1 _ selfPend, ran 1 _ (selfPend ++ [.pend 0] ++ steps 20), fun _ => (by decide : 5 < 27), run_ran (by decide +kernel),
    by decide +kernel, run_ran (by decide +kernel), by decide +kernel, ?_, by decide +kernel⟩
  unfold Pending; decide +kernel

/-! ## C42 -/

/-- Distinct (thread, level) pairs have distinct bits, inside of the array and outside of
its header. -/
theorem C42_addressing {count t u p q : Nat} (ht : t < count) (hu : u < count) (hp : p < 27) (hq : q < 27) :
    0 < cellIdx count t p ∧ cellIdx count t p < pendingSize count ∧
    (cellIdx count t p = cellIdx count u q → pendingBit t = pendingBit u → t = u ∧ p = q) := by
  refine ⟨by rw [cellIdx_eq]; omega, cellIdx_lt ht hp, ?_⟩
  intro h1 h2
  obtain ⟨h4, h3⟩ := cellIdx_inj ht hu hp hq h1
  rw [pendingBit_eq, pendingBit_eq] at h2
  have := congrArg (fun x => x.getLsbD (t % 32)) h2
  simp only [getLsbD_one_shift (Nat.mod_lt t (show 0 < 32 by omega)), decide_eq_decide, true_iff] at this
  exact ⟨by omega, h4⟩

example : cellIdx 70 64 3 = cellIdx 70 65 3 ∧ pendingBit 64 ≠ pendingBit 65 ∧ cellIdx 70 64 3 < pendingSize 70 := by decide

/-- Every thread resumed is pending at that moment, for pools of at most 32 threads when
`clear_pending` is not used. The full property has neither restriction: it is refuted by
`C42_false` and `C42_false_clear`. -/
theorem C42_resumed_is_pending_partial {count : Nat} (hc : count ≤ 32) {prio : Nat → Nat} (hp : ∀ t, prio t < 27) {acts : List Act}
    (hn : NoClear acts) {s s' : State} (hr : run count (init prio) acts = some s) {a : Act} (hs : step count s a = some s') {t p : Nat}
    (hl : s'.log = .run t p :: s.log) : t < count ∧ Pending count s t p ∧ ¬ Pending count s' t p := by
  have i := run_invA hc (init_invA count hp) hr
  have k := run_invR hc hn (init_invA count hp) (init_invR count prio) hr
  obtain ⟨rfl, r, cell, bit, rest, hst, rfl, hcell⟩ := run_event hs hl
  have j := i.ok
  have k1 := k.snap
  rw [hst] at j k1
  obtain ⟨j1, j2, j3, j4, j5, j6, rfl⟩ := j.1
  have e : 27 - (r.priority - 1) = r.ptr := by omega
  have h32 : t < 32 := by omega
  refine ⟨j6, ?_, ?_⟩
  · rw [pending_iff hc j6 (by omega), e]
    refine k1.1 t h32 ?_
    simp only [RowPc.will, Nat.le_refl, decide_true, Bool.true_and]
    exact (and_bit_ne h32).1 hcell
  · rw [pending_iff hc j6 (by omega), e]
    have hp : r.ptr < pendingSize count := by rw [pendingSize_small j1 hc]; omega
    simp only [step, hst, frameStep, hcell, hp, ne_eq, not_false_eq_true, ↓reduceIte, Option.some.injEq] at hs
    subst hs
    simp only [upd, ↓reduceIte, getLsbD_andnot_bit h32]
    simp

example : (run 3 (init prioA) nestB).isSome = true ∧ NoClear nestB ∧
    (step 3 (ran 3 prioA nestB) .step).map (fun s => s.log) = some (.run 2 0 :: (ran 3 prioA nestB).log) := by
  refine ⟨by decide +kernel, ?_, by decide +kernel⟩
  intro t h
  simp [nestB, nestA, steps] at h

/-- No access is out of bounds, and no index overflows. -/
theorem C42_no_fault_partial {count : Nat} (hc : count ≤ 32) {prio : Nat → Nat} (hp : ∀ t, prio t < 27) {acts : List Act} (h : PrioOk acts) :
    ∃ s, run count (init prio) acts = some s := run_some hc h (init_invA count hp)

example : PrioOk ([.setPrio 2 26] ++ nestC) := by
  intro t p h
  simp [nestC, nestA, steps] at h
  omega

/-- 40 threads: thread 3 is resumed although it was never requested, instead of thread 35. -/
theorem C42_false : ∃ (count : Nat) (prio : Nat → Nat) (acts : List Act) (s s' : State) (t p : Nat), (∀ t, prio t < 27) ∧ NoClear acts ∧
    run count (init prio) acts = some s ∧ step count s .step = some s' ∧ s'.log = .run t p :: s.log ∧ t < count ∧ ¬ Pending count s t p ∧
    requests t p s.log = 0 := by
  refine ⟨40, prioA, large, ran 40 prioA large, (step 40 (ran 40 prioA large) .step).getD (init prioA), 3, 0, ?_, ?_, run_ran (by decide +kernel), ?_,
    by decide +kernel, by omega, ?_, by decide +kernel⟩
  · intro t; unfold prioA; split
    · omega
    · split <;> omega
  · intro t h
    simp [large, steps] at h
  · have : (step 40 (ran 40 prioA large) .step).isSome = true := by decide +kernel
    obtain ⟨x, hx⟩ := Option.isSome_iff_exists.1 this
    rw [hx]; rfl
  · unfold Pending; decide +kernel

/-- 65520 threads: the search for the threads of a level overflows the `u16` index. -/
theorem C42_false_overflow : ∃ (count : Nat) (prio : Nat → Nat) (acts : List Act), count < 65536 ∧ (∀ t, prio t < 27) ∧ PrioOk acts ∧ NoClear acts ∧
    run count (init prio) acts = none := by
  refine ⟨65520, fun _ => 0, [.pend 0] ++ steps 20 ++ [.ret] ++ steps 2100, by omega, fun _ => (by decide : 0 < 27), ?_, ?_, ?_⟩
  · intro t p h
    rcases List.mem_append.1 h with h | h
    · simp [steps] at h
    · cases List.eq_of_mem_replicate h
  · intro t h
    rcases List.mem_append.1 h with h | h
    · simp [steps] at h
    · cases List.eq_of_mem_replicate h
  · have : (run 65520 (init fun _ => 0) ([.pend 0] ++ steps 20 ++ [.ret] ++ steps 2100)).isNone = true := by decide +kernel
    exact Option.isNone_iff_eq_none.1 this

/-- 40 threads, of which thread 0 (level 1) and thread 2 (level 0) are requested: the
scheduler reads behind the end of the array of pending threads. -/
def beyond : List Act := [.pend 0] ++ steps 20 ++ [.pend 2] ++ steps 20 ++ [.ret] ++ steps 35

/-- 40 threads: after the level of thread 0 the rows are searched from their second cell on,
and the search of the last one goes on behind the end of the array. -/
theorem C42_false_bounds : ∃ (count : Nat) (prio : Nat → Nat) (acts : List Act) (s : State) (r : Row) (thr : Nat) (rest : List Frame), count < 65536 ∧
    (∀ t, prio t < 27) ∧ PrioOk acts ∧ NoClear acts ∧ run count (init prio) acts = some s ∧ s.stack = .row r (.load thr) :: rest ∧
    pendingSize count ≤ r.ptr ∧ step count s .step = none := by
  have hst : (ran 40 prioA beyond).stack = [.row ⟨55, 1, 0⟩ (.load 32)] := by decide +kernel
  refine ⟨40, prioA, beyond, ran 40 prioA beyond, ⟨55, 1, 0⟩, 32, [], by omega, ?_, ?_, ?_, run_ran (by decide +kernel), hst, by decide +kernel, ?_⟩
  · intro t; unfold prioA; split
    · omega
    · split <;> omega
  · intro t p h
    simp [beyond, steps] at h
  · intro t h
    simp [beyond, steps] at h
  · simp only [step, hst]
    rfl

/-- Pools of every size: whatever is resumed is a thread of the pool, on an existing level. -/
theorem C42_in_pool {count : Nat} {prio : Nat → Nat} (hp : ∀ t, prio t < 27) {acts : List Act} {s s' : State}
    (hr : run count (init prio) acts = some s) {a : Act} (hs : step count s a = some s') {t p : Nat} (hl : s'.log = .run t p :: s.log) :
    t < count ∧ p < 27 := by
  have i := run_invH (init_invH count hp) hr
  obtain ⟨-, r, cell, bit, rest, hst, rfl, -⟩ := run_event hs hl
  have j := i.ok
  rw [hst] at j
  obtain ⟨-, k2, k3, -, k5⟩ := j.1
  exact ⟨k5.1, by omega⟩

/-- The wrong thread of `C42_false` is one of the 40. -/
example : (step 40 (ran 40 prioA large) .step).map (fun s => s.log) = some (.run 3 0 :: (ran 40 prioA large).log) := by decide +kernel

/-- Pools of every size: the first step that is out of bounds or overflows (a history ends
there) is the read of the next cell in the search for the threads of a level. No write is
out of bounds before, and requests, `clear_pending` and the rest of `preempt` never fault. -/
theorem C42_only_reads {count : Nat} {prio : Nat → Nat} (hp : ∀ t, prio t < 27) {acts : List Act} {s : State}
    (hr : run count (init prio) acts = some s) {a : Act} (ha : ∀ t p, a = .setPrio t p → p < 27) (hs : step count s a = none) :
    a = .step ∧ ∃ r thr rest, s.stack = .row r (.load thr) :: rest ∧ (pendingSize count ≤ r.ptr ∨ thr < count ∧ 65536 ≤ thr + 32) :=
  step_noneH (run_invH (init_invH count hp) hr) ha hs

example : (run 40 (init prioA) beyond).isSome = true ∧ (step 40 (ran 40 prioA beyond) .step).isNone = true := by decide +kernel

/-- A thread that was cleared is resumed all the same. -/
theorem C42_false_clear : ∃ (count : Nat) (prio : Nat → Nat) (acts : List Act) (s s' : State) (t p : Nat), count ≤ 32 ∧ (∀ t, prio t < 27) ∧
    run count (init prio) acts = some s ∧ step count s .step = some s' ∧ s'.log = .run t p :: s.log ∧ t < count ∧ ¬ Pending count s t p := by
  refine ⟨4, prioA, cleared, ran 4 prioA cleared, (step 4 (ran 4 prioA cleared) .step).getD (init prioA), 3, 0, by omega, ?_, run_ran (by decide +kernel), ?_,
    by decide +kernel, by omega, ?_⟩
  · intro t; unfold prioA; split
    · omega
    · split <;> omega
  · have : (step 4 (ran 4 prioA cleared) .step).isSome = true := by decide +kernel
    obtain ⟨x, hx⟩ := Option.isSome_iff_exists.1 this
    rw [hx]; rfl
  · unfold Pending; decide +kernel

/-! ## C43 -/

/-- Pools of every size: a request at or below the running level returns without having
started anything. -/
theorem C43_below_waits {count : Nat} {prio : Nat → Nat} (hp : ∀ t, prio t < 27) {acts : List Act} {s s' : State}
    (hr : run count (init prio) acts = some s) {t p : Nat} {rest : List Frame} (hst : s.stack = .req t (.header p) :: rest)
    (hle : p + 1 ≤ running rest) (hs : step count s .step = some s') : s'.stack = rest ∧ s'.log = s.log := by
  have i := run_invH (init_invH count hp) hr
  have hcur := i.cur
  rw [hst] at hcur
  have hcur' : (s.mem 0 >>> levels).toNat = running rest := hcur
  simp only [step, hst, frameStep, Option.some.injEq] at hs
  subst hs
  simp only [hcur']
  rw [if_neg (by omega)]
  exact ⟨rfl, trivial⟩

example : (ran 3 prioA (nestA.take 24)).stack.head? = some (.req 2 (.header 0)) ∧ running (ran 3 prioA (nestA.take 24)).stack.tail = 2 := by
  decide +kernel

/-- A request for a level above the running one has the thread run before it returns
(to the point where it was made), provided that no request is interrupted or made for a
level in progress, that the caller is not itself at the very start of a `preempt`, and
that `clear_pending` is not used. The full property does not have the restriction to
levels not in progress; it is refuted by `C43_false`. -/
theorem C43_above_runs_partial {count : Nat} (hc : count ≤ 32) {prio : Nat → Nat} (hp : ∀ t, prio t < 27) {acts acts' : List Act} {t : Nat}
    (ht : t < count) (hw : Always count (fun s a => Whole s a ∧ NoSame s a) (init prio) (acts ++ .pend t :: acts'))
    (hn : NoClear (acts ++ .pend t :: acts')) {s s' : State} (hr : run count (init prio) acts = some s)
    (hr' : run count s (.pend t :: acts') = some s') (hback : s'.stack = s.stack) (hst : ∀ f ∈ s.stack, f ≠ .start)
    (habove : recorded s < s.prio t + 1) : runs t (s.prio t) s.log < runs t (s.prio t) s'.log := by
  have i := run_invA hc (init_invA count hp) hr
  have hrr := run_app hr hr'
  have i' := run_invA hc (init_invA count hp) hrr
  have hw1 := always_append hw hr
  have w := run_invW hc hw1.1 (init_invA count hp) (init_invW count prio) hr
  have w' := run_invW hc hw (init_invA count hp) (init_invW count prio) hrr
  have k := run_invR hc (fun t h => hn t (by simp [h])) (init_invA count hp) (init_invR count prio) hr
  have k' := run_invR hc hn (init_invA count hp) (init_invR count prio) hrr
  have htop : ∀ thr pc rest, s.stack ≠ .req thr pc :: rest := hw1.2.1.1
  have hpt := i.pr t
  have hnot : (s.mem (27 - s.prio t)).getLsbD t = false := by
    refine Bool.eq_false_iff.2 fun h => ?_
    have := above_empty i w hst htop ht hpt h
    rw [i.cur] at habove
    omega
  have hnot' : (s'.mem (27 - s.prio t)).getLsbD t = false := by
    refine Bool.eq_false_iff.2 fun h => ?_
    have := above_empty i' w' (by rw [hback]; exact hst) (by rw [hback]; exact htop) ht hpt h
    rw [i.cur] at habove
    rw [hback] at this
    omega
  have e := k.acc t (s.prio t) ht hpt
  have e' := k'.acc t (s.prio t) ht hpt
  simp only [hnot, hnot', Bool.false_eq_true, ↓reduceIte, Nat.add_zero] at e e'
  rw [← e, ← e']
  have hs1 : step count s (.pend t) = some { s with stack := .req t .load :: s.stack } := by simp only [step, ht, ↓reduceIte]
  simp only [run, hs1] at hr'
  have := run_reqAt hc ht hpt hnot (hw1.2.2 _ hs1) hr' (n := requests t (s.prio t) s.log) (rest := s.stack) (.inl ⟨rfl, rfl, rfl, rfl⟩)
  rcases this with ⟨h, -⟩ | ⟨h, -⟩ | h
  · rw [hback] at h; exact absurd (congrArg List.length h) (by simp)
  · rw [hback] at h; exact absurd (congrArg List.length h) (by simp)
  · exact h

/-- Thread 0 runs (level 1) and requests thread 1 (level 3), which runs and returns. -/
example : let acts := [.pend 0] ++ steps 20 ++ [.pend 2] ++ steps 20
    let acts' := steps 20 ++ [.ret] ++ steps 20
    Always 3 (fun s a => Whole s a ∧ NoSame s a) (init prioA) (acts ++ .pend 1 :: acts') ∧ NoClear (acts ++ .pend 1 :: acts') ∧
    (ran 3 prioA (acts ++ .pend 1 :: acts')).stack = (ran 3 prioA acts).stack ∧ (∀ f ∈ (ran 3 prioA acts).stack, f ≠ .start) ∧
    recorded (ran 3 prioA acts) = 2 ∧ (ran 3 prioA acts).prio 1 = 3 := by
  refine ⟨alwaysB_sound (P := fun s a => wholeB s a && noSameB s a)
    (fun s a h => by rw [Bool.and_eq_true] at h; exact ⟨wholeB_sound s a h.1, noSameB_sound s a h.2⟩) (by decide +kernel),
    ?_, by decide +kernel, by decide +kernel, by decide +kernel, by decide +kernel⟩
  intro t h
  simp [steps] at h

/-- The same, if the request, and anything that happens before it returns, may be
interrupted; it is itself not made while another request or the start of a `preempt` is
interrupted. -/
theorem C43_interrupted_partial {count : Nat} (hc : count ≤ 32) {prio : Nat → Nat} (hp : ∀ t, prio t < 27) {acts acts' : List Act} {t : Nat}
    (ht : t < count) (hw : Always count (fun s a => PrioStill s a ∧ NoSame s a) (init prio) (acts ++ .pend t :: acts'))
    (hn : NoClear (acts ++ .pend t :: acts')) {s s' : State} (hr : run count (init prio) acts = some s)
    (hr' : run count s (.pend t :: acts') = some s') (hback : s'.stack = s.stack) (hst : ∀ f ∈ s.stack, f ≠ .start)
    (hreq : ∀ u pc, .req u pc ∉ s.stack) (habove : recorded s < s.prio t + 1) :
    runs t (s.prio t) s.log < runs t (s.prio t) s'.log := by
  have i := run_invA hc (init_invA count hp) hr
  have hrr := run_app hr hr'
  have i' := run_invA hc (init_invA count hp) hrr
  have hw1 := always_append hw hr
  have w := run_invI hc hw1.1 (init_invA count hp) (init_invI count prio) hr
  have w' := run_invI hc hw (init_invA count hp) (init_invI count prio) hrr
  have k := run_invR hc (fun t h => hn t (by simp [h])) (init_invA count hp) (init_invR count prio) hr
  have k' := run_invR hc hn (init_invA count hp) (init_invR count prio) hrr
  have hpt := i.pr t
  have hnr : ∀ f ∈ s.stack, f.isReq = false := by
    intro f hf
    cases f with
    | req u pc => exact absurd hf (hreq u pc)
    | _ => rfl
  have hnot : (s.mem (27 - s.prio t)).getLsbD t = false := by
    refine Bool.eq_false_iff.2 fun h => ?_
    have := above_empty_irq i w hst hnr ht hpt h
    rw [i.cur] at habove
    omega
  have hnot' : (s'.mem (27 - s.prio t)).getLsbD t = false := by
    refine Bool.eq_false_iff.2 fun h => ?_
    have := above_empty_irq i' w' (by rw [hback]; exact hst) (by rw [hback]; exact hnr) ht hpt h
    rw [i.cur] at habove
    rw [hback] at this
    omega
  have e := k.acc t (s.prio t) ht hpt
  have e' := k'.acc t (s.prio t) ht hpt
  simp only [hnot, hnot', Bool.false_eq_true, ↓reduceIte, Nat.add_zero] at e e'
  rw [← e, ← e']
  have hs1 : step count s (.pend t) = some { s with stack := .req t .load :: s.stack } := by simp only [step, ht, ↓reduceIte]
  have i1 := step_invA hc i hs1
  simp only [run, hs1] at hr'
  have := run_reqIn hc ht hpt (hw1.2.2 _ hs1) i1 hr' (n := requests t (s.prio t) s.log) (rest := s.stack) (.inr ⟨rfl, hnot, [], .load, rfl, .inl ⟨rfl, rfl⟩⟩)
  rcases this with h | ⟨-, -, pre, pc, h, -⟩
  · exact h
  · rw [hback] at h
    have := congrArg List.length h
    simp only [List.length_append, List.length_cons] at this
    omega

/-- Thread 2 runs (level 0) and requests thread 1 (level 3); the request is interrupted
between its two updates by a request of thread 0 (level 1), which runs first. -/
example : let acts := [.pend 2] ++ steps 20
    let acts' := steps 2 ++ [.pend 0] ++ steps 30 ++ [.ret] ++ steps 30 ++ [.ret] ++ steps 40
    Always 3 (fun s a => PrioStill s a ∧ NoSame s a) (init prioA) (acts ++ .pend 1 :: acts') ∧ NoClear (acts ++ .pend 1 :: acts') ∧
    (ran 3 prioA (acts ++ .pend 1 :: acts')).stack = (ran 3 prioA acts).stack ∧ (∀ f ∈ (ran 3 prioA acts).stack, f ≠ .start) ∧
    ((ran 3 prioA acts).stack.any Frame.isReq) = false ∧ recorded (ran 3 prioA acts) = 1 ∧ (ran 3 prioA acts).prio 1 = 3 := by
  refine ⟨alwaysB_sound (P := fun s a => prioStillB s a && noSameB s a)
    (fun s a h => by rw [Bool.and_eq_true] at h; exact ⟨prioStillB_sound s a h.1, noSameB_sound s a h.2⟩) (by decide +kernel),
    ?_, by decide +kernel, by decide +kernel, by decide +kernel, by decide +kernel, by decide +kernel⟩
  intro t h
  simp [steps, -List.reduceReplicate] at h

/-- Pools of every size: the recorded level is the same whenever the calls in progress are the same: what a
`preempt` changes is restored when it returns. -/
theorem C43_restored {count : Nat} {prio : Nat → Nat} (hp : ∀ t, prio t < 27) {acts acts' : List Act} {s s' : State}
    (hr : run count (init prio) acts = some s) (hr' : run count s acts' = some s') (h : s'.stack = s.stack) : recorded s' = recorded s := by
  have i := run_invH (init_invH count hp) hr
  have i' := run_invH i hr'
  rw [i.cur, i'.cur, h]

example : let acts := [.pend 0] ++ steps 20
    let acts' := [.pend 2] ++ steps 20 ++ [.pend 1] ++ steps 20 ++ [.ret] ++ steps 20
    (ran 3 prioA (acts ++ acts')).stack = (ran 3 prioA acts).stack ∧ recorded (ran 3 prioA (acts ++ acts')) = 2 ∧
    recorded (ran 3 prioA nestA) = 4 := by decide +kernel

/-- With a pool of 40 threads. -/
example : let acts := [.pend 0] ++ steps 20
    let acts' := [.pend 2] ++ steps 20 ++ [.pend 1] ++ steps 40 ++ [.ret] ++ steps 40
    (ran 40 prioA (acts ++ acts')).stack = (ran 40 prioA acts).stack ∧ recorded (ran 40 prioA (acts ++ acts')) = 2 ∧
    recorded (ran 40 prioA nestA) = 4 := by decide +kernel

/-- Without the restriction: thread 0 requested itself and was left pending. A later
request from outside of all threads does not run it. -/
theorem C43_false : ∃ (count : Nat) (prio : Nat → Nat) (acts acts' : List Act) (t : Nat) (s s' : State), count ≤ 32 ∧ (∀ t, prio t < 27) ∧ t < count ∧
    Always count Whole (init prio) (acts ++ .pend t :: acts') ∧ NoClear (acts ++ .pend t :: acts') ∧ run count (init prio) acts = some s ∧
    run count (init prio) (acts ++ .pend t :: acts') = some s' ∧ s'.stack = s.stack ∧ (∀ f ∈ s.stack, f ≠ .start) ∧ recorded s < s.prio t + 1 ∧
    runs t (s.prio t) s'.log = runs t (s.prio t) s.log := by
  refine ⟨1, fun _ => 5, selfPend, steps 20, 0, ran 1 _ selfPend, ran 1 _ (selfPend ++ .pend 0 :: steps 20), by omega, fun _ => (by decide : 5 < 27), by omega,
    alwaysB_sound (P := wholeB) wholeB_sound (by decide +kernel), ?_, run_ran (by decide +kernel), run_ran (by decide +kernel), by decide +kernel,
    by decide +kernel, by decide +kernel, by decide +kernel⟩
  intro t h
  simp [selfPend, steps] at h

/-! ## C44 -/

/-- Whatever `set_priority` does in between: for every thread and level, the requests
that found the thread not pending there are as many as its runs from that level, plus one
while it is pending there. The full property (pending and run once for the thread, not
for each level) is refuted by `C44_false`. -/
theorem C44_one_run_per_request_partial {count : Nat} (hc : count ≤ 32) {prio : Nat → Nat} (hp : ∀ t, prio t < 27) {acts : List Act}
    (hn : NoClear acts) {s : State} (hr : run count (init prio) acts = some s) {t p : Nat} (ht : t < count) (hq : p < 27) :
    (Pending count s t p → requests t p s.log = runs t p s.log + 1) ∧ (¬ Pending count s t p → requests t p s.log = runs t p s.log) := by
  have k := run_invR hc hn (init_invA count hp) (init_invR count prio) hr
  have := k.acc t p ht hq
  rw [pending_iff hc ht hq]
  constructor <;> intro h <;> rw [this]
  · rw [if_pos h]
  · rw [if_neg h]; rfl

/-- Requests, a change of priority while pending, another request. -/
def moved : List Act := [.pend 0] ++ steps 20 ++ [.pend 2] ++ steps 20 ++ [.setPrio 2 1, .pend 1] ++ steps 20 ++ [.pend 2] ++ steps 20

example : NoClear moved ∧ (run 3 (init prioA) moved).isSome = true ∧ (ran 3 prioA moved).log.length = 6 := by
  refine ⟨?_, by decide +kernel, by decide +kernel⟩
  intro t h
  simp [moved, steps] at h

/-- A thread is pending; its priority is changed; it is no longer reported as pending,
and a further request is counted as a new one, so it runs twice. -/
theorem C44_false : ∃ (count : Nat) (prio : Nat → Nat) (acts acts' : List Act) (t p : Nat) (s s' s'' : State), count ≤ 32 ∧ (∀ t, prio t < 27) ∧ t < count ∧
    p < 27 ∧ run count (init prio) acts = some s ∧ isPending count s t = true ∧ step count s (.setPrio t p) = some s' ∧
    isPending count s' t = false ∧ run count s' (.pend t :: acts') = some s'' ∧
    runs t 0 s''.log = runs t 0 s.log + 1 ∧ runs t p s''.log = runs t p s.log + 1 := by
  have h1 : (run 3 (init prioA) ([.pend 0] ++ steps 20 ++ [.pend 2] ++ steps 20)).isSome = true := by decide +kernel
  let s := ran 3 prioA ([.pend 0] ++ steps 20 ++ [.pend 2] ++ steps 20)
  let s' : State := { s with prio := upd s.prio 2 1 }
  let acts' := steps 20 ++ [.pend 1] ++ steps 20 ++ [.ret] ++ steps 20 ++ [.ret] ++ steps 40 ++ [.ret] ++ steps 40 ++ [.preempt] ++ steps 40
  have h2 : (run 3 s' (.pend 2 :: acts')).isSome = true := by decide +kernel
  refine ⟨3, prioA, _, acts', 2, 1, s, s', (run 3 s' (.pend 2 :: acts')).getD s', by omega, ?_, by omega, by omega, run_ran h1, by decide +kernel, rfl, by decide +kernel, ?_,
    by decide +kernel, by decide +kernel⟩
  · intro t; unfold prioA; split
    · omega
    · split <;> omega
  · obtain ⟨x, hx⟩ := Option.isSome_iff_exists.1 h2
    rw [hx]; rfl

/-! ## C45 -/

/-- In the body of a thread, the current storage is that of the thread. -/
theorem C45_in_body {count : Nat} {prio : Nat → Nat} {acts : List Act} {s : State} (hr : run count (init prio) acts = some s) {f : Frame}
    {rest : List Frame} (hst : s.stack = f :: rest) {t : Nat} (hb : f.inBody = some t) : localChecked s = some t := by
  have i := run_invC (init_invC prio) hr
  have hc := i.cur
  rw [hst] at hc
  have : stored f.call = some (t + 1) := by
    unfold Frame.inBody at hb
    split at hb
    · simp only [Option.some.injEq] at hb; subst hb; rfl
    · simp only [Option.some.injEq] at hb; subst hb; rfl
    · simp at hb
  simp only [curOf, this, Option.getD] at hc
  simp [localChecked, hc]

example : (ran 3 prioA nestA).stack.head?.bind Frame.inBody = some 1 ∧ (ran 3 prioA nestA).stack.length = 2 := by decide +kernel

/-- Outside of all calls there is no current storage. -/
theorem C45_outside {count : Nat} {prio : Nat → Nat} {acts : List Act} {s : State} (hr : run count (init prio) acts = some s)
    (hst : s.stack = []) : localChecked s = none := by
  have i := run_invC (init_invC prio) hr
  have hc := i.cur
  rw [hst] at hc
  simp [localChecked, hc, curOf]

example : (run 3 (init prioA) nestC).isSome = true ∧ (ran 3 prioA nestC).stack = [] := by decide +kernel

/-- After any calls in between have returned, the current storage is what it was. -/
theorem C45_restored {count : Nat} {prio : Nat → Nat} {acts acts' : List Act} {s s' : State} (hr : run count (init prio) acts = some s)
    (hr' : run count s acts' = some s') (h : s'.stack = s.stack) : localChecked s' = localChecked s := by
  have i := run_invC (init_invC prio) hr
  have i' := run_invC i hr'
  rw [localChecked, localChecked, i.cur, i'.cur, h]

/-- A body is interrupted by another thread's call, made by a handler. -/
example : let acts := [.pend 0] ++ steps 20
    let acts' := [.enter 2] ++ steps 5 ++ [.pend 1] ++ steps 20 ++ [.ret] ++ steps 20 ++ [.ret] ++ steps 5
    (ran 3 prioA (acts ++ acts')).stack = (ran 3 prioA acts).stack ∧ localChecked (ran 3 prioA acts) = some 0 := by decide +kernel

end Verif.Soft
