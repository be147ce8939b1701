import Verif.Soft.WideReq
import Verif.Soft.FixProps
import Verif.Soft.Reach
/-! # Software threads: what it takes for pools of every size (C40, C41, C42)

`C42_false` and `C42_false_bounds` are due to line 281 of `row_next`, which moves the
pointer by whole rows although `row_run` has moved it on within the row. With the pointer
set to the start of the row, and the search started one level higher, the claims hold for
all pools that the index type `u16` can walk through. -/
namespace Verif.Soft

/-- The state after a history from the start, with the repaired `row_next`. -/
def ranW (count : Nat) (prio : Nat → Nat) (acts : List Act) : State := (runW count (init prio) acts).getD (init prio)

/-- No access is out of bounds and no index overflows, with up to 65504 threads. -/
theorem C42_wide_no_fault {count : Nat} (hc : count ≤ 65504) {prio : Nat → Nat} (hp : ∀ t, prio t < 27) {acts : List Act} (h : PrioOk acts) :
    ∃ s, runW count (init prio) acts = some s := runW_some hc h (init_invAW count hp)

/-- The history of `C42_false_bounds`: with the code the last step is out of bounds. -/
example : PrioOk (beyond ++ steps 1) ∧ (runW 40 (init prioA) (beyond ++ steps 1)).isSome = true ∧ (run 40 (init prioA) (beyond ++ steps 1)).isNone = true := by
  refine ⟨?_, by decide +kernel, by decide +kernel⟩
  intro t p h
  simp [beyond, steps] at h

/-- What is resumed is a thread of the pool, was pending, and is not pending any more. -/
theorem C42_wide_resumed {count : Nat} {prio : Nat → Nat} (hp : ∀ t, prio t < 27) {acts : List Act}
    (hn : NoClear acts) {s s' : State} (hr : runW count (init prio) acts = some s) {a : Act} (hs : stepW count s a = some s') {t p : Nat}
    (hl : s'.log = .run t p :: s.log) : t < count ∧ Pending count s t p ∧ ¬ Pending count s' t p := by
  obtain ⟨i, -⟩ := runW_inv (init_invAW count hp) (init_invWide count prio) hr
  have k := runW_invS hn (init_invAW count hp) (init_invS count prio) hr
  exact resumed_wide i k (runW_event hs hl) hl

/-- The history of `C42_false`, taken on until thread 35 is resumed. -/
def largeOn : List Act := [.pend 0] ++ steps 20 ++ [.pend 35] ++ steps 20 ++ [.ret] ++ steps 39

example : NoClear largeOn ∧ (runW 40 (init prioA) largeOn).isSome = true ∧
    (stepW 40 (ranW 40 prioA largeOn) .step).map (fun s => s.log) = some (.run 35 0 :: (ranW 40 prioA largeOn).log) := by
  refine ⟨?_, by decide +kernel, by decide +kernel⟩
  intro t h
  simp [largeOn, steps] at h

/-- Every request that found its thread not pending is followed by one run, or its thread
is pending. -/
theorem C42_wide_account {count : Nat} {prio : Nat → Nat} (hp : ∀ t, prio t < 27) {acts : List Act} (hn : NoClear acts) {s : State}
    (hr : runW count (init prio) acts = some s) {t p : Nat} (ht : t < count) (hq : p < 27) :
    (Pending count s t p → requests t p s.log = runs t p s.log + 1) ∧ (¬ Pending count s t p → requests t p s.log = runs t p s.log) := by
  have e := (runW_invS hn (init_invAW count hp) (init_invS count prio) hr).acc t p ht hq
  rw [pending_bitOf]
  cases hb : bitOf count s.mem t p <;> rw [hb] at e <;> simpa using e

example : NoClear largeOn ∧ (runW 40 (init prioA) largeOn).isSome = true ∧ requests 35 0 (ranW 40 prioA largeOn).log = 1 ∧
    runs 35 0 (ranW 40 prioA largeOn).log = 0 ∧ runs 0 1 (ranW 40 prioA largeOn).log = 1 := by
  refine ⟨?_, by decide +kernel, by decide +kernel, by decide +kernel, by decide +kernel⟩
  intro t h
  simp [largeOn, steps] at h

/-- When nothing is in progress, nothing is pending. -/
theorem C41_wide {count : Nat} {prio : Nat → Nat} (hp : ∀ t, prio t < 27) {acts : List Act} {s : State}
    (hr : runW count (init prio) acts = some s) (hidle : s.stack = []) : ∀ t p, t < count → p < 27 → ¬ Pending count s t p := by
  intro t p ht hq hpend
  obtain ⟨i, w⟩ := runW_inv (init_invAW count hp) (init_invWide count prio) hr
  rw [pending_bitOf] at hpend
  have := above_empty_wide i w (by rw [hidle]; simp) (by rw [hidle]; simp) ht hq hpend
  rw [hidle] at this
  simp [running] at this

/-- 40 threads; threads 0 and 35 have run. -/
example : let acts := largeOn ++ steps 10 ++ [.ret] ++ steps 40
    (runW 40 (init prioA) acts).isSome = true ∧ (ranW 40 prioA acts).stack = [] ∧ runs 0 1 (ranW 40 prioA acts).log = 1 ∧
    runs 35 0 (ranW 40 prioA acts).log = 1 := by decide +kernel

/-- When a thread is resumed at level `p` and another one is pending at a higher level `q`,
then a request at level `q` is in progress that has not reached its second update. -/
theorem C40_wide {count : Nat} {prio : Nat → Nat} (hp : ∀ t, prio t < 27) {acts : List Act} {s s' : State}
    (hr : runW count (init prio) acts = some s) {a : Act} (hs : stepW count s a = some s') {t p : Nat} (hl : s'.log = .run t p :: s.log) :
    ∀ u q, u < count → q < 27 → p < q → Pending count s u q → ∃ v, .req v (.header q) ∈ s.stack := by
  intro u q hu hq hpq hpend
  obtain ⟨-, r, cell, bit, rest, hst, rfl, -⟩ := run_event (runW_event hs hl) hl
  obtain ⟨i, w⟩ := runW_inv (init_invAW count hp) (init_invWide count prio) hr
  rw [pending_bitOf] at hpend
  have hrun : running s.stack = r.priority := by rw [hst]; rfl
  rcases w.cov u q hu hq hpend with h | ⟨f, hf, hcf | hcf⟩
  · rcases w.bits q hq h with h | h
    · omega
    · rw [hst] at h; simp [startAbove] at h
  · cases f with
    | req v pc =>
      cases pc with
      | header q' =>
        have : q' = q := hcf
        exact ⟨v, this ▸ hf⟩
      | _ => exact absurd hcf id
    | _ => exact absurd hcf id
  · have := level_leW i.ok f hf _ (coversW_level hcf)
    omega

/-- 40 threads: thread 35 is resumed at level 0 while thread 1 is pending at level 3; its
request is in progress. -/
example : let acts := [.pend 1] ++ steps 2 ++ [.pend 35] ++ steps 9
    (runW 40 (init prioA) acts).isSome = true ∧
    (stepW 40 (ranW 40 prioA acts) .step).map (fun s => s.log) = some (.run 35 0 :: (ranW 40 prioA acts).log) ∧
    isPending 40 (ranW 40 prioA acts) 1 = true := by decide +kernel

/-! ## The code as it is, with more than 32 threads -/

/-- `Quiet`, computed. -/
def quietB (s : State) : Act → Bool
  | .step =>
    match s.stack with
    | .row r .next :: _ => (List.range r.priority).all fun i => !(decide (r.prev ≤ i) && decide (i + 1 < r.priority)) || !(s.mem 0).getLsbD i
    | _ => true
  | _ => true

theorem quietB_sound (s : State) (a : Act) (h : quietB s a = true) : Quiet s a := by
  rintro rfl r rest hst i h1 h2
  simp only [quietB, hst, List.all_eq_true, List.mem_range] at h
  have := h i (by omega)
  simpa [h1, h2] using this

/-- 40 threads: thread 39 (level 0) runs and requests thread 0 (level 1), which requests
thread 1 (level 3). Each is served within the one below. -/
def nested : List Act := [.pend 39] ++ steps 20 ++ [.pend 0] ++ steps 20 ++ [.pend 1] ++ steps 20 ++ [.ret] ++ steps 60 ++ [.ret] ++ steps 60

/-- The code itself: when the scheduler loops never go on to another level, no access is out
of bounds and no index overflows, with up to 65504 threads. -/
theorem C42_quiet_no_fault_partial {count : Nat} (hc : count ≤ 65504) {prio : Nat → Nat} (hp : ∀ t, prio t < 27) {acts : List Act} (h : PrioOk acts)
    (hq : Always count Quiet (init prio) acts) : ∃ s, run count (init prio) acts = some s := run_quiet_some hc hq h (init_invAW count hp)

example : PrioOk nested ∧ NoClear nested ∧ Always 40 Quiet (init prioA) nested ∧ runs 39 0 (ran 40 prioA nested).log = 1 ∧
    runs 0 1 (ran 40 prioA nested).log = 1 ∧ runs 1 3 (ran 40 prioA nested).log = 1 := by
  refine ⟨?_, ?_, alwaysB_sound quietB_sound (by decide +kernel), by decide +kernel, by decide +kernel, by decide +kernel⟩
  · intro t p h
    simp [nested, steps, -List.reduceReplicate] at h
  · intro t h
    simp [nested, steps, -List.reduceReplicate] at h

/-- The code itself, with any number of threads: when the scheduler loops never go on to
another level, what is resumed is a thread of the pool, was pending, and is not pending any
more. -/
theorem C42_quiet_resumed_partial {count : Nat} {prio : Nat → Nat} (hp : ∀ t, prio t < 27) {acts : List Act} (hn : NoClear acts)
    (hq : Always count Quiet (init prio) acts) {s s' : State} (hr : run count (init prio) acts = some s) {a : Act} (hs : step count s a = some s')
    {t p : Nat} (hl : s'.log = .run t p :: s.log) : t < count ∧ Pending count s t p ∧ ¬ Pending count s' t p := by
  obtain ⟨i, k⟩ := run_quiet_inv hq hn (init_invAW count hp) (init_invS count prio) hr
  exact resumed_wide i k hs hl

/-- Thread 39 is resumed at level 0. -/
example : let acts := [.pend 39] ++ steps 13
    NoClear acts ∧ Always 40 Quiet (init prioA) acts ∧ (run 40 (init prioA) acts).isSome = true ∧
    (step 40 (ran 40 prioA acts) .step).map (fun s => s.log) = some (.run 39 0 :: (ran 40 prioA acts).log) := by
  refine ⟨?_, alwaysB_sound quietB_sound (by decide +kernel), by decide +kernel, by decide +kernel⟩
  intro t h
  simp [steps, -List.reduceReplicate] at h

/-- The code itself, with all threads at one level: up to 65504 of them do no harm, and each
request that found its thread not pending is followed by one run unless its thread is
still pending. -/
theorem C42_one_level_partial {count : Nat} (hc : count ≤ 65504) {p : Nat} (hp : p < 27) {acts : List Act} (hn : NoClear acts)
    (hps : ∀ t q, .setPrio t q ∈ acts → q = p) : ∃ s, run count (init fun _ => p) acts = some s ∧
      ∀ t, t < count → (Pending count s t p → requests t p s.log = runs t p s.log + 1) ∧ (¬ Pending count s t p → requests t p s.log = runs t p s.log) := by
  have i := init_invAW count (prio := fun _ => p) (fun _ => hp)
  have hq := always_quiet hp hps i (init_invL p)
  obtain ⟨s, hr⟩ := run_quiet_some hc hq (fun t q h => by rw [hps t q h]; exact hp) i
  refine ⟨s, hr, fun t ht => ?_⟩
  have e := (run_quiet_inv hq hn i (init_invS count _) hr).2.acc t p ht hp
  rw [pending_bitOf]
  cases hb : bitOf count s.mem t p <;> rw [hb] at e <;> simpa using e

/-- 70 threads at level 4: threads 1 and 69 are requested one after the other from within
thread 40, and from outside of all threads. -/
def oneLevel : List Act := [.pend 40] ++ steps 20 ++ [.pend 69] ++ steps 20 ++ [.ret] ++ steps 60 ++ [.ret] ++ steps 20 ++ [.pend 1] ++ steps 20

example : NoClear oneLevel ∧ (∀ t q, Act.setPrio t q ∈ oneLevel → q = 4) ∧ Always 70 Quiet (init fun _ => 4) oneLevel ∧
    runs 40 4 (ran 70 (fun _ => 4) oneLevel).log = 1 ∧ runs 69 4 (ran 70 (fun _ => 4) oneLevel).log = 1 ∧ runs 1 4 (ran 70 (fun _ => 4) oneLevel).log = 1 := by
  have h : ∀ t q, Act.setPrio t q ∈ oneLevel → q = 4 := by
    intro t q h
    simp [oneLevel, steps, -List.reduceReplicate] at h
  refine ⟨?_, h, always_quiet (by omega) h (init_invAW 70 (fun _ => by omega)) (init_invL 4), by decide +kernel, by decide +kernel, by decide +kernel⟩
  intro t h
  simp [oneLevel, steps, -List.reduceReplicate] at h

/-- `Calm`, computed. -/
def calmB (s : State) : Act → Bool
  | .step =>
    match s.stack with
    | .row r .next :: _ => (List.range r.priority).all fun i => !decide (r.prev ≤ i) || !(s.mem 0).getLsbD i
    | _ => true
  | _ => true

theorem calmB_sound (s : State) (a : Act) (h : calmB s a = true) : Calm s a := by
  rintro rfl r rest hst i h1 h2
  simp only [calmB, hst, List.all_eq_true, List.mem_range] at h
  have := h i (by omega)
  simpa [h1] using this

/-- The code itself, with any number of threads: when the scheduler loops never have to go
on, no request is forgotten. When nothing is in progress, nothing is pending. -/
theorem C41_calm_partial {count : Nat} {prio : Nat → Nat} (hp : ∀ t, prio t < 27) {acts : List Act} (hq : Always count Calm (init prio) acts) {s : State}
    (hr : run count (init prio) acts = some s) (hidle : s.stack = []) : ∀ t p, t < count → p < 27 → ¬ Pending count s t p :=
  C41_wide hp (by rw [runW_calm hq (init_invAW count hp)]; exact hr) hidle

/-- The three threads of `nested` have run, and nothing is in progress. -/
example : let acts := nested ++ [.ret] ++ steps 60
    Always 40 Calm (init prioA) acts ∧ (run 40 (init prioA) acts).isSome = true ∧ (ran 40 prioA acts).stack = [] ∧
    runs 39 0 (ran 40 prioA acts).log = 1 ∧ runs 0 1 (ran 40 prioA acts).log = 1 ∧ runs 1 3 (ran 40 prioA acts).log = 1 :=
  ⟨alwaysB_sound calmB_sound (by decide +kernel), by decide +kernel, by decide +kernel, by decide +kernel, by decide +kernel, by decide +kernel⟩

/-- The code itself, with any number of threads: when the scheduler loops never have to go
on, a thread is passed over by a lower one only while a request at its level is in
progress that has not reached its second update. -/
theorem C40_calm_partial {count : Nat} {prio : Nat → Nat} (hp : ∀ t, prio t < 27) {acts : List Act} (hq : Always count Calm (init prio) acts)
    {s s' : State} (hr : run count (init prio) acts = some s) {a : Act} (hs : step count s a = some s') {t p : Nat} (hl : s'.log = .run t p :: s.log) :
    ∀ u q, u < count → q < 27 → p < q → Pending count s u q → ∃ v, .req v (.header q) ∈ s.stack := by
  obtain ⟨rfl, r, cell, bit, rest, hst, -, -⟩ := run_event hs hl
  refine C40_wide hp (by rw [runW_calm hq (init_invAW count hp)]; exact hr) (a := .step) ?_ hl
  simp only [stepW, hst]
  simp only [step, hst] at hs
  exact hs

/-- 40 threads: thread 35 is resumed at level 0 while thread 1 is pending at level 3; its
request is in progress. -/
example : let acts := [.pend 1] ++ steps 2 ++ [.pend 35] ++ steps 9
    Always 40 Calm (init prioA) acts ∧ (run 40 (init prioA) acts).isSome = true ∧
    (step 40 (ran 40 prioA acts) .step).map (fun s => s.log) = some (.run 35 0 :: (ran 40 prioA acts).log) ∧
    isPending 40 (ran 40 prioA acts) 1 = true :=
  ⟨alwaysB_sound calmB_sound (by decide +kernel), by decide +kernel, by decide +kernel, by decide +kernel⟩

/-- A request above the running level, which is itself not made while another request or the
start of a `preempt` is interrupted, has run the thread when it returns, whatever interrupts
it and whatever was requested before. (`clear_pending` is not called, and the priority of the
thread is not changed before the request returns.) -/
theorem C43_wide {count : Nat} {prio : Nat → Nat} (hp : ∀ t, prio t < 27) {acts acts' : List Act} {t : Nat}
    (ht : t < count) (hn : NoClear (acts ++ .pend t :: acts')) (hps : ∀ p, .setPrio t p ∉ acts') {s s' : State}
    (hr : runW count (init prio) acts = some s) (hr' : runW count s (.pend t :: acts') = some s') (hback : s'.stack = s.stack)
    (hst : ∀ f ∈ s.stack, f ≠ .start) (hreq : ∀ u pc, .req u pc ∉ s.stack) (habove : recorded s < s.prio t + 1) :
    runs t (s.prio t) s.log < runs t (s.prio t) s'.log := by
  obtain ⟨i, w⟩ := runW_inv (init_invAW count hp) (init_invWide count prio) hr
  obtain ⟨i', w'⟩ := runW_inv i w hr'
  have hn1 : NoClear acts := fun t h => hn t (by simp [h])
  have hn2 : NoClear (.pend t :: acts') := fun t h => hn t (by rw [List.mem_append]; exact .inr h)
  have k := runW_invS hn1 (init_invAW count hp) (init_invS count prio) hr
  have k' := runW_invS hn2 i k hr'
  have hpt := i.pr t
  have hnr : ∀ f ∈ s.stack, f.isReq = false := by
    intro f hf
    cases f with
    | req u pc => exact absurd hf (hreq u pc)
    | _ => rfl
  have hnot : bitOf count s.mem t (s.prio t) = false := by
    refine Bool.eq_false_iff.2 fun h => ?_
    have := above_empty_wide i w hst hnr ht hpt h
    rw [i.cur] at habove
    omega
  have hnot' : bitOf count s'.mem t (s.prio t) = false := by
    refine Bool.eq_false_iff.2 fun h => ?_
    have := above_empty_wide i' w' (by rw [hback]; exact hst) (by rw [hback]; exact hnr) ht hpt h
    rw [i.cur] at habove
    rw [hback] at this
    omega
  have e := k.acc t (s.prio t) ht hpt
  have e' := k'.acc t (s.prio t) ht hpt
  simp only [hnot, hnot', Bool.toNat_false, Nat.add_zero] at e e'
  rw [← e, ← e']
  have hs1 : stepW count s (.pend t) = some { s with stack := .req t .load :: s.stack } := by simp only [stepW, step, ht, ↓reduceIte]
  have i1 := stepW_invA i hs1
  have k1 := stepW_invS (by simp) i k hs1
  simp only [runW, hs1] at hr'
  have := runW_reqW ht hpt hps (fun t h => hn2 t (by simp [h])) i1 k1 hr' (n := requests t (s.prio t) s.log) (rest := s.stack)
    (.inr ⟨rfl, hnot, [], .load, rfl, .inl ⟨rfl, rfl⟩⟩)
  rcases this with h | ⟨-, -, pre, pc, h, -⟩
  · exact h
  · rw [hback] at h
    have := congrArg List.length h
    simp only [List.length_append, List.length_cons] at this
    omega

/-- 70 threads at level 4: thread 69 has requested itself and thread 40, and all have run for
it; a later request from outside of all threads runs thread 69 once more. -/
example : let acts := [.pend 69] ++ steps 20 ++ [.pend 69] ++ steps 20 ++ [.pend 40] ++ steps 20 ++ [.ret] ++ steps 60 ++ [.ret] ++ steps 60 ++ [.ret] ++ steps 60
    let acts' := steps 20 ++ [.ret] ++ steps 20
    NoClear (acts ++ .pend 69 :: acts') ∧ (∀ p, Act.setPrio 69 p ∉ acts') ∧ (runW 70 (init fun _ => 4) (acts ++ .pend 69 :: acts')).isSome = true ∧
    (ranW 70 (fun _ => 4) acts).stack = [] ∧ (ranW 70 (fun _ => 4) (acts ++ .pend 69 :: acts')).stack = [] ∧
    recorded (ranW 70 (fun _ => 4) acts) = 0 ∧ runs 69 4 (ranW 70 (fun _ => 4) acts).log = 2 ∧
    runs 69 4 (ranW 70 (fun _ => 4) (acts ++ .pend 69 :: acts')).log = 3 := by
  refine ⟨?_, ?_, by decide +kernel, by decide +kernel, by decide +kernel, by decide +kernel, by decide +kernel, by decide +kernel⟩
  · intro t h
    simp [steps, -List.reduceReplicate] at h
  · intro p h
    simp [steps, -List.reduceReplicate] at h

/-- The code itself, with any number of threads, when the scheduler loops never have to go on. -/
theorem C43_calm_partial {count : Nat} {prio : Nat → Nat} (hp : ∀ t, prio t < 27) {acts acts' : List Act} {t : Nat}
    (ht : t < count) (hq : Always count Calm (init prio) (acts ++ .pend t :: acts')) (hn : NoClear (acts ++ .pend t :: acts'))
    (hps : ∀ p, .setPrio t p ∉ acts') {s s' : State}
    (hr : run count (init prio) acts = some s) (hr' : run count s (.pend t :: acts') = some s') (hback : s'.stack = s.stack)
    (hst : ∀ f ∈ s.stack, f ≠ .start) (hreq : ∀ u pc, .req u pc ∉ s.stack) (habove : recorded s < s.prio t + 1) :
    runs t (s.prio t) s.log < runs t (s.prio t) s'.log := by
  obtain ⟨hq1, hq2⟩ := always_append hq hr
  have e1 := runW_calm hq1 (init_invAW count hp)
  have hr1 : runW count (init prio) acts = some s := by rw [e1]; exact hr
  obtain ⟨i, -⟩ := runW_inv (init_invAW count hp) (init_invWide count prio) hr1
  exact C43_wide hp ht hn hps hr1 (by rw [runW_calm hq2 i]; exact hr') hback hst hreq habove

/-- 40 threads: within thread 39 (level 0), thread 1 (level 3) is requested. -/
example : let acts := [.pend 39] ++ steps 20
    let acts' := steps 20 ++ [.ret] ++ steps 60
    Always 40 Calm (init prioA) (acts ++ .pend 1 :: acts') ∧ NoClear (acts ++ .pend 1 :: acts') ∧ (∀ p, Act.setPrio 1 p ∉ acts') ∧
    (run 40 (init prioA) (acts ++ .pend 1 :: acts')).isSome = true ∧
    (ran 40 prioA (acts ++ .pend 1 :: acts')).stack = (ran 40 prioA acts).stack ∧ (ran 40 prioA acts).stack.length = 1 ∧
    recorded (ran 40 prioA acts) = 1 ∧ runs 1 3 (ran 40 prioA (acts ++ .pend 1 :: acts')).log = 1 := by
  refine ⟨alwaysB_sound calmB_sound (by decide +kernel), ?_, ?_, by decide +kernel, by decide +kernel, by decide +kernel, by decide +kernel, by decide +kernel⟩
  · intro t h
    simp [steps, -List.reduceReplicate] at h
  · intro p h
    simp [steps, -List.reduceReplicate] at h

/-! ## The code as it is, how far it reads -/

/-- Pools of every size: a cell that the search for threads is about to read is less than 26
times (the cells of a row minus one) behind the end of the array. With at most 32 threads
this is within the array. -/
theorem C42_reach {count : Nat} {prio : Nat → Nat} (hp : ∀ t, prio t < 27) {acts : List Act} {s : State}
    (hr : run count (init prio) acts = some s) {r : Row} {thr : Nat} {rest : List Frame} (hst : s.stack = .row r (.load thr) :: rest) :
    r.ptr < pendingSize count + 26 * (rowSize count - 1) := by
  have i := run_invH (init_invH count hp) hr
  have n := run_near (init_invH count hp) (by intro f hf; simp [init] at hf) hr
  have j := i.ok
  rw [hst] at j n
  obtain ⟨-, k3, -, -, k6⟩ := j.1
  exact reach_le (by omega) k6 (allNear_cons.1 n).1.2

/-- 40 threads, in the history of `C42_false_bounds`: the cell 55 of 55 is about to be read. -/
example : (ran 40 prioA beyond).stack = [.row ⟨55, 1, 0⟩ (.load 32)] ∧ pendingSize 40 = 55 ∧ rowSize 40 = 2 := by decide +kernel

/-- With 32 threads the bound is the size of the array. -/
example : pendingSize 32 + 26 * (rowSize 32 - 1) = pendingSize 32 := by decide +kernel

end Verif.Soft
