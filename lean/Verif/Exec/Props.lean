import Verif.Exec.Inv
/-! # Properties of futures run by software threads (C65)

`prio` gives the priorities, `fired` the events that have occurred at the start; `acts` is
any history of accesses, polls, events and new tasks. -/
namespace Verif.Exec

/-- Thread 0 has level 1, thread 1 level 3, thread 2 level 0. -/
def prioA : Nat → Nat := fun t => if t = 0 then 1 else if t = 1 then 3 else 0

/-- No event has occurred. -/
def quiet : Nat → Nat → Bool := fun _ _ => false

def steps (n : Nat) : List Act := List.replicate n .step

/-- The state after a history. -/
def ran (count : Nat) (prio : Nat → Nat) (acts : List Act) : State := (run count (init prio quiet) acts).getD (init prio quiet)

theorem run_ran {count : Nat} {prio : Nat → Nat} {acts : List Act} (h : (run count (init prio quiet) acts).isSome = true) :
    run count (init prio quiet) acts = some (ran count prio acts) := by
  unfold ran
  cases e : run count (init prio quiet) acts with
  | none => rw [e] at h; simp at h
  | some s => rfl

/-- A test for `NoSame`. -/
def noSameB (s : State) (a : Act) : Bool :=
  match wakes s a with
  | none => true
  | some t => s.soft.stack.all fun f => f.level != some (s.soft.prio t + 1)

theorem noSameB_sound (s : State) (a : Act) (h : noSameB s a = true) : NoSame s a := by
  intro t ht f hf
  simp only [noSameB, ht, List.all_eq_true, bne_iff_ne] at h
  exact h f hf

/-- A test for `Always`. -/
def alwaysB (count : Nat) (s : State) : List Act → Bool
  | [] => true
  | a :: as => noSameB s a && (match step count s a with | none => true | some s' => alwaysB count s' as)

theorem alwaysB_sound {count : Nat} : ∀ {acts : List Act} {s : State}, alwaysB count s acts = true → Always count NoSame s acts
  | [], _, _ => trivial
  | a :: as, s, h => by
    simp only [alwaysB, Bool.and_eq_true] at h
    refine ⟨noSameB_sound s a h.1, ?_⟩
    intro s' hs
    rw [hs] at h
    exact alwaysB_sound h.2

/-- Task 0 (thread 0, level 1) awaits two signals, task 1 (thread 1, level 3) one. The
first signal of task 0 occurs when nothing runs; when thread 0 is about to be
entered, the signal of task 1 occurs, and thread 1 preempts it. -/
def sampleA : List Act :=
  [.exec 0 2] ++ steps 12 ++ [.poll, .ret] ++ steps 20 ++ [.exec 1 1] ++ steps 12 ++ [.poll, .ret] ++ steps 20 ++
  [.signal 0 0] ++ steps 7 ++ [.signal 1 0] ++ steps 12 ++ [.poll, .poll, .ret] ++ steps 20 ++ [.poll, .poll, .ret] ++ steps 20

/-- As before, and then the second signal of task 0 occurs and is handled. -/
def sampleB : List Act := sampleA ++ [.signal 0 1] ++ steps 12 ++ [.poll, .poll, .ret] ++ steps 20

/-- Task 0 waits for its signal, which occurs while its thread has not yet returned from the
poll. -/
def late : List Act := [.exec 0 1] ++ steps 12 ++ [.poll] ++ [.signal 0 0] ++ steps 12 ++ [.ret] ++ steps 20

/-- Then another task is started on the same thread. -/
def later : List Act := late ++ [.exec 0 0] ++ steps 40

/-- When nothing runs, every task that was started has completed or waits for an event that
has not occurred, provided that no thread is woken at a level at which a thread
runs or is preempted. Requests may be interrupted anywhere. The full property does not have the
restriction; it is refuted by `C65_false`. -/
theorem C65_no_task_stuck_partial {count : Nat} (hc : count ≤ 32) {prio : Nat → Nat} (hp : ∀ t, prio t < 27) {fired : Nat → Nat → Bool} {acts : List Act}
    (hn : Always count NoSame (init prio fired) acts) {s : State} (hr : run count (init prio fired) acts = some s) (hidle : Idle s) :
    ∀ k, k < s.made → (s.task k).live = true → (s.task k).done = true ∨ Waiting s k := by
  intro k hk hl
  have g := run_good hc (init_good count hp fired) hr
  have w := run_invI hc hn (init_good count hp fired) (Soft.init_invI count prio) hr
  have hidle' : s.soft.stack = [] := hidle
  cases hd : (s.task k).done with
  | true => exact .inl rfl
  | false =>
    right
    rcases g.i.wait k hk hl hd with ⟨h1, h2, -⟩ | h | h | ⟨f, hf, -⟩
    · exact ⟨h1, h2⟩
    · obtain ⟨f, hf, -⟩ := g.i.bod (s.task k).thr (by intro e; rw [e] at h; simp at h)
      rw [hidle'] at hf; simp at hf
    · have ht := g.i.thr k hk
      have hpr := g.a.pr (s.task k).thr
      have := Soft.above_empty_irq g.a w (by rw [hidle']; simp) (by rw [hidle']; simp) ht hpr h
      rw [hidle'] at this
      simp [Soft.running] at this
    · rw [hidle'] at hf; simp at hf

/-- Task 1 has completed; task 0 has got its first signal and waits for the second. -/
example : Always 3 NoSame (init prioA quiet) sampleA ∧ run 3 (init prioA quiet) sampleA = some (ran 3 prioA sampleA) ∧ Idle (ran 3 prioA sampleA) ∧
    (ran 3 prioA sampleA).task 0 = ⟨0, 2, 1, true, false⟩ ∧ (ran 3 prioA sampleA).task 1 = ⟨1, 1, 1, true, true⟩ :=
  ⟨alwaysB_sound (by decide +kernel), run_ran (by decide +kernel), by unfold Idle; decide +kernel, by decide +kernel, by decide +kernel⟩

/-- So if moreover all their events have occurred, all started tasks have completed. -/
theorem C65_all_complete_partial {count : Nat} (hc : count ≤ 32) {prio : Nat → Nat} (hp : ∀ t, prio t < 27) {fired : Nat → Nat → Bool} {acts : List Act}
    (hn : Always count NoSame (init prio fired) acts) {s : State} (hr : run count (init prio fired) acts = some s) (hidle : Idle s)
    (hall : ∀ k i, k < s.made → i < (s.task k).len → s.fired k i = true) :
    ∀ k, k < s.made → (s.task k).live = true → (s.task k).done = true := by
  intro k hk hl
  rcases C65_no_task_stuck_partial hc hp hn hr hidle k hk hl with h | ⟨h1, h2⟩
  · exact h
  · rw [hall k _ hk h1] at h2; simp at h2

example : Always 3 NoSame (init prioA quiet) sampleB ∧ run 3 (init prioA quiet) sampleB = some (ran 3 prioA sampleB) ∧ Idle (ran 3 prioA sampleB) ∧
    (ran 3 prioA sampleB).made = 2 ∧ (ran 3 prioA sampleB).fired 0 0 = true ∧ (ran 3 prioA sampleB).fired 0 1 = true ∧
    (ran 3 prioA sampleB).fired 1 0 = true ∧ ((ran 3 prioA sampleB).task 0).live = true :=
  ⟨alwaysB_sound (by decide +kernel), run_ran (by decide +kernel), by unfold Idle; decide +kernel, by decide +kernel, by decide +kernel,
    by decide +kernel, by decide +kernel, by decide +kernel⟩

/-- A task completes only when all events it awaits have occurred. -/
theorem C65_done_means_fired {count : Nat} (hc : count ≤ 32) {prio : Nat → Nat} (hp : ∀ t, prio t < 27) {fired : Nat → Nat → Bool} {acts : List Act}
    {s : State} (hr : run count (init prio fired) acts = some s) {k : Nat} (hk : k < s.made) (hd : (s.task k).done = true) :
    ∀ i, i < (s.task k).len → s.fired k i = true := by
  intro i hi
  have g := run_good hc (init_good count hp fired) hr
  rw [← g.i.fin k hk hd] at hi
  exact (g.i.got k hk).2 i hi

example : run 3 (init prioA quiet) sampleB = some (ran 3 prioA sampleB) ∧ (ran 3 prioA sampleB).task 0 = ⟨0, 2, 2, true, true⟩ :=
  ⟨run_ran (by decide +kernel), by decide +kernel⟩

/-- No history faults; in particular no future is polled after it has completed. -/
theorem C65_no_fault {count : Nat} (hc : count ≤ 32) {prio : Nat → Nat} (hp : ∀ t, prio t < 27) (fired : Nat → Nat → Bool) (acts : List Act) :
    ∃ s, run count (init prio fired) acts = some s :=
  run_some hc (init_good count hp fired)

/-- Polling a completed future would fault: the check is not vacuous. -/
example : step 1 { ran 1 prioA ([.exec 0 0] ++ steps 12) with task := fun _ => ⟨0, 0, 0, true, true⟩ } .poll = none := by
  have : (inside (ran 1 prioA ([.exec 0 0] ++ steps 12)).soft.stack, (ran 1 prioA ([.exec 0 0] ++ steps 12)).queue 0) = (some 0, [0]) := by decide +kernel
  simp only [Prod.mk.injEq] at this
  simp only [step, this.1, this.2, ↓reduceIte]

/-- A signal that occurs after the poll of its task, but before the thread returns, is lost:
nothing runs, the event has occurred, and the task has not got it. -/
theorem C65_false : ∃ (count : Nat) (prio : Nat → Nat) (acts : List Act) (s : State) (k : Nat), count ≤ 32 ∧ (∀ t, prio t < 27) ∧
    run count (init prio quiet) acts = some s ∧ Idle s ∧ k < s.made ∧ (s.task k).live = true ∧ (s.task k).done = false ∧
    ∀ i, i < (s.task k).len → s.fired k i = true := by
  refine ⟨1, fun _ => 5, late, ran 1 _ late, 0, by omega, fun _ => (by decide : 5 < 27), run_ran (by decide +kernel), by unfold Idle; decide +kernel,
    by decide +kernel, by decide +kernel, by decide +kernel, ?_⟩
  have h1 : ((ran 1 (fun _ => 5) late).task 0).len = 1 := by decide +kernel
  have h2 : (ran 1 (fun _ => 5) late).fired 0 0 = true := by decide +kernel
  intro i hi
  rw [h1] at hi
  have : i = 0 := by omega
  subst this
  exact h2

/-- And in a pool of one thread the thread is dead from then on: whatever happens later, no
task completes, not even one that awaits nothing. -/
theorem C65_false_dead : ∃ (prio : Nat → Nat) (s : State), (∀ t, prio t < 27) ∧ run 1 (init prio quiet) late = some s ∧
    ∀ (acts : List Act) (s' : State), run 1 s acts = some s' → ∀ k, (s'.task k).done = false := by
  refine ⟨fun _ => 5, ran 1 _ late, fun _ => (by decide : 5 < 27), run_ran (by decide +kernel), ?_⟩
  intro acts s' h
  refine (run_dead ?_ h).done
  refine ⟨by decide +kernel, by decide +kernel, ?_, ?_⟩
  · have : (ran 1 (fun _ => 5) late).soft.stack = [] := by decide +kernel
    intro f hf
    rw [this] at hf; simp at hf
  · have h0 : ((ran 1 (fun _ => 5) late).task 0).done = false := by decide +kernel
    intro k
    by_cases e : k = 0
    · rw [e]; exact h0
    · have h1 : (ran 1 (fun _ => 5) late).task (k - 1 + 1) = ⟨0, 0, 0, false, false⟩ := by
        rfl
      rw [show k - 1 + 1 = k by omega] at h1
      rw [h1]

/-- A task started later: it is not polled. -/
example : (ran 1 (fun _ => 5) later).soft.stack = [] ∧ (ran 1 (fun _ => 5) later).made = 2 ∧ (ran 1 (fun _ => 5) later).task 1 = ⟨0, 0, 0, true, false⟩ :=
  ⟨by decide +kernel, by decide +kernel, by decide +kernel⟩

end Verif.Exec
