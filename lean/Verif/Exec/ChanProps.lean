import Verif.Exec.ChanRun
import Verif.Exec.ChanPot
/-! # Properties of futures that await oneshot channels (C88)

`prio` gives the priorities; `acts` is any history of accesses of the software threads, of the
tasks they run and of the senders of the channels that the tasks await. -/
namespace Verif.Exec.Chan
open Verif.Oneshot (sends received SenderLeft Event)

/-- Task 0 (thread 0, level 1) awaits two channels, task 1 (thread 1, level 3) one. The sender
of the first channel of task 0 sends 7 when nothing runs; when thread 0 is about to read it, the
sender of task 1 is dropped in an interrupt handler, and thread 1 preempts thread 0. -/
def sampleA : List Act :=
  [.exec 0 2] ++ steps 12 ++ polls 4 ++ [.ret] ++ steps 20 ++ [.exec 1 1] ++ steps 12 ++ polls 4 ++ [.ret] ++ steps 20 ++
  [.call 0 0 (.send 7), .send 0 0, .send 0 0, .send 0 0] ++ steps 12 ++ polls 2 ++
  [.call 1 0 .drop, .send 1 0, .send 1 0] ++ steps 12 ++ polls 5 ++ [.ret] ++ steps 15 ++ polls 7 ++ [.ret] ++ steps 20

/-- As before, and then the second sender of task 0 sends 9. -/
def sampleB : List Act :=
  sampleA ++ [.call 0 1 (.send 9), .send 0 1, .send 0 1, .send 0 1] ++ steps 12 ++ polls 6 ++ [.ret] ++ steps 20

/-- Task 0 of thread 1 (level 3) awaits a channel. Thread 0 (level 1) sends; after the update of the
state word in `send`, an interrupt handler starts another task on thread 1, which preempts thread 0,
polls task 0 too, and releases the channel. Then `send` goes on. -/
def early : List Act :=
  [.exec 1 1] ++ steps 12 ++ polls 4 ++ [.ret] ++ steps 20 ++ [.exec 0 0] ++ steps 12 ++
  [.call 0 0 (.send 7), .send 0 0, .send 0 0] ++ [.exec 1 0] ++ steps 12 ++ polls 7 ++ [.ret] ++ steps 15 ++ [.send 0 0]

/-- Task 0 awaits a channel whose sender sends while the thread has not yet returned from the poll. -/
def late : List Act :=
  [.exec 0 1] ++ steps 12 ++ polls 4 ++ [.call 0 0 (.send 7), .send 0 0, .send 0 0, .send 0 0] ++ steps 12 ++ [.ret] ++ steps 20

/-- When nothing runs, every task that was started has completed or awaits a receiver whose
sender was neither used nor dropped, provided that no thread is woken at a level at
which a thread runs or is preempted. The two ends of a channel, the requests and the scheduler
may be interrupted between any two accesses. The full property does not have the restriction; it is
refuted by `C88_false`. -/
theorem C88_no_task_stuck_partial {count : Nat} (hc : count ≤ 32) {prio : Nat → Nat} (hp : ∀ t, prio t < 27) {acts : List Act}
    (hn : Always count (NoSame count) (init prio) acts) {s : State} (hr : run count (init prio) acts = some s) (hidle : Idle s) :
    ∀ k, k < s.made → (s.task k).live = true → (s.task k).done = true ∨ Waiting s k := by
  intro k hk hl
  have i0 := init_inv count hp
  have g := run_inv hc i0 hr
  have v := run_invI hc hn i0 (Soft.init_invI count prio) hr
  obtain ⟨hst, hsn⟩ := hidle
  cases hd : (s.task k).done with
  | true => exact .inl rfl
  | false =>
    right
    rcases g.wait k hk hl hd with ⟨h1, h2⟩ | h | (h | ⟨f, hf, -⟩) | h
    · refine ⟨h1, ?_⟩
      have lg := (reach_inv (g.fit k (s.task k).pos hk).reach).2
      have hrest := hsn k (s.task k).pos
      have hid : (s.chan k (s.task k).pos).spc = .idle := by
        have := h2.snd
        revert this hrest
        cases (s.chan k (s.task k).pos).spc <;> simp [Oneshot.SPc.resting, Oneshot.sDone, Oneshot.sWk]
      have hun := lg.unsent (by rw [hid]; rfl) (by rw [hid]; rfl)
      rintro (h | h)
      · exact h hun
      · have := (lg.drop1 h).2
        rw [hid] at this
        simp [Oneshot.sDrop, Oneshot.sGone] at this
    · obtain ⟨f, hf, -⟩ := g.bod (s.task k).thr (by intro e; rw [e] at h; simp at h)
      rw [hst] at hf; simp at hf
    · have := Soft.above_empty_irq g.a v (by rw [hst]; simp) (by rw [hst]; simp) (g.thr k hk) (g.a.pr (s.task k).thr) h
      rw [hst] at this
      simp [Soft.running] at this
    · rw [hst] at hf; simp at hf
    · simp at h

/-- Task 1 has completed; task 0 has got its first value and waits for the second. -/
example : Always 2 (NoSame 2) (init prioA) sampleA ∧ run 2 (init prioA) sampleA = some (ran 2 prioA sampleA) ∧ Idle (ran 2 prioA sampleA) ∧
    (ran 2 prioA sampleA).task 0 = ⟨0, 2, 1, true, false⟩ ∧ (ran 2 prioA sampleA).task 1 = ⟨1, 1, 1, true, true⟩ :=
  ⟨alwaysB_sound (noSameB_sound 2) (by decide +kernel), run_ran (by decide +kernel),
    idle_ran [(0, 0), (1, 0)] (by decide +kernel) (by decide +kernel) (by decide +kernel) (by decide +kernel), by decide +kernel, by decide +kernel⟩

/-- So if moreover all senders were used or dropped, all started tasks have completed. -/
theorem C88_all_complete_partial {count : Nat} (hc : count ≤ 32) {prio : Nat → Nat} (hp : ∀ t, prio t < 27) {acts : List Act}
    (hn : Always count (NoSame count) (init prio) acts) {s : State} (hr : run count (init prio) acts = some s) (hidle : Idle s)
    (hall : ∀ k i, k < s.made → i < (s.task k).len → SenderLeft (s.chan k i).log) :
    ∀ k, k < s.made → (s.task k).live = true → (s.task k).done = true := by
  intro k hk hl
  rcases C88_no_task_stuck_partial hc hp hn hr hidle k hk hl with h | ⟨h1, h2⟩
  · exact h
  · exact absurd (hall k _ hk h1) h2

example : Always 2 (NoSame 2) (init prioA) sampleB ∧ run 2 (init prioA) sampleB = some (ran 2 prioA sampleB) ∧ Idle (ran 2 prioA sampleB) ∧
    (ran 2 prioA sampleB).made = 2 ∧ ((ran 2 prioA sampleB).task 0).len = 2 ∧ ((ran 2 prioA sampleB).task 1).len = 1 ∧
    sends ((ran 2 prioA sampleB).chan 0 0).log = [7] ∧ sends ((ran 2 prioA sampleB).chan 0 1).log = [9] ∧
    Event.sDropped ∈ ((ran 2 prioA sampleB).chan 1 0).log ∧ ((ran 2 prioA sampleB).task 0).live = true :=
  ⟨alwaysB_sound (noSameB_sound 2) (by decide +kernel), run_ran (by decide +kernel),
    idle_ran [(0, 0), (1, 0), (0, 1)] (by decide +kernel) (by decide +kernel) (by decide +kernel) (by decide +kernel), by decide +kernel,
    by decide +kernel, by decide +kernel, by decide +kernel, by decide +kernel, by decide +kernel, by decide +kernel⟩

/-- A task goes past a receiver only with the value that was sent, or when the sender was dropped;
a task completes only after all of its receivers. -/
theorem C88_answered {count : Nat} (hc : count ≤ 32) {prio : Nat → Nat} (hp : ∀ t, prio t < 27) {acts : List Act} {s : State}
    (hr : run count (init prio) acts = some s) {k : Nat} (hk : k < s.made) :
    (∀ i, i < (s.task k).pos → Answered (s.chan k i)) ∧ ((s.task k).done = true → (s.task k).pos = (s.task k).len) := by
  have g := run_inv hc (init_inv count hp) hr
  refine ⟨fun i hi => ?_, g.fin k hk⟩
  have f := g.fit k i hk
  have lg := (reach_inv f.reach).2
  have hg := g.prv k i hk hi
  rcases f.ans (by rw [hg]; rfl) with h | h
  · left
    have h1 := lg.one
    have h2 := lg.vals
    cases hrec : received (s.chan k i).log with
    | nil => exact absurd hrec h
    | cons v vs =>
      rw [hrec] at h2
      have hlen := congrArg List.length h2
      simp only [List.length_append, List.length_cons] at hlen
      have hvs : vs = [] := List.eq_nil_of_length_eq_zero (by omega)
      subst hvs
      have e1 := List.eq_nil_of_length_eq_zero (l := Oneshot.sVal (s.chan k i).spc) (by omega)
      have e2 := List.eq_nil_of_length_eq_zero (l := (s.chan k i).data.toList) (by omega)
      have e3 := List.eq_nil_of_length_eq_zero (l := Oneshot.droppedValues (s.chan k i).log) (by omega)
      have e4 := List.eq_nil_of_length_eq_zero (l := Oneshot.returned (s.chan k i).log) (by omega)
      rw [e1, e2, e3, e4] at h2
      exact ⟨v, by simpa using h2, rfl⟩
  · right
    have hs := (lg.drop1 h).1
    refine ⟨h, hs, ?_⟩
    have h2 := lg.vals
    rw [hs] at h2
    have := congrArg List.length h2
    simp only [List.length_append, List.length_nil] at this
    exact List.eq_nil_of_length_eq_zero (by omega)

example : run 2 (init prioA) sampleB = some (ran 2 prioA sampleB) ∧ (ran 2 prioA sampleB).task 0 = ⟨0, 2, 2, true, true⟩ ∧
    received ((ran 2 prioA sampleB).chan 0 1).log = [9] ∧ received ((ran 2 prioA sampleB).chan 1 0).log = [] :=
  ⟨run_ran (by decide +kernel), by decide +kernel, by decide +kernel, by decide +kernel⟩

/-- No history has undefined behaviour or polls a completed future, as long as no end of a channel is
about to release it while the other end has still to access it. The full property does not
have the restriction; it is refuted by `C88_false_release`. -/
theorem C88_no_fault_partial {count : Nat} (hc : count ≤ 32) {prio : Nat → Nat} (hp : ∀ t, prio t < 27) {acts : List Act}
    (ha : Always count AllApart (init prio) acts) : ∃ s, run count (init prio) acts = some s :=
  run_some hc (init_inv count hp) (fun _ _ => Oneshot.init_inv Nat) ha

example : Always 2 AllApart (init prioA) sampleB ∧ 150 < sampleB.length :=
  ⟨apart_ran (l := [(0, 0), (1, 0), (0, 1)]) (by decide +kernel) (fun _ _ _ => rfl) (by decide +kernel), by decide +kernel⟩

/-- The software threads and the tasks come to rest: from any state that can be reached, there is a number of rounds
after which nothing runs any more, in whatever order the accesses are made. -/
theorem C88_rests {count : Nat} (hc : count ≤ 32) {prio : Nat → Nat} (hp : ∀ t, prio t < 27) {acts : List Act} {s : State}
    (hr : run count (init prio) acts = some s) :
    ∃ m, ∀ (rounds : List (List Act)) (s' : State), (∀ r ∈ rounds, Round r) → m ≤ rounds.length → run count s rounds.flatten = some s' →
      s'.soft.stack = [] :=
  rests hc (run_inv hc (init_inv count hp) hr)

/-- Task 1 has completed; task 0 waits for its second value, which is sent. -/
def sampleE : List Act := sampleA ++ [.call 0 1 (.send 9), .send 0 1, .send 0 1, .send 0 1]

def rounds (n : Nat) : List (List Act) := List.replicate n [.step, .poll, .ret]

theorem rounds_round (n : Nat) : ∀ r ∈ rounds n, Round r := fun r hr => by rw [List.eq_of_mem_replicate hr]; simp [Round]

/-- A request is on the stack after `sampleE`. -/
example : run 2 (init prioA) sampleE = some (ran 2 prioA sampleE) ∧ (ran 2 prioA sampleE).soft.stack ≠ [] ∧ ∀ r ∈ rounds 1000, Round r :=
  ⟨run_ran (by decide +kernel), by decide +kernel, rounds_round _⟩

/-- If all senders have been used or dropped and are in no call any more, all tasks that were started complete after finitely
many rounds and without a fault, provided that no thread is woken at a level at which a thread runs or is
preempted, and that up to then no end of a channel was about to release it while the other end had still to
access it. The full property does not have the restrictions; it is refuted by `C88_false` and
`C88_false_release`. -/
theorem C88_live_partial {count : Nat} (hc : count ≤ 32) {prio : Nat → Nat} (hp : ∀ t, prio t < 27) {acts : List Act} {s : State}
    (hr : run count (init prio) acts = some s) (ha : Always count AllApart (init prio) acts) (hrest : ∀ k i, (s.chan k i).spc.resting = true)
    (hall : ∀ k i, k < s.made → i < (s.task k).len → SenderLeft (s.chan k i).log) :
    ∃ m, ∀ rounds : List (List Act), (∀ r ∈ rounds, Round r) → m ≤ rounds.length →
      Always count (NoSame count) (init prio) (acts ++ rounds.flatten) →
      ∃ s', run count (init prio) (acts ++ rounds.flatten) = some s' ∧ ∀ k, k < s.made → (s.task k).live = true → (s'.task k).done = true := by
  obtain ⟨m, hm⟩ := C88_rests hc hp hr
  refine ⟨m, fun rounds hro hl hn => ?_⟩
  obtain ⟨s', h⟩ := C88_no_fault_partial hc hp (always_append ha fun s1 h1 => by
    rw [hr, Option.some.injEq] at h1
    subst h1
    exact rest_apart (rounds_own hro) hrest)
  have h2 := h
  rw [run_append hr] at h2
  have kp := rounds_kept (rounds_own hro) h2
  exact ⟨s', h, fun k hk hl' => C88_all_complete_partial hc hp hn h ⟨hm rounds s' hro hl h2, fun k i => by rw [kp.snd]; exact hrest k i⟩
    (fun k i hk hi => kp.left k i (hall k i (kp.made ▸ hk) (kp.len k ▸ hi))) k (kp.made ▸ hk) (kp.live k hl')⟩

/-- The hypotheses hold for any number of rounds, from 60 on, after `sampleE`. -/
example (n : Nat) : run 2 (init prioA) sampleE = some (ran 2 prioA sampleE) ∧ Always 2 AllApart (init prioA) sampleE ∧
    (∀ k i, ((ran 2 prioA sampleE).chan k i).spc.resting = true) ∧ ((ran 2 prioA sampleE).task 0).done = false ∧
    (∀ k i, k < (ran 2 prioA sampleE).made → i < ((ran 2 prioA sampleE).task k).len → SenderLeft ((ran 2 prioA sampleE).chan k i).log) ∧
    Always 2 (NoSame 2) (init prioA) (sampleE ++ (rounds 60).flatten ++ (rounds n).flatten) := by
  have h : run 2 (init prioA) (sampleE ++ (rounds 60).flatten) = some (ran 2 prioA (sampleE ++ (rounds 60).flatten)) := run_ran (by decide +kernel)
  have hi : (ran 2 prioA (sampleE ++ (rounds 60).flatten)).soft.stack = [] := by decide +kernel
  have hmade : (ran 2 prioA sampleE).made = 2 := by decide +kernel
  have hsi : (run 2 (init prioA) sampleE).isSome = true := by decide +kernel
  have hfi : ∀ k, k < 2 → ∀ i, i < ((ran 2 prioA sampleE).task k).len →
      sends ((ran 2 prioA sampleE).chan k i).log ≠ [] ∨ Event.sDropped ∈ ((ran 2 prioA sampleE).chan k i).log := by decide +kernel
  refine ⟨run_ran hsi, apart_ran (l := [(0, 0), (1, 0), (0, 1)]) (by decide +kernel) (fun _ _ _ => rfl) (by decide +kernel), fun k i => ?_,
    by decide +kernel, fun k i hk => hfi k (hmade ▸ hk) i,
    always_append (alwaysB_sound (noSameB_sound 2) (by decide +kernel)) fun s' hs => idle_noSame ?_ (rounds_own (rounds_round n))⟩
  · by_cases hl : (k, i) ∈ [(0, 0), (1, 0), (0, 1)]
    · have h2 : [(0, 0), (1, 0), (0, 1)].all (fun p => ((ran 2 prioA sampleE).chan p.1 p.2).spc.resting) = true := by decide +kernel
      exact List.all_eq_true.1 h2 _ hl
    · rw [run_spc (l := [(0, 0), (1, 0), (0, 1)]) (by decide +kernel) (fun _ _ _ => rfl) (run_ran hsi) k i hl]; rfl
  · rw [h, Option.some.injEq] at hs; exact hs ▸ hi

/-- A value that is sent after the poll of its receiver, but before the thread returns, does not arrive:
nothing runs, all senders have left, and the task has not completed. -/
theorem C88_false : ∃ (count : Nat) (prio : Nat → Nat) (acts : List Act) (s : State) (k : Nat), count ≤ 32 ∧ (∀ t, prio t < 27) ∧
    Always count AllApart (init prio) acts ∧ run count (init prio) acts = some s ∧ Idle s ∧ k < s.made ∧ (s.task k).live = true ∧
    (s.task k).done = false ∧ ∀ i, i < (s.task k).len → Event.sendOk ∈ (s.chan k i).log := by
  refine ⟨1, prioA, late, ran 1 prioA late, 0, by omega, prioA_lt,
    apart_ran (l := [(0, 0)]) (by decide +kernel) (fun _ _ _ => rfl) (by decide +kernel), run_ran (by decide +kernel),
    idle_ran [(0, 0)] (by decide +kernel) (by decide +kernel) (by decide +kernel) (by decide +kernel), by decide +kernel, by decide +kernel,
    by decide +kernel, ?_⟩
  have h1 : ((ran 1 prioA late).task 0).len = 1 := by decide +kernel
  have h2 : Event.sendOk ∈ ((ran 1 prioA late).chan 0 0).log := by decide +kernel
  intro i hi
  rw [h1] at hi
  have : i = 0 := by omega
  subst this
  exact h2

/-- A task of a thread of higher priority can release the channel in the middle of the `send` that
gives it its value: `send` then accesses released memory. The waking rule of
`C88_no_task_stuck_partial` is kept, and the sender runs in the body of a thread. -/
theorem C88_false_release : ∃ (count : Nat) (prio : Nat → Nat) (acts : List Act) (s : State), count ≤ 32 ∧ (∀ t, prio t < 27) ∧
    Always count (NoSame count) (init prio) (acts ++ [.send 0 0]) ∧ run count (init prio) acts = some s ∧
    inside s.soft.stack = some 0 ∧ (s.task 0).thr = 1 ∧ (s.task 0).done = true ∧ (s.chan 0 0).freed = true ∧
    step count s (.send 0 0) = none :=
  ⟨2, prioA, early.dropLast, ran 2 prioA early.dropLast, by omega, prioA_lt, alwaysB_sound (noSameB_sound 2) (by decide +kernel),
    run_ran (by decide +kernel), by decide +kernel, by decide +kernel, by decide +kernel, by decide +kernel, by decide +kernel⟩

end Verif.Exec.Chan
