import Verif.Exec.PipeRun
import Verif.Exec.PipePot
/-! # Properties of tasks that send to each other (C91)

`g` gives the priorities, the threads of the tasks, the capacities of the rings and the values that are
sent; `acts` is any history of accesses of the software threads and of the tasks they run. -/
namespace Verif.Exec.Pipe
open Verif.Exec (inside)

variable {k : Nat} {g : Cfg}

/-- Thread 1, of the greater priority, receives from both rings; thread 0 sends to ring 0 and thread 2 to
ring 1. The rings have two slots. -/
def gA : Cfg where
  count := 3
  prio := fun t => if t = 1 then 1 else 0
  thr := fun q => if q % 2 = 0 then 1 else if q = 3 then 2 else 0
  cap := fun _ => 2
  vals := fun j => if j = 0 then [(10, false), (11, false), (12, true), (13, false), (14, true)] else if j = 1 then [(20, false), (21, true), (22, false)] else []

theorem gA_valid : gA.Valid 13 :=
  ⟨by simp [gA], by intro t; simp only [gA]; split <;> omega, by intro j; simp [gA, Ring.maxCapacity]⟩

theorem gA_downward : gA.Downward := by
  intro j
  have h1 : (2 * j + 1) % 2 ≠ 0 := by omega
  have h2 : (2 * j) % 2 = 0 := by omega
  simp only [gA, h1, h2, ↓reduceIte]
  split <;> simp

/-- Both ends of one ring on one thread. -/
def gS : Cfg where
  count := 1
  prio := fun _ => 0
  thr := fun _ => 0
  cap := fun _ => 2
  vals := fun j => if j = 0 then [(1, false), (2, false), (3, false), (4, false), (5, false)] else []

theorem gS_valid : gS.Valid 13 := ⟨by simp [gS], by simp [gS], by intro j; simp [gS, Ring.maxCapacity]⟩

/-- The sender has the greater priority. -/
def gU : Cfg where
  count := 2
  prio := fun t => if t = 1 then 1 else 0
  thr := fun q => q % 2
  cap := fun _ => 2
  vals := fun j => if j = 0 then [(1, false), (2, false), (3, false)] else []

theorem gU_valid : gU.Valid 13 :=
  ⟨by simp [gU], by intro t; simp only [gU]; split <;> omega, by intro j; simp [gU, Ring.maxCapacity]⟩

/-- The senders fill their rings and wait; then the receivers are started. -/
def sample : List Act := [.exec 1] ++ serve 60 ++ [.exec 3] ++ serve 60 ++ [.exec 0] ++ serve 220 ++ [.exec 2] ++ serve 220

/-- The middle of `sample`. -/
def part : List Act := [.exec 1] ++ serve 60 ++ [.exec 3] ++ serve 60 ++ [.exec 0] ++ serve 40

/-- The sender fills its ring and returns `Poll::Pending`; before its thread has returned, the receiver is
started, empties the ring and wakes the thread of the sender. -/
def late : List Act := [.exec 1] ++ serve 21 ++ [.exec 0] ++ serve 80

/-- The sender fills its ring and waits; then the receiver is started. -/
def fill (m : Nat) : List Act := [.exec 1] ++ serve 60 ++ [.exec 0] ++ serve m

/-- While the sender is dropped, another task is started on the thread of the receiver. -/
def release : List Act := [.exec 0, .exec 1] ++ serve 122 ++ [.exec 2] ++ serve 100

/-- When nothing runs, the two tasks of a ring that were both started have completed: neither waits for
the other. And what was received is what was sent, in order. Provided that no thread is
woken at a level at which a thread runs or is preempted, and, for the values, that the two
ends never worked on the same slot. The full property has neither restriction; it is
refuted by `C91_false_same`, `C91_false_late` and `C91_false_clash`. -/
theorem C91_no_deadlock_partial (hg : g.Valid k) {acts : List Act} (hn : AlwaysAct g (NoSame g) (init k g) acts) {s : State k}
    (hr : run g (init k g) acts = some s) (hidle : s.soft.stack = []) {j : Nat} (h0 : 2 * j ∈ s.fibs) (h1 : 2 * j + 1 ∈ s.fibs)
    (l0 : s.live (2 * j) = true) (l1 : s.live (2 * j + 1) = true) :
    s.done (2 * j) = true ∧ s.done (2 * j + 1) = true ∧
      (Always g (NoClash g) (init k g) acts → Ring.received (s.chan j).log = g.list j) := by
  have i := run_inv (N := Always g (NoClash g) (init k g) acts) hg (init_inv hg) init_fresh id hr
  have v := run_invI hg hn (init_inv hg) init_fresh (Soft.init_invI g.count g.prio) hr
  obtain ⟨a, b⟩ := idle_done hg i v hidle h0 h1 l0 l1
  exact ⟨a, b, (done_all hg i a).2⟩

/-- If no sender has a greater priority than its receiver, the two ends of a ring never work on the same
slot. -/
theorem C91_downward_no_clash (hg : g.Valid k) (hd : g.Downward) (acts : List Act) : Always g (NoClash g) (init k g) acts :=
  always_noClash hg hd (init_inv hg) init_fresh init_mid

/-- So in this case both tasks complete and everything arrives, provided that no thread is
woken at a level at which a thread runs or is preempted. The full property does not have
the restriction; it is refuted by `C91_false_late`. -/
theorem C91_completed_partial (hg : g.Valid k) (hd : g.Downward) {acts : List Act} (hn : AlwaysAct g (NoSame g) (init k g) acts) {s : State k}
    (hr : run g (init k g) acts = some s) (hidle : s.soft.stack = []) {j : Nat} (h0 : 2 * j ∈ s.fibs) (h1 : 2 * j + 1 ∈ s.fibs)
    (l0 : s.live (2 * j) = true) (l1 : s.live (2 * j + 1) = true) : Completed g s j :=
  have h := C91_no_deadlock_partial hg hn hr hidle h0 h1 l0 l1
  ⟨h.1, h.2.1, h.2.2 (C91_downward_no_clash hg hd acts)⟩

/-- Both rings, with senders that have to wait for room and to flush. -/
example : gA.Valid 13 ∧ gA.Downward ∧ AlwaysAct gA (NoSame gA) (init 13 gA) sample ∧ run gA (init 13 gA) sample = some (ran gA (init 13 gA) sample) ∧
    (ran gA (init 13 gA) sample).soft.stack = [] ∧ (ran gA (init 13 gA) sample).fibs = [2, 0, 3, 1] ∧
    [0, 1, 2, 3].all (ran gA (init 13 gA) sample).live = true ∧ (gA.list 0, gA.list 1) = ([10, 11, 12, 13, 14], [20, 21, 22]) :=
  ⟨gA_valid, gA_downward, alwaysActB_sound (noSameB_sound gA) (by decide +kernel), run_ran (by decide +kernel), by decide +kernel,
    by decide +kernel, by decide +kernel, by decide +kernel⟩

/-- At any time what was received is the beginning of what was sent, and that is the beginning of what
is to be sent; when the receiving task has completed it has got everything. Provided that no
sender has a greater priority than its receiver. The full property does not have the
restriction; it is refuted by `C91_false_clash`. -/
theorem C91_in_order_partial (hg : g.Valid k) (hd : g.Downward) {acts : List Act} {s : State k} (hr : run g (init k g) acts = some s) (j : Nat) :
    Ring.received (s.chan j).log <+: Ring.pushed (s.chan j).log ∧ Ring.pushed (s.chan j).log <+: g.list j ∧
      (s.done (2 * j) = true → Ring.received (s.chan j).log = g.list j) := by
  have i := run_inv (N := True) hg (init_inv hg) init_fresh (fun _ => C91_downward_no_clash hg hd acts) hr
  exact ⟨(inv_prefix hg i trivial j).2, inv_pushed i j, fun h => (done_all hg i h).2 trivial⟩

/-- In the middle of `sample`, two of three values sent so far were received. -/
example : run gA (init 13 gA) part = some (ran gA (init 13 gA) part) ∧
    Ring.received ((ran gA (init 13 gA) part).chan 0).log = [10, 11] ∧ Ring.pushed ((ran gA (init 13 gA) part).chan 0).log = [10, 11, 12] :=
  ⟨run_ran (by decide +kernel), by decide +kernel, by decide +kernel⟩

/-- What is sent is sent in order and once, whatever the priorities. -/
theorem C91_sent (hg : g.Valid k) {acts : List Act} {s : State k} (hr : run g (init k g) acts = some s) (j : Nat) :
    Ring.pushed (s.chan j).log <+: g.list j ∧ (s.done (2 * j + 1) = true → Ring.pushed (s.chan j).log = g.list j) := by
  have i := run_inv (N := False) hg (init_inv hg) init_fresh False.elim hr
  refine ⟨inv_pushed i j, fun h => left_pushed i ?_⟩
  rw [(i.gs j).1 h]; rfl

/-- Also where values are lost. -/
example : run gU (init 13 gU) (fill 29) = some (ran gU (init 13 gU) (fill 29)) ∧ (ran gU (init 13 gU) (fill 29)).done 1 = true ∧
    Ring.pushed ((ran gU (init 13 gU) (fill 29)).chan 0).log = [1, 2, 3] :=
  ⟨run_ran (by decide +kernel), by decide +kernel, by decide +kernel⟩

/-- No history has undefined behaviour or polls a completed future, as long as no end of a ring is
about to release it while the other end has still to access it, provided that no sender
has a greater priority than its receiver. The full property does not have the restrictions; it is
refuted by `C91_false_release` and `C91_false_clash`. -/
theorem C91_no_fault_partial (hg : g.Valid k) (hd : g.Downward) {acts : List Act} (ha : Always g AllApart (init k g) acts) :
    ∃ s, run g (init k g) acts = some s :=
  run_some hg (init_inv hg) init_fresh (fun j => Ring.init_inv (g.cap j) k Nat Nat) (C91_downward_no_clash hg hd acts) ha

example : Always gA AllApart (init 13 gA) sample ∧ 1600 < sample.length :=
  ⟨apart_ran [0, 1] (by decide +kernel) (by decide +kernel), by decide +kernel⟩

/-- The threads always come to rest: in whatever order they and their tasks go on, after finitely many
rounds nothing runs. No task is busy waiting, and no two tasks wake each other for ever. -/
theorem C91_rests (hg : g.Valid k) {acts : List Act} {s : State k} (hr : run g (init k g) acts = some s) :
    ∃ m, ∀ (rounds : List (List Act)) (s' : State k), (∀ r ∈ rounds, Round r) → m ≤ rounds.length → run g s rounds.flatten = some s' →
      s'.soft.stack = [] :=
  have h := run_fresh hg (init_inv (N := False) hg) init_fresh hr
  rests hg h.1 h.2

/-- In the middle of `sample` threads run. -/
example : run gA (init 13 gA) part = some (ran gA (init 13 gA) part) ∧ (ran gA (init 13 gA) part).soft.stack ≠ [] ∧
    ∀ r ∈ List.replicate 1000 [Act.step, .poll, .ret], Round r :=
  ⟨run_ran (by decide +kernel), by decide +kernel, fun r hr => by rw [List.eq_of_mem_replicate hr]; simp [Round]⟩

/-- So two tasks of a ring that were both started complete after finitely many rounds, with nothing lost and
without a fault, if no sender has a greater priority than its receiver, no thread is woken at a level at
which a thread runs or is preempted, and no end of a ring is about to release it while the other end
has still to access it. The full property does not have the restrictions; it is refuted by
`C91_false_late`, `C91_false_clash` and `C91_false_release`. -/
theorem C91_live_partial (hg : g.Valid k) (hd : g.Downward) {acts : List Act} {s : State k} (hr : run g (init k g) acts = some s) {j : Nat}
    (h0 : 2 * j ∈ s.fibs) (h1 : 2 * j + 1 ∈ s.fibs) (l0 : s.live (2 * j) = true) (l1 : s.live (2 * j + 1) = true) :
    ∃ m, ∀ rounds : List (List Act), (∀ r ∈ rounds, Round r) → m ≤ rounds.length →
      AlwaysAct g (NoSame g) (init k g) (acts ++ rounds.flatten) → Always g AllApart (init k g) (acts ++ rounds.flatten) →
      ∃ s', run g (init k g) (acts ++ rounds.flatten) = some s' ∧ Completed g s' j := by
  obtain ⟨m, hm⟩ := C91_rests hg hr
  refine ⟨m, fun rounds hro hl hn ha => ?_⟩
  obtain ⟨s', hs⟩ := C91_no_fault_partial hg hd ha
  have hs2 := hs
  rw [run_append hr] at hs2
  obtain ⟨e1, e2⟩ := round_fibs (rounds_own hro) hs2
  exact ⟨s', hs, C91_completed_partial hg hd hn hs (hm rounds s' hro hl hs2) (e1 ▸ h0) (e1 ▸ h1) (e2 _ l0) (e2 _ l1)⟩

/-- The hypotheses hold for any number of rounds after `sample`. -/
example (n : Nat) : run gA (init 13 gA) sample = some (ran gA (init 13 gA) sample) ∧
    AlwaysAct gA (NoSame gA) (init 13 gA) (sample ++ (List.replicate n [Act.step, .poll, .ret]).flatten) ∧
    Always gA AllApart (init 13 gA) (sample ++ (List.replicate n [Act.step, .poll, .ret]).flatten) := by
  have h : run gA (init 13 gA) sample = some (ran gA (init 13 gA) sample) := run_ran (by decide +kernel)
  have hi : (ran gA (init 13 gA) sample).soft.stack = [] := by decide +kernel
  have hown := rounds_own (rounds := List.replicate n [Act.step, .poll, .ret]) fun r hr => by rw [List.eq_of_mem_replicate hr]; simp [Round]
  have hap : Always gA AllApart (init 13 gA) sample := apart_ran [0, 1] (by decide +kernel) (by decide +kernel)
  refine ⟨h, alwaysAct_append (alwaysActB_sound (noSameB_sound gA) (by decide +kernel)) fun s' hs => ?_,
    always_append hap fun s' hs => idle_always ?_ hown (always_last hap hs)⟩
  · rw [h, Option.some.injEq] at hs; exact idle_noSame (hs ▸ hi) hown
  · rw [h, Option.some.injEq] at hs; exact hs ▸ hi

/-- The two ends of a ring on one thread: when the sender has filled the ring and the receiver has
emptied it, each waits for the other, and nothing runs. Nothing else happens. -/
theorem C91_false_same : ∃ (g : Cfg) (acts : List Act) (s : State 13), g.Valid 13 ∧ g.Downward ∧ Always g AllApart (init 13 g) acts ∧
    run g (init 13 g) acts = some s ∧ s.soft.stack = [] ∧ s.fibs = [0, 1] ∧ s.live 0 = true ∧ s.live 1 = true ∧ s.done 0 = false ∧ s.done 1 = false ∧
    g.list 0 = [1, 2, 3, 4, 5] ∧ Ring.pushed (s.chan 0).log = [1, 2, 3, 4] ∧ Ring.received (s.chan 0).log = [1, 2] :=
  ⟨gS, fill 80, ran gS (init 13 gS) (fill 80), gS_valid, fun _ => Nat.le_refl _, apart_ran [0] (by decide +kernel) (by decide +kernel),
    run_ran (by decide +kernel), by decide +kernel, by decide +kernel, by decide +kernel, by decide +kernel, by decide +kernel, by decide +kernel,
    by decide +kernel, by decide +kernel, by decide +kernel⟩

/-- A receiver of a greater priority that empties the ring between the poll of the sender and the return
of its thread: the wake is lost, and each waits for the other. -/
theorem C91_false_late : ∃ (g : Cfg) (acts : List Act) (s : State 13), g.Valid 13 ∧ g.Downward ∧ g.prio (g.thr 1) < g.prio (g.thr 0) ∧
    Always g AllApart (init 13 g) acts ∧
    run g (init 13 g) acts = some s ∧ s.soft.stack = [] ∧ s.fibs = [0, 1] ∧ s.live 0 = true ∧ s.live 1 = true ∧ s.done 0 = false ∧ s.done 1 = false ∧
    g.list 0 = [10, 11, 12, 13, 14] ∧ Ring.pushed (s.chan 0).log = [10, 11] ∧ Ring.received (s.chan 0).log = [10, 11] :=
  ⟨gA, late, ran gA (init 13 gA) late, gA_valid, gA_downward, by decide, apart_ran [0] (by decide +kernel) (by decide +kernel),
    run_ran (by decide +kernel), by decide +kernel, by decide +kernel, by decide +kernel, by decide +kernel, by decide +kernel, by decide +kernel,
    by decide +kernel, by decide +kernel, by decide +kernel⟩

/-- A sender of a greater priority that waits for room: the receiver wakes it before it has read the
slot that it has freed, the sender preempts it and writes this slot. The receiver gets the third value
instead of the first, and when it goes on it reads an empty slot. There is no other interrupt, and
the waking rule of `C91_no_deadlock_partial` is kept. -/
theorem C91_false_clash : ∃ (g : Cfg) (acts : List Act) (s : State 13), g.Valid 13 ∧ Always g AllApart (init 13 g) acts ∧
    AlwaysAct g (NoSame g) (init 13 g) acts ∧ run g (init 13 g) acts = some s ∧
    Ring.pushed (s.chan 0).log = [1, 2, 3] ∧ Ring.received (s.chan 0).log = [3] ∧
    ∃ m, run g (init 13 g) (fill m) = none ∧ AlwaysAct g (NoSame g) (init 13 g) (fill m) :=
  ⟨gU, fill 29, ran gU (init 13 gU) (fill 29), gU_valid, apart_ran [0] (by decide +kernel) (by decide +kernel),
    alwaysActB_sound (noSameB_sound gU) (by decide +kernel), run_ran (by decide +kernel), by decide +kernel, by decide +kernel,
    100, Option.isNone_iff_eq_none.1 (by decide +kernel), alwaysActB_sound (noSameB_sound gU) (by decide +kernel)⟩

/-- A receiver of a greater priority whose thread is resumed while its sender is being dropped: it
releases the ring, which the sender then accesses. The waking rule of `C91_no_deadlock_partial` is kept. -/
theorem C91_false_release : ∃ (g : Cfg) (acts : List Act), g.Valid 13 ∧ g.Downward ∧ AlwaysAct g (NoSame g) (init 13 g) acts ∧
    run g (init 13 g) acts = none :=
  ⟨gA, release, gA_valid, gA_downward, alwaysActB_sound (noSameB_sound gA) (by decide +kernel), Option.isNone_iff_eq_none.1 (by decide +kernel)⟩

end Verif.Exec.Pipe
