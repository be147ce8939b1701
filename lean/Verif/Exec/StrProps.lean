import Verif.Exec.StrRun
import Verif.Exec.StrPot
/-! # Properties of tasks that read streams (C89)

`prio` gives the priorities and `kind` the kinds of the channels; `acts` is any history of accesses of
the software threads, of the tasks they run and of the senders of the channels that the tasks
read. -/
namespace Verif.Exec.Str
open Verif.Exec (inside)
open Verif.Exec.Chan (prioA prioA_lt)

variable {n k : Nat}

/-- Task 0 reads a ring with two slots, then a pulse stream, then awaits a oneshot channel; task 1 reads a
pulse stream. -/
def kindA : Nat → Nat → Kind
  | 0, 0 => .ring 2
  | 0, 1 => .pulse
  | 1, 0 => .pulse
  | _, _ => .oneshot

theorem kindA_valid (q i : Nat) : (kindA q i).Valid 13 := by
  unfold kindA
  split <;> simp [Kind.Valid, Ring.maxCapacity]

/-- On a 32-bit target. -/
abbrev start : State 26 13 := init 26 13 prioA kindA

def serve : List (Act 26) := steps 24 ++ polls 12 ++ [.ret] ++ steps 24

/-- The channels of `kindA`. -/
def chans : List (Nat × Nat) := [(0, 0), (0, 1), (0, 2), (1, 0)]

/-- Both tasks are started. When nothing runs, the sender of the ring sends 5 and 6 and overwrites with 7.
While thread 0 reads 6, three pulses are sent to task 1 in an interrupt handler, and
thread 1 preempts thread 0. -/
def sampleA : List (Act 26) :=
  [.exec 0 3] ++ serve ++ [.exec 1 1] ++ serve ++
  calls 0 0 (.ring (.trySend 5)) 4 ++ calls 0 0 (.ring (.trySend 6)) 4 ++ calls 0 0 (.ring (.sendOverwrite 7)) 6 ++ steps 12 ++ polls 2 ++
  calls 1 0 (.pulse (.send 3)) 3 ++ serve ++ polls 6 ++ [.ret] ++ serve ++ serve

/-- As before; then the ring ends with an error, two pulses and a drop follow, the other pulse stream
ends with an error, and the oneshot channel gets its value. -/
def sampleB : List (Act 26) :=
  sampleA ++ calls 0 0 (.ring (.sendErr 9)) 3 ++ serve ++
  calls 0 1 (.pulse (.send 2)) 3 ++ calls 0 1 (.pulse .drop) 2 ++ serve ++ serve ++
  calls 1 0 (.pulse (.sendErr 8)) 3 ++ serve ++
  calls 0 2 (.oneshot (.send 4)) 3 ++ serve

/-- The ring is full. Between the update of the state word and the read of the slot in `poll_next`, an
interrupt handler sends 3. -/
def clash : List (Act 26) :=
  calls 0 0 (.ring (.trySend 1)) 4 ++ calls 0 0 (.ring (.trySend 2)) 4 ++ [.exec 0 1] ++ steps 12 ++ polls 2 ++
  calls 0 0 (.ring (.trySend 3)) 4 ++ polls 1

/-- A value is sent after the poll of the receiver, before the thread has returned. -/
def late : List (Act 26) :=
  [.exec 0 1] ++ steps 12 ++ polls 4 ++ calls 0 0 (.ring (.trySend 1)) 4 ++ serve

/-- When nothing runs, every task that was started has completed, or reads a channel whose sender is
still there and has got everything that was sent to it, provided that no thread is woken at a
level at which a thread runs or is preempted, and, for the values of a ring, that the two
ends never worked on the same slot. The full property has neither restriction; it is refuted
by `C89_false` and `C89_false_clash`. -/
theorem C89_no_task_stuck_partial {count : Nat} (hc : count ≤ 32) {prio : Nat → Nat} (hp : ∀ t, prio t < 27) {kind : Nat → Nat → Kind}
    (hk : ∀ q i, (kind q i).Valid k) {acts : List (Act n)} (hn : AlwaysAct count (NoSame count) (init n k prio kind) acts) {s : State n k}
    (hr : run count (init n k prio kind) acts = some s) (hidle : Idle s) :
    ∀ q, q < s.made → (s.task q).live = true → (s.task q).done = true ∨
      (Waiting s q ∧ (((s.chan q (s.task q).pos).isRing = true → Always count NoClash (init n k prio kind) acts) →
        (s.chan q (s.task q).pos).Delivered)) := by
  intro q hq hl
  have g := run_inv (N := Always count NoClash (init n k prio kind) acts) hc (init_inv count hp hk) id hr
  have v := run_invI hc hn (init_inv count hp hk) (Soft.init_invI count prio) hr
  obtain ⟨hst, hsn⟩ := hidle
  cases hd : (s.task q).done with
  | true => exact .inl rfl
  | false =>
    right
    rcases g.wait q hq hl hd with ⟨h1, h2⟩ | h | (h | ⟨f, hf, -⟩) | h
    · obtain ⟨h3, h4⟩ := sleep_waits (g.fit q (s.task q).pos hq) h2 (hsn q (s.task q).pos)
      exact ⟨⟨h1, h3⟩, h4⟩
    · obtain ⟨f, hf, -⟩ := g.bod (s.task q).thr (by intro e; rw [e] at h; simp at h)
      rw [hst] at hf; simp at hf
    · have := Soft.above_empty_irq g.a v (by rw [hst]; simp) (by rw [hst]; simp) (g.thr q hq) (g.a.pr (s.task q).thr) h
      rw [hst] at this
      simp [Soft.running] at this
    · rw [hst] at hf; simp at hf
    · simp at h

/-- Task 0 has got 6 and 7 and waits for more of the ring; task 1 has got its three pulses and waits. -/
example : AlwaysAct 2 (NoSame 2) start sampleA ∧ run 2 start sampleA = some (ran 2 start sampleA) ∧ Idle (ran 2 start sampleA) ∧
    Always 2 NoClash start sampleA ∧
    (ran 2 start sampleA).task 0 = ⟨0, 3, 0, true, false⟩ ∧ (ran 2 start sampleA).task 1 = ⟨1, 1, 0, true, false⟩ :=
  ⟨alwaysActB_sound (noSameB_sound 2) (by decide +kernel), run_ran (by decide +kernel),
    idle_ran chans (by decide +kernel) (by decide +kernel) (by decide +kernel) (by decide +kernel),
    noClash_ran chans (by decide +kernel) (by decide +kernel), by decide +kernel, by decide +kernel⟩

/-- So if moreover all senders have left, all started tasks have completed. -/
theorem C89_all_complete_partial {count : Nat} (hc : count ≤ 32) {prio : Nat → Nat} (hp : ∀ t, prio t < 27) {kind : Nat → Nat → Kind}
    (hk : ∀ q i, (kind q i).Valid k) {acts : List (Act n)} (hn : AlwaysAct count (NoSame count) (init n k prio kind) acts) {s : State n k}
    (hr : run count (init n k prio kind) acts = some s) (hidle : Idle s)
    (hall : ∀ q i, q < s.made → i < (s.task q).len → (s.chan q i).Left) :
    ∀ q, q < s.made → (s.task q).live = true → (s.task q).done = true := by
  intro q hq hl
  rcases C89_no_task_stuck_partial hc hp hk hn hr hidle q hq hl with h | ⟨⟨h1, h2⟩, -⟩
  · exact h
  · exact absurd (hall q _ hq h1) h2

/-- What the receiver of a channel has got. -/
def gotten : Ch n k → List Nat × List Nat
  | .oneshot c => (Oneshot.received c.log, [])
  | .pulse c => ([Pulse.recvTotal c.log], Pulse.recvErrs c.log)
  | .ring _ c => (Ring.received c.log, Ring.recvErrs c.log)

/-- The sender has left (a test). -/
def leftB : Ch n k → Bool
  | .oneshot c => decide (Oneshot.sends c.log ≠ [] ∨ .sDropped ∈ c.log)
  | .pulse c => decide (Pulse.errs c.log ≠ [] ∨ .sDropped ∈ c.log)
  | .ring _ c => decide (Ring.errs c.log ≠ [] ∨ .sDropped ∈ c.log)

theorem leftB_sound (c : Ch n k) (h : leftB c = true) : c.Left := by
  cases c <;> (simp only [leftB, decide_eq_true_eq] at h; exact h)

theorem left_all {s : State n k} {l : List (Nat × Nat)} (h : l.all (fun p => leftB (s.chan p.1 p.2)) = true) (p : Nat × Nat) (hp : p ∈ l) :
    (s.chan p.1 p.2).Left :=
  leftB_sound _ (List.all_eq_true.1 h p hp)

/-- At the end of `sampleB` all senders have left. -/
theorem sampleB_left : ∀ p ∈ chans, ((ran 2 start sampleB).chan p.1 p.2).Left := by
  have h : chans.all (fun p => leftB ((ran 2 start sampleB).chan p.1 p.2)) = true := by decide +kernel
  generalize ran 2 start sampleB = s at h ⊢
  exact left_all h

example : AlwaysAct 2 (NoSame 2) start sampleB ∧ run 2 start sampleB = some (ran 2 start sampleB) ∧ Idle (ran 2 start sampleB) ∧
    (ran 2 start sampleB).made = 2 ∧ ((ran 2 start sampleB).task 0).len = 3 ∧ ((ran 2 start sampleB).task 1).len = 1 ∧
    ((ran 2 start sampleB).task 0).live = true :=
  ⟨alwaysActB_sound (noSameB_sound 2) (by decide +kernel), run_ran (by decide +kernel),
    idle_ran chans (by decide +kernel) (by decide +kernel) (by decide +kernel) (by decide +kernel), by decide +kernel,
    by decide +kernel, by decide +kernel, by decide +kernel⟩

/-- A task goes past a channel only when the sender has left; it completes only after all of its
channels. -/
theorem C89_read_to_end {count : Nat} (hc : count ≤ 32) {prio : Nat → Nat} (hp : ∀ t, prio t < 27) {kind : Nat → Nat → Kind}
    (hk : ∀ q i, (kind q i).Valid k) {acts : List (Act n)} {s : State n k} (hr : run count (init n k prio kind) acts = some s) {q : Nat}
    (hq : q < s.made) :
    (∀ i, i < (s.task q).pos → (s.chan q i).Left) ∧ ((s.task q).done = true → (s.task q).pos = (s.task q).len) := by
  have g := run_inv (N := False) hc (init_inv count hp hk) False.elim hr
  exact ⟨fun i hi => (over_delivered (g.fit q i hq) (g.prv q i hq hi)).1, g.fin q hq⟩

/-- A task that goes past a channel has got everything that was sent to it, for the values of a ring
provided that the two ends never worked on the same slot. The full property does not have the
restriction; it is refuted by `C89_false_clash`. -/
theorem C89_delivered_partial {count : Nat} (hc : count ≤ 32) {prio : Nat → Nat} (hp : ∀ t, prio t < 27) {kind : Nat → Nat → Kind}
    (hk : ∀ q i, (kind q i).Valid k) {acts : List (Act n)} {s : State n k} (hr : run count (init n k prio kind) acts = some s) {q i : Nat}
    (hq : q < s.made) (hi : i < (s.task q).pos) (hcl : (s.chan q i).isRing = true → Always count NoClash (init n k prio kind) acts) :
    (s.chan q i).Delivered := by
  have g := run_inv (N := Always count NoClash (init n k prio kind) acts) hc (init_inv count hp hk) id hr
  exact (over_delivered (g.fit q i hq) (g.prv q i hq hi)).2 hcl

example : run 2 start sampleB = some (ran 2 start sampleB) ∧ Always 2 NoClash start sampleB ∧
    (ran 2 start sampleB).task 0 = ⟨0, 3, 3, true, true⟩ ∧ (ran 2 start sampleB).task 1 = ⟨1, 1, 1, true, true⟩ ∧
    chans.map (fun p => gotten ((ran 2 start sampleB).chan p.1 p.2)) = [([6, 7], [9]), ([2], []), ([4], []), ([3], [8])] :=
  ⟨run_ran (by decide +kernel), noClash_ran chans (by decide +kernel) (by decide +kernel), by decide +kernel, by decide +kernel, by decide +kernel⟩

/-- No history has undefined behaviour or polls a completed future, as long as no end of a channel is
about to release it while the other end has still to access it, and the two ends of no ring
work on the same slot. The full property does not have the restrictions; it is refuted by
`C88_false_release` and `C89_false_clash`. -/
theorem C89_no_fault_partial {count : Nat} (hc : count ≤ 32) {prio : Nat → Nat} (hp : ∀ t, prio t < 27) {kind : Nat → Nat → Kind}
    (hk : ∀ q i, (kind q i).Valid k) {acts : List (Act n)} (ha : Always count AllApart (init n k prio kind) acts)
    (hcl : Always count NoClash (init n k prio kind) acts) : ∃ s, run count (init n k prio kind) acts = some s :=
  run_some hc (init_inv count hp hk) (fun q i => sane_new (hk q i)) hcl ha

example : Always 2 AllApart start sampleB ∧ Always 2 NoClash start sampleB ∧ 600 < sampleB.length :=
  ⟨apart_ran chans (by decide +kernel) (by decide +kernel), noClash_ran chans (by decide +kernel) (by decide +kernel), by decide +kernel⟩

/-- The software threads and the tasks come to rest: from any state that can be reached, there is a number of rounds
after which nothing runs any more, in whatever order the accesses are made. -/
theorem C89_rests {count : Nat} (hc : count ≤ 32) {prio : Nat → Nat} (hp : ∀ t, prio t < 27) {kind : Nat → Nat → Kind}
    (hk : ∀ q i, (kind q i).Valid k) {acts : List (Act n)} {s : State n k} (hr : run count (init n k prio kind) acts = some s) :
    ∃ b, ∀ (rounds : List (List (Act n))) (s' : State n k), (∀ r ∈ rounds, Round r) → b ≤ rounds.length → run count s rounds.flatten = some s' →
      s'.soft.stack = [] :=
  rests hc (run_inv (N := False) hc (init_inv count hp hk) False.elim hr)

/-- Both tasks are started; then the ring gets two values and an error, the two pulse streams and the oneshot channel
get something too, and all senders leave. -/
def sampleE : List (Act 26) :=
  [.exec 0 3] ++ serve ++ [.exec 1 1] ++ serve ++
  calls 0 0 (.ring (.trySend 5)) 4 ++ calls 0 0 (.ring (.trySend 6)) 4 ++ calls 0 0 (.ring (.sendErr 9)) 3 ++
  calls 0 1 (.pulse (.send 2)) 3 ++ calls 0 1 (.pulse .drop) 2 ++ calls 1 0 (.pulse (.sendErr 8)) 3 ++ calls 0 2 (.oneshot (.send 4)) 3

def rounds (j : Nat) : List (List (Act 26)) := List.replicate j [.step, .poll, .ret]

theorem rounds_round (j : Nat) : ∀ r ∈ rounds j, Round r := fun r hr => by rw [List.eq_of_mem_replicate hr]; simp [Round]

/-- Requests are on the stack after `sampleE`. -/
example : run 2 start sampleE = some (ran 2 start sampleE) ∧ (ran 2 start sampleE).soft.stack ≠ [] ∧ ∀ r ∈ rounds 1000, Round r :=
  ⟨run_ran (by decide +kernel), by decide +kernel, rounds_round _⟩

/-- If all senders have left and are in no call any more, all tasks that were started complete after finitely many rounds
and without a fault, and then each of them has got everything that was sent to it, provided that no thread is woken
at a level at which a thread runs or is preempted, and that up to then no end of a channel was about to
release it while the other end had still to access it, and the two ends of no ring worked on the same
slot. The full property does not have the restrictions; it is refuted by `C89_false`,
`C88_false_release` and `C89_false_clash`. -/
theorem C89_live_partial {count : Nat} (hc : count ≤ 32) {prio : Nat → Nat} (hp : ∀ t, prio t < 27) {kind : Nat → Nat → Kind}
    (hk : ∀ q i, (kind q i).Valid k) {acts : List (Act n)} {s : State n k} (hr : run count (init n k prio kind) acts = some s)
    (ha : Always count AllApart (init n k prio kind) acts) (hcl : Always count NoClash (init n k prio kind) acts)
    (hrest : ∀ q i, (s.chan q i).rests = true) (hall : ∀ q i, q < s.made → i < (s.task q).len → (s.chan q i).Left) :
    ∃ b, ∀ rounds : List (List (Act n)), (∀ r ∈ rounds, Round r) → b ≤ rounds.length →
      AlwaysAct count (NoSame count) (init n k prio kind) (acts ++ rounds.flatten) →
      ∃ s', run count (init n k prio kind) (acts ++ rounds.flatten) = some s' ∧
        ∀ q, q < s.made → (s.task q).live = true → (s'.task q).done = true ∧ ∀ i, i < (s.task q).len → (s'.chan q i).Delivered := by
  obtain ⟨b, hb⟩ := C89_rests hc hp hk hr
  refine ⟨b, fun rounds hro hl hn => ?_⟩
  have hap : ∀ {P : State n k → Prop}, (∀ s : State n k, (∀ q i, (s.chan q i).rests = true) → P s) → Always count P (init n k prio kind) acts →
      Always count P (init n k prio kind) (acts ++ rounds.flatten) := fun hP h0 => always_append h0 fun s1 h1 => by
    rw [hr, Option.some.injEq] at h1
    subst h1
    exact rest_always hP (rounds_own hro) hrest
  have hcl' := hap (P := NoClash) (fun s h q i => rests_noClash (h q i)) hcl
  obtain ⟨s', h⟩ := C89_no_fault_partial hc hp hk (hap (P := AllApart) (fun s h q i => rests_apart (h q i)) ha) hcl'
  have h2 := h
  rw [run_append hr] at h2
  have kp := rounds_kept (rounds_own hro) h2
  refine ⟨s', h, fun q hq hl' => ?_⟩
  have hd := C89_all_complete_partial hc hp hk hn h ⟨hb rounds s' hro hl h2, fun q i => by rw [kp.snd]; exact hrest q i⟩
    (fun q i hq hi => kp.left q i (hall q i (kp.made ▸ hq) (kp.len q ▸ hi))) q (kp.made ▸ hq) (kp.live q hl')
  have hpos := (C89_read_to_end hc hp hk h (kp.made ▸ hq)).2 hd
  exact ⟨hd, fun i hi => C89_delivered_partial hc hp hk h (kp.made ▸ hq) (by rw [hpos, kp.len]; exact hi) fun _ => hcl'⟩

theorem left_two {s : State n k} (hm : s.made = 2) (h0 : (s.task 0).len = 3) (h1 : (s.task 1).len = 1) (h : ∀ p ∈ chans, (s.chan p.1 p.2).Left) (q i : Nat)
    (hq : q < s.made) (hi : i < (s.task q).len) : (s.chan q i).Left := by
  refine h (q, i) ?_
  rw [hm] at hq
  have : q = 0 ∨ q = 1 := by omega
  rcases this with rfl | rfl
  · rw [h0] at hi
    have : i = 0 ∨ i = 1 ∨ i = 2 := by omega
    rcases this with rfl | rfl | rfl <;> simp [chans]
  · rw [h1] at hi
    have : i = 0 := by omega
    subst this
    simp [chans]

theorem sampleE_left : ∀ p ∈ chans, ((ran 2 start sampleE).chan p.1 p.2).Left := by
  have h : chans.all (fun p => leftB ((ran 2 start sampleE).chan p.1 p.2)) = true := by decide +kernel
  generalize ran 2 start sampleE = s at h ⊢
  exact left_all h

theorem sampleE_rests : ∀ q i, ((ran 2 start sampleE).chan q i).rests = true := by
  intro q i
  by_cases hl : (q, i) ∈ chans
  · have h2 : chans.all (fun p => ((ran 2 start sampleE).chan p.1 p.2).rests) = true := by decide +kernel
    exact List.all_eq_true.1 h2 _ hl
  · exact quiet_rests (run_quiet (l := chans) (by decide +kernel) (fun q i _ => new_quiet (kindA q i)) (run_ran (by decide +kernel)) q i hl)

/-- The hypotheses hold for any number of rounds, from 150 on, after `sampleE`. -/
example (j : Nat) : run 2 start sampleE = some (ran 2 start sampleE) ∧ Always 2 AllApart start sampleE ∧ Always 2 NoClash start sampleE ∧
    (∀ q i, ((ran 2 start sampleE).chan q i).rests = true) ∧ ((ran 2 start sampleE).task 0).done = false ∧
    (∀ q i, q < (ran 2 start sampleE).made → i < ((ran 2 start sampleE).task q).len → ((ran 2 start sampleE).chan q i).Left) ∧
    AlwaysAct 2 (NoSame 2) start (sampleE ++ (rounds 150).flatten ++ (rounds j).flatten) := by
  have h : run 2 start (sampleE ++ (rounds 150).flatten) = some (ran 2 start (sampleE ++ (rounds 150).flatten)) := run_ran (by decide +kernel)
  have hi : (ran 2 start (sampleE ++ (rounds 150).flatten)).soft.stack = [] := by decide +kernel
  refine ⟨run_ran (by decide +kernel), apart_ran chans (by decide +kernel) (by decide +kernel), noClash_ran chans (by decide +kernel) (by decide +kernel),
    sampleE_rests, by decide +kernel, left_two (by decide +kernel) (by decide +kernel) (by decide +kernel) sampleE_left,
    alwaysAct_append (alwaysActB_sound (noSameB_sound 2) (by decide +kernel)) fun s' hs => idle_noSame ?_ (rounds_own (rounds_round j))⟩
  generalize ran 2 start (sampleE ++ (rounds 150).flatten) = x at h hi
  rw [h, Option.some.injEq] at hs; exact hs ▸ hi

/-- A value that is sent after the poll of its receiver, but before the thread returns, does not
arrive: nothing runs, and the task has got nothing. -/
theorem C89_false : ∃ (count : Nat) (prio : Nat → Nat) (kind : Nat → Nat → Kind) (acts : List (Act 26)) (s : State 26 13) (c : Ring.State 13 Nat Nat),
    count ≤ 32 ∧ (∀ t, prio t < 27) ∧ (∀ q i, (kind q i).Valid 13) ∧ Always count AllApart (init 26 13 prio kind) acts ∧
    Always count NoClash (init 26 13 prio kind) acts ∧ run count (init 26 13 prio kind) acts = some s ∧ Idle s ∧ s.made = 1 ∧
    s.task 0 = ⟨0, 1, 0, true, false⟩ ∧ s.chan 0 0 = .ring 2 c ∧ Ring.pushed c.log = [1] ∧ Ring.received c.log = [] := by
  refine ⟨1, prioA, kindA, late, ran 1 start late, (match (ran 1 start late).chan 0 0 with | .ring _ c => c | _ => Ring.init 13 Nat Nat), by omega,
    prioA_lt, kindA_valid, apart_ran [(0, 0)] (by decide +kernel) (by decide +kernel), noClash_ran [(0, 0)] (by decide +kernel) (by decide +kernel),
    run_ran (by decide +kernel), idle_ran [(0, 0)] (by decide +kernel) (by decide +kernel) (by decide +kernel) (by decide +kernel),
    by decide +kernel, by decide +kernel, ?_, by decide +kernel, by decide +kernel⟩
  have h : (match (ran 1 start late).chan 0 0 with | .ring cap _ => cap | _ => 0) = 2 := by decide +kernel
  cases e : (ran 1 start late).chan 0 0 with
  | oneshot c => rw [e] at h; simp at h
  | pulse c => rw [e] at h; simp at h
  | ring cap c =>
    rw [e] at h
    have h : cap = 2 := h
    subst h
    rfl

/-- An interrupt handler that sends to a full ring while the task is between the update of the state
word and the read of the slot makes the task read the newest value instead of the oldest; the
oldest is lost, and when the task goes on it reads an empty slot. The waking rule of
`C89_no_task_stuck_partial` is kept. -/
theorem C89_false_clash : ∃ (count : Nat) (prio : Nat → Nat) (kind : Nat → Nat → Kind) (acts : List (Act 26)) (s : State 26 13),
    count ≤ 32 ∧ (∀ t, prio t < 27) ∧ (∀ q i, (kind q i).Valid 13) ∧ Always count AllApart (init 26 13 prio kind) acts ∧
    AlwaysAct count (NoSame count) (init 26 13 prio kind) acts ∧ run count (init 26 13 prio kind) acts = some s ∧ (s.chan 0 0).isRing = true ∧
    (s.chan 0 0).rests = true ∧ (match s.chan 0 0 with | .ring _ c => Ring.pushed c.log = [1, 2, 3] ∧ Ring.received c.log = [3] | _ => False) ∧
    (∃ m, run count s (List.replicate m .poll) = none) := by
  refine ⟨2, prioA, kindA, clash, ran 2 start clash, by omega, prioA_lt, kindA_valid, apart_ran [(0, 0)] (by decide +kernel) (by decide +kernel),
    alwaysActB_sound (noSameB_sound 2) (by decide +kernel), run_ran (by decide +kernel), by decide +kernel, by decide +kernel, ?_,
    8, Option.isNone_iff_eq_none.1 (by decide +kernel)⟩
  have h : (match (ran 2 start clash).chan 0 0 with | .ring _ c => decide (Ring.pushed c.log = [1, 2, 3] ∧ Ring.received c.log = [3]) | _ => false) = true := by
    decide +kernel
  split at h
  · exact of_decide_eq_true h
  · simp at h

end Verif.Exec.Str
