import Verif.Exec.LockRun
import Verif.Exec.LockPot
import Verif.Mutex.Props
/-! # Properties of futures that share a mutex (C90)

`prio` gives the priorities and `fired` the signals that have occurred in the beginning; `acts` is any
history of accesses of the software threads, of the tasks they run and of the other clients of
the mutex. -/
namespace Verif.Exec.Lock
open Verif.Mutex (holders waits)

def serve (n : Nat) : List Act := steps 24 ++ polls n ++ [.ret] ++ steps 24

/-- Task 0 takes the lock and sleeps with the guard; task 1, with the higher priority, finds the
lock taken. -/
def sampleA : List Act := [.exec 0 1] ++ serve 8 ++ [.exec 1 2] ++ serve 8

/-- Then the signal of task 0 occurs: it unlocks, is preempted by task 1, which takes the lock and sleeps
with the guard, and goes on. The signals of task 1 occur while no thread runs. -/
def sampleB : List Act :=
  sampleA ++ [.signal 0 0] ++ steps 24 ++ polls 9 ++ serve 8 ++ polls 4 ++ [.ret] ++ steps 24 ++ [.signal 1 0] ++ serve 20 ++ [.signal 1 1] ++ serve 20

/-- Another client has the lock when task 0 asks for it. -/
def sampleC : List Act := [.grab 0] ++ works 0 1 ++ [.exec 0 1] ++ serve 8

/-- It drops its guard: task 0 is woken and takes the lock. -/
def sampleD : List Act := sampleC ++ [.drop 0] ++ works 0 9 ++ serve 16

/-! ## Nothing is forgotten -/

/-- What holds when nothing runs. -/
theorem idle_tasks {count : Nat} (hc : count ≤ 32) {prio : Nat → Nat} (hp : ∀ t, prio t < 27) {fired : Nat → Nat → Bool} {acts : List Act}
    (hn : Always count (NoSame count) (init prio fired) acts) {s : State} (hr : run count (init prio fired) acts = some s) (hidle : Idle s) :
    Mutex.Quiet s.mutex ∧ (∀ k, k < s.made → (s.task k).live = true → (s.task k).done = true ∨ SleepSig s k ∨ SleepLock s.mutex k) ∧
      ∀ k, (s.mutex.client (me k)).fut = true → Mutex.wokenSince (me k) (me k) s.mutex.log = false := by
  have i := run_inv hc (init_inv count hp fired) hr
  have v := run_invI hc hn (init_inv count hp fired) (Soft.init_invI count prio) hr
  obtain ⟨hst, hx⟩ := hidle
  have noq : ∀ t k, ¬k ∈ s.queue t := by
    intro t k h
    obtain ⟨f, hf, -⟩ := i.bod t (by intro e; rw [e] at h; simp at h)
    rw [hst] at hf; simp at hf
  have nod : ∀ k, k < s.made → ¬Exec.Due s.soft (s.task k).thr := by
    rintro k hk (h | ⟨f, hf, -⟩)
    · have := Soft.above_empty_irq i.a v (by rw [hst]; simp) (by rw [hst]; simp) (i.thr k hk) (i.a.pr _) h
      rw [hst] at this
      simp [Soft.running] at this
    · rw [hst] at hf; simp at hf
  refine ⟨?_, ?_, ?_⟩
  · intro p
    by_cases e : p % 2 = 0
    · have e : p = me (p / 2) := by simp only [me]; omega
      rw [e]
      by_cases hk : p / 2 < s.made
      · exact Classical.byContradiction fun h => noq _ _ (i.busy _ hk h)
      · rw [(i.new _ (.inl (by omega))).1]
    · have e : p = ext (p / 2) := by simp only [ext]; omega
      rw [e]; exact hx _
  · intro k hk hl
    cases hd : (s.task k).done with
    | true => exact .inl rfl
    | false =>
      right
      rcases i.wait k hk hl hd with h | h | h | h | h
      · exact .inl h
      · exact .inr h
      · exact absurd h (noq _ _)
      · exact absurd h (nod k hk)
      · simp at h
  · intro k hf
    have hk : k < s.made := by
      by_cases hk : k < s.made
      · exact hk
      · rw [(i.new k (.inl (by omega))).1] at hf; simp at hf
    cases hw : Mutex.wokenSince (me k) (me k) s.mutex.log
    · rfl
    · rcases i.wok k hk hf hw with h | h | h
      · exact absurd h.1 (noq _ _)
      · exact absurd h (nod k hk)
      · simp at h

/-- **C90**, for histories in which no thread is woken whose priority is that of a running or preempted thread, and
no second `try_lock` of a poll falls into an `unlock`. Missing: the other histories, for which it is false
(`C90_false_same`, `C90_false_missed`); and histories that fault (`C90_false_free`).

When nothing runs, every task that was started has completed, or has the guard and waits for a signal
that has not occurred, or waits for the lock, and then somebody else has the guard: another client, or a
task that waits for a signal that has not occurred. -/
theorem C90_no_task_stuck_partial {count : Nat} (hc : count ≤ 32) {prio : Nat → Nat} (hp : ∀ t, prio t < 27) {fired : Nat → Nat → Bool}
    {acts : List Act} (hn : Always count (NoSame count) (init prio fired) acts) (ht : Always count Timely (init prio fired) acts) {s : State}
    (hr : run count (init prio fired) acts = some s) (hidle : Idle s) :
    ∀ k, k < s.made → (s.task k).live = true → (s.task k).done = true ∨ Waiting s k ∨
      (waits (me k) s.mutex.log = true ∧ ∃ p ∈ holders s.mutex.log, (∃ q, p = ext q) ∨ ∃ j, j ≠ k ∧ p = me j ∧ Waiting s j) := by
  obtain ⟨hq, hs, hw⟩ := idle_tasks hc hp hn hr hidle
  have i := run_inv hc (init_inv count hp fired) hr
  have mi := i.reach.inv
  have mk := i.reach.invK
  have mj := run_invJ hc ht (init_inv count hp fired) Mutex.init_invJ hr
  have guard : ∀ p, (s.mutex.client p).guards ≠ 0 → p ∈ holders s.mutex.log := by
    intro p h
    have := mi.g.gd p
    exact List.count_pos_iff.1 (by omega)
  have sig : ∀ k, k < s.made → SleepSig s k → Waiting s k := fun k hk h =>
    ⟨guard _ h.own, i.rnd k hk (.inr (.inr h.own)), h.fired⟩
  -- no waiting future was chosen to be woken
  have unt : ∀ p n, (s.mutex.client p).waiter = some n → (s.mutex.node n).taken = true → False := by
    intro p n hp htk
    have hf : (s.mutex.client p).fut = true := by
      cases e : (s.mutex.client p).fut
      · rw [(mi.n.cl p).fut e] at hp; simp at hp
      · rfl
    by_cases e : p % 2 = 0
    · have e : p = me (p / 2) := by simp only [me]; omega
      rw [e] at hp hf
      rcases mk.wake _ n hp htk (by rw [hq]; rfl) with ⟨r, h⟩ | h
      · rw [hq r] at h; simp [Mutex.Pc.waking] at h
      · rw [hw _ hf] at h; simp at h
    · have e : p = ext (p / 2) := by simp only [ext]; omega
      rw [e, i.xt] at hf; simp at hf
  intro k hk hl
  rcases hs k hk hl with h | h | h
  · exact .inl h
  · exact .inr (.inl (sig k hk h))
  · obtain ⟨n, hn⟩ := Option.ne_none_iff_exists'.1 h.wtr
    refine .inr (.inr ⟨(Mutex.waits_waiter mi hq).2 ⟨n, hn⟩, ?_⟩)
    have htk : (s.mutex.node n).taken = false := by
      cases e : (s.mutex.node n).taken
      · rfl
      · exact (unt _ n hn e).elim
    have hlk : s.mutex.locked = true := by
      cases e : s.mutex.locked
      · rcases mj (.inl e) (me k) n ⟨hn, htk, by rw [hq]; simp⟩ with ⟨o, ho⟩ | ⟨q, h⟩
        · rw [hq o] at ho; simp [Mutex.Pc.scanRest] at ho
        · rcases h with ⟨m, hm, ht⟩ | ⟨w, e⟩ | e | ⟨m, e, _⟩ | e
          · exact (unt q m hm ht).elim
          all_goals rw [hq q] at e; simp at e
      · rfl
    obtain ⟨p, hp⟩ := mi.o.locked.1 hlk
    have hg : (s.mutex.client p).guards ≠ 0 := by
      simp only [Mutex.own, hq p, Mutex.Pc.unl] at hp; omega
    refine ⟨p, guard p hg, ?_⟩
    by_cases e : p % 2 = 0
    · have e : p = me (p / 2) := by simp only [me]; omega
      right
      generalize p / 2 = j at e
      subst e
      have hjn : j < s.made ∧ (s.task j).live = true := by
        refine Classical.byContradiction fun hc => hg ?_
        rw [(i.new j ?_).1]
        by_cases hj : j < s.made
        · exact .inr (by cases e : (s.task j).live <;> simp_all)
        · exact .inl (by omega)
      refine ⟨j, ?_, rfl, ?_⟩
      · rintro rfl; exact hg h.own
      rcases hs j hjn.1 hjn.2 with h' | h' | h'
      · have := i.fin j hjn.1 h'
        have := i.rnd j hjn.1 (.inr (.inr hg))
        omega
      · exact sig j hjn.1 h'
      · exact absurd h'.own hg
    · exact .inl ⟨p / 2, by simp only [ext]; omega⟩

/-- Task 0 waits for its signal and task 1 for the lock. -/
example : Always 2 (NoSame 2) (init prioA quiet) sampleA ∧ Always 2 Timely (init prioA quiet) sampleA ∧
    run 2 (init prioA quiet) sampleA = some (ran 2 prioA quiet sampleA) ∧ Idle (ran 2 prioA quiet sampleA) ∧
    Waiting (ran 2 prioA quiet sampleA) 0 ∧ waits (me 1) (ran 2 prioA quiet sampleA).mutex.log = true :=
  ⟨noSame_of 4 (by decide +kernel), timely_of 4 (by decide +kernel), run_ran (by decide +kernel),
    idle_of 4 (by decide +kernel) (by decide +kernel) (by decide +kernel) (by decide +kernel), by unfold Waiting; decide +kernel, by decide +kernel⟩

/-- Task 0 waits for the lock that another client has. -/
example : Always 2 (NoSame 2) (init prioA loud) sampleC ∧ Always 2 Timely (init prioA loud) sampleC ∧
    run 2 (init prioA loud) sampleC = some (ran 2 prioA loud sampleC) ∧ Idle (ran 2 prioA loud sampleC) ∧
    holders (ran 2 prioA loud sampleC).mutex.log = [ext 0] ∧ waits (me 0) (ran 2 prioA loud sampleC).mutex.log = true :=
  ⟨noSame_of 4 (by decide +kernel), timely_of 4 (by decide +kernel), run_ran (by decide +kernel),
    idle_of 4 (by decide +kernel) (by decide +kernel) (by decide +kernel) (by decide +kernel), by decide +kernel, by decide +kernel⟩

/-- **C90**, under the same conditions, with the same histories missing: if moreover all signals have occurred and no other client has the guard, all started tasks have completed. -/
theorem C90_all_complete_partial {count : Nat} (hc : count ≤ 32) {prio : Nat → Nat} (hp : ∀ t, prio t < 27) {fired : Nat → Nat → Bool}
    {acts : List Act} (hn : Always count (NoSame count) (init prio fired) acts) (ht : Always count Timely (init prio fired) acts) {s : State}
    (hr : run count (init prio fired) acts = some s) (hidle : Idle s) (hx : ∀ p, ext p ∉ holders s.mutex.log)
    (hall : ∀ k i, k < s.made → i < (s.task k).len → s.fired k i = true) :
    ∀ k, k < s.made → (s.task k).live = true → (s.task k).done = true := by
  have i := run_inv hc (init_inv count hp fired) hr
  have no : ∀ k, ¬Waiting s k := by
    intro k h
    have hk : k < s.made := by
      by_cases hk : k < s.made
      · exact hk
      · have h1 := List.count_pos_iff.2 h.1
        rw [i.reach.inv.g.gd, (i.new k (.inl (by omega))).1] at h1
        simp at h1
    have := hall k _ hk h.2.1
    rw [h.2.2] at this; simp at this
  intro k hk hl
  rcases C90_no_task_stuck_partial hc hp hn ht hr hidle k hk hl with h | h | ⟨-, p, hp, ⟨q, rfl⟩ | ⟨j, -, -, h⟩⟩
  · exact h
  · exact absurd h (no k)
  · exact absurd hp (hx q)
  · exact absurd h (no j)

/-- All their signals have occurred and both tasks have completed. -/
example : Always 2 (NoSame 2) (init prioA quiet) sampleB ∧ Always 2 Timely (init prioA quiet) sampleB ∧
    run 2 (init prioA quiet) sampleB = some (ran 2 prioA quiet sampleB) ∧ Idle (ran 2 prioA quiet sampleB) ∧
    holders (ran 2 prioA quiet sampleB).mutex.log = [] ∧ (ran 2 prioA quiet sampleB).made = 2 ∧
    (ran 2 prioA quiet sampleB).task 0 = ⟨0, 1, 1, true, true⟩ ∧ (ran 2 prioA quiet sampleB).task 1 = ⟨1, 2, 2, true, true⟩ ∧
    (ran 2 prioA quiet sampleB).fired 0 0 = true ∧ (ran 2 prioA quiet sampleB).fired 1 0 = true ∧ (ran 2 prioA quiet sampleB).fired 1 1 = true :=
  ⟨noSame_of 4 (by decide +kernel), timely_of 4 (by decide +kernel), run_ran (by decide +kernel),
    idle_of 4 (by decide +kernel) (by decide +kernel) (by decide +kernel) (by decide +kernel), by decide +kernel, by decide +kernel, by decide +kernel,
    by decide +kernel, by decide +kernel, by decide +kernel, by decide +kernel⟩

/-- Another client had the lock and task 0 has completed after it. -/
example : Always 2 (NoSame 2) (init prioA loud) sampleD ∧ Always 2 Timely (init prioA loud) sampleD ∧
    run 2 (init prioA loud) sampleD = some (ran 2 prioA loud sampleD) ∧ Idle (ran 2 prioA loud sampleD) ∧
    holders (ran 2 prioA loud sampleD).mutex.log = [] ∧ (ran 2 prioA loud sampleD).made = 1 ∧
    (ran 2 prioA loud sampleD).task 0 = ⟨0, 1, 1, true, true⟩ :=
  ⟨noSame_of 4 (by decide +kernel), timely_of 4 (by decide +kernel), run_ran (by decide +kernel),
    idle_of 4 (by decide +kernel) (by decide +kernel) (by decide +kernel) (by decide +kernel), by decide +kernel, by decide +kernel, by decide +kernel⟩

/-! ## What holds in every history -/

/-- At most one guard exists, whatever the threads do. -/
theorem C90_mutual_exclusion {count : Nat} (hc : count ≤ 32) {prio : Nat → Nat} (hp : ∀ t, prio t < 27) {fired : Nat → Nat → Bool}
    {acts : List Act} {s : State} (hr : run count (init prio fired) acts = some s) : (holders s.mutex.log).length ≤ 1 := by
  obtain ⟨as, -, h⟩ := (run_inv hc (init_inv count hp fired) hr).reach
  exact Mutex.C36_mutual_exclusion h

example : run 2 (init prioA quiet) sampleA = some (ran 2 prioA quiet sampleA) ∧ holders (ran 2 prioA quiet sampleA).mutex.log = [me 0] :=
  ⟨run_ran (by decide +kernel), by decide +kernel⟩

/-- A task that has completed has had the lock exactly as often as it was to take it, and has no guard
and no open future. -/
theorem C90_done_rounds {count : Nat} (hc : count ≤ 32) {prio : Nat → Nat} (hp : ∀ t, prio t < 27) {fired : Nat → Nat → Bool}
    {acts : List Act} {s : State} (hr : run count (init prio fired) acts = some s) {k : Nat} (hk : k < s.made) (hd : (s.task k).done = true) :
    acquisitions (me k) s.mutex.log = (s.task k).len ∧ me k ∉ holders s.mutex.log ∧ (s.mutex.client (me k)).fut = false := by
  have i := run_inv hc (init_inv count hp fired) hr
  have hf := i.fin k hk hd
  have no : ¬((s.mutex.client (me k)).pc ≠ .idle ∨ (s.mutex.client (me k)).fut = true ∨ (s.mutex.client (me k)).guards ≠ 0) := fun h => by
    have := i.rnd k hk h; omega
  simp only [ne_eq, not_or, Classical.not_not, Bool.not_eq_true] at no
  obtain ⟨h1, h2, h3⟩ := no
  refine ⟨?_, ?_, h2⟩
  · rw [i.acq k hk, hf]
    simp [late, Mutex.own, h1, h3, Mutex.Pc.unl, waking]
  · intro h
    have := List.count_pos_iff.2 h
    rw [i.reach.inv.g.gd, h3] at this
    omega

example : run 2 (init prioA quiet) sampleB = some (ran 2 prioA quiet sampleB) ∧ ((ran 2 prioA quiet sampleB).task 1).done = true ∧
    acquisitions (me 1) (ran 2 prioA quiet sampleB).mutex.log = 2 :=
  ⟨run_ran (by decide +kernel), by decide +kernel, by decide +kernel⟩

/-- **C90**, no fault, if no node is released while a future refers to it. Missing: the other histories, for
which it is false (`C90_false_free`). -/
theorem C90_no_fault_partial {count : Nat} (hc : count ≤ 32) {prio : Nat → Nat} (hp : ∀ t, prio t < 27) {fired : Nat → Nat → Bool}
    {acts : List Act} (hs : Always count Prompt (init prio fired) acts) : ∃ s, run count (init prio fired) acts = some s :=
  run_some hc (init_inv count hp fired) Mutex.init_invP hs

example : Always 2 Prompt (init prioA quiet) sampleB := prompt_of 4 (by decide +kernel)

/-! ## The threads come to rest -/

/-- From every state that is reached, after finitely many rounds of accesses no thread runs and no request is
left, whatever the tasks, the priorities and the other clients of the mutex did before: no poll and no unlock is repeated
for ever. -/
theorem C90_rests {count : Nat} (hc : count ≤ 32) {prio : Nat → Nat} (hp : ∀ t, prio t < 27) {fired : Nat → Nat → Bool}
    {acts : List Act} {s : State} (hr : run count (init prio fired) acts = some s) :
    ∃ m, ∀ (rounds : List (List Act)) (s' : State), (∀ r ∈ rounds, Round r) → m ≤ rounds.length → run count s rounds.flatten = some s' →
      s'.soft.stack = [] :=
  rests hc (run_inv hc (init_inv count hp fired) hr)

/-- Task 0 has the guard and task 1 waits for it; then all signals occur. -/
def sampleE : List Act := sampleA ++ [.signal 0 0, .signal 1 0, .signal 1 1]

def rounds (n : Nat) : List (List Act) := List.replicate n [.step, .poll, .ret]

theorem rounds_round (n : Nat) : ∀ r ∈ rounds n, Round r := fun r hr => by rw [List.eq_of_mem_replicate hr]; simp [Round]

/-- A request is on the stack after `sampleE`. -/
example : run 2 (init prioA quiet) sampleE = some (ran 2 prioA quiet sampleE) ∧ (ran 2 prioA quiet sampleE).soft.stack ≠ [] ∧ ∀ r ∈ rounds 1000, Round r :=
  ⟨run_ran (by decide +kernel), by decide +kernel, rounds_round _⟩

/-- **C90**, all tasks that were started complete after finitely many rounds and without a fault, if all signals have
occurred and no other client has the guard or is in a call; for histories in which no thread is woken whose
priority is that of a running or preempted thread, no second `try_lock` of a poll falls into an `unlock`, and no node is released
while a future refers to it. Missing: the other histories, for which it is false (`C90_false_same`,
`C90_false_missed`, `C90_false_free`). -/
theorem C90_live_partial {count : Nat} (hc : count ≤ 32) {prio : Nat → Nat} (hp : ∀ t, prio t < 27) {fired : Nat → Nat → Bool}
    {acts : List Act} {s : State} (hr : run count (init prio fired) acts = some s)
    (hx : ∀ p, (s.mutex.client (ext p)).pc = .idle ∧ ext p ∉ holders s.mutex.log)
    (hall : ∀ k i, k < s.made → i < (s.task k).len → s.fired k i = true) :
    ∃ m, ∀ rounds : List (List Act), (∀ r ∈ rounds, Round r) → m ≤ rounds.length →
      Always count (NoSame count) (init prio fired) (acts ++ rounds.flatten) → Always count Timely (init prio fired) (acts ++ rounds.flatten) →
      Always count Prompt (init prio fired) (acts ++ rounds.flatten) →
      ∃ s', run count (init prio fired) (acts ++ rounds.flatten) = some s' ∧
        ∀ k, k < s.made → (s.task k).live = true → (s'.task k).done = true ∧ acquisitions (me k) s'.mutex.log = (s.task k).len := by
  obtain ⟨m, hm⟩ := C90_rests hc hp hr
  refine ⟨m, fun rounds hro hl hn ht hs => ?_⟩
  obtain ⟨s', h⟩ := C90_no_fault_partial hc hp hs
  have h2 := h
  rw [run_append hr] at h2
  have kp := round_kept (rounds_own hro) h2
  have i := run_inv hc (init_inv count hp fired) hr
  have i' := run_inv hc (init_inv count hp fired) h
  have hx' : ∀ p, ext p ∉ holders s'.mutex.log := fun p hm => by
    have h0 := List.count_eq_zero.2 (hx p).2
    have h1 := List.count_pos_iff.2 hm
    rw [i.reach.inv.g.gd] at h0
    rw [i'.reach.inv.g.gd, kp.ext, h0] at h1
    omega
  refine ⟨s', h, fun k hk hl' => ?_⟩
  have hd := C90_all_complete_partial hc hp hn ht h ⟨hm rounds s' hro hl h2, fun p => by rw [kp.ext]; exact (hx p).1⟩ hx'
    (fun k i hk hi => by rw [kp.fired]; exact hall k i (kp.made ▸ hk) (kp.len k ▸ hi)) k (kp.made ▸ hk) (kp.live k hl')
  exact ⟨hd, by rw [(C90_done_rounds hc hp h (kp.made ▸ hk) hd).1, kp.len]⟩

/-- The hypotheses hold for any number of rounds, from 150 on, after `sampleE`. -/
example (n : Nat) : run 2 (init prioA quiet) sampleE = some (ran 2 prioA quiet sampleE) ∧ (ran 2 prioA quiet sampleE).made = 2 ∧
    ((ran 2 prioA quiet sampleE).task 1).done = false ∧
    (∀ p, ((ran 2 prioA quiet sampleE).mutex.client (ext p)).pc = .idle ∧ ext p ∉ holders (ran 2 prioA quiet sampleE).mutex.log) ∧
    (∀ k i, k < (ran 2 prioA quiet sampleE).made → i < ((ran 2 prioA quiet sampleE).task k).len → (ran 2 prioA quiet sampleE).fired k i = true) ∧
    Always 2 (NoSame 2) (init prioA quiet) (sampleE ++ (rounds 150).flatten ++ (rounds n).flatten) ∧
    Always 2 Timely (init prioA quiet) (sampleE ++ (rounds 150).flatten ++ (rounds n).flatten) ∧
    Always 2 Prompt (init prioA quiet) (sampleE ++ (rounds 150).flatten ++ (rounds n).flatten) := by
  have h : run 2 (init prioA quiet) (sampleE ++ (rounds 150).flatten) = some (ran 2 prioA quiet (sampleE ++ (rounds 150).flatten)) := run_ran (by decide +kernel)
  have hi : (ran 2 prioA quiet (sampleE ++ (rounds 150).flatten)).soft.stack = [] := by decide +kernel
  have hown := rounds_own (rounds_round n)
  have hE : run 2 (init prioA quiet) sampleE = some (ran 2 prioA quiet sampleE) := run_ran (by decide +kernel)
  have hsm := run_small (b := 3) (init_small 3 _ _) (by decide +kernel) hE
  have hho : holders (ran 2 prioA quiet sampleE).mutex.log = [me 0] := by decide +kernel
  have hmade : (ran 2 prioA quiet sampleE).made = 2 := by decide +kernel
  have hfi : ∀ k, k < 2 → ∀ i, i < ((ran 2 prioA quiet sampleE).task k).len → (ran 2 prioA quiet sampleE).fired k i = true := by decide +kernel
  refine ⟨hE, hmade, by decide +kernel, fun p => ⟨?_, ?_⟩, fun k i hk => hfi k (hmade ▸ hk) i,
    always_append (noSame_of 4 (by decide +kernel)) fun s' hs => idle_always idle_noSame ?_ hown,
    always_append (timely_of 4 (by decide +kernel)) fun s' hs => idle_always (fun s a e h p hp => by rw [idle_acting s a e h] at hp; simp at hp) ?_ hown,
    always_append (prompt_of 4 (by decide +kernel)) fun s' hs => idle_always (fun s a e h p hp => by rw [idle_acting s a e h] at hp; simp at hp) ?_ hown⟩
  · by_cases e : p = 0
    · subst e; decide +kernel
    · rw [hsm (ext p) (by simp only [ext]; omega)]
  · rw [hho, List.mem_singleton]; exact (me_ext 0 p).symm
  all_goals rw [h, Option.some.injEq] at hs; exact hs ▸ hi

/-! ## What goes wrong -/

/-- Two tasks of thread 0: task 1 waits while task 0 has the guard; task 0 gets its signal and unlocks, which wakes
the running thread. -/
def same : List Act := [.exec 0 1] ++ serve 8 ++ [.exec 0 1] ++ serve 10 ++ [.signal 0 0] ++ steps 24 ++ polls 14 ++ serve 4

/-- Two tasks of one thread that share a mutex: the second one waits forever for a lock that nobody has, although
its waker was woken. -/
theorem C90_false_same : ∃ (prio : Nat → Nat) (acts : List Act) (s : State), (∀ t, prio t < 27) ∧
    Always 2 Timely (init prio quiet) acts ∧ Always 2 Prompt (init prio quiet) acts ∧ Always 2 Alone (init prio quiet) acts ∧
    run 2 (init prio quiet) acts = some s ∧ Idle s ∧ s.made = 2 ∧
    (s.task 0).thr = (s.task 1).thr ∧ (s.task 1).live = true ∧ (s.task 1).done = false ∧ holders s.mutex.log = [] ∧ s.mutex.locked = false ∧
    waits (me 1) s.mutex.log = true ∧ Mutex.wokenSince (me 1) (me 1) s.mutex.log = true :=
  ⟨prioA, same, ran 2 prioA quiet same, prioA_lt, timely_of 4 (by decide +kernel), prompt_of 4 (by decide +kernel), alone_of 4 (by decide +kernel), run_ran (by decide +kernel),
    idle_of 4 (by decide +kernel) (by decide +kernel) (by decide +kernel) (by decide +kernel), by decide +kernel, by decide +kernel, by decide +kernel,
    by decide +kernel, by decide +kernel, by decide +kernel, by decide +kernel, by decide +kernel⟩

/-- Task 0 unlocks; when it has searched for a waiter and found none, thread 1 preempts it, and task 1 finds the lock
taken and leaves its node. Then task 0 releases the lock. -/
def missed : List Act := [.exec 0 1] ++ serve 8 ++ [.signal 0 0] ++ steps 24 ++ polls 5 ++ [.exec 1 1] ++ serve 10 ++ polls 8 ++ [.ret] ++ serve 2

/-- A task of another priority may wait forever for a lock that nobody has, and is not woken. -/
theorem C90_false_missed : ∃ (prio : Nat → Nat) (acts : List Act) (s : State), (∀ t, prio t < 27) ∧
    Always 2 (NoSame 2) (init prio quiet) acts ∧ Always 2 Prompt (init prio quiet) acts ∧ run 2 (init prio quiet) acts = some s ∧ Idle s ∧
    s.made = 2 ∧ (s.task 1).live = true ∧ (s.task 1).done = false ∧ holders s.mutex.log = [] ∧ s.mutex.locked = false ∧
    waits (me 1) s.mutex.log = true ∧ Mutex.wokenSince (me 1) (me 1) s.mutex.log = false :=
  ⟨prioA, missed, ran 2 prioA quiet missed, prioA_lt, noSame_of 4 (by decide +kernel), prompt_of 4 (by decide +kernel), run_ran (by decide +kernel),
    idle_of 4 (by decide +kernel) (by decide +kernel) (by decide +kernel) (by decide +kernel), by decide +kernel, by decide +kernel, by decide +kernel,
    by decide +kernel, by decide +kernel, by decide +kernel, by decide +kernel⟩

/-- Task 0 of the higher priority has the guard when task 1 asks for the lock; it unlocks, which wakes task 1, and
before the lower priority runs, it takes the lock again and unlocks. -/
def free : List Act :=
  [.exec 1 2] ++ serve 8 ++ [.exec 0 1] ++ serve 10 ++ [.signal 0 1, .signal 0 0] ++ steps 24 ++ polls 9 ++ steps 24 ++ polls 19 ++ [.ret] ++ steps 48

/-- The poll of task 1 that follows uses a node that was released: undefined behaviour, although no two calls on the
mutex overlap and the conditions of `C90_no_task_stuck_partial` hold. -/
theorem C90_false_free : ∃ (prio : Nat → Nat) (acts : List Act) (s : State), (∀ t, prio t < 27) ∧
    Always 2 (NoSame 2) (init prio quiet) acts ∧ Always 2 Timely (init prio quiet) acts ∧ Always 2 Alone (init prio quiet) (acts ++ polls 3) ∧
    run 2 (init prio quiet) acts = some s ∧ run 2 s (polls 3) = none :=
  ⟨prioA, free, ran 2 prioA quiet free, prioA_lt, noSame_of 4 (by decide +kernel), timely_of 4 (by decide +kernel), alone_of 4 (by decide +kernel), run_ran (by decide +kernel), by decide +kernel⟩

end Verif.Exec.Lock
