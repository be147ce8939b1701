import Verif.Mutex.Run
/-! # Properties of the mutex: C36–C39 -/
namespace Verif.Mutex

/-! ## C36 -/

/-- **C36.** At most one guard exists at any time: for every number of clients and
every interleaving of their accesses. -/
theorem C36_mutual_exclusion {acts : List Act} {s : State} (h : run init acts = some s) : (holders s.log).length ≤ 1 := by
  have i := run_inv init_inv h
  refine length_le_one ?_ ?_
  · intro p
    rw [i.g.gd p]
    have := i.o.le p
    simp only [own] at this
    omega
  · intro p q hp hq
    have hp := List.count_pos_iff.2 hp
    have hq := List.count_pos_iff.2 hq
    rw [i.g.gd] at hp hq
    exact i.o.uniq (by simp only [own]; omega) (by simp only [own]; omega)

/-- **C36**, the lock word: while a guard exists, `try_lock` fails. -/
theorem C36_locked_while_held {acts : List Act} {s : State} (h : run init acts = some s) (hh : holders s.log ≠ []) :
    s.locked = true := by
  have i := run_inv init_inv h
  obtain ⟨p, hp⟩ := List.exists_mem_of_ne_nil _ hh
  have hp := List.count_pos_iff.2 hp
  rw [i.g.gd] at hp
  have := i.o.le p
  refine i.o.locked.2 ⟨p, ?_⟩
  simp only [own] at *
  omega

/-- **C36**, the other half: when all clients are between calls and there is no guard,
the lock is free. -/
theorem C36_free_when_unheld {acts : List Act} {s : State} (h : run init acts = some s) (hq : Quiet s)
    (hh : holders s.log = []) : s.locked = false := by
  have i := run_inv init_inv h
  cases hl : s.locked
  · rfl
  · obtain ⟨p, hp⟩ := i.o.locked.1 hl
    have := i.g.gd p
    simp only [hh, List.count_nil] at this
    simp [own, ← this, hq p, Pc.unl] at hp

/-- The hypotheses are met: clients 1 and 2 wait while client 0 has the guard; client 0
releases it, and client 2 gets it. Before, between and after. -/
example :
    let a1 : List Act := [.call 0 .tryLock, .step 0, .call 1 .lock, .call 1 (.poll 1), .step 1, .step 1, .step 1, .call 2 .lock,
      .call 2 (.poll 2), .step 2, .step 2, .step 2]
    let a2 := a1 ++ [.call 0 .unlock] ++ List.replicate 9 (.step 0)
    let a3 := a2 ++ [.call 2 (.poll 2), .step 2, .step 2]
    (∃ s, run init a1 = some s ∧ holders s.log = [0]) ∧ (∃ s, run init a2 = some s ∧ Quiet s ∧ holders s.log = []) ∧
      ∃ s, run init a3 = some s ∧ holders s.log = [2] := by
  intro a1 a2 a3
  have h2 : run init a2 = some (ran a2) := run_ran (by decide +kernel)
  exact ⟨⟨ran a1, run_ran (by decide +kernel), by decide +kernel⟩,
    ⟨ran a2, h2, quiet_of h2 3 (by decide +kernel) (by decide +kernel), by decide +kernel⟩,
    ⟨ran a3, run_ran (by decide +kernel), by decide +kernel⟩⟩

/-! ## C37 -/

/-- **C37**, for every interleaving in which the second `try_lock` of a poll, and the
`try_lock` of a drop, are not performed between the point where the `unlock` of another
client starts to search for a waiter and the point where it releases the lock, and if
every client polls with one waker. Missing: that the code is right in every
interleaving (it is not, `C37_false`, `C37_false_drop`), and for changing wakers (it is
not, `C37_false_waker`).

In every such run, when all clients are between calls, no guard exists and a future
waits, then some waiting future was woken since it was last polled. -/
theorem C37_no_forgotten_waiter_partial {acts : List Act} {s : State} (hw : OwnWaker acts) (ht : Always Timely init acts)
    (h : run init acts = some s) (hq : Quiet s) (hh : holders s.log = []) {p : Nat} (hp : waits p s.log = true) :
    ∃ q, waits q s.log = true ∧ wokenSince q q s.log = true := by
  have i := run_inv init_inv h
  obtain ⟨j, k⟩ := run_wake init_inv init_invJ init_invK hw ht h
  have hl := C36_free_when_unheld h hq hh
  obtain ⟨n, hn⟩ := (waits_waiter i hq).1 hp
  have fin : ∀ q m, (s.client q).waiter = some m → (s.node m).taken = true →
      ∃ q, waits q s.log = true ∧ wokenSince q q s.log = true := by
    intro q m hm ht
    refine ⟨q, (waits_waiter i hq).2 ⟨m, hm⟩, ?_⟩
    rcases k.wake q m hm ht (by rw [hq q]; rfl) with ⟨r, hr⟩ | hr
    · rw [hq r] at hr; simp [Pc.waking] at hr
    · exact hr
  cases htk : (s.node n).taken
  · rcases j (.inl hl) p n ⟨hn, htk, by rw [hq p]; simp⟩ with ⟨o, ho⟩ | ⟨q, hq'⟩
    · rw [hq o] at ho; simp [Pc.scanRest] at ho
    · rcases hq' with ⟨m, hm, ht⟩ | ⟨w, e⟩ | e | ⟨m, e, _⟩ | e
      · exact fin q m hm ht
      all_goals rw [hq q] at e; simp at e
  · exact fin p n hn htk

/-- **C37**, for calls that do not overlap. Missing: the other interleavings, see above. -/
theorem C37_sequential_partial {acts : List Act} {s : State} (hw : OwnWaker acts) (hs : Always Sequential init acts)
    (h : run init acts = some s) (hq : Quiet s) (hh : holders s.log = []) {p : Nat} (hp : waits p s.log = true) :
    ∃ q, waits q s.log = true ∧ wokenSince q q s.log = true := by
  refine C37_no_forgotten_waiter_partial hw (hs.imp ?_) h hq hh hp
  intro t a ha
  cases a with
  | call => trivial
  | step r =>
    intro hr q
    by_cases e : q = r
    · subst e; rcases hr with hr | hr <;> simp [hr, Pc.scanning]
    · simp [ha q e, Pc.scanning]

/-- Client 0 gets the lock with `try_lock`. -/
abbrev take0 : List Act := [.call 0 .tryLock, .step 0]

/-- The future of client `p` is polled for the first time; the lock is not free. -/
abbrev wait (p : Nat) : List Act := [.call p .lock, .call p (.poll p), .step p, .step p, .step p]

/-- The hypotheses of the theorem are met: clients 1 and 2 wait, client 0 releases the
lock, and client 2 (the last to wait) is woken. Client 2 starts to poll while the list
is searched for nodes to remove. -/
example : ∃ acts s, OwnWaker acts ∧ Always Timely init acts ∧ run init acts = some s ∧ Quiet s ∧ holders s.log = [] ∧
    waits 1 s.log = true ∧ s.log.head? = some (.woke 1 2) := by
  let acts := take0 ++ wait 1 ++ [.call 2 .lock, .call 2 (.poll 2), .step 2, .call 0 .unlock, .step 0, .step 2, .step 0, .step 2] ++
    List.replicate 7 (.step 0)
  have h : run init acts = some (ran acts) := run_ran (by decide +kernel)
  refine ⟨acts, ran acts, ownB_sound (by decide +kernel), timelyB_sound (k := 3) (by decide +kernel), h, quiet_of h 3 (by decide +kernel) (by decide +kernel),
    by decide +kernel, by decide +kernel, by decide +kernel⟩

/-- **C37, the code violates it**: the first poll of client 1 pushes its node and finds
the lock still taken, after the `unlock` of client 0 has loaded the (empty) list and
before it releases the lock. Client 1 waits for the free lock and is not woken. -/
theorem C37_false : ∃ acts s, OwnWaker acts ∧ run init acts = some s ∧ Quiet s ∧ holders s.log = [] ∧ s.locked = false ∧
    waits 1 s.log = true ∧ ∀ q, waits q s.log = true → ∀ w, wokenSince q w s.log = false := by
  let acts := take0 ++ [.call 1 .lock, .call 1 (.poll 1), .step 1, .call 0 .unlock, .step 0, .step 0, .step 0, .step 1, .step 1, .step 0, .step 0]
  have h : run init acts = some (ran acts) := run_ran (by decide +kernel)
  have hl : (ran acts).log =
      [.pending 1, .store 0 1, .released 0, .callPoll 1 1, .newFut 1, .acquired 0] := by decide +kernel
  refine ⟨acts, ran acts, ownB_sound (by decide +kernel), h, quiet_of h 2 (by decide +kernel) (by decide +kernel),
    by decide +kernel, by decide +kernel, by decide +kernel, ?_⟩
  · intro q _ w
    rw [hl]
    simp [wokenSince]

/-- **C37, the code violates it**: clients 1 and 2 wait; the `unlock` of client 0 takes
the node of client 2; the future of client 2 is dropped before client 0 releases the
lock, and so cannot take the lock to pass the wake on. Client 1 is not woken. -/
theorem C37_false_drop : ∃ acts s, OwnWaker acts ∧ run init acts = some s ∧ Quiet s ∧ holders s.log = [] ∧ s.locked = false ∧
    waits 1 s.log = true ∧ ∀ q, waits q s.log = true → wokenSince q q s.log = false := by
  let acts := take0 ++ wait 1 ++ wait 2 ++ [.call 0 .unlock] ++ List.replicate 6 (.step 0) ++ [.call 2 .dropFut, .step 2, .step 2] ++
    List.replicate 3 (.step 0)
  have h : run init acts = some (ran acts) := run_ran (by decide +kernel)
  have hl : (ran acts).log =
      [.woke 1 2, .tryFailed 2, .dropFut 2, .released 0, .pending 2, .store 1 2, .callPoll 2 2, .newFut 2,
        .pending 1, .store 0 1, .callPoll 1 1, .newFut 1, .acquired 0] := by decide +kernel
  refine ⟨acts, ran acts, ownB_sound (by decide +kernel), h, quiet_of h 3 (by decide +kernel) (by decide +kernel),
    by decide +kernel, by decide +kernel, by decide +kernel, ?_⟩
  · intro q
    rw [hl]
    simp only [waits, wokenSince]
    grind

/-- **C37, the code violates it**, with calls that do not overlap: the future of
client 1 is polled with waker 1 and then with waker 5; the node keeps waker 1, and the
`unlock` wakes that one. No future that waits has its waker woken. -/
theorem C37_false_waker : ∃ acts s, Always Sequential init acts ∧ run init acts = some s ∧ Quiet s ∧ holders s.log = [] ∧
    waits 1 s.log = true ∧ lastWaker 1 s.log = some 5 ∧
    ∀ q w, waits q s.log = true → lastWaker q s.log = some w → wokenSince q w s.log = false := by
  let acts := take0 ++ wait 1 ++ [.call 1 (.poll 5), .step 1, .step 1, .call 0 .unlock] ++ List.replicate 8 (.step 0)
  have h : run init acts = some (ran acts) := run_ran (by decide +kernel)
  have hl : (ran acts).log =
      [.woke 0 1, .released 0, .pending 1, .callPoll 1 5, .pending 1, .store 0 1, .callPoll 1 1, .newFut 1, .acquired 0] := by
    decide +kernel
  refine ⟨acts, ran acts, seqB_sound (k := 2) (by decide +kernel), h, quiet_of h 2 (by decide +kernel) (by decide +kernel),
    by decide +kernel, by decide +kernel, by decide +kernel, ?_⟩
  intro q w
  rw [hl]
  simp only [waits, wokenSince, lastWaker]
  grind

/-! ## C38 -/

/-- **C38**, for every interleaving in which no `unlock` removes the node of a future
that was woken and has not yet been polled or dropped. Missing: that the code is right
without this (it is not, `C38_false`).

No released node is accessed, no waker is read twice, and `unreachable_unchecked` is
not reached. -/
theorem C38_no_use_after_free_partial {acts : List Act} (hp : Always Prompt init acts) : ∃ s, run init acts = some s := by
  obtain ⟨s, h, _⟩ := run_prompt init_inv init_invP hp
  exact ⟨s, h⟩

/-- The hypothesis is met in a run where a node is released: client 1 waits, is woken,
polls and gets the lock; its node is removed by the next `unlock`. -/
example : ∃ acts, Always Prompt init acts ∧ ((run init acts).map fun s => freedNodes s.log) = some [0] := by
  refine ⟨take0 ++ wait 1 ++ [.call 0 .unlock] ++ List.replicate 8 (.step 0) ++ [.call 1 (.poll 1), .step 1, .step 1, .call 1 .unlock] ++
    List.replicate 7 (.step 1), promptB_sound (k := 2) init_inv (fun _ _ => rfl) (by decide +kernel), by decide +kernel⟩

/-- **C38, the code violates it**, with calls that do not overlap: client 1 waits;
client 0 releases the lock, which wakes client 1; client 0 takes the lock again and
releases it, which frees the node of client 1; client 1 is polled, gets the lock and
accesses its node. -/
theorem C38_false : ∃ acts, OwnWaker acts ∧ Always Sequential init acts ∧ run init acts = none := by
  refine ⟨take0 ++ wait 1 ++ [.call 0 .unlock] ++ List.replicate 8 (.step 0) ++ take0 ++ [.call 0 .unlock] ++ List.replicate 8 (.step 0) ++
    [.call 1 (.poll 1), .step 1, .step 1], ownB_sound (by decide +kernel), seqB_sound (k := 2) (by decide +kernel), ?_⟩
  · have : (run init (take0 ++ wait 1 ++ [.call 0 .unlock] ++ List.replicate 8 (.step 0) ++ take0 ++ [.call 0 .unlock] ++ List.replicate 8 (.step 0) ++
      [.call 1 (.poll 1), .step 1, .step 1])).isNone = true := by decide +kernel
    exact Option.isNone_iff_eq_none.1 this

/-- **C38, the code violates it** in another way: the drop of a future that was not
woken sets the flag of its node, an `unlock` frees the node, and the drop reads the
waker from it. -/
theorem C38_false_drop : ∃ acts s, OwnWaker acts ∧ run init acts = some s ∧ wokenSince 1 1 s.log = false ∧ pstep s 1 = none := by
  let acts := take0 ++ wait 1 ++ [.call 1 .dropFut, .step 1, .call 0 .unlock] ++ List.replicate 4 (.step 0)
  have h : run init acts = some (ran acts) := run_ran (by decide +kernel)
  refine ⟨acts, ran acts, ownB_sound (by decide +kernel), h, by decide +kernel, ?_⟩
  · have : (pstep (ran acts) 1).isNone = true := by decide +kernel
    exact Option.isNone_iff_eq_none.1 this

/-- **C38**: every node is released at most once, in every run. -/
theorem C38_freed_once {acts : List Act} {s : State} (h : run init acts = some s) : (freedNodes s.log).Nodup :=
  (run_inv init_inv h).m.fd

/-- **C38**: every stored waker is woken or dropped at most once, and only such wakers
are, in every run. -/
theorem C38_waker_once {acts : List Act} {s : State} (h : run init acts = some s) :
    ((consumed s.log).map Prod.fst).Nodup ∧ ∀ x ∈ consumed s.log, x ∈ stored s.log := by
  have i := run_inv init_inv h
  exact ⟨i.m.cd, fun x hx => (i.m.cn x.1 x.2 hx).1⟩

/-- **C38**: when the mutex is dropped after a run, while all clients are between
calls, then every node ever created was released exactly once, and every waker ever
stored was woken or dropped exactly once. -/
theorem C38_drop_releases_all {acts : List Act} {s : State} (h : run init acts = some s) (hq : Quiet s) :
    ∃ s', dropMutex s = some s' ∧ (freedNodes s'.log).Nodup ∧ (∀ n, n ∈ freedNodes s'.log ↔ ∃ w, (n, w) ∈ stored s'.log) ∧
      ((consumed s'.log).map Prod.fst).Nodup ∧ ∀ n w, (n, w) ∈ consumed s'.log ↔ (n, w) ∈ stored s'.log := by
  have i := run_inv init_inv h
  have hhand : ∀ q x, (s.client q).pc.hand ≠ some x := by intro q x; rw [hq q]; simp [Pc.hand]
  have htk : ∀ n, n < s.next → (s.node n).taken = true → (s.node n).waker = none := by
    intro n h1 h2
    cases h3 : (s.node n).waker with
    | none => rfl
    | some w => obtain ⟨q, hq'⟩ := i.t n w h1 h2 h3; rw [hq q] at hq'; simp [Pc.read] at hq'
  have hlt : ∀ n ∈ s.list, n < s.next := fun n hn => (i.n.live n hn).1
  obtain ⟨s', e1, e2, e3, e4⟩ := dropNodes_spec s.list s i.n.nodup (fun n hn => (i.n.live n hn).2)
    (fun n hn ht => (i.n.unt n (hlt n hn) ht).2.1) (fun n hn ht => htk n (hlt n hn) ht)
  have hmem : ∀ n w, (n, w) ∈ s.list.filterMap (fun n => (s.node n).waker.map fun w => (n, w)) ↔ n ∈ s.list ∧ (s.node n).waker = some w := by
    intro n w
    simp only [List.mem_filterMap, Option.map_eq_some_iff, Prod.mk.injEq]
    constructor
    · rintro ⟨a, ha, v, hv, rfl, rfl⟩; exact ⟨ha, hv⟩
    · rintro ⟨ha, hv⟩; exact ⟨n, ha, w, hv, rfl, rfl⟩
  have hnd : ∀ l : List Nat, l.Nodup → ((l.filterMap (fun n => (s.node n).waker.map fun w => (n, w))).map Prod.fst).Nodup := by
    intro l hl
    have : (l.filterMap (fun n => (s.node n).waker.map fun w => (n, w))).map Prod.fst = l.filter fun n => (s.node n).waker.isSome := by
      clear hl
      induction l with
      | nil => rfl
      | cons a l ih =>
        simp only [List.filterMap_cons, List.filter_cons]
        cases (s.node a).waker <;> simp [ih]
    rw [this]
    exact hl.filter _
  refine ⟨{ s' with list := [] }, by simp only [dropMutex, e1], ?_, ?_, ?_, ?_⟩
  · show (freedNodes s'.log).Nodup
    rw [e2, List.nodup_append]
    refine ⟨nodup_rev i.n.nodup, i.m.fd, ?_⟩
    intro a ha b hb e
    subst e
    exact ((i.m.fr a).1 hb).2 (List.mem_reverse.1 ha)
  · intro n
    show n ∈ freedNodes s'.log ↔ ∃ w, (n, w) ∈ stored s'.log
    rw [e2, e3, i.m.sl n, List.mem_append, List.mem_reverse, i.m.fr n]
    have := hlt n
    grind
  · show ((consumed s'.log).map Prod.fst).Nodup
    rw [e4, List.map_append, List.nodup_append]
    refine ⟨?_, i.m.cd, ?_⟩
    · rw [List.map_reverse]; exact nodup_rev (hnd _ i.n.nodup)
    · intro a ha b hb e
      subst e
      obtain ⟨⟨n, w⟩, hx, rfl⟩ := List.mem_map.1 ha
      obtain ⟨⟨m, v⟩, hy, e⟩ := List.mem_map.1 hb
      simp only at e
      subst e
      have h1 := ((hmem _ _).1 (List.mem_reverse.1 hx)).2
      rw [(i.m.cn _ _ hy).2.1] at h1
      simp at h1
  · intro n w
    show (n, w) ∈ consumed s'.log ↔ (n, w) ∈ stored s'.log
    rw [e4, e3, List.mem_append, List.mem_reverse, hmem]
    constructor
    · rintro (⟨a, b⟩ | a)
      · exact i.m.nw n w (hlt n a) b
      · exact (i.m.cn n w a).1
    · intro hs
      have hn := (i.m.sl n).1 ⟨w, hs⟩
      have huni : ∀ v, (n, v) ∈ stored s.log → v = w := by
        intro v hv
        have := i.m.sd
        generalize stored s.log = l at this hv hs
        induction l with
        | nil => simp at hs
        | cons a l ih =>
          rw [List.map_cons, List.nodup_cons] at this
          rcases List.mem_cons.1 hv with hv | hv <;> rcases List.mem_cons.1 hs with hs | hs
          · rw [← hv] at hs; exact ((Prod.mk.inj hs).2).symm
          · rw [← hv] at this; exact absurd (List.mem_map.2 ⟨_, hs, rfl⟩) this.1
          · rw [← hs] at this; exact absurd (List.mem_map.2 ⟨_, hv, rfl⟩) this.1
          · exact ih this.2 hv hs
      cases hw : (s.node n).waker with
      | none =>
        rcases i.m.al n hn hw with ⟨v, hv⟩ | ⟨q, v, hv⟩
        · have := huni v (i.m.cn n v hv).1
          subst this
          exact .inr hv
        · exact absurd hv (hhand q _)
      | some v =>
        have := huni v (i.m.nw n v hn hw)
        subst this
        cases ht : (s.node n).taken
        · exact .inl ⟨(i.n.unt n hn ht).1, rfl⟩
        · rw [htk n hn ht] at hw; simp at hw

/-- The hypotheses are met: clients 1 and 2 wait, 2 is woken, gets the lock, releases
it, which wakes 1. One node is released by the run, one by the drop of the mutex. -/
example : ∃ acts s, run init acts = some s ∧ Quiet s ∧ freedNodes s.log = [1] ∧ s.list = [0] ∧ consumed s.log = [(0, 1), (1, 2)] := by
  let acts := take0 ++ wait 1 ++ wait 2 ++ [.call 0 .unlock] ++ List.replicate 9 (.step 0) ++ [.call 2 (.poll 2), .step 2, .step 2] ++
    [.call 2 .unlock] ++ List.replicate 10 (.step 2)
  have h : run init acts = some (ran acts) := run_ran (by decide +kernel)
  exact ⟨acts, ran acts, h, quiet_of h 3 (by decide +kernel) (by decide +kernel), by decide +kernel, by decide +kernel, by decide +kernel⟩

/-! ## C39 -/

/-- **C39**, for a drop that is not interleaved with other calls, if the node was not
freed. Missing: that the node is not freed (it may be, `C39_false`), and drops that
overlap with the `unlock` of another client (`C37_false_drop`).

In every reachable state, between calls: the future of `p` was chosen to be woken, the
lock is free, and the future of another client waits and was not chosen. Then the drop
of the future of `p` completes and wakes a waiting future of another client that was
not chosen before. -/
theorem C39_drop_passes_wake_partial {acts : List Act} {s : State} (hw : OwnWaker acts) (h : run init acts = some s) (hq : Quiet s)
    (hh : holders s.log = []) {p n q m : Nat} (hp : (s.client p).waiter = some n) (ht : (s.node n).taken = true)
    (hf : (s.node n).freed = false) (hr : (s.client q).waiter = some m) (hm : (s.node m).taken = false) :
    ∃ k s' r l, run s (.call p .dropFut :: List.replicate k (.step p)) = some s' ∧ Quiet s' ∧ holders s'.log = [] ∧ r ≠ p ∧
      (s.client r).waiter = some l ∧ (s.node l).taken = false ∧
      waits r s'.log = true ∧ s'.log.head? = some (.woke l r) := by
  have i := run_inv init_inv h
  have k := run_own init_inv init_invK hw h
  have hl := C36_free_when_unheld h hq hh
  obtain ⟨k', s', e1, e2, e3, e4, e5⟩ := drop_solo_taken i hq hl hp ht hf
  have hmem : m ∈ s.list.filter fun m => !(s.node m).taken :=
    List.mem_filter.2 ⟨(i.n.unt m ((i.n.cl q).wlt m hr) hm).1, by simp [hm]⟩
  have i' := run_inv i e1
  have hh' : holders s'.log = [] := by
    cases hx : holders s'.log with
    | nil => rfl
    | cons a as =>
      have h1 : 0 < (holders s'.log).count a := List.count_pos_iff.2 (by simp [hx])
      rw [i'.g.gd a] at h1
      have := i'.o.unlocked e3 a
      simp only [own] at this
      omega
  split at e5
  · rename_i hx
    rw [List.head?_eq_none_iff.1 hx] at hmem
    simp at hmem
  · rename_i l hx
    have hx := List.mem_filter.1 (List.mem_of_mem_head? hx)
    have htl : (s.node l).taken = false := by simpa using hx.2
    obtain ⟨w, es, h1, h2, h3⟩ := e5
    obtain ⟨_, _, r, hr'⟩ := i.n.unt l (i.n.live l hx.1).1 htl
    have hr' : (s.client r).waiter = some l := by
      rcases hr' with hr' | hr'
      · exact hr'
      · rw [hq r] at hr'; simp [Pc.take] at hr'
    have hne : r ≠ p := by
      intro e; subst e
      rw [hp] at hr'
      have : n = l := Option.some.inj hr'
      subst this
      rw [ht] at htl; simp at htl
    have hwr : w = r := k.nw r l w (.inl hr') h1
    subst hwr
    refine ⟨k', s', w, l, e1, e2, hh', hne, hr', htl, ?_, by rw [h2]; rfl⟩
    have : waits w es = true := by rw [h3 w hne]; exact (waits_waiter i hq).2 ⟨l, hr'⟩
    rw [h2]
    exact this

/-- The hypotheses are met: clients 1 and 2 wait, client 0 releases the lock, which
wakes client 2. Then the drop of the future of client 2 wakes client 1. -/
example : ∃ acts s, OwnWaker acts ∧ run init acts = some s ∧ Quiet s ∧ holders s.log = [] ∧ (s.client 2).waiter = some 1 ∧
    (s.node 1).taken = true ∧ (s.node 1).freed = false ∧ (s.client 1).waiter = some 0 ∧ (s.node 0).taken = false := by
  let acts := take0 ++ wait 1 ++ wait 2 ++ [.call 0 .unlock] ++ List.replicate 9 (.step 0)
  have h : run init acts = some (ran acts) := run_ran (by decide +kernel)
  refine ⟨acts, ran acts, ownB_sound (by decide +kernel), h, quiet_of h 3 (by decide +kernel) (by decide +kernel), by decide +kernel, by decide +kernel,
    by decide +kernel, by decide +kernel, by decide +kernel, by decide +kernel⟩

/-- **C39, the code violates it**, with calls that do not overlap: clients 1 and 2
wait; client 0 releases the lock, which wakes client 2, takes it again and releases it,
which frees the node of client 2 and wakes client 1. The drop of the future of
client 2 accesses the freed node. -/
theorem C39_false : ∃ acts s, OwnWaker acts ∧ Always Sequential init acts ∧ run init acts = some s ∧ Quiet s ∧ holders s.log = [] ∧
    waits 2 s.log = true ∧ wokenSince 2 2 s.log = true ∧ run s [.call 2 .dropFut, .step 2] = none := by
  let acts := take0 ++ wait 1 ++ wait 2 ++ [.call 0 .unlock] ++ List.replicate 9 (.step 0) ++ take0 ++ [.call 0 .unlock] ++ List.replicate 10 (.step 0)
  have h : run init acts = some (ran acts) := run_ran (by decide +kernel)
  refine ⟨acts, ran acts, ownB_sound (by decide +kernel), seqB_sound (k := 3) (by decide +kernel), h, quiet_of h 3 (by decide +kernel) (by decide +kernel),
    by decide +kernel, by decide +kernel, by decide +kernel, ?_⟩
  · have : (run (ran acts) [.call 2 .dropFut, .step 2]).isNone = true := by decide +kernel
    exact Option.isNone_iff_eq_none.1 this

end Verif.Mutex
