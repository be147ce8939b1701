import Verif.Local.Lemmas
/-!
# C72: thread-local storage is used only by its thread

`LocalOpaque` (`src/thr/mod.rs` 220–229) is `Sync` on the ground that its contents do not leave
the thread.
-/
namespace Verif.Local

/-- **C72, what `local` returns.** In every program run `local_checked` of a pool gives the storage of
the innermost active thread of that pool, whoever calls it. -/
theorem C72_local (ops : List Op) (p : Nat) :
    (run init ops).1.localOf p = innermost p (run init ops).1.stack :=
  localOf_eq (run_sync ops init_sync).current p

/-- **C72.** Handles are used only by the thread they belong to, if `local` of a pool is called
by threads of this pool, or when none is active, and if factories of fibers for other
threads do not call it. Missing: the other programs, where it is false. -/
theorem C72_partial (ops : List Op) (h : CarefulRun init ops) : Confined (run init ops).2 :=
  run_home ops init_sync init_home h

/-- Thread 0 is preempted by thread 1, both use their storage, and thread 0 has a fiber that keeps a
handle. -/
example :
    let ops : List Op := [.addFib ⟨0, 0⟩, .loc 0, .call ⟨0, 0⟩, .loc 0, .call ⟨0, 1⟩, .loc 0, .use 0, .ret, .use 0,
      .fiber 0 [0] true, .fiber 0 [] false, .ret]
    (run init ops).2 = [⟨some ⟨0, 1⟩, ⟨0, 1⟩⟩, ⟨some ⟨0, 0⟩, ⟨0, 0⟩⟩, ⟨some ⟨0, 0⟩, ⟨0, 0⟩⟩] := by decide

/-- One pool, no interrupt handlers beside the threads, and factories that do not call `local`. -/
def OnePool : Op → Prop
  | .call t => t.pool = 0
  | .irq => False
  | .loc p => p = 0
  | .addFactory _ ps => ps = []
  | .fiber _ ps _ => ∀ p ∈ ps, p = 0
  | _ => True

/-- C72, for programs with one pool of threads, no code that preempts threads without being one, and
factories that do not use the storage of the thread that calls them. -/
theorem C72_one_pool_partial (ops : List Op) (h : ∀ op ∈ ops, OnePool op) : Confined (run init ops).2 := by
  -- all code but the main program is a thread of the pool
  have gen : ∀ (ops : List Op) (s : State) (fs : List Frame) (m : Frame), s.stack = fs ++ [m] → m.me = none →
      (∀ f ∈ fs, ∃ t, f.me = some t ∧ t.pool = 0) → (∀ op ∈ ops, OnePool op) → CarefulRun s ops := by
    intro ops
    induction ops with
    | nil => intros; trivial
    | cons op ops ih =>
      intro s fs m hst hm hfs hops
      have hop := hops op List.mem_cons_self
      have hops' := fun o ho => hops o (List.mem_cons_of_mem _ ho)
      have hown : OwnPool s 0 := by
        cases fs with
        | nil =>
          right
          rintro ⟨f, hf, t, ht, -⟩
          rw [hst] at hf
          simp only [List.nil_append, List.mem_singleton] at hf
          subst hf
          rw [hm] at ht; cases ht
        | cons f fs =>
          left
          obtain ⟨t, ht, hp⟩ := hfs f List.mem_cons_self
          exact ⟨t, by simp [State.me, hst, ht], hp⟩
      refine ⟨?_, ?_⟩
      · cases op with
        | loc p => cases hop; exact hown
        | addFactory t ps => cases hop; intro p hp; cases hp
        | fiber j ps st => intro p hp; rw [hop p hp]; exact hown
        | _ => trivial
      · have hstack : ∃ fs', (step s op).1.stack = fs' ++ [m] ∧
            (∀ f ∈ fs', ∃ t, f.me = some t ∧ t.pool = 0) ∨
            ∃ m', (step s op).1.stack = [m'] ∧ m'.me = none := by
          unfold step
          split
          · exact ⟨fs, .inl ⟨hst, hfs⟩⟩
          rename_i f rest hfr
          cases op with
          | call t =>
            simp only
            split
            · exact ⟨fs, .inl ⟨hst, hfs⟩⟩
            · refine ⟨⟨some t, s.current t.pool, []⟩ :: fs, .inl ⟨by simp [hst], fun g hg => ?_⟩⟩
              rcases List.mem_cons.1 hg with rfl | hg
              · exact ⟨t, rfl, hop⟩
              · exact hfs g hg
          | irq => exact hop.elim
          | ret =>
            simp only
            split
            · exact ⟨fs, .inl ⟨hst, hfs⟩⟩
            · rename_i g gs
              rw [hfr] at hst
              cases fs with
              | nil => simp at hst
              | cons f' fs' =>
                simp only [List.cons_append, List.cons.injEq] at hst
                split <;>
                  exact ⟨fs', .inl ⟨hst.2, fun g hg => hfs g (List.mem_cons_of_mem _ hg)⟩⟩
          | loc p =>
            simp only
            split
            · exact ⟨fs, .inl ⟨hst, hfs⟩⟩
            · rw [hfr] at hst
              cases fs with
              | nil =>
                simp only [List.nil_append, List.cons.injEq] at hst
                exact ⟨[], .inr ⟨_, by rw [hst.2], by rw [← hm, ← hst.1]⟩⟩
              | cons f' fs' =>
                simp only [List.cons_append, List.cons.injEq] at hst
                rename_i t _
                refine ⟨{ f with vars := f.vars ++ [t] } :: fs', .inl ⟨by rw [hst.2]; rfl, fun g hg => ?_⟩⟩
                rcases List.mem_cons.1 hg with rfl | hg
                · rw [show ({ f with vars := f.vars ++ [t] } : Frame).me = f.me from rfl, hst.1]
                  exact hfs f' List.mem_cons_self
                · exact hfs g (List.mem_cons_of_mem _ hg)
          | use j =>
            simp only
            split <;> exact ⟨fs, .inl ⟨hst, hfs⟩⟩
          | addFib t => exact ⟨fs, .inl ⟨hst, hfs⟩⟩
          | addFactory t ps => exact ⟨fs, .inl ⟨hst, hfs⟩⟩
          | fiber j ps st =>
            simp only
            split
            · exact ⟨fs, .inl ⟨hst, hfs⟩⟩
            · split <;> exact ⟨fs, .inl ⟨hst, hfs⟩⟩
        obtain ⟨fs', ⟨h1, h2⟩ | ⟨m', h1, h2⟩⟩ := hstack
        · exact ih _ fs' m h1 hm h2 hops'
        · exact ih _ [] m' h1 h2 (fun _ h => (nomatch h)) hops'
  exact C72_partial ops (gen ops init [] ⟨none, 0, []⟩ rfl rfl (fun _ h => (nomatch h)) h)

example : ∀ op ∈ ([.call ⟨0, 2⟩, .loc 0, .use 0, .fiber 0 [0] true, .addFactory ⟨0, 1⟩ [], .ret] : List Op), OnePool op := by
  simp [OnePool]

/-- C72 fails with two pools: thread 0 of pool 0 is preempted by thread 0 of pool 1, which gets and
uses the storage of the preempted thread through `local` of pool 0. -/
theorem C72_false_pools : ∃ ops, ¬ Confined (run init ops).2 ∧
    (∀ t pools, Op.addFactory t pools ∉ ops) ∧ Op.irq ∉ ops :=
  ⟨[.call ⟨0, 0⟩, .call ⟨1, 0⟩, .loc 0, .use 0],
    fun h => (nomatch h ⟨some ⟨1, 0⟩, ⟨0, 0⟩⟩ (by decide)), by simp, by simp⟩

/-- C72 fails with interrupt handlers that are no threads: one that preempts thread 0 gets and uses
its storage, where `local` was to panic ("if called outside of this thread pool"). -/
theorem C72_false_irq : ∃ ops, ¬ Confined (run init ops).2 ∧
    (∀ t pools, Op.addFactory t pools ∉ ops) ∧ (∀ t, Op.call t ∈ ops → t.pool = 0) :=
  ⟨[.call ⟨0, 0⟩, .irq, .loc 0, .use 0],
    fun h => (nomatch h ⟨none, ⟨0, 0⟩⟩ (by decide)), by simp, by simp⟩

/-- C72 fails with one pool: thread 0 adds a fiber to thread 1 with `add_fib_factory`. The factory
runs in thread 0 and puts a handle of its storage into the fiber, thread 1 runs the fiber. -/
theorem C72_false : ∃ ops, ¬ Confined (run init ops).2 ∧
    (∀ t, Op.call t ∈ ops → t.pool = 0) ∧ Op.irq ∉ ops :=
  ⟨[.call ⟨0, 0⟩, .addFactory ⟨0, 1⟩ [0], .ret, .call ⟨0, 1⟩, .fiber 0 [] true],
    fun h => (nomatch h ⟨some ⟨0, 1⟩, ⟨0, 0⟩⟩ (by decide)), by simp, by simp⟩

/-- C72: factories are what is wrong there: a handle gets to another thread exactly if the
factory calls `local` of a pool with an active thread other than the target. -/
theorem C72_factory (ops : List Op) (t : Thr) (pools : List Nat) :
    (∃ h ∈ pools.filterMap (run init ops).1.localOf, h ≠ t) ↔
    ∃ p ∈ pools, ∃ u, innermost p (run init ops).1.stack = some u ∧ u ≠ t := by
  simp only [List.mem_filterMap]
  constructor
  · rintro ⟨h, ⟨p, hp, hl⟩, hne⟩
    rw [C72_local] at hl
    exact ⟨p, hp, h, hl, hne⟩
  · rintro ⟨p, hp, u, hu, hne⟩
    exact ⟨u, ⟨p, hp, by rw [C72_local]; exact hu⟩, hne⟩

end Verif.Local
