import Verif.Heap.ConcLemmas
/-!
# C11: concurrent use of one pool
-/
namespace Verif.Heap.Conc

/-- The steps `allocate` takes when the free list is not empty. -/
def popSteps (t : Tid) : List Act := [.alloc t, .step t false, .step t false, .step t false]
/-- The steps `allocate` takes when the free list is empty. -/
def carveSteps (t : Tid) : List Act := [.alloc t, .step t false, .step t false, .step t false]
/-- The steps of `deallocate`. -/
def pushSteps (t : Tid) (p : Nat) : List Act :=
  [.dealloc t p, .step t false, .step t false, .step t false]

/-- C11, build without `atomics`: whatever the interleaving, no block has two
owners, and every held block is a block of the pool. -/
theorem C11_soft (address size count : Nat) (link : Nat → Nat) (ha : 0 < address) (hs : 0 < size)
    (as : List Act) :
    let s := run stepSoft (init address size count link) as
    Exclusive s ∧ (∀ a ∈ s.held, ∃ j < count, a = address + size * j) ∧
      ((∀ t, s.pc t = .idle) → NoLeak address s) := by
  obtain ⟨fl, k, inv⟩ := soft_run ha hs as (init_inv address size count link)
  refine ⟨(List.nodup_append.mp inv.nodup).1, ?_, fun h => inv.noLeak h⟩
  intro a h
  obtain ⟨j, hj, e⟩ := inv.blocks a (List.mem_append_left _ h)
  exact ⟨j, Nat.lt_of_lt_of_le hj inv.hk, e⟩

/-- Two contexts allocate at the same time, one releases: two blocks held. -/
example : (run stepSoft (init 64 8 4 id)
    [.alloc 0, .alloc 1, .step 0 false, .step 1 false, .step 1 false, .step 0 false,
     .dealloc 0 64, .alloc 1, .step 0 false, .step 1 false, .alloc 2, .step 2 false,
     .step 2 false]).held = [80, 64, 72] := by decide

/-- C11 for the lock-free build as stated is false. Context 0 is interrupted
between reading the link of the first free block and its compare-exchange. The
interrupting context 1 takes both free blocks and releases the first one. The
compare-exchange of context 0 succeeds and installs the second block, which is
still held, as the free list; the next allocation hands it out again. -/
theorem C11_lock_free_aba : ¬ ∀ (address size count : Nat) (link : Nat → Nat) (as : List Act),
    0 < address → 0 < size → Exclusive (run stepHw (init address size count link) as) := by
  intro h
  have := h 64 8 2 id
    (carveSteps 0 ++ carveSteps 0 ++ pushSteps 0 64 ++ pushSteps 0 72 ++
      [.alloc 0, .step 0 false, .step 0 false] ++
      popSteps 1 ++ popSteps 1 ++ pushSteps 1 72 ++
      [.step 0 false] ++ popSteps 1) (by decide) (by decide)
  revert this
  unfold Exclusive
  decide

/-- C11, lock-free build, partial: with any number of contexts and any
interleaving in which no two `allocate_free` sections (from reading `free` to
the compare-exchange) overlap — in particular when a single context allocates
and any number of contexts release — no block has two owners. Releases and
`allocate_uninit` may overlap with everything. (Missing: overlapping
`allocate_free`, where it is false.) -/
theorem C11_lock_free_partial (address size count : Nat) (link : Nat → Nat) (ha : 0 < address)
    (hs : 0 < size) (as : List Act) (hp : PopsApart (init address size count link) as) :
    let s := run stepHw (init address size count link) as
    Exclusive s ∧ (∀ a ∈ s.held, ∃ j < count, a = address + size * j) ∧
      ((∀ t, s.pc t = .idle) → NoLeak address s) := by
  obtain ⟨fl, k, inv⟩ := hw_run ha hs as (init_inv address size count link)
    (by intro t; simp [init]) hp
  refine ⟨(List.nodup_append.mp inv.nodup).1, ?_, fun h => inv.noLeak h⟩
  intro a h
  obtain ⟨j, hj, e⟩ := inv.blocks a (List.mem_append_left _ h)
  exact ⟨j, Nat.lt_of_lt_of_le hj inv.hk, e⟩

/-- C11, lock-free build, partial, with overlapping `allocate_free` sections: any number of
contexts allocate and release in any interleaving in which no block is put back on the free
list while another context is about to compare-exchange with this block as the old head.
(Missing: such returns; `C11_lock_free_aba` is one.) -/
theorem C11_no_return_partial (address size count : Nat) (link : Nat → Nat) (ha : 0 < address)
    (hs : 0 < size) (as : List Act) (hp : NoReturn (init address size count link) as) :
    let s := run stepHw (init address size count link) as
    Exclusive s ∧ (∀ a ∈ s.held, ∃ j < count, a = address + size * j) ∧
      ((∀ t, s.pc t = .idle) → NoLeak address s) := by
  obtain ⟨fl, k, inv⟩ := hw_run_return ha hs as (init_inv address size count link)
    (by simp [LinkOk, init]) hp
  refine ⟨(List.nodup_append.mp inv.nodup).1, ?_, fun h => inv.noLeak h⟩
  intro a h
  obtain ⟨j, hj, e⟩ := inv.blocks a (List.mem_append_left _ h)
  exact ⟨j, Nat.lt_of_lt_of_le hj inv.hk, e⟩

/-- Three contexts pop at the same time, all having loaded block 72. Context 1 gets it; the
others try again, contend for 64, and meanwhile context 1 releases 72. -/
example :
    let as := carveSteps 0 ++ carveSteps 0 ++ pushSteps 0 64 ++ pushSteps 0 72 ++
      [.alloc 0, .step 0 false, .step 0 false, .alloc 1, .step 1 false, .alloc 2, .step 2 false,
       .step 1 false, .step 2 false, .step 1 false, .step 0 false, .step 2 false, .step 0 false,
       .step 2 false] ++ pushSteps 1 72 ++ [.step 2 false, .step 2 false, .step 2 false, .step 0 false]
    NoReturn (init 64 8 2 id) as ∧ ¬ PopsApart (init 64 8 2 id) as ∧
      (run stepHw (init 64 8 2 id) as).held = [64, 72] ∧ (run stepHw (init 64 8 2 id) as).free = 0 := by
  refine ⟨noReturn_of_test 3 _ _ (by simp [init]) (by decide), ?_, by decide, by decide⟩
  intro h
  have h := (popsApart_append (carveSteps 0 ++ carveSteps 0 ++ pushSteps 0 64 ++ pushSteps 0 72 ++
      [.alloc 0, .step 0 false, .step 0 false, .alloc 1, .step 1 false]) _ _ h) 0 1
  revert h
  decide

/-- Only context `t` allocates. -/
def OnlyAllocator (t : Tid) (as : List Act) : Prop := ∀ u, Act.alloc u ∈ as → u = t

theorem single_apart (address size count : Nat) (link : Nat → Nat) (t : Tid) (as : List Act) (h1 : OnlyAllocator t as) :
    PopsApart (init address size count link) as := by
  have key : ∀ (as : List Act) (s : State),
      (∀ u, u ≠ t → ¬ InPop s u ∧ s.pc u ≠ .afLoad) →
      OnlyAllocator t as → PopsApart s as := by
    intro as
    induction as with
    | nil =>
      intro s hs _ u v hu hv
      have a1 : u = t := Classical.byContradiction fun h => (hs u h).1 hu
      have a2 : v = t := Classical.byContradiction fun h => (hs v h).1 hv
      rw [a1, a2]
    | cons a as ih =>
      intro s hs ho
      refine ⟨?_, ih _ ?_ (fun u hu => ho u (List.mem_cons_of_mem _ hu))⟩
      · intro u v hu hv
        have a1 : u = t := Classical.byContradiction fun h => (hs u h).1 hu
        have a2 : v = t := Classical.byContradiction fun h => (hs v h).1 hv
        rw [a1, a2]
      · intro u hu
        obtain ⟨g1, g2⟩ := hs u hu
        have goto_ok : ∀ v pc, (v ≠ t → (∀ o, pc ≠ .afRead o) ∧ (∀ o n, pc ≠ .afCas o n) ∧ pc ≠ .afLoad) →
            ¬ InPop (s.goto v pc) u ∧ (s.goto v pc).pc u ≠ .afLoad := by
          intro v pc hv
          by_cases e : u = v
          · subst e
            obtain ⟨k1, k2, k3⟩ := hv hu
            have e2 : (s.goto u pc).pc u = pc := by simp [State.goto]
            unfold InPop
            rw [e2]
            refine ⟨?_, k3⟩
            split
            · exact absurd rfl (k1 _)
            · exact absurd rfl (k2 _ _)
            · simp
          · have e2 : (s.goto v pc).pc u = s.pc u := by simp [State.goto, e]
            unfold InPop at g1 ⊢
            rw [e2]
            exact ⟨g1, g2⟩
        cases a with
        | alloc v =>
          have := ho v (by simp)
          simp only [stepHw, call]
          split
          · exact goto_ok v _ (fun h => absurd this h)
          · exact ⟨g1, g2⟩
        | dealloc v p =>
          simp only [stepHw, call]
          split
          · exact goto_ok v (.deLoad p) (fun _ => by simp)
          · exact ⟨g1, g2⟩
        | write p v =>
          simp only [stepHw, call]
          split <;> exact ⟨g1, g2⟩
        | step v b =>
          have au : ¬ InPop (auAfter s v s.uninit) u ∧ (auAfter s v s.uninit).pc u ≠ .afLoad := by
            unfold auAfter
            split
            · exact goto_ok v _ (fun _ => by simp)
            · exact goto_ok v _ (fun _ => by simp)
          have af : v = t → ¬ InPop (afAfter s v s.free) u ∧ (afAfter s v s.free).pc u ≠ .afLoad := by
            intro hv
            unfold afAfter
            split
            · exact goto_ok v _ (fun h => absurd hv h)
            · exact goto_ok v _ (fun h => absurd hv h)
          have isT : (InPop s v ∨ s.pc v = .afLoad) → v = t := by
            intro h
            refine Classical.byContradiction fun hne => ?_
            rcases h with h | h
            · exact (hs v hne).1 h
            · exact (hs v hne).2 h
          simp only [stepHw]
          split
          · exact ⟨g1, g2⟩
          · rename_i h
            exact af (isT (Or.inr h))
          · rename_i o h
            have hv := isT (Or.inl (by simp [InPop, h]))
            exact goto_ok v _ (fun h => absurd hv h)
          · rename_i o n h
            have hv := isT (Or.inl (by simp [InPop, h]))
            split
            · exact goto_ok v .idle (fun _ => by simp)
            · exact af hv
          · exact au
          · split
            · exact goto_ok v .idle (fun _ => by simp)
            · exact au
          · exact goto_ok v _ (fun _ => by simp)
          · exact goto_ok v (.deCas _ _) (fun _ => by simp)
          · split
            · exact goto_ok v .idle (fun _ => by simp)
            · exact goto_ok v _ (fun _ => by simp)
  exact key as _ (by intro u _; simp [init, InPop]) h1

/-- C11, lock-free build, partial: one allocating context, any number of
releasing contexts. -/
theorem C11_single_allocator_partial (address size count : Nat) (link : Nat → Nat)
    (ha : 0 < address) (hs : 0 < size) (t : Tid) (as : List Act) (h1 : OnlyAllocator t as) :
    Exclusive (run stepHw (init address size count link) as) :=
  (C11_lock_free_partial address size count link ha hs as (single_apart address size count link t as h1)).1

/-- Context 0 allocates while contexts 1 and 2 release concurrently. -/
example :
    let as := carveSteps 0 ++ carveSteps 0 ++
      [.dealloc 1 64, .step 1 false, .step 1 false, .dealloc 2 72, .step 2 false, .step 2 false,
       .step 1 false, .alloc 0, .step 0 false, .step 0 false, .step 2 false, .step 2 false,
       .step 2 false, .step 0 false, .step 0 false, .step 0 false]
    OnlyAllocator 0 as ∧ (run stepHw (init 64 8 2 id) as).held = [72] ∧
      (run stepHw (init 64 8 2 id) as).free = 64 := by
  refine ⟨?_, by decide, by decide⟩
  intro u hu
  simpa [carveSteps] using hu

end Verif.Heap.Conc
