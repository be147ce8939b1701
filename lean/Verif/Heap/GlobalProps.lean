import Verif.Heap.GlobalLemmas
/-!
# C66: the global allocator; C67: start-up of the heap
-/
namespace Verif.Heap

/-- The state is reached by a program from a legal configuration. -/
def GReachable (W base : Nat) (cfg : List (Nat × Nat)) (s : GSys) : Prop :=
  ∃ mem ops oks, (∀ op ∈ ops, op.small W) ∧ grun (gstart W base cfg mem) ops = some (s, oks)

theorem GReachable.inv {W base : Nat} {cfg : List (Nat × Nat)} (hl : Legal W base cfg) {s : GSys} (h : GReachable W base cfg s) :
    ∃ objs P, GInv W base (regions base cfg) s objs P := by
  obtain ⟨mem, ops, oks, hW, h⟩ := h
  obtain ⟨s', oks', P, e, g⟩ := grun_inv hl.wf ops hW (gstart_inv cfg mem)
  rw [h] at e
  simp only [Option.some.injEq, Prod.mk.injEq] at e
  obtain ⟨rfl, rfl⟩ := e
  exact ⟨_, P, g⟩

/-! ### C66 -/

/-- C66: whatever a program does with the global allocator, no operation is undefined, and at
the end the memory holds every byte of every object: those written, those that a reallocation
has to keep, and the zeros of a zeroed allocation. -/
theorem C66_contents {W base : Nat} {cfg : List (Nat × Nat)} (hl : Legal W base cfg) (mem : Mem) (ops : List GOp) (hW : ∀ op ∈ ops, op.small W) :
    ∃ s oks, grun (gstart W base cfg mem) ops = some (s, oks) ∧ Holds s (idealRun [] ops oks) := by
  obtain ⟨s, oks, P, e, g⟩ := grun_inv hl.wf ops hW (gstart_inv cfg mem)
  exact ⟨s, oks, e, g.holds⟩

/-- C66: the objects are apart, inside of the heap, and not at the null address. -/
theorem C66_disjoint {W base : Nat} {cfg : List (Nat × Nat)} (hl : Legal W base cfg) {s : GSys} (hs : GReachable W base cfg s) :
    s.live.Pairwise (fun b c => b.ptr + b.layout.size ≤ c.ptr ∨ c.ptr + c.layout.size ≤ b.ptr) ∧
    ∀ b ∈ s.live, b.ptr ≠ 0 ∧ b.layout.size ≠ 0 ∧ base ≤ b.ptr ∧ b.ptr + b.layout.size ≤ heapEnd base cfg := by
  obtain ⟨objs, P, g⟩ := hs.inv hl
  obtain ⟨fl, k, inv⟩ := g.inv
  constructor
  · rw [g.live, List.pairwise_map]
    have := inv_disjoint hl.wf inv
    simp only [List.pairwise_map] at this
    refine List.Pairwise.imp_of_mem ?_ this
    intro p q hp hq h
    have po := g.ok p hp
    have qo := g.ok q hq
    have := po.ptr
    have := po.req
    have := po.le
    have := po.pos
    have := qo.ptr
    have := qo.req
    have := qo.le
    have := qo.pos
    omega
  · intro b hb
    rw [g.live] at hb
    obtain ⟨p, hp, rfl⟩ := List.mem_map.1 hb
    have po := g.ok p hp
    have h1 := po.ptr
    have h2 := po.req
    have h3 := po.le
    have h4 := po.pos
    obtain ⟨-, h0 | ⟨i, r, j, g1, g2, g3, g4, g5⟩⟩ := inv.live p.1 (List.mem_map_of_mem hp)
    · exact absurd h0 (by omega)
    · have b1 := regions_bounds cfg base r (List.mem_of_getElem? g1)
      have hlen : i < s.heap.pools.length := by
        rw [show s.heap.pools.length = (regions base cfg).length from inv.len]
        exact (List.getElem?_eq_some_iff.1 g1).1
      have b2 := (inv.pools i r _ g1 (List.getElem?_eq_getElem hlen)).le
      have b3 := block_le_stop r (show j < r.count by omega)
      have b4 := start_le_block r j
      have b5 := hl.basePos
      refine ⟨?_, ?_, ?_, ?_⟩
      all_goals omega

/-- C66: `alloc`, `alloc_zeroed` and `realloc` refuse a request exactly if all blocks that are
large enough are in use. -/
theorem C66_null_iff {W base : Nat} {cfg : List (Nat × Nat)} (hl : Legal W base cfg) {s : GSys} (hs : GReachable W base cfg s) (l : Layout) (hz : l.size ≠ 0) :
    ((galloc s.heap l).2 = 0 ↔ ∀ r ∈ regions base cfg, l.size ≤ r.size → ∀ j < r.count, ∃ b ∈ s.live, b.ptr = r.block j) ∧
    ((gallocZeroed s.heap l).2 = 0 ↔ (galloc s.heap l).2 = 0) ∧
    (∀ b ∈ s.live, b.layout.align = l.align → ((grealloc s.heap b.ptr b.layout l.size).map (·.2) = some 0 ↔ (galloc s.heap l).2 = 0)) := by
  obtain ⟨objs, P, g⟩ := hs.inv hl
  obtain ⟨fl, k, inv⟩ := g.inv
  refine ⟨?_, Iff.rfl, ?_⟩
  · rcases allocate_spec hl.wf inv l hz with ⟨h1, h2⟩ | ⟨i, r, h', ptr, j, h1, h2, h3, h4, h5, h6, h7, -⟩
    · simp only at h1
      simp only [galloc, h1, true_iff]
      intro r hr hle j hj
      obtain ⟨i, hi, rfl⟩ := List.mem_iff_getElem.1 hr
      obtain ⟨b, hb, -, hp⟩ := h2 i _ (List.getElem?_eq_getElem hi) hle j hj
      obtain ⟨p, hpm, rfl⟩ := List.mem_map.1 hb
      exact ⟨p.2.1, by rw [g.live]; exact List.mem_map_of_mem hpm, (g.ok p hpm).ptr.trans hp⟩
    · simp only at h3
      simp only [galloc, h3]
      constructor
      · intro e
        rw [h6] at e
        exact absurd e (block_pos hl.wf h1 j)
      · intro hall
        refine absurd ?_ h7
        intro j' hj'
        obtain ⟨b, hb, hp⟩ := hall r (List.mem_of_getElem? h1) h2 j' hj'
        rw [g.live] at hb
        obtain ⟨p, hpm, rfl⟩ := List.mem_map.1 hb
        have po := g.ok p hpm
        refine ⟨p.1, List.mem_map_of_mem hpm, ?_, ?_⟩
        · have := po.le
          have := po.pos
          omega
        · rw [← hp]
          exact po.ptr.symm
  · intro b _ ha
    simp only [grealloc, ha]
    by_cases e : (galloc s.heap l).2 = 0
    · simp [e]
    · simp only [e, ↓reduceIte, iff_false]
      split
      · simp
      · simpa using e

/-- C66: with a trace stream, the live bytes computed from the trace are the size of all
objects plus the size of all refused requests: in contrast to the methods of `Allocator` (C14),
zeroed allocations and reallocations are counted. -/
theorem C66_trace {W base : Nat} {cfg : List (Nat × Nat)} (hl : Legal W base cfg) (h4 : 4 ≤ W) (mem : Mem) (ops : List GOp) (hW : ∀ op ∈ ops, op.small W)
    {s : GSys} {oks : List Bool} (h : grun (gstart W base cfg mem) ops = some (s, oks)) :
    tracedLive W (gmessagesRun W (gstart W base cfg mem) ops) = liveBytes (idealRun [] ops oks) + refusedBytes [] ops oks := by
  have := grun_trace hl.wf h4 ops hW (gstart_inv cfg mem) h
  rw [this]
  simp [liveBytes]

/-- C66: reallocation always needs a second block. A request to make an object smaller is
refused when its own block would do. -/
theorem C66_shrink_refused : Legal 4 64 [(8, 1)] ∧
    (grun (gstart 4 64 [(8, 1)] exMem) [.alloc ⟨8, 4⟩, .realloc 0 4]).map (fun r => (r.2, r.1.live)) = some ([true, false], [⟨64, 8, 4⟩]) :=
  ⟨⟨by decide, by decide, by decide, by decide, by decide⟩, by decide +kernel⟩

/-- A program with all operations: the second object is moved to a larger block with its
bytes, a zeroed object is in a block that was used before, and one request is refused. -/
def exProg : List GOp :=
  [.alloc ⟨4, 4⟩, .write 0 1 7, .alloc ⟨3, 1⟩, .write 0 0 9, .dealloc 0, .allocZeroed ⟨4, 1⟩, .realloc 1 8, .write 1 3 3, .realloc 0 7, .alloc ⟨9, 1⟩]

/-- The outcomes, the addresses, and the bytes of the objects. -/
example : ((grun (gstart 4 64 [(4, 2), (8, 2)] exMem) exProg).map fun r =>
      (r.2, r.1.live.map (·.ptr), r.1.live.map fun b => (List.range b.layout.size).map fun x => r.1.heap.mem (b.ptr + x))) =
    some ([true, true, true, true, true, true, true, true, true, false], [80, 68], [[64, 7, 66, 67, 76, 77, 78], [0, 0, 0, 3]]) := by decide +kernel

/-- What the objects are by the specification. -/
example : ((idealRun [] exProg [true, true, true, true, true, true, true, true, true, false]).map fun o => (List.range o.size).map o.bytes) =
    [[none, some 7, none, none, none, none, none], [some 0, some 0, some 0, some 3]] := by decide

example : Legal 4 64 [(4, 2), (8, 2)] ∧ ∀ op ∈ exProg, op.small 4 := by
  refine ⟨exLegal, ?_⟩
  simp [exProg, GOp.small]

/-- Its trace: 11 live bytes, and 9 that were refused. -/
example : tracedLive 4 (gmessagesRun 4 (gstart 4 64 [(4, 2), (8, 2)] exMem) exProg) = 11 + 9 := by decide +kernel

/-! ### C67 -/

/-- C67: `init` makes the section equal to its load image and changes nothing else exactly if
the number of bytes it copies is the length of the section. -/
theorem C67_exact_iff (W load base stop : Nat) (h1 : base ≤ stop) (h2 : load + ((stop - base) / 4) * W ≤ base ∨ base + ((stop - base) / 4) * W ≤ load)
    (h3 : load + (stop - base) ≤ base ∨ stop ≤ load) :
    (∀ m : Mem, ∃ m', initCopy W m load base stop = some m' ∧ (∀ x, base ≤ x → x < stop → m' x = m (load + (x - base))) ∧
      ∀ x, ¬ (base ≤ x ∧ x < stop) → m' x = m x) ↔ ((stop - base) / 4) * W = stop - base := by
  have hs : (stop - base) >>> 2 = (stop - base) / 4 := by rw [Nat.shiftRight_eq_div_pow]
  have hc : ∀ m : Mem, initCopy W m load base stop =
      some (fun x => if base ≤ x ∧ x < base + ((stop - base) / 4) * W then m (load + (x - base)) else m x) := by
    intro m
    simp only [initCopy, copyNonoverlapping, hs]
    rw [if_pos (by omega)]
  generalize hn : ((stop - base) / 4) * W = n at *
  constructor
  · intro h
    by_cases hlt : n < stop - base
    · -- the byte behind the copied ones keeps its old value
      obtain ⟨m', e, f, -⟩ := h (fun x => if x = base + n then 1 else 0)
      rw [hc] at e
      simp only [Option.some.injEq] at e
      subst e
      have := f (base + n) (by omega) (by omega)
      simp only at this
      rw [if_neg (by omega), if_pos trivial, if_neg (by omega)] at this
      exact absurd this (by decide)
    · by_cases hgt : stop - base < n
      · -- the byte behind the section is changed
        obtain ⟨m', e, -, f⟩ := h (fun x => if x = load + (stop - base) then 1 else 0)
        rw [hc] at e
        simp only [Option.some.injEq] at e
        subst e
        have := f stop (by omega)
        simp only at this
        rw [if_pos (by omega), if_pos trivial, if_neg (by omega)] at this
        exact absurd this (by decide)
      · omega
  · intro e m
    refine ⟨_, hc m, fun x hx1 hx2 => ?_, fun x hx => ?_⟩
    · rw [if_pos (by omega)]
    · rw [if_neg (by omega)]

/-- C67 on the targets the code is written for: pointers of 4 bytes and a section whose length
is a multiple of 4. -/
theorem C67_partial (load base stop : Nat) (h1 : base ≤ stop) (h2 : load + (stop - base) ≤ base ∨ stop ≤ load) (h3 : 4 ∣ stop - base) (m : Mem) :
    ∃ m', initCopy 4 m load base stop = some m' ∧ (∀ x, base ≤ x → x < stop → m' x = m (load + (x - base))) ∧
      ∀ x, ¬ (base ≤ x ∧ x < stop) → m' x = m x :=
  (C67_exact_iff 4 load base stop h1 (by omega) h2).2 (by omega) m

example : 32 ≤ 64 ∧ (128 + (64 - 32) ≤ 32 ∨ 64 ≤ 128) ∧ 4 ∣ 64 - 32 := by decide

/-- C67 fails with pointers of 8 bytes: the copy is twice as long as the section, so that the
bytes behind it are overwritten. -/
theorem C67_false : ¬ ∀ (W load base stop : Nat) (m : Mem), 0 < W → base ≤ stop → (load + 2 * (stop - base) ≤ base ∨ base + 2 * (stop - base) ≤ load) → W ∣ stop - base →
    ∃ m', initCopy W m load base stop = some m' ∧ (∀ x, base ≤ x → x < stop → m' x = m (load + (x - base))) ∧
      ∀ x, ¬ (base ≤ x ∧ x < stop) → m' x = m x := by
  intro h
  have := (C67_exact_iff 8 256 64 96 (by decide) (by decide) (by decide)).1 (fun m => h 8 256 64 96 m (by decide) (by decide) (by decide) (by decide))
  revert this
  decide

/-- C67 fails with 4 bytes per pointer too if the length is not a multiple of 4: the last
bytes are not set. -/
theorem C67_false_tail : ∃ (m m' : Mem), initCopy 4 m 128 64 70 = some m' ∧ m' 69 ≠ m (128 + 5) :=
  ⟨fun x => UInt8.ofNat x, _, rfl, by decide⟩

end Verif.Heap
