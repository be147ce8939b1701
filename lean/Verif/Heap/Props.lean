import Verif.Heap.Lemmas
/-!
# C05–C10, C12, C13: the heap
-/
namespace Verif.Heap

/-- Configuration of the examples: 4-byte pointers, two 4-byte blocks and two
8-byte blocks from address 64 on. -/
theorem exLegal : Legal 4 64 [(4, 2), (8, 2)] :=
  ⟨by decide, by decide, by decide, by decide, by decide⟩

/-- The base address of the examples is arbitrary contents. -/
def exMem : Mem := fun x => UInt8.ofNat x

/-- A history with every kind of request: two blocks are held at the end. -/
def exOps : List Op :=
  [.alloc ⟨3, 1⟩, .alloc ⟨4, 4⟩, .allocZeroed ⟨1, 1⟩, .write 68 7, .dealloc 2 ⟨4, 1⟩,
   .grow 0 ⟨1, 1⟩ ⟨8, 1⟩, .dealloc 1 ⟨4, 4⟩, .alloc ⟨2, 1⟩, .shrink 1 ⟨8, 1⟩ ⟨2, 1⟩]

/-- The blocks a history leaves. -/
def liveAfter (s : Sys) (ops : List Op) : Option (List Block) := (run s ops).map Sys.live

example : liveAfter (start 4 64 [(4, 2), (8, 2)] exMem) exOps =
    some [⟨64, 4, 2⟩, ⟨68, 4, 2⟩] := by decide +kernel

/-! ### C05 — held blocks are disjoint, in their pool, and long enough -/

/-- No history runs into undefined behaviour (overlapping copy) inside the heap. -/
theorem C05_no_ub {W base : Nat} {cfg : List (Nat × Nat)} (hl : Legal W base cfg) (mem : Mem)
    (ops : List Op) : run (start W base cfg mem) ops ≠ none := by
  obtain ⟨s, e, -⟩ := run_inv hl.wf ops (start_inv cfg mem)
  simp [e]

/-- C05: after any legal history the blocks the client holds are pairwise
disjoint, each non-empty block is exactly one block of one pool, and each is at
least as long as requested. -/
theorem C05_disjoint {W base : Nat} {cfg : List (Nat × Nat)} (hl : Legal W base cfg) {s : Sys}
    (hs : Reachable W base cfg s) :
    s.live.Pairwise (fun b c => ∀ x, ¬ (b.ptr ≤ x ∧ x < b.ptr + b.len ∧ c.ptr ≤ x ∧ x < c.ptr + c.len)) ∧
    (∀ b ∈ s.live, b.req ≤ b.len ∧ (b.len ≠ 0 → ∃ r ∈ regions base cfg, ∃ j < r.count,
      b.ptr = r.block j ∧ b.len = r.size ∧ r.start ≤ b.ptr ∧ b.ptr + b.len ≤ r.stop)) := by
  obtain ⟨fl, k, inv⟩ := hs.inv hl
  constructor
  · refine (inv_disjoint hl.wf inv).imp ?_
    intro b c h x hx
    omega
  · intro b hb
    obtain ⟨⟨h1, _⟩, h2⟩ := inv.live b hb
    refine ⟨h1, fun hne => ?_⟩
    rcases h2 with h2 | ⟨i, r, j, g1, g2, g3, g4, g5⟩
    · exact absurd h2 hne
    · have hle := (inv.pools i r _ g1 (List.getElem?_eq_getElem (by
        rw [inv.len]; exact (List.getElem?_eq_some_iff.mp g1).1))).le
      have hst := block_le_stop r (by omega : j < r.count)
      refine ⟨r, List.mem_of_getElem? g1, j, by omega, g3, g4, ?_, by omega⟩
      rw [g3]
      exact start_le_block r j

example : Reachable 4 64 [(4, 2), (8, 2)]
    ((run (start 4 64 [(4, 2), (8, 2)] exMem) exOps).getD (start 4 64 [] exMem)) := by
  refine ⟨exMem, exOps, ?_⟩
  cases h : run (start 4 64 [(4, 2), (8, 2)] exMem) exOps with
  | none => exact absurd h (C05_no_ub exLegal _ _)
  | some s => rfl

/-! ### C06 — allocation fails only on exhaustion -/

/-- C06: a non-empty request fails exactly when all blocks of all pools with
sufficient block size are held. -/
theorem C06_exhaustion {W base : Nat} {cfg : List (Nat × Nat)} (hl : Legal W base cfg) {s : Sys}
    (hs : Reachable W base cfg s) (lay : Layout) (hsz : lay.size ≠ 0) :
    (allocate s.heap lay).2 = none ↔
      ∀ r ∈ regions base cfg, lay.size ≤ r.size → Exhausted s.live r := by
  obtain ⟨fl, k, inv⟩ := hs.inv hl
  rcases allocate_spec hl.wf inv lay hsz with ⟨h1, h2⟩ | ⟨i, r, h', ptr, j, h1, h2, h3, h4, h5, h6, h7, h8⟩
  · rw [h1]
    simp only [true_iff]
    intro r hr hle
    obtain ⟨i, hi, rfl⟩ := List.mem_iff_getElem.mp hr
    exact h2 i _ (List.getElem?_eq_getElem hi) hle
  · rw [h3]
    simp only [reduceCtorEq, false_iff]
    intro hall
    exact h7 (hall r (List.mem_of_getElem? h1) h2)

/-- C06: a failing request changes nothing; an empty request always succeeds and
changes nothing. -/
theorem C06_no_effect {W base : Nat} {cfg : List (Nat × Nat)} (hl : Legal W base cfg) {s : Sys}
    (hs : Reachable W base cfg s) (lay : Layout) :
    ((allocate s.heap lay).2 = none → (allocate s.heap lay).1 = s.heap) ∧
    (lay.size = 0 → allocate s.heap lay = (s.heap, some (lay.align, 0)) ∧
      ∀ p, deallocate s.heap p lay = s.heap) := by
  obtain ⟨fl, k, inv⟩ := hs.inv hl
  constructor
  · intro h
    rcases allocate_any hl.wf inv lay with h1 | ⟨h', ptr, len, h1, _⟩
    · rw [h1]
    · rw [h1] at h
      simp at h
  · intro h
    exact ⟨by simp [allocate, h], fun p => by simp [deallocate, h]⟩

/-- Both 8-byte blocks held: an 8-byte request fails, a 4-byte request does not. -/
example :
    (run (start 4 64 [(4, 2), (8, 2)] exMem) [.alloc ⟨8, 1⟩, .alloc ⟨5, 1⟩]).map
      (fun s => ((allocate s.heap ⟨8, 1⟩).2, (allocate s.heap ⟨4, 1⟩).2)) =
    some (none, some (64, 4)) := by decide +kernel

/-! ### C07 — best fit -/

/-- C07: a successful non-empty request is served by the first pool with
sufficient block size that has a block which is not held; the reported length is
its block size and the memory is unchanged. -/
theorem C07_best_fit {W base : Nat} {cfg : List (Nat × Nat)} (hl : Legal W base cfg) {s : Sys}
    (hs : Reachable W base cfg s) (lay : Layout) (hsz : lay.size ≠ 0) {h' : Heap} {ptr len : Nat}
    (ha : allocate s.heap lay = (h', some (ptr, len))) :
    ∃ (i : Nat) (r : Region), (regions base cfg)[i]? = some r ∧ lay.size ≤ r.size ∧
      ¬ Exhausted s.live r ∧ len = r.size ∧ (∃ j < r.count, ptr = r.block j) ∧
      (∀ (i' : Nat) (r' : Region), i' < i → (regions base cfg)[i']? = some r' →
        r'.size < lay.size ∨ Exhausted s.live r') ∧
      h'.mem = s.heap.mem := by
  obtain ⟨fl, k, inv⟩ := hs.inv hl
  rcases allocate_spec hl.wf inv lay hsz with ⟨h1, h2⟩ | ⟨i, r, h2, ptr2, j, g1, g2, g3, g4, g5, g6, g7, g8, g9⟩
  · rw [h1] at ha
    simp at ha
  · rw [g3] at ha
    simp only [Prod.mk.injEq, Option.some.injEq] at ha
    obtain ⟨rfl, rfl, rfl⟩ := ha
    refine ⟨i, r, g1, g2, g7, rfl, ⟨j, g5, g6⟩, ?_, g4⟩
    intro i' r' hlt hr'
    by_cases hle : lay.size ≤ r'.size
    · exact Or.inr (g8 i' r' hlt hr' hle)
    · exact Or.inl (by omega)

/-- The 4-byte pool is exhausted: a 3-byte request goes to the 8-byte pool. -/
example :
    (run (start 4 64 [(4, 2), (8, 2)] exMem) [.alloc ⟨4, 1⟩, .alloc ⟨2, 1⟩]).map
      (fun s => (allocate s.heap ⟨3, 1⟩).2) = some (some (72, 8)) := by decide +kernel

/-! ### C08 — alignment -/

/-- C08 as stated is false: the requested alignment is ignored. Two 6-byte
blocks from address 64 on: the second block of alignment 4 is at 70. -/
theorem C08_alignment_false : ¬ ∀ (W base : Nat) (cfg : List (Nat × Nat)) (s : Sys) (lay : Layout)
    (h' : Heap) (ptr len : Nat), Legal W base cfg → Reachable W base cfg s →
    allocate s.heap lay = (h', some (ptr, len)) → lay.align ∣ ptr := by
  intro h
  have hl : Legal 4 64 [(6, 2)] := ⟨by decide, by decide, by decide, by decide, by decide⟩
  have hrun : (run (start 4 64 [(6, 2)] exMem) [.alloc ⟨4, 4⟩]).map
      (fun s => (allocate s.heap ⟨4, 4⟩).2) = some (some (70, 6)) := by decide +kernel
  cases hr : run (start 4 64 [(6, 2)] exMem) [.alloc ⟨4, 4⟩] with
  | none => exact absurd hr (C05_no_ub hl _ _)
  | some s =>
    rw [hr] at hrun
    simp only [Option.map_some, Option.some.injEq] at hrun
    have := h 4 64 [(6, 2)] s ⟨4, 4⟩ (allocate s.heap ⟨4, 4⟩).1 70 6 hl ⟨_, _, hr⟩
      (by rw [← hrun])
    revert this
    decide

/-- C08, partial: if the base address and all block sizes are multiples of `A`,
then every block is aligned to `A`, hence to every requested alignment that
divides `A`. (Missing: requests with larger alignments, which the code does not
refuse.) -/
theorem C08_alignment_partial {W base : Nat} {cfg : List (Nat × Nat)} (hl : Legal W base cfg)
    {s : Sys} (hs : Reachable W base cfg s) (A : Nat) (hb : A ∣ base) (hc : ∀ c ∈ cfg, A ∣ c.1)
    (lay : Layout) (hal : lay.align ∣ A) {h' : Heap} {ptr len : Nat}
    (ha : allocate s.heap lay = (h', some (ptr, len))) : lay.align ∣ ptr := by
  by_cases hsz : lay.size = 0
  · simp only [allocate, hsz, if_true, Prod.mk.injEq, Option.some.injEq] at ha
    rw [← ha.2.1]
    exact Nat.dvd_refl _
  · obtain ⟨i, r, h1, -, -, -, ⟨j, -, h2⟩, -, -⟩ := C07_best_fit hl hs lay hsz ha
    have hstart : ∀ (cfg : List (Nat × Nat)) (b : Nat), A ∣ b → (∀ c ∈ cfg, A ∣ c.1) →
        ∀ r ∈ regions b cfg, A ∣ r.start ∧ A ∣ r.size := by
      intro cfg
      induction cfg with
      | nil => intro b _ _ r hr; simp [regions] at hr
      | cons c cfg ih =>
        intro b hb hc r hr
        simp only [regions, List.mem_cons] at hr
        have hc0 := hc c (by simp)
        rcases hr with rfl | hr
        · exact ⟨hb, hc0⟩
        · exact ih _ (Nat.dvd_add hb (Nat.dvd_mul_right_of_dvd hc0 _)) (fun d hd => hc d (by simp [hd])) r hr
    obtain ⟨d1, d2⟩ := hstart cfg base hb hc r (List.mem_of_getElem? h1)
    rw [h2]
    exact Nat.dvd_trans hal (Nat.dvd_add d1 (Nat.dvd_mul_right_of_dvd d2 _))

example : (4 ∣ 64) ∧ ∀ c ∈ [(4, 2), (8, 2)], 4 ∣ c.1 := by decide

/-- C08, exact: requests of a layout are always aligned if and only if every block that is long
enough is. So the configuration alone decides, and a configuration with one block that is not
aligned is enough for a violation. -/
theorem C08_exact {W base : Nat} {cfg : List (Nat × Nat)} (hl : Legal W base cfg) (lay : Layout)
    (hsz : lay.size ≠ 0) :
    (∀ (s : Sys) (h' : Heap) (ptr len : Nat), Reachable W base cfg s →
      allocate s.heap lay = (h', some (ptr, len)) → lay.align ∣ ptr) ↔
    ∀ r ∈ regions base cfg, lay.size ≤ r.size → ∀ j < r.count, lay.align ∣ r.block j := by
  constructor
  · intro h r hr hle j hj
    obtain ⟨s, hs, hb, hn⟩ := fill hl lay hsz (fun p => lay.align ∣ p) h
    obtain ⟨i, hi⟩ := List.getElem?_of_mem hr
    obtain ⟨fl, k, inv⟩ := hs.inv hl
    rcases allocate_spec hl.wf inv lay hsz with ⟨-, h2⟩ | ⟨_, _, _, _, _, -, -, g3, -⟩
    · obtain ⟨b, hb', -, hp⟩ := h2 i r hi hle j hj
      rw [← hp]
      exact hb b hb'
    · rw [hn] at g3
      simp at g3
  · intro h s h' ptr len hs ha
    obtain ⟨i, r, h1, h2, -, -, ⟨j, hj, hp⟩, -, -⟩ := C07_best_fit hl hs lay hsz ha
    rw [hp]
    exact h r (List.mem_of_getElem? h1) h2 j hj

/-- Blocks of 4 bytes and one block of 12: layouts of alignment 8 get misaligned blocks, unless
they are longer than 4 bytes. -/
example : (∃ r ∈ regions 64 [(4, 4), (12, 1)], 4 ≤ r.size ∧ ∃ j < r.count, ¬ 8 ∣ r.block j) ∧
    (∀ r ∈ regions 64 [(4, 4), (12, 1)], 5 ≤ r.size → ∀ j < r.count, 8 ∣ r.block j) := by decide

/-! ### C09 — reallocation -/

/-- What a reallocation of held block `i` must do: no undefined behaviour; on
failure nothing changes; on success the first `keep` bytes are the old ones, and
the other held blocks keep their bytes. -/
def ReallocOk (s : Sys) (i : Nat) (b : Block) (keep newSize : Nat) (res : ReallocResult) : Prop :=
  (res = some (s.heap, none)) ∨
  ∃ h' ptr len, res = some (h', some (ptr, len)) ∧ newSize ≤ len ∧
    (∀ x, x < keep → h'.mem (ptr + x) = s.heap.mem (b.ptr + x)) ∧
    (∀ c ∈ s.live.eraseIdx i, ∀ x, x < c.len → h'.mem (c.ptr + x) = s.heap.mem (c.ptr + x))

/-- C09: `grow` keeps the old contents. -/
theorem C09_grow {W base : Nat} {cfg : List (Nat × Nat)} (hl : Legal W base cfg) {s : Sys}
    (hs : Reachable W base cfg s) {i : Nat} {b : Block} (hb : s.live[i]? = some b)
    (old new : Layout) (hfit : b.fits old) (hle : old.size ≤ new.size) :
    ReallocOk s i b old.size new.size (grow s.heap b.ptr old new) := by
  obtain ⟨fl, k, inv⟩ := hs.inv hl
  have hf := hfit
  simp only [Block.fits, decide_eq_true_eq] at hf
  rcases allocate_any hl.wf inv new with h1 | ⟨h', ptr, len, h1, h2, h3, fl', k', h4⟩
  · exact Or.inl (by simp [grow, h1])
  · obtain ⟨h'', e1, -, e3, -, e5⟩ := moveBlock_spec hl.wf h4 hb hfit (n := old.size)
      (by simp only; omega) (by omega)
    refine Or.inr ⟨h'', ptr, len, by simp only [grow, h1, e1, Option.map_some], h3, ?_, ?_⟩
    · intro x hx
      rw [e3 x hx, h2]
    · intro c hc x hx
      rw [e5 c hc x hx, h2]

/-- C09: `grow_zeroed` keeps the old contents. -/
theorem C09_grow_zeroed {W base : Nat} {cfg : List (Nat × Nat)} (hl : Legal W base cfg) {s : Sys}
    (hs : Reachable W base cfg s) {i : Nat} {b : Block} (hb : s.live[i]? = some b)
    (old new : Layout) (hfit : b.fits old) (hle : old.size ≤ new.size) :
    ReallocOk s i b old.size new.size (growZeroed s.heap b.ptr old new) := by
  obtain ⟨fl, k, inv⟩ := hs.inv hl
  have hf := hfit
  simp only [Block.fits, decide_eq_true_eq] at hf
  rcases allocateZeroed_any hl.wf inv new with h1 | ⟨h', ptr, len, h1, h2, h3, h4, fl', k', h5⟩
  · exact Or.inl (by simp [growZeroed, h1])
  · obtain ⟨h'', e1, -, e3, -, e5⟩ := moveBlock_spec hl.wf h5 hb hfit (n := old.size)
      (by simp only; omega) (by omega)
    refine Or.inr ⟨h'', ptr, len, by simp only [growZeroed, h1, e1, Option.map_some], h4, ?_, ?_⟩
    · intro x hx
      rw [e3 x hx, h3 b (List.mem_of_getElem? hb) x (by omega)]
    · intro c hc x hx
      rw [e5 c hc x hx, h3 c (List.mem_of_mem_eraseIdx hc) x hx]

/-- C09: `shrink` keeps the contents up to the new size. -/
theorem C09_shrink {W base : Nat} {cfg : List (Nat × Nat)} (hl : Legal W base cfg) {s : Sys}
    (hs : Reachable W base cfg s) {i : Nat} {b : Block} (hb : s.live[i]? = some b)
    (old new : Layout) (hfit : b.fits old) (hle : new.size ≤ old.size) :
    ReallocOk s i b new.size new.size (shrink s.heap b.ptr old new) := by
  obtain ⟨fl, k, inv⟩ := hs.inv hl
  have hf := hfit
  simp only [Block.fits, decide_eq_true_eq] at hf
  rcases allocate_any hl.wf inv new with h1 | ⟨h', ptr, len, h1, h2, h3, fl', k', h4⟩
  · exact Or.inl (by simp [shrink, h1])
  · obtain ⟨h'', e1, -, e3, -, e5⟩ := moveBlock_spec hl.wf h4 hb hfit (n := new.size)
      (by simp only; omega) (by omega)
    refine Or.inr ⟨h'', ptr, len, by simp only [shrink, h1, e1, Option.map_some], h3, ?_, ?_⟩
    · intro x hx
      rw [e3 x hx, h2]
    · intro c hc x hx
      rw [e5 c hc x hx, h2]

/-- C09: a reallocation fails only when the new request does (so it succeeds
whenever C06 says memory is available). -/
theorem C09_fails_iff (h : Heap) (p : Nat) (old new : Layout) (h' : Heap) :
    (grow h p old new = some (h', none) ↔ allocate h new = (h', none)) ∧
    (shrink h p old new = some (h', none) ↔ allocate h new = (h', none)) := by
  constructor <;>
  · first | unfold grow | unfold shrink
    cases ha : allocate h new with
    | mk h1 o =>
      cases o with
      | none => simp
      | some x =>
        obtain ⟨q, len⟩ := x
        simp

/-- A grow that moves the contents. -/
example :
    (run (start 4 64 [(4, 2), (8, 2)] exMem) [.alloc ⟨3, 1⟩, .write 64 11, .write 66 13,
      .grow 0 ⟨3, 1⟩ ⟨6, 1⟩]).map
      (fun s => (s.live, s.heap.mem 72, s.heap.mem 74)) = some ([⟨72, 8, 6⟩], 11, 13) := by
  decide +kernel

/-! ### C10 — zeroed memory -/

/-- C10: `allocate_zeroed` returns zeroes and leaves held blocks alone. -/
theorem C10_allocate_zeroed {W base : Nat} {cfg : List (Nat × Nat)} (hl : Legal W base cfg)
    {s : Sys} (hs : Reachable W base cfg s) (lay : Layout) {h' : Heap} {ptr len : Nat}
    (ha : allocateZeroed s.heap lay = (h', some (ptr, len))) :
    lay.size ≤ len ∧ (∀ x, x < len → h'.mem (ptr + x) = 0) ∧
    (∀ c ∈ s.live, ∀ x, x < c.len → h'.mem (c.ptr + x) = s.heap.mem (c.ptr + x)) := by
  obtain ⟨fl, k, inv⟩ := hs.inv hl
  rcases allocateZeroed_any hl.wf inv lay with h1 | ⟨h2, ptr2, len2, h1, g2, g3, g4, g5⟩
  · rw [h1] at ha
    simp at ha
  · rw [h1] at ha
    simp only [Prod.mk.injEq, Option.some.injEq] at ha
    obtain ⟨rfl, rfl, rfl⟩ := ha
    exact ⟨g4, g2, g3⟩

/-- C10: `grow_zeroed` zeroes everything beyond the old size. -/
theorem C10_grow_zeroed {W base : Nat} {cfg : List (Nat × Nat)} (hl : Legal W base cfg) {s : Sys}
    (hs : Reachable W base cfg s) {i : Nat} {b : Block} (hb : s.live[i]? = some b)
    (old new : Layout) (hfit : b.fits old) (hle : old.size ≤ new.size) {h' : Heap} {ptr len : Nat}
    (ha : growZeroed s.heap b.ptr old new = some (h', some (ptr, len))) :
    new.size ≤ len ∧ ∀ x, old.size ≤ x → x < len → h'.mem (ptr + x) = 0 := by
  obtain ⟨fl, k, inv⟩ := hs.inv hl
  have hf := hfit
  simp only [Block.fits, decide_eq_true_eq] at hf
  rcases allocateZeroed_any hl.wf inv new with h1 | ⟨h1', ptr1, len1, h1, h2, h3, h4, fl', k', h5⟩
  · simp [growZeroed, h1] at ha
  · obtain ⟨h'', e1, -, -, e4, -⟩ := moveBlock_spec hl.wf h5 hb hfit (n := old.size)
      (by simp only; omega) (by omega)
    simp only [growZeroed, h1, e1, Option.map_some, Option.some.injEq, Prod.mk.injEq] at ha
    obtain ⟨rfl, rfl, rfl⟩ := ha
    refine ⟨h4, fun x hx1 hx2 => ?_⟩
    rw [e4 x hx1 hx2]
    exact h2 x hx2

/-- A block with old contents and free-list links comes back zeroed. -/
example :
    (run (start 4 64 [(4, 2), (8, 2)] exMem) [.alloc ⟨8, 1⟩, .write 72 9, .alloc ⟨8, 1⟩,
      .dealloc 0 ⟨8, 1⟩, .dealloc 0 ⟨8, 1⟩, .allocZeroed ⟨7, 1⟩]).map
      (fun s => (s.live, (List.range 8).map fun i => s.heap.mem (72 + i))) =
      some ([⟨72, 8, 7⟩], List.replicate 8 0) := by decide +kernel

/-! ### C12 — lookup by address -/

/-- C12: on the configured table the lookup returns pool `i` exactly for the
addresses of pool `i`. -/
theorem C12_lookup {W base : Nat} {cfg : List (Nat × Nat)} (hl : Legal W base cfg) (mem : Mem)
    (ptr i : Nat) :
    poolByPtr (Heap.new W base cfg mem).pools base ptr = some i ↔
      ∃ r, (regions base cfg)[i]? = some r ∧ r.start ≤ ptr ∧ ptr < r.stop := by
  have hlen : (Heap.new W base cfg mem).pools.length = (regions base cfg).length := by
    simp [Heap.new, pools_eq]
  have hedge : ∀ (i : Nat) (r : Region) (p : Pool), (regions base cfg)[i]? = some r →
      (Heap.new W base cfg mem).pools[i]? = some p → p.edge = r.stop := by
    intro i r p h1 h2
    rw [new_getElem? h1 h2]
    rfl
  constructor
  · intro h
    -- some pool contains the address unless it is outside the heap
    have cover : ∀ (cfg : List (Nat × Nat)) (b : Nat), b ≤ ptr → ptr < heapEnd b cfg →
        ∃ (i : Nat) (r : Region), (regions b cfg)[i]? = some r ∧ r.start ≤ ptr ∧ ptr < r.stop := by
      intro cfg
      induction cfg with
      | nil => intro b h1 h2; simp [heapEnd] at h2; omega
      | cons c cfg ih =>
        intro b h1 h2
        obtain ⟨sz, n⟩ := c
        by_cases hin : ptr < b + sz * n
        · exact ⟨0, ⟨b, sz, n⟩, by simp [regions], h1, hin⟩
        · obtain ⟨i, r, g1, g2⟩ := ih (b + sz * n) (by omega) (by
            simp only [heapEnd, List.map_cons, List.sum_cons] at h2 ⊢
            omega)
          exact ⟨i + 1, r, by simpa [regions] using g1, g2⟩
    have hrange : base ≤ ptr ∧ ptr < heapEnd base cfg := by
      simp only [poolByPtr] at h
      generalize hb : binarySearch (Heap.new W base cfg mem).pools
        (fun pool => decide (ptr < pool.edge)) = idx at h
      have toReg : ∀ (i : Nat) (p : Pool), (Heap.new W base cfg mem).pools[i]? = some p →
          ∃ r, (regions base cfg)[i]? = some r ∧ p.edge = r.stop := by
        intro i p hp
        have hi := (List.getElem?_eq_some_iff.mp hp).1
        exact ⟨_, List.getElem?_eq_getElem (by omega),
          hedge i _ p (List.getElem?_eq_getElem (by omega)) hp⟩
      have spec := binarySearch_spec (Heap.new W base cfg mem).pools
        (fun pool => decide (ptr < pool.edge)) (by
          intro i j p q hij hp hq hf
          obtain ⟨r1, g1, g2⟩ := toReg i p hp
          obtain ⟨r2, g3, g4⟩ := toReg j q hq
          have := edges_mono hl.wf g1 g3 hij
          simp only [decide_eq_true_eq] at *
          omega)
      rw [hb] at spec
      obtain ⟨s1, s2, s3⟩ := spec
      by_cases hc : idx < (Heap.new W base cfg mem).pools.length ∧ (idx > 0 ∨ ptr ≥ base)
      · obtain ⟨q, hq⟩ : ∃ q, (Heap.new W base cfg mem).pools[idx]? = some q :=
          ⟨_, List.getElem?_eq_getElem hc.1⟩
        obtain ⟨r, g1, g2⟩ := toReg idx q hq
        have h3 := s3 idx q (Nat.le_refl _) hq
        simp only [decide_eq_true_eq] at h3
        have hend := (regions_bounds cfg base r (List.mem_of_getElem? g1)).2.1
        refine ⟨?_, by omega⟩
        rcases hc.2 with h0 | h0
        · obtain ⟨q', hq'⟩ : ∃ q', (Heap.new W base cfg mem).pools[idx - 1]? = some q' :=
            ⟨_, List.getElem?_eq_getElem (by omega)⟩
          have h4 := s2 (idx - 1) q' (by omega) hq'
          obtain ⟨r', g1', g2'⟩ := toReg (idx - 1) q' hq'
          have hlow := (regions_bounds cfg base r' (List.mem_of_getElem? g1')).1
          have : r'.start ≤ r'.stop := by simp [Region.stop]
          simp only [decide_eq_false_iff_not] at h4
          omega
        · exact h0
      · rw [if_neg hc] at h
        simp at h
    obtain ⟨i', r, g1, g2, g3⟩ := cover cfg base hrange.1 hrange.2
    have := poolByPtr_in hl.wf hlen hedge g1 g2 g3
    rw [h] at this
    simp only [Option.some.injEq] at this
    subst this
    exact ⟨r, g1, g2, g3⟩
  · rintro ⟨r, h1, h2, h3⟩
    exact poolByPtr_in hl.wf hlen hedge h1 h2 h3

/-- C12: nothing is found outside the heap, and the lookup does not depend on
the history (edges never change). -/
theorem C12_outside {W base : Nat} {cfg : List (Nat × Nat)} (hl : Legal W base cfg) (mem : Mem)
    (ptr : Nat) (h : ptr < base ∨ heapEnd base cfg ≤ ptr) :
    poolByPtr (Heap.new W base cfg mem).pools base ptr = none := by
  cases hp : poolByPtr (Heap.new W base cfg mem).pools base ptr with
  | none => rfl
  | some i =>
    obtain ⟨r, h1, h2, h3⟩ := (C12_lookup hl mem ptr i).mp hp
    obtain ⟨b1, b2, -⟩ := regions_bounds cfg base r (List.mem_of_getElem? h1)
    omega

/-- C12, on a heap with a history: the lookup is still exact. -/
theorem C12_lookup_reachable {W base : Nat} {cfg : List (Nat × Nat)} (hl : Legal W base cfg)
    {s : Sys} (hs : Reachable W base cfg s) {i : Nat} {r : Region}
    (hr : (regions base cfg)[i]? = some r) (ptr : Nat) (h1 : r.start ≤ ptr) (h2 : ptr < r.stop) :
    poolByPtr s.heap.pools s.heap.base ptr = some i := by
  obtain ⟨fl, k, inv⟩ := hs.inv hl
  rw [inv.hbase]
  exact poolByPtr_in hl.wf inv.len (fun i r p g1 g2 => (inv.pools i r p g1 g2).edge) hr h1 h2

/-- The pool table of the repository's own test. -/
example : (List.map (poolByPtr (Heap.new 4 20 [(2, 100), (5, 100), (8, 100), (12, 100), (16, 100),
      (23, 100), (38, 100), (56, 100), (72, 100), (91, 100)] exMem).pools 20)
      [0, 19, 20, 219, 220, 719, 720, 721, 5000, 23220, 32319, 32320, 50000]) =
    [none, none, some 0, some 0, some 1, some 1, some 2, some 2, some 5, some 9, some 9, none, none] := by
  decide +kernel

/-! ### C13 — releasing a block does not touch other blocks -/

/-- The full claim, for every configuration the constructor accepts (blocks may
be shorter than a pointer). -/
def C13Statement : Prop :=
  ∀ (W base : Nat) (cfg : List (Nat × Nat)) (s : Sys) (i : Nat) (b : Block) (lay : Layout),
    0 < W → 0 < base → cfg.Pairwise (fun a b => a.1 ≤ b.1) → heapEnd base cfg ≤ 256 ^ W →
    Reachable W base cfg s → s.live[i]? = some b → b.fits lay →
    ∀ c ∈ s.live.eraseIdx i, ∀ x, x < c.len →
      (deallocate s.heap b.ptr lay).mem (c.ptr + x) = s.heap.mem (c.ptr + x)

/-- C13 as stated is false: with 2-byte blocks (as in the repository's tests)
and 4-byte pointers, releasing the first block zeroes the second one. -/
theorem C13_small_blocks_corrupt : ¬ C13Statement := by
  intro h
  have hrun : (run (start 4 64 [(2, 2)] exMem) [.alloc ⟨2, 1⟩, .alloc ⟨2, 1⟩]).map
      (fun s => (s.live, (deallocate s.heap 64 ⟨2, 1⟩).mem 66, s.heap.mem 66)) =
      some ([⟨66, 2, 2⟩, ⟨64, 2, 2⟩], 0, 66) := by decide +kernel
  cases hr : run (start 4 64 [(2, 2)] exMem) [.alloc ⟨2, 1⟩, .alloc ⟨2, 1⟩] with
  | none => simp [hr] at hrun
  | some s =>
    rw [hr] at hrun
    simp only [Option.map_some, Option.some.injEq, Prod.mk.injEq] at hrun
    obtain ⟨e1, e2, e3⟩ := hrun
    have := h 4 64 [(2, 2)] s 1 ⟨64, 2, 2⟩ ⟨2, 1⟩ (by decide) (by decide) (by decide) (by decide)
      ⟨_, _, hr⟩ (by simp [e1]) (by decide) ⟨66, 2, 2⟩ (by simp [e1]) 0 (by decide)
    simp only [Nat.add_zero, e2, e3] at this
    revert this
    decide

/-- C13, partial: with blocks of at least pointer size, releasing a block changes
no byte of another held block — in fact no byte outside the released block.
(Missing: smaller blocks, where it is false.) -/
theorem C13_release_partial {W base : Nat} {cfg : List (Nat × Nat)} (hl : Legal W base cfg)
    {s : Sys} (hs : Reachable W base cfg s) {i : Nat} {b : Block} (hb : s.live[i]? = some b)
    (lay : Layout) (hfit : b.fits lay) :
    (∀ c ∈ s.live.eraseIdx i, ∀ x, x < c.len →
      (deallocate s.heap b.ptr lay).mem (c.ptr + x) = s.heap.mem (c.ptr + x)) ∧
    (∀ x, ¬ (b.ptr ≤ x ∧ x < b.ptr + b.len) →
      (deallocate s.heap b.ptr lay).mem x = s.heap.mem x) := by
  obtain ⟨fl, k, inv⟩ := hs.inv hl
  have inv' := Inv.perm inv (perm_eraseIdx hb)
  have hframe := (inv_after_dealloc hl.wf inv' hfit).2
  refine ⟨?_, hframe⟩
  intro c hc x hx
  have hd := (List.pairwise_cons.mp (inv_disjoint hl.wf inv')).1 c hc
  exact hframe _ (by omega)

/-- C13, for the whole history: a held block that the client does not write to
and does not give up keeps its bytes through any single request. -/
theorem C13_step_partial {W base : Nat} {cfg : List (Nat × Nat)} (hl : Legal W base cfg)
    {s s' : Sys} (hs : Reachable W base cfg s) (op : Op) (hstep : step s op = some s')
    (hw : ∀ a v, op ≠ .write a v) (c : Block) (hc : c ∈ s.live)
    (hfresh : ∀ (i : Nat), s.live[i]? = some c → ∀ l o n, op ≠ .dealloc i l ∧
      op ≠ .grow i o n ∧ op ≠ .growZeroed i o n ∧ op ≠ .shrink i o n) :
    ∀ x, x < c.len → s'.heap.mem (c.ptr + x) = s.heap.mem (c.ptr + x) := by
  obtain ⟨fl, k, inv⟩ := hs.inv hl
  have herase : ∀ (i : Nat) (b : Block), s.live[i]? = some b → b ≠ c → c ∈ s.live.eraseIdx i := by
    intro i b hb hne
    have := (perm_eraseIdx hb).mem_iff.mp hc
    rcases List.mem_cons.mp this with h | h
    · exact absurd h.symm hne
    · exact h
  intro x hx
  cases op with
  | write a v => exact absurd rfl (hw a v)
  | alloc l =>
    rcases allocate_any hl.wf inv l with h1 | ⟨h', ptr, len, h1, h2, h3⟩
    · simp only [step, h1, Option.some.injEq] at hstep
      subst hstep; rfl
    · simp only [step, h1, Option.some.injEq] at hstep
      subst hstep
      simp only [h2]
  | allocZeroed l =>
    rcases allocateZeroed_any hl.wf inv l with h1 | ⟨h', ptr, len, h1, h2, h3, h4⟩
    · simp only [step, h1, Option.some.injEq] at hstep
      subst hstep; rfl
    · simp only [step, h1, Option.some.injEq] at hstep
      subst hstep
      exact h3 c hc x hx
  | dealloc i l =>
    cases hb : s.live[i]? with
    | none => simp only [step, hb, Option.some.injEq] at hstep; subst hstep; rfl
    | some b =>
      by_cases hf : b.fits l
      · simp only [step, hb, hf, if_true, Option.some.injEq] at hstep
        subst hstep
        have hne : b ≠ c := fun e => (hfresh i (by rw [hb, e]) l l l).1 rfl
        exact (C13_release_partial hl hs hb l hf).1 c (herase i b hb hne) x hx
      · simp only [step, hb, hf] at hstep
        simp only [Bool.false_eq_true, if_false, Option.some.injEq] at hstep
        subst hstep; rfl
  | grow i o n =>
    cases hb : s.live[i]? with
    | none => simp only [step, hb, Option.some.injEq] at hstep; subst hstep; rfl
    | some b =>
      have hne : b ≠ c := fun e => (hfresh i (by rw [hb, e]) o o n).2.1 rfl
      by_cases hf : b.fits o ∧ o.size ≤ n.size
      · simp only [step, hb, hf, and_self, if_true] at hstep
        rcases C09_grow hl hs hb o n hf.1 hf.2 with h | ⟨h', p, len, h, _, _, h5⟩
        · simp only [h, afterRealloc, Option.some.injEq] at hstep
          subst hstep; rfl
        · simp only [h, afterRealloc, Option.some.injEq] at hstep
          subst hstep
          exact h5 c (herase i b hb hne) x hx
      · simp only [step, hb, hf, if_false, Option.some.injEq] at hstep
        subst hstep; rfl
  | growZeroed i o n =>
    cases hb : s.live[i]? with
    | none => simp only [step, hb, Option.some.injEq] at hstep; subst hstep; rfl
    | some b =>
      have hne : b ≠ c := fun e => (hfresh i (by rw [hb, e]) o o n).2.2.1 rfl
      by_cases hf : b.fits o ∧ o.size ≤ n.size
      · simp only [step, hb, hf, and_self, if_true] at hstep
        rcases C09_grow_zeroed hl hs hb o n hf.1 hf.2 with h | ⟨h', p, len, h, _, _, h5⟩
        · simp only [h, afterRealloc, Option.some.injEq] at hstep
          subst hstep; rfl
        · simp only [h, afterRealloc, Option.some.injEq] at hstep
          subst hstep
          exact h5 c (herase i b hb hne) x hx
      · simp only [step, hb, hf, if_false, Option.some.injEq] at hstep
        subst hstep; rfl
  | shrink i o n =>
    cases hb : s.live[i]? with
    | none => simp only [step, hb, Option.some.injEq] at hstep; subst hstep; rfl
    | some b =>
      have hne : b ≠ c := fun e => (hfresh i (by rw [hb, e]) o o n).2.2.2 rfl
      by_cases hf : b.fits o ∧ n.size ≤ o.size
      · simp only [step, hb, hf, and_self, if_true] at hstep
        rcases C09_shrink hl hs hb o n hf.1 hf.2 with h | ⟨h', p, len, h, _, _, h5⟩
        · simp only [h, afterRealloc, Option.some.injEq] at hstep
          subst hstep; rfl
        · simp only [h, afterRealloc, Option.some.injEq] at hstep
          subst hstep
          exact h5 c (herase i b hb hne) x hx
      · simp only [step, hb, hf, if_false, Option.some.injEq] at hstep
        subst hstep; rfl

/-- Releasing the first of two 4-byte blocks leaves the second one alone. -/
example :
    (run (start 4 64 [(4, 2)] exMem) [.alloc ⟨4, 1⟩, .alloc ⟨4, 1⟩, .write 68 5, .dealloc 1 ⟨4, 1⟩]).map
      (fun s => (s.live, s.heap.mem 68)) = some ([⟨68, 4, 4⟩], 5) := by decide +kernel

end Verif.Heap
