import Verif.Heap.Spec
/-!
# Heap invariant
-/
namespace Verif.Heap

/-! ### Memory -/

theorem writeWord_frame (W : Nat) : ∀ (m : Mem) (a v x : Nat), (x < a ∨ a + W ≤ x) →
    writeWord m a W v x = m x := by
  induction W with
  | zero => intro m a v x _; rfl
  | succ W ih =>
    intro m a v x h
    simp only [writeWord]
    rw [ih _ _ _ _ (by omega)]
    rw [if_neg (by omega)]

theorem readWord_congr (W : Nat) : ∀ (m m' : Mem) (a : Nat), (∀ x, a ≤ x → x < a + W → m' x = m x) →
    readWord m' a W = readWord m a W := by
  induction W with
  | zero => intros; rfl
  | succ W ih =>
    intro m m' a h
    simp only [readWord]
    rw [h a (Nat.le_refl _) (by omega), ih m m' (a + 1) fun x h1 h2 => h x (by omega) (by omega)]

theorem readWord_writeWord (W : Nat) : ∀ (m : Mem) (a v : Nat), v < 256 ^ W →
    readWord (writeWord m a W v) a W = v := by
  induction W with
  | zero => intro m a v h; simp at h; simp [readWord, h]
  | succ W ih =>
    intro m a v h
    simp only [writeWord, readWord]
    rw [ih _ _ _ (by rw [Nat.pow_succ] at h; omega)]
    rw [writeWord_frame _ _ _ _ _ (by omega)]
    simp only [if_true, UInt8.toNat_ofNat']
    omega

/-! ### Binary search -/

theorem binarySearchLoop_spec (pools : List Pool) (f : Pool → Bool)
    (mono : ∀ (i j : Nat) (p q : Pool), i ≤ j → pools[i]? = some p → pools[j]? = some q → f p = true → f q = true) :
    ∀ n left right, right - left = n → left ≤ right → right ≤ pools.length →
    (∀ i p, i < left → pools[i]? = some p → f p = false) →
    (∀ i p, right ≤ i → pools[i]? = some p → f p = true) →
    left ≤ binarySearchLoop pools f left right ∧ binarySearchLoop pools f left right ≤ right ∧
    (∀ i p, i < binarySearchLoop pools f left right → pools[i]? = some p → f p = false) ∧
    (∀ i p, binarySearchLoop pools f left right ≤ i → pools[i]? = some p → f p = true) := by
  intro n
  induction n using Nat.strongRecOn with
  | _ n ih =>
    intro left right hn hlr hlen hlo hhi
    unfold binarySearchLoop
    by_cases h : right > left
    · rw [dif_pos h]
      have hm : left + (right - left) / 2 < pools.length := by omega
      obtain ⟨p, hp⟩ : ∃ p, pools[left + (right - left) / 2]? = some p :=
        ⟨_, List.getElem?_eq_getElem hm⟩
      simp only [hp]
      by_cases hf : f p = true
      · rw [if_pos hf]
        have := ih (left + (right - left) / 2 - left) (by omega) left (left + (right - left) / 2) rfl
          (by omega) (by omega) hlo (fun i q hi hq => mono _ _ _ _ hi hp hq hf)
        exact ⟨this.1, by omega, this.2.2⟩
      · rw [if_neg hf]
        have hlo' : ∀ i q, i < left + (right - left) / 2 + 1 → pools[i]? = some q → f q = false := by
          intro i q hi hq
          cases hfq : f q with
          | false => rfl
          | true => exact absurd (mono _ _ _ _ (by omega : i ≤ left + (right - left) / 2) hq hp hfq) hf
        have := ih (right - (left + (right - left) / 2 + 1)) (by omega)
          (left + (right - left) / 2 + 1) right rfl (by omega) (by omega) hlo' hhi
        exact ⟨by omega, this.2⟩
    · rw [dif_neg h]
      have : left = right := by omega
      subst this
      exact ⟨Nat.le_refl _, Nat.le_refl _, hlo, hhi⟩

theorem binarySearch_spec (pools : List Pool) (f : Pool → Bool)
    (mono : ∀ (i j : Nat) (p q : Pool), i ≤ j → pools[i]? = some p → pools[j]? = some q → f p = true → f q = true) :
    binarySearch pools f ≤ pools.length ∧
    (∀ i p, i < binarySearch pools f → pools[i]? = some p → f p = false) ∧
    (∀ i p, binarySearch pools f ≤ i → pools[i]? = some p → f p = true) := by
  refine (binarySearchLoop_spec pools f mono _ 0 pools.length rfl (by omega) (by omega)
    (fun i p h => by omega) ?_).2
  intro i p hi hp
  have := (List.getElem?_eq_some_iff.mp hp).1
  omega

/-! ### Layout of the pools -/

/-- What the proofs need to know about the layout. -/
structure Wf (W base : Nat) (regs : List Region) : Prop where
  wpos : 0 < W
  basePos : 0 < base
  low : ∀ r ∈ regs, base ≤ r.start
  apart : regs.Pairwise (fun r r' => r.stop ≤ r'.start)
  sorted : regs.Pairwise (fun r r' => r.size ≤ r'.size)
  word : ∀ r ∈ regs, W ≤ r.size
  space : ∀ r ∈ regs, r.stop ≤ 256 ^ W

theorem regions_bounds (cfg : List (Nat × Nat)) : ∀ base, ∀ r ∈ regions base cfg,
    base ≤ r.start ∧ r.stop ≤ heapEnd base cfg ∧ (r.size, r.count) ∈ cfg := by
  induction cfg with
  | nil => intro base r h; simp [regions] at h
  | cons c cfg ih =>
    intro base r h
    obtain ⟨sz, n⟩ := c
    simp only [regions, List.mem_cons] at h
    simp only [heapEnd, List.map_cons, List.sum_cons, List.mem_cons]
    rcases h with rfl | h
    · exact ⟨Nat.le_refl _, by simp only [Region.stop]; omega, Or.inl rfl⟩
    · obtain ⟨h1, h2, h3⟩ := ih _ r h
      simp only [heapEnd] at h2
      exact ⟨by omega, by omega, Or.inr h3⟩

theorem regions_apart (cfg : List (Nat × Nat)) : ∀ base,
    (regions base cfg).Pairwise (fun r r' => r.stop ≤ r'.start) := by
  induction cfg with
  | nil => intro base; simp [regions]
  | cons c cfg ih =>
    intro base
    simp only [regions, List.pairwise_cons]
    exact ⟨fun r hr => (regions_bounds cfg _ r hr).1, ih _⟩

theorem regions_sorted (cfg : List (Nat × Nat)) (h : cfg.Pairwise (fun a b => a.1 ≤ b.1)) : ∀ base,
    (regions base cfg).Pairwise (fun r r' => r.size ≤ r'.size) := by
  induction cfg with
  | nil => intro base; simp [regions]
  | cons c cfg ih =>
    intro base
    rw [List.pairwise_cons] at h
    simp only [regions, List.pairwise_cons]
    exact ⟨fun r hr => h.1 _ (regions_bounds cfg _ r hr).2.2, ih h.2 _⟩

theorem Legal.wf {W base : Nat} {cfg : List (Nat × Nat)} (h : Legal W base cfg) :
    Wf W base (regions base cfg) where
  wpos := h.wpos
  basePos := h.basePos
  low := fun r hr => (regions_bounds cfg base r hr).1
  apart := regions_apart cfg base
  sorted := regions_sorted cfg h.sorted base
  word := fun r hr => h.word _ (regions_bounds cfg base r hr).2.2
  space := fun r hr => Nat.le_trans (regions_bounds cfg base r hr).2.1 h.space

theorem pools_eq (cfg : List (Nat × Nat)) : ∀ base,
    Heap.new.pools base cfg = (regions base cfg).map (fun r => Pool.new r.start r.size r.count) := by
  induction cfg with
  | nil => intro base; rfl
  | cons c cfg ih => intro base; simp [Heap.new.pools, regions, ih]

theorem pairwise_idx {α : Type} {R : α → α → Prop} {l : List α} (h : l.Pairwise R) {i j : Nat}
    {x y : α} (hi : l[i]? = some x) (hj : l[j]? = some y) (hij : i < j) : R x y := by
  obtain ⟨h1, rfl⟩ := List.getElem?_eq_some_iff.mp hi
  obtain ⟨h2, rfl⟩ := List.getElem?_eq_some_iff.mp hj
  exact List.pairwise_iff_getElem.mp h i j h1 h2 hij

theorem block_le_stop (r : Region) {j : Nat} (h : j < r.count) : r.block j + r.size ≤ r.stop := by
  have := Nat.mul_le_mul_left r.size (Nat.succ_le_of_lt h)
  rw [Nat.mul_succ] at this
  simp only [Region.block, Region.stop]
  omega

theorem block_lt (r : Region) {j j' : Nat} (h : j < j') : r.block j + r.size ≤ r.block j' := by
  have := Nat.mul_le_mul_left r.size (Nat.succ_le_of_lt h)
  rw [Nat.mul_succ] at this
  simp only [Region.block]
  omega

theorem start_le_block (r : Region) (j : Nat) : r.start ≤ r.block j := by
  simp [Region.block]

/-- Two different blocks do not overlap. -/
theorem blocks_apart {W base : Nat} {regs : List Region} (wf : Wf W base regs) {i i' j j' : Nat}
    {r r' : Region} (hi : regs[i]? = some r) (hi' : regs[i']? = some r') (hj : j < r.count)
    (hj' : j' < r'.count) (hne : ¬ (i = i' ∧ j = j')) :
    r.block j + r.size ≤ r'.block j' ∨ r'.block j' + r'.size ≤ r.block j := by
  have b1 := block_le_stop r hj
  have b2 := block_le_stop r' hj'
  have s1 := start_le_block r j
  have s2 := start_le_block r' j'
  rcases Nat.lt_trichotomy i i' with h | h | h
  · have := pairwise_idx wf.apart hi hi' h
    left; omega
  · subst h
    rw [hi] at hi'
    simp only [Option.some.injEq] at hi'
    subst hi'
    rcases Nat.lt_trichotomy j j' with h | h | h
    · left; exact block_lt r h
    · exact absurd ⟨rfl, h⟩ hne
    · right; exact block_lt r h
  · have := pairwise_idx wf.apart hi' hi h
    right; omega

/-! ### The invariant -/

/-- The free list starting at `p` is `l`. -/
def Chain (m : Mem) (W : Nat) : Nat → List Nat → Prop
  | p, [] => p = 0
  | p, a :: l => p = a ∧ a ≠ 0 ∧ Chain m W (readWord m a W) l

theorem Chain.congr {m m' : Mem} {W : Nat} : ∀ {l p}, Chain m W p l →
    (∀ a ∈ l, ∀ x, a ≤ x → x < a + W → m' x = m x) → Chain m' W p l
  | [], _, h, _ => h
  | a :: l, p, ⟨h1, h2, h3⟩, hm => by
    refine ⟨h1, h2, ?_⟩
    rw [readWord_congr W m m' a (hm a (by simp))]
    exact h3.congr fun b hb => hm b (by simp [hb])

/-- One pool: blocks below `k` have been handed out at least once, `fl` is its
free list. -/
structure PoolOk (W : Nat) (m : Mem) (r : Region) (p : Pool) (fl : List Nat) (k : Nat) : Prop where
  size : p.size = r.size
  edge : p.edge = r.stop
  uninit : p.uninit = r.block k
  le : k ≤ r.count
  chain : Chain m W p.free fl
  inb : ∀ a ∈ fl, ∃ j, j < k ∧ a = r.block j
  nodup : fl.Nodup

/-- The whole heap with the client's blocks. -/
structure Inv (W base : Nat) (regs : List Region) (s : Sys) (fl : Nat → List Nat) (k : Nat → Nat) :
    Prop where
  hW : s.heap.W = W
  hbase : s.heap.base = base
  len : s.heap.pools.length = regs.length
  pools : ∀ i r p, regs[i]? = some r → s.heap.pools[i]? = some p →
    PoolOk W s.heap.mem r p (fl i) (k i)
  live : ∀ b ∈ s.live, (b.req ≤ b.len ∧ (b.len ≠ 0 → b.req ≠ 0)) ∧ (b.len = 0 ∨ ∃ i r j, regs[i]? = some r ∧ j < k i ∧
    b.ptr = r.block j ∧ b.len = r.size ∧ b.ptr ∉ fl i)
  distinct : s.live.Pairwise (fun b c => b.len = 0 ∨ c.len = 0 ∨ b.ptr ≠ c.ptr)
  complete : ∀ i r j, regs[i]? = some r → j < k i → r.block j ∉ fl i →
    ∃ b ∈ s.live, b.len ≠ 0 ∧ b.ptr = r.block j

theorem new_getElem? {W base : Nat} {cfg : List (Nat × Nat)} {m : Mem} {i : Nat} {r : Region}
    {p : Pool} (h1 : (regions base cfg)[i]? = some r)
    (h2 : (Heap.new W base cfg m).pools[i]? = some p) : p = Pool.new r.start r.size r.count := by
  simp only [Heap.new, pools_eq, List.getElem?_map, h1, Option.map_some, Option.some.injEq] at h2
  exact h2.symm

theorem start_inv {W base : Nat} (cfg : List (Nat × Nat)) (m : Mem) :
    Inv W base (regions base cfg) (start W base cfg m) (fun _ => []) (fun _ => 0) where
  hW := rfl
  hbase := rfl
  len := by simp [start, Heap.new, pools_eq]
  pools := by
    intro i r p h1 h2
    have := new_getElem? h1 h2
    subst this
    exact ⟨rfl, rfl, by simp [Pool.new, Region.block], Nat.zero_le _, rfl, by simp, by simp⟩
  live := by simp [start]
  distinct := by simp [start]
  complete := by intro i r j _ h; omega

/-! ### Pool operations -/

theorem block_pos {W base : Nat} {regs : List Region} (wf : Wf W base regs) {i : Nat} {r : Region}
    (h : regs[i]? = some r) (j : Nat) : r.block j ≠ 0 := by
  have := wf.low r (List.mem_of_getElem? h)
  have := wf.basePos
  have := start_le_block r j
  omega

theorem pool_allocate_some {W : Nat} {m : Mem} {r : Region} {p p' : Pool} {fl : List Nat}
    {k ptr : Nat} (ok : PoolOk W m r p fl k) (hs : 0 < r.size)
    (h : p.allocate W m = some (p', ptr)) :
    ∃ fl' k', PoolOk W m r p' fl' k' ∧ ptr ∉ fl' ∧
      ((fl = ptr :: fl' ∧ k' = k ∧ ∃ j, j < k ∧ ptr = r.block j) ∨
       (fl = [] ∧ fl' = [] ∧ k' = k + 1 ∧ ptr = r.block k ∧ k < r.count)) := by
  obtain ⟨e1, e2, e3, e4, e5, e6, e7⟩ := ok
  unfold Pool.allocate Pool.allocateFree at h
  cases fl with
  | cons a fl =>
    obtain ⟨c1, c2, c3⟩ := e5
    have hne : p.free ≠ 0 := by omega
    simp only [hne, if_false, Option.some.injEq, Prod.mk.injEq] at h
    obtain ⟨rfl, rfl⟩ := h
    rw [List.nodup_cons] at e7
    refine ⟨fl, k, ⟨e1, e2, e3, e4, ?_, fun b hb => e6 b (by simp [hb]), e7.2⟩, ?_,
      Or.inl ⟨by rw [c1], rfl, ?_⟩⟩
    · simp only [c1]; exact c3
    · rw [c1]; exact e7.1
    · rw [c1]; exact e6 a (by simp)
  | nil =>
    have h0 : p.free = 0 := e5
    simp only [h0, if_true, Pool.allocateUninit] at h
    by_cases hu : p.uninit = p.edge
    · simp [hu] at h
    · simp only [hu, if_false, Option.some.injEq, Prod.mk.injEq] at h
      obtain ⟨rfl, rfl⟩ := h
      have hk : k < r.count := by
        rcases Nat.lt_or_ge k r.count with h | h
        · exact h
        · exfalso
          apply hu
          rw [e2, e3]
          have : k = r.count := by omega
          simp [Region.block, Region.stop, this]
      refine ⟨[], k + 1, ⟨e1, e2, ?_, hk, rfl, by simp, by simp⟩, by simp,
        Or.inr ⟨rfl, rfl, rfl, e3, hk⟩⟩
      simp only [e3, e1, Region.block, Nat.mul_succ]
      omega

theorem pool_allocate_none {W : Nat} {m : Mem} {r : Region} {p : Pool} {fl : List Nat} {k : Nat}
    (ok : PoolOk W m r p fl k) (hs : 0 < r.size) (h : p.allocate W m = none) :
    fl = [] ∧ k = r.count := by
  obtain ⟨e1, e2, e3, e4, e5, e6, e7⟩ := ok
  unfold Pool.allocate Pool.allocateFree at h
  cases fl with
  | cons a fl =>
    obtain ⟨c1, c2, c3⟩ := e5
    have hne : p.free ≠ 0 := by omega
    simp [hne] at h
  | nil =>
    have h0 : p.free = 0 := e5
    simp only [h0, if_true, Pool.allocateUninit] at h
    by_cases hu : p.uninit = p.edge
    · refine ⟨rfl, ?_⟩
      rw [e2, e3] at hu
      simp only [Region.block, Region.stop] at hu
      exact Nat.eq_of_mul_eq_mul_left hs (by omega)
    · simp [hu] at h

/-! ### Heap operations -/

theorem allocateLoop_spec {W base : Nat} {regs : List Region} (wf : Wf W base regs) {s : Sys}
    {fl : Nat → List Nat} {k : Nat → Nat} (inv : Inv W base regs s fl k) :
    ∀ is : List Nat, (∀ i ∈ is, i < regs.length) →
    (allocateLoop s.heap is = (s.heap, none) ∧
      ∀ i ∈ is, ∀ r, regs[i]? = some r → fl i = [] ∧ k i = r.count) ∨
    (∃ pre i post r p p' ptr, is = pre ++ i :: post ∧ regs[i]? = some r ∧
      s.heap.pools[i]? = some p ∧ p.allocate W s.heap.mem = some (p', ptr) ∧
      (∀ i' ∈ pre, ∀ r', regs[i']? = some r' → fl i' = [] ∧ k i' = r'.count) ∧
      allocateLoop s.heap is =
        ({ s.heap with pools := s.heap.pools.set i p' }, some (ptr, r.size))) := by
  intro is
  induction is with
  | nil => intro _; exact Or.inl ⟨rfl, by simp⟩
  | cons i is ih =>
    intro hlt
    have hi : i < regs.length := hlt i (by simp)
    obtain ⟨r, hr⟩ : ∃ r, regs[i]? = some r := ⟨_, List.getElem?_eq_getElem hi⟩
    obtain ⟨p, hp⟩ : ∃ p, s.heap.pools[i]? = some p :=
      ⟨_, List.getElem?_eq_getElem (by rw [inv.len]; exact hi)⟩
    have ok := inv.pools i r p hr hp
    have hs : 0 < r.size := by
      have := wf.word r (List.mem_of_getElem? hr)
      have := wf.wpos
      omega
    cases ha : p.allocate W s.heap.mem with
    | some x =>
      obtain ⟨p', ptr⟩ := x
      right
      refine ⟨[], i, is, r, p, p', ptr, rfl, hr, hp, ha, by simp, ?_⟩
      simp [allocateLoop, hp, inv.hW, ha, ok.size]
    | none =>
      have hex := pool_allocate_none ok hs ha
      have heq : allocateLoop s.heap (i :: is) = allocateLoop s.heap is := by
        simp [allocateLoop, hp, inv.hW, ha]
      rcases ih (fun i' hi' => hlt i' (by simp [hi'])) with ⟨h1, h2⟩ | ⟨pre, i', post, r', p1, p2, ptr, g1, g2, g3, g4, g5, g6⟩
      · left
        refine ⟨by rw [heq]; exact h1, ?_⟩
        intro i' hi' r' hr'
        rcases List.mem_cons.mp hi' with rfl | hi'
        · rw [hr] at hr'
          simp only [Option.some.injEq] at hr'
          subst hr'
          exact hex
        · exact h2 i' hi' r' hr'
      · right
        refine ⟨i :: pre, i', post, r', p1, p2, ptr, by rw [g1]; rfl, g2, g3, g4, ?_, by rw [heq]; exact g6⟩
        intro i2 hi2 r2 hr2
        rcases List.mem_cons.mp hi2 with rfl | hi2
        · rw [hr] at hr2
          simp only [Option.some.injEq] at hr2
          subst hr2
          exact hex
        · exact g5 i2 hi2 r2 hr2

/-- A new block of a pool joins the client's blocks. -/
theorem inv_after_alloc {W base : Nat} {regs : List Region} (wf : Wf W base regs) {s : Sys}
    {fl : Nat → List Nat} {k : Nat → Nat} (inv : Inv W base regs s fl k) {i : Nat} {r : Region}
    {p p' : Pool} {ptr req : Nat} (hr : regs[i]? = some r) (hp : s.heap.pools[i]? = some p)
    (ha : p.allocate W s.heap.mem = some (p', ptr)) (hreq : req ≤ r.size) (hreq0 : req ≠ 0) :
    (∃ fl' k', Inv W base regs
      { heap := { s.heap with pools := s.heap.pools.set i p' },
        live := ⟨ptr, r.size, req⟩ :: s.live } fl' k') ∧
    (∀ b ∈ s.live, b.len ≠ 0 → b.ptr ≠ ptr) ∧ ∃ j, j < r.count ∧ ptr = r.block j := by
  have ok := inv.pools i r p hr hp
  have hs : 0 < r.size := by
    have := wf.word r (List.mem_of_getElem? hr)
    have := wf.wpos
    omega
  obtain ⟨fl', k', ok', hnot, hcase⟩ := pool_allocate_some ok hs ha
  have hj : ∃ j, j < k' ∧ j < r.count ∧ ptr = r.block j := by
    rcases hcase with ⟨_, h2, j, h3, h4⟩ | ⟨_, _, h2, h3, h4⟩
    · exact ⟨j, by omega, Nat.lt_of_lt_of_le h3 ok.le, h4⟩
    · exact ⟨k i, by omega, h4, h3⟩
  obtain ⟨j, hjk, hjc, hjp⟩ := hj
  -- the block was not held by anyone
  have hfresh : ∀ b ∈ s.live, b.len ≠ 0 → b.ptr ≠ ptr := by
    intro b hb hlen heq
    obtain ⟨_, h0 | ⟨i', r', j', g1, g2, g3, g4, g5⟩⟩ := inv.live b hb
    · exact hlen h0
    · have hok' : k i' ≤ r'.count := by
        have hi' := (List.getElem?_eq_some_iff.mp g1).1
        exact (inv.pools i' r' _ g1 (List.getElem?_eq_getElem (by rw [inv.len]; exact hi'))).le
      by_cases hsame : i = i' ∧ j = j'
      · obtain ⟨rfl, rfl⟩ := hsame
        rcases hcase with ⟨h1, _, _⟩ | ⟨_, _, h2, h3, h4⟩
        · apply g5
          rw [h1, heq]
          simp
        · rw [hr] at g1
          simp only [Option.some.injEq] at g1
          subst g1
          have hj2 : j ≠ k i := by omega
          rcases Nat.lt_or_gt_of_ne hj2 with h | h
          · have := block_lt r h
            omega
          · omega
      · have hsr' : 0 < r'.size := by
          have := wf.word r' (List.mem_of_getElem? g1)
          have := wf.wpos
          omega
        rcases blocks_apart wf hr g1 hjc (by omega) hsame with h | h <;> omega
  refine ⟨⟨fun x => if x = i then fl' else fl x, fun x => if x = i then k' else k x, ?_⟩, hfresh, j, hjc, hjp⟩
  refine ⟨inv.hW, inv.hbase, by simpa using inv.len, ?_, ?_, ?_, ?_⟩
  · intro i' r' p2 h1 h2
    simp only [List.getElem?_set] at h2
    by_cases hii : i = i'
    · subst hii
      rw [hr] at h1
      simp only [Option.some.injEq] at h1
      subst h1
      have hlen := (List.getElem?_eq_some_iff.mp hp).1
      simp only [if_true, hlen, Option.some.injEq] at h2
      subst h2
      simpa using ok'
    · simp only [hii, if_false] at h2
      simpa [Ne.symm hii] using inv.pools i' r' p2 h1 h2
  · intro b hb
    rcases List.mem_cons.mp hb with rfl | hb
    · exact ⟨⟨hreq, fun _ => hreq0⟩, Or.inr ⟨i, r, j, hr, by simpa using hjk, hjp, rfl, by simpa using hnot⟩⟩
    · obtain ⟨h1, h2⟩ := inv.live b hb
      refine ⟨h1, ?_⟩
      rcases h2 with h2 | ⟨i', r', j', g1, g2, g3, g4, g5⟩
      · exact Or.inl h2
      · right
        refine ⟨i', r', j', g1, ?_, g3, g4, ?_⟩
        · by_cases hii : i' = i
          · subst hii
            simp only [if_true]
            rcases hcase with ⟨_, h, _⟩ | ⟨_, _, h, _⟩ <;> omega
          · simpa [hii] using g2
        · by_cases hii : i' = i
          · subst hii
            simp only [if_true]
            rcases hcase with ⟨h, _⟩ | ⟨_, h, _⟩
            · intro hmem
              exact g5 (by rw [h]; simp [hmem])
            · rw [h]; simp
          · simpa [hii] using g5
  · rw [List.pairwise_cons]
    refine ⟨?_, inv.distinct⟩
    intro c hc
    by_cases h0 : c.len = 0
    · exact Or.inr (Or.inl h0)
    · exact Or.inr (Or.inr (Ne.symm (hfresh c hc h0)))
  · intro i' r' j' h1 h2 h3
    by_cases hii : i' = i
    · subst hii
      simp only [if_true] at h2 h3
      rw [hr] at h1
      simp only [Option.some.injEq] at h1
      subst h1
      by_cases hblk : r.block j' = ptr
      · exact ⟨⟨ptr, r.size, req⟩, by simp, by show r.size ≠ 0; omega, hblk.symm⟩
      · obtain ⟨b, hb, g⟩ : ∃ b ∈ s.live, b.len ≠ 0 ∧ b.ptr = r.block j' := by
          apply inv.complete i' r j' hr
          · rcases hcase with ⟨_, h, _⟩ | ⟨_, _, h, hh, _⟩
            · omega
            · rcases Nat.lt_or_ge j' (k i') with h' | h'
              · exact h'
              · exfalso
                apply hblk
                rw [hh]
                congr 1
                omega
          · rcases hcase with ⟨h, _⟩ | ⟨h, _, _⟩
            · rw [h]
              simp only [List.mem_cons, not_or]
              exact ⟨hblk, h3⟩
            · rw [h]; simp
        exact ⟨b, by simp [hb], g⟩
    · simp only [hii, if_false] at h2 h3
      obtain ⟨b, hb, g⟩ := inv.complete i' r' j' h1 h2 h3
      exact ⟨b, by simp [hb], g⟩

/-- Blocks are listed in any order. -/
theorem Inv.perm {W base : Nat} {regs : List Region} {h : Heap} {l l' : List Block}
    {fl : Nat → List Nat} {k : Nat → Nat} (inv : Inv W base regs ⟨h, l⟩ fl k) (hp : l.Perm l') :
    Inv W base regs ⟨h, l'⟩ fl k := by
  refine ⟨inv.hW, inv.hbase, inv.len, inv.pools, ?_, ?_, ?_⟩
  · intro b hb
    exact inv.live b (hp.mem_iff.mpr hb)
  · refine (hp.pairwise_iff ?_).mp inv.distinct
    intro x y h
    rcases h with h | h | h
    · exact Or.inr (Or.inl h)
    · exact Or.inl h
    · exact Or.inr (Or.inr (Ne.symm h))
  · intro i r j h1 h2 h3
    obtain ⟨b, hb, g⟩ := inv.complete i r j h1 h2 h3
    exact ⟨b, hp.mem_iff.mp hb, g⟩

/-- Memory outside free blocks is irrelevant for the heap. -/
theorem Inv.mem_congr {W base : Nat} {regs : List Region} {s : Sys} {fl : Nat → List Nat}
    {k : Nat → Nat} (inv : Inv W base regs s fl k) (m' : Mem)
    (h : ∀ i r a, regs[i]? = some r → a ∈ fl i → ∀ x, a ≤ x → x < a + W → m' x = s.heap.mem x) :
    Inv W base regs { s with heap := { s.heap with mem := m' } } fl k := by
  refine ⟨inv.hW, inv.hbase, inv.len, ?_, inv.live, inv.distinct, inv.complete⟩
  intro i r p h1 h2
  obtain ⟨e1, e2, e3, e4, e5, e6, e7⟩ := inv.pools i r p h1 h2
  exact ⟨e1, e2, e3, e4, e5.congr fun a ha => h i r a h1 ha, e6, e7⟩

/-- Bytes of held blocks do not belong to free blocks. -/
theorem live_not_free {W base : Nat} {regs : List Region} (wf : Wf W base regs) {s : Sys}
    {fl : Nat → List Nat} {k : Nat → Nat} (inv : Inv W base regs s fl k) {b : Block} (hb : b ∈ s.live)
    {x : Nat} (hx : b.ptr ≤ x ∧ x < b.ptr + b.len) {i : Nat} {r : Region} {a : Nat}
    (hr : regs[i]? = some r) (ha : a ∈ fl i) : ¬ (a ≤ x ∧ x < a + W) := by
  intro hax
  obtain ⟨_, h0 | ⟨i', r', j', g1, g2, g3, g4, g5⟩⟩ := inv.live b hb
  · omega
  · have cnt : ∀ i r, regs[i]? = some r → ∃ p, s.heap.pools[i]? = some p := fun i r h =>
      ⟨_, List.getElem?_eq_getElem (by rw [inv.len]; exact (List.getElem?_eq_some_iff.mp h).1)⟩
    obtain ⟨p, hp⟩ := cnt i r hr
    obtain ⟨p', hp'⟩ := cnt i' r' g1
    have ok := inv.pools i r p hr hp
    have ok' := inv.pools i' r' p' g1 hp'
    obtain ⟨j, hj, rfl⟩ := ok.inb a ha
    have hW := wf.word r (List.mem_of_getElem? hr)
    have hle := ok.le
    have hle' := ok'.le
    by_cases hsame : i = i' ∧ j = j'
    · obtain ⟨rfl, rfl⟩ := hsame
      rw [hr] at g1
      simp only [Option.some.injEq] at g1
      subst g1
      exact g5 (by rw [g3]; exact ha)
    · rcases blocks_apart wf hr g1 (by omega) (by omega) hsame with h | h <;> omega

theorem Inv.write_live {W base : Nat} {regs : List Region} (wf : Wf W base regs) {s : Sys}
    {fl : Nat → List Nat} {k : Nat → Nat} (inv : Inv W base regs s fl k) (m' : Mem)
    (h : ∀ x, m' x ≠ s.heap.mem x → ∃ b ∈ s.live, b.ptr ≤ x ∧ x < b.ptr + b.len) :
    Inv W base regs { s with heap := { s.heap with mem := m' } } fl k := by
  apply inv.mem_congr
  intro i r a hr ha x h1 h2
  by_cases hx : m' x = s.heap.mem x
  · exact hx
  · obtain ⟨b, hb, hbx⟩ := h x hx
    exact absurd ⟨h1, h2⟩ (live_not_free wf inv hb hbx hr ha)

/-! ### Lookup by address -/

theorem edges_mono {W base : Nat} {regs : List Region} (wf : Wf W base regs) {i j : Nat}
    {r r' : Region} (hi : regs[i]? = some r) (hj : regs[j]? = some r') (hij : i ≤ j) :
    r.stop ≤ r'.stop := by
  rcases Nat.lt_or_eq_of_le hij with h | h
  · have := pairwise_idx wf.apart hi hj h
    have : r'.start ≤ r'.stop := by simp [Region.stop]
    omega
  · subst h
    rw [hi] at hj
    simp only [Option.some.injEq] at hj
    rw [hj]
    exact Nat.le_refl _

/-- The pointer lookup finds the pool that contains the address. -/
theorem poolByPtr_in {W base : Nat} {regs : List Region} (wf : Wf W base regs) {pools : List Pool}
    (hlen : pools.length = regs.length)
    (hedge : ∀ (i : Nat) (r : Region) (p : Pool), regs[i]? = some r → pools[i]? = some p → p.edge = r.stop)
    {i : Nat} {r : Region} (hr : regs[i]? = some r) {ptr : Nat} (h1 : r.start ≤ ptr)
    (h2 : ptr < r.stop) : poolByPtr pools base ptr = some i := by
  have toReg : ∀ (i : Nat) (p : Pool), pools[i]? = some p → ∃ r, regs[i]? = some r ∧ p.edge = r.stop := by
    intro i p hp
    have hi := (List.getElem?_eq_some_iff.mp hp).1
    exact ⟨_, List.getElem?_eq_getElem (by omega), hedge i _ p (List.getElem?_eq_getElem (by omega)) hp⟩
  have spec := binarySearch_spec pools (fun pool => decide (ptr < pool.edge)) (by
    intro i j p q hij hp hq hf
    obtain ⟨r1, g1, g2⟩ := toReg i p hp
    obtain ⟨r2, g3, g4⟩ := toReg j q hq
    have := edges_mono wf g1 g3 hij
    simp only [decide_eq_true_eq] at *
    omega)
  generalize hb : binarySearch pools (fun pool => decide (ptr < pool.edge)) = idx at spec
  obtain ⟨s1, s2, s3⟩ := spec
  have hi := (List.getElem?_eq_some_iff.mp hr).1
  obtain ⟨p, hp⟩ : ∃ p, pools[i]? = some p := ⟨_, List.getElem?_eq_getElem (by omega)⟩
  have he := hedge i r p hr hp
  have hidx : idx = i := by
    rcases Nat.lt_trichotomy idx i with h | h | h
    · exfalso
      obtain ⟨q, hq⟩ : ∃ q, pools[idx]? = some q := ⟨_, List.getElem?_eq_getElem (by omega)⟩
      have := s3 idx q (Nat.le_refl _) hq
      obtain ⟨r2, g3, g4⟩ := toReg idx q hq
      have := pairwise_idx wf.apart g3 hr h
      simp only [decide_eq_true_eq] at *
      omega
    · exact h
    · exfalso
      have := s2 i p h hp
      simp only [decide_eq_false_iff_not] at this
      omega
  simp only [poolByPtr, hb]
  rw [hidx, if_pos]
  have := wf.low r (List.mem_of_getElem? hr)
  exact ⟨by omega, Or.inr (by omega)⟩

/-- Releasing a held block. -/
theorem inv_after_dealloc {W base : Nat} {regs : List Region} (wf : Wf W base regs) {h : Heap}
    {b : Block} {l : List Block} {fl : Nat → List Nat} {k : Nat → Nat}
    (inv : Inv W base regs ⟨h, b :: l⟩ fl k) {lay : Layout} (hfit : b.fits lay = true) :
    (∃ fl' k', Inv W base regs ⟨deallocate h b.ptr lay, l⟩ fl' k') ∧
    (∀ x, ¬ (b.ptr ≤ x ∧ x < b.ptr + b.len) → (deallocate h b.ptr lay).mem x = h.mem x) := by
  simp only [Block.fits, decide_eq_true_eq] at hfit
  obtain ⟨hreq, hb⟩ := inv.live b (by simp)
  have hdis := List.pairwise_cons.mp inv.distinct
  by_cases hz : lay.size = 0
  · -- zero-size layout: the block has length 0 or was never in a pool
    simp only [deallocate, hz, if_true]
    refine ⟨?_, by simp⟩
    rcases hb with h0 | ⟨i, r, j, g1, g2, g3, g4, g5⟩
    · refine ⟨fl, k, inv.hW, inv.hbase, inv.len, inv.pools, fun c hc => inv.live c (by simp [hc]),
        hdis.2, ?_⟩
      intro i r j h1 h2 h3
      obtain ⟨c, hc, g1, g2⟩ := inv.complete i r j h1 h2 h3
      rcases List.mem_cons.mp hc with rfl | hc
      · exact absurd h0 g1
      · exact ⟨c, hc, g1, g2⟩
    · exfalso
      have := wf.word r (List.mem_of_getElem? g1)
      have := wf.wpos
      exact hreq.2 (by omega) (by omega)
  · have hlen : b.len ≠ 0 := by omega
    rcases hb with h0 | ⟨i, r, j, g1, g2, g3, g4, g5⟩
    · exact absurd h0 hlen
    · obtain ⟨p, hp⟩ : ∃ p, h.pools[i]? = some p :=
        ⟨_, List.getElem?_eq_getElem (by
          have := inv.len
          have := (List.getElem?_eq_some_iff.mp g1).1
          simp only at *
          omega)⟩
      have ok := inv.pools i r p g1 hp
      have hle := ok.le
      have hstop := block_le_stop r (by omega : j < r.count)
      have hword := wf.word r (List.mem_of_getElem? g1)
      have hwpos := wf.wpos
      have hspace := wf.space r (List.mem_of_getElem? g1)
      have hlook : poolByPtr h.pools h.base b.ptr = some i := by
        have hbase : h.base = base := inv.hbase
        rw [hbase]
        refine poolByPtr_in wf inv.len (fun i r p h1 h2 => (inv.pools i r p h1 h2).edge) g1 ?_ ?_
        · rw [g3]; exact start_le_block r j
        · rw [g3]; omega
      have hWW : h.W = W := inv.hW
      have hd : deallocate h b.ptr lay =
          { h with pools := h.pools.set i { p with free := b.ptr },
                   mem := writeWord h.mem b.ptr W p.free } := by
        simp only [deallocate, hz, if_false, hlook, hp, Pool.deallocate, hWW]
      have hframe : ∀ x, ¬ (b.ptr ≤ x ∧ x < b.ptr + W) →
          writeWord h.mem b.ptr W p.free x = h.mem x := by
        intro x hx
        exact writeWord_frame _ _ _ _ _ (by omega)
      -- the written word is inside the released block
      have hin : ∀ x, b.ptr ≤ x ∧ x < b.ptr + W → b.ptr ≤ x ∧ x < b.ptr + b.len := by
        intro x hx; omega
      have hfree : p.free < 256 ^ W := by
        have hc := ok.chain
        cases hfl : fl i with
        | nil =>
          rw [hfl] at hc
          have h0 : p.free = 0 := hc
          rw [h0]
          exact Nat.pow_pos (by omega)
        | cons a l' =>
          rw [hfl] at hc
          obtain ⟨c1, -, -⟩ := hc
          obtain ⟨j', hj', e⟩ := ok.inb a (by rw [hfl]; simp)
          have := block_le_stop r (by omega : j' < r.count)
          rw [c1, e]
          omega
      refine ⟨⟨fun x => if x = i then b.ptr :: fl i else fl x, k, ?_⟩, ?_⟩
      · rw [hd]
        refine ⟨inv.hW, inv.hbase, by simpa using inv.len, ?_, ?_, hdis.2, ?_⟩
        · intro i' r' p' h1 h2
          have hother : ∀ a ∈ fl i', ∀ x, a ≤ x → x < a + W →
              writeWord h.mem b.ptr W p.free x = h.mem x := by
            intro a ha x hx1 hx2
            refine hframe x fun hx => ?_
            exact live_not_free wf inv (b := b) (by simp) (hin x hx) h1 ha ⟨hx1, hx2⟩
          simp only [List.getElem?_set] at h2
          by_cases hii : i = i'
          · subst hii
            rw [g1] at h1
            simp only [Option.some.injEq] at h1
            subst h1
            have hl := (List.getElem?_eq_some_iff.mp hp).1
            simp only [if_true, hl, Option.some.injEq] at h2
            subst h2
            obtain ⟨e1, e2, e3, e4, e5, e6, e7⟩ := ok
            simp only [if_true]
            refine ⟨e1, e2, e3, e4, ⟨rfl, ?_, ?_⟩, ?_, ?_⟩
            · rw [g3]; exact block_pos wf g1 j
            · rw [readWord_writeWord _ _ _ _ hfree]
              exact e5.congr hother
            · intro a ha
              rcases List.mem_cons.mp ha with rfl | ha
              · exact ⟨j, g2, g3⟩
              · exact e6 a ha
            · rw [List.nodup_cons]
              exact ⟨g5, e7⟩
          · simp only [hii, if_false] at h2
            obtain ⟨e1, e2, e3, e4, e5, e6, e7⟩ := inv.pools i' r' p' h1 h2
            simp only [Ne.symm hii, if_false]
            exact ⟨e1, e2, e3, e4, e5.congr hother, e6, e7⟩
        · intro c hc
          obtain ⟨q1, q2⟩ := inv.live c (by simp [hc])
          refine ⟨q1, ?_⟩
          rcases q2 with q2 | ⟨i', r', j', f1, f2, f3, f4, f5⟩
          · exact Or.inl q2
          · right
            refine ⟨i', r', j', f1, f2, f3, f4, ?_⟩
            by_cases hii : i' = i
            · subst hii
              simp only [if_true, List.mem_cons, not_or]
              refine ⟨?_, f5⟩
              have hw' := wf.word r' (List.mem_of_getElem? f1)
              rcases hdis.1 c hc with h' | h' | h'
              · exact absurd h' hlen
              · omega
              · exact Ne.symm h'
            · simpa [hii] using f5
        · intro i' r' j' h1 h2 h3
          have h3' : r'.block j' ∉ fl i' := by
            by_cases hii : i' = i
            · subst hii
              simp only [if_true, List.mem_cons, not_or] at h3
              exact h3.2
            · simpa [hii] using h3
          obtain ⟨c, hc, f1, f2⟩ := inv.complete i' r' j' h1 h2 h3'
          rcases List.mem_cons.mp hc with rfl | hc
          · exfalso
            have hii : i' = i := by
              by_cases hii : i' = i
              · exact hii
              · exfalso
                have ok' := inv.pools i' r' _ h1 (List.getElem?_eq_getElem (by
                  have := inv.len
                  have := (List.getElem?_eq_some_iff.mp h1).1
                  simp only at *
                  omega))
                have hle' := ok'.le
                have hw' := wf.word r' (List.mem_of_getElem? h1)
                rcases blocks_apart wf g1 h1 (by omega : j < r.count) (by omega : j' < r'.count)
                  (by intro hh; exact hii hh.1.symm) with h' | h' <;> omega
            subst hii
            apply h3
            simp [f2]
          · exact ⟨c, hc, f1, f2⟩
      · intro x hx
        rw [hd]
        exact hframe x fun hx' => hx (hin x hx')

/-! ### Whole operations -/

theorem exhausted_of {W base : Nat} {regs : List Region} {s : Sys} {fl : Nat → List Nat}
    {k : Nat → Nat} (inv : Inv W base regs s fl k) {i : Nat} {r : Region} (hr : regs[i]? = some r)
    (h : fl i = [] ∧ k i = r.count) : Exhausted s.live r := by
  intro j hj
  exact inv.complete i r j hr (by omega) (by rw [h.1]; simp)

theorem poolRange_spec {W base : Nat} {regs : List Region} (wf : Wf W base regs) {s : Sys}
    {fl : Nat → List Nat} {k : Nat → Nat} (inv : Inv W base regs s fl k) (size : Nat) :
    poolRangeByLayout s.heap.pools size ≤ regs.length ∧
    (∀ (i : Nat) (r : Region), regs[i]? = some r →
      (poolRangeByLayout s.heap.pools size ≤ i ↔ size ≤ r.size)) := by
  have toReg : ∀ (i : Nat) (p : Pool), s.heap.pools[i]? = some p →
      ∃ r, regs[i]? = some r ∧ p.size = r.size := by
    intro i p hp
    have hi := (List.getElem?_eq_some_iff.mp hp).1
    have hl := inv.len
    have hr : regs[i]? = some regs[i] := List.getElem?_eq_getElem (by omega)
    exact ⟨_, hr, (inv.pools i _ p hr hp).size⟩
  have spec := binarySearch_spec s.heap.pools (fun pool => decide (size ≤ pool.size)) (by
    intro i j p q hij hp hq hf
    obtain ⟨r1, g1, g2⟩ := toReg i p hp
    obtain ⟨r2, g3, g4⟩ := toReg j q hq
    have : r1.size ≤ r2.size := by
      rcases Nat.lt_or_eq_of_le hij with h | h
      · exact pairwise_idx wf.sorted g1 g3 h
      · subst h
        rw [g1] at g3
        simp only [Option.some.injEq] at g3
        rw [g3]
        exact Nat.le_refl _
    simp only [decide_eq_true_eq] at *
    omega)
  refine ⟨by rw [← inv.len]; exact spec.1, ?_⟩
  intro i r hr
  have hi := (List.getElem?_eq_some_iff.mp hr).1
  have hl := inv.len
  have hp : s.heap.pools[i]? = some s.heap.pools[i] := List.getElem?_eq_getElem (by omega)
  have hsz := (inv.pools i r _ hr hp).size
  constructor
  · intro hle
    have := spec.2.2 i _ hle hp
    simp only [decide_eq_true_eq] at this
    omega
  · intro hsize
    rcases Nat.lt_or_ge i (poolRangeByLayout s.heap.pools size) with h | h
    · have := spec.2.1 i _ h hp
      simp only [decide_eq_false_iff_not] at this
      omega
    · exact h

theorem allocate_spec {W base : Nat} {regs : List Region} (wf : Wf W base regs) {s : Sys}
    {fl : Nat → List Nat} {k : Nat → Nat} (inv : Inv W base regs s fl k) (lay : Layout)
    (hsz : lay.size ≠ 0) :
    (allocate s.heap lay = (s.heap, none) ∧
      ∀ (i : Nat) (r : Region), regs[i]? = some r → lay.size ≤ r.size → Exhausted s.live r) ∨
    (∃ (i : Nat) (r : Region) (h' : Heap) (ptr j : Nat), regs[i]? = some r ∧ lay.size ≤ r.size ∧
      allocate s.heap lay = (h', some (ptr, r.size)) ∧ h'.mem = s.heap.mem ∧
      j < r.count ∧ ptr = r.block j ∧ ¬ Exhausted s.live r ∧
      (∀ (i' : Nat) (r' : Region), i' < i → regs[i']? = some r' → lay.size ≤ r'.size →
        Exhausted s.live r') ∧
      ∃ fl' k', Inv W base regs ⟨h', ⟨ptr, r.size, lay.size⟩ :: s.live⟩ fl' k') := by
  obtain ⟨hr1, hr2⟩ := poolRange_spec wf inv lay.size
  generalize hf : poolRangeByLayout s.heap.pools lay.size = first at hr1 hr2
  have hal : allocate s.heap lay =
      allocateLoop s.heap (List.range' first (s.heap.pools.length - first)) := by
    simp [allocate, hsz, hf]
  have hl := inv.len
  have hlt : ∀ i ∈ List.range' first (s.heap.pools.length - first), i < regs.length := by
    intro i hi
    rw [List.mem_range'_1] at hi
    omega
  rcases allocateLoop_spec wf inv _ hlt with ⟨h1, h2⟩ | ⟨pre, i, post, r, p, p', ptr, g1, g2, g3, g4, g5, g6⟩
  · left
    refine ⟨by rw [hal, h1], ?_⟩
    intro i r hr hle
    have hi := (List.getElem?_eq_some_iff.mp hr).1
    have := (hr2 i r hr).mpr hle
    exact exhausted_of inv hr (h2 i (by rw [List.mem_range'_1]; omega) r hr)
  · right
    have himem : i ∈ List.range' first (s.heap.pools.length - first) := by rw [g1]; simp
    have hsize : lay.size ≤ r.size := by
      rw [← hr2 i r g2]
      rw [List.mem_range'_1] at himem
      omega
    obtain ⟨hinv, hfresh, j, hj1, hj2⟩ := inv_after_alloc wf inv g2 g3 g4 hsize hsz
    refine ⟨i, r, { s.heap with pools := s.heap.pools.set i p' }, ptr, j, g2, hsize, by rw [hal, g6], rfl, hj1, hj2, ?_, ?_, hinv⟩
    · intro hex
      obtain ⟨b, hb, hb1, hb2⟩ := hex j hj1
      exact hfresh b hb hb1 (by rw [hb2, hj2])
    · intro i' r' hlt' hr' hle'
      have hmem' : i' ∈ pre := by
        have h1 : i' ∈ List.range' first (s.heap.pools.length - first) := by
          have := (hr2 i' r' hr').mpr hle'
          have := (List.getElem?_eq_some_iff.mp hr').1
          rw [List.mem_range'_1]
          omega
        have hpw : (List.range' first (s.heap.pools.length - first)).Pairwise (· < ·) :=
          List.pairwise_lt_range'
        rw [g1] at h1 hpw
        rcases List.mem_append.mp h1 with h | h
        · exact h
        · exfalso
          rw [List.pairwise_append] at hpw
          rcases List.mem_cons.mp h with h | h
          · omega
          · have := (List.pairwise_cons.mp hpw.2.1).1 i' h
            omega
      exact exhausted_of inv hr' (g5 i' hmem' r' hr')

theorem inv_zero_size {W base : Nat} {regs : List Region} {s : Sys} {fl : Nat → List Nat}
    {k : Nat → Nat} (inv : Inv W base regs s fl k) (ptr : Nat) :
    Inv W base regs ⟨s.heap, ⟨ptr, 0, 0⟩ :: s.live⟩ fl k := by
  refine ⟨inv.hW, inv.hbase, inv.len, inv.pools, ?_, ?_, ?_⟩
  · intro b hb
    rcases List.mem_cons.mp hb with rfl | hb
    · exact ⟨⟨Nat.le_refl _, fun h => absurd rfl h⟩, Or.inl rfl⟩
    · exact inv.live b hb
  · rw [List.pairwise_cons]
    exact ⟨fun c _ => Or.inl rfl, inv.distinct⟩
  · intro i r j h1 h2 h3
    obtain ⟨b, hb, g⟩ := inv.complete i r j h1 h2 h3
    exact ⟨b, by simp [hb], g⟩

/-- `allocate` in one statement, zero sizes included. -/
theorem allocate_any {W base : Nat} {regs : List Region} (wf : Wf W base regs) {s : Sys}
    {fl : Nat → List Nat} {k : Nat → Nat} (inv : Inv W base regs s fl k) (lay : Layout) :
    allocate s.heap lay = (s.heap, none) ∨
    ∃ h' ptr len, allocate s.heap lay = (h', some (ptr, len)) ∧ h'.mem = s.heap.mem ∧
      lay.size ≤ len ∧ ∃ fl' k', Inv W base regs ⟨h', ⟨ptr, len, lay.size⟩ :: s.live⟩ fl' k' := by
  by_cases hz : lay.size = 0
  · right
    refine ⟨s.heap, lay.align, 0, by simp [allocate, hz], rfl, by omega, fl, k, ?_⟩
    rw [hz]
    exact inv_zero_size inv _
  · rcases allocate_spec wf inv lay hz with ⟨h1, _⟩ | ⟨i, r, h', ptr, j, _, h2, h3, h4, _, _, _, _, h5⟩
    · exact Or.inl h1
    · exact Or.inr ⟨h', ptr, r.size, h3, h4, h2, h5⟩

/-- Held blocks do not overlap. -/
theorem inv_disjoint {W base : Nat} {regs : List Region} (wf : Wf W base regs) {s : Sys}
    {fl : Nat → List Nat} {k : Nat → Nat} (inv : Inv W base regs s fl k) :
    s.live.Pairwise (fun b c => b.len = 0 ∨ c.len = 0 ∨ b.ptr + b.len ≤ c.ptr ∨ c.ptr + c.len ≤ b.ptr) := by
  refine List.Pairwise.imp_of_mem ?_ inv.distinct
  intro b c hb hc h
  rcases h with h | h | h
  · exact Or.inl h
  · exact Or.inr (Or.inl h)
  · obtain ⟨_, h0 | ⟨i, r, j, g1, g2, g3, g4, g5⟩⟩ := inv.live b hb
    · exact Or.inl h0
    obtain ⟨_, h0 | ⟨i', r', j', f1, f2, f3, f4, f5⟩⟩ := inv.live c hc
    · exact Or.inr (Or.inl h0)
    right; right
    have cnt : ∀ (i : Nat) (r : Region), regs[i]? = some r → k i ≤ r.count := fun i r h =>
      (inv.pools i r _ h (List.getElem?_eq_getElem (by
        rw [inv.len]; exact (List.getElem?_eq_some_iff.mp h).1))).le
    have c1 := cnt i r g1
    have c2 := cnt i' r' f1
    rcases blocks_apart wf g1 f1 (by omega : j < r.count) (by omega : j' < r'.count) (by
      rintro ⟨rfl, rfl⟩
      rw [g1] at f1
      simp only [Option.some.injEq] at f1
      subst f1
      exact h (by rw [g3, f3])) with h' | h'
    · left; omega
    · right; omega

theorem perm_eraseIdx {l : List Block} {i : Nat} {b : Block} (h : l[i]? = some b) :
    l.Perm (b :: l.eraseIdx i) := by
  induction l generalizing i with
  | nil => simp at h
  | cons a l ih =>
    cases i with
    | zero =>
      simp only [List.getElem?_cons_zero, Option.some.injEq] at h
      subst h
      simp
    | succ i =>
      simp only [List.getElem?_cons_succ] at h
      simp only [List.eraseIdx_cons_succ]
      exact ((ih h).cons a).trans (List.Perm.swap b a _)

/-- Copy into the new block and release the old one. -/
theorem moveBlock_spec {W base : Nat} {regs : List Region} (wf : Wf W base regs) {h : Heap}
    {live : List Block} {nb b : Block} {i : Nat} {fl : Nat → List Nat} {k : Nat → Nat}
    (inv : Inv W base regs ⟨h, nb :: live⟩ fl k) (hb : live[i]? = some b) {old : Layout}
    (hfit : b.fits old = true) {n : Nat} (hn : n ≤ nb.len) (hn' : n ≤ b.len) :
    ∃ h'', moveBlock h b.ptr old n nb.ptr = some h'' ∧
      (∃ fl' k', Inv W base regs ⟨h'', nb :: live.eraseIdx i⟩ fl' k') ∧
      (∀ x, x < n → h''.mem (nb.ptr + x) = h.mem (b.ptr + x)) ∧
      (∀ x, n ≤ x → x < nb.len → h''.mem (nb.ptr + x) = h.mem (nb.ptr + x)) ∧
      (∀ c ∈ live.eraseIdx i, ∀ x, x < c.len → h''.mem (c.ptr + x) = h.mem (c.ptr + x)) := by
  have hperm := perm_eraseIdx hb
  have hbmem : b ∈ live := List.mem_of_getElem? hb
  have hdis := List.pairwise_cons.mp (inv_disjoint wf inv)
  have hnb := hdis.1 b hbmem
  have hdis2 : (b :: live.eraseIdx i).Pairwise
      (fun b c => b.len = 0 ∨ c.len = 0 ∨ b.ptr + b.len ≤ c.ptr ∨ c.ptr + c.len ≤ b.ptr) := by
    refine (hperm.pairwise_iff ?_).mp hdis.2
    intro x y hxy
    omega
  have hdis3 := List.pairwise_cons.mp hdis2
  have hov : n = 0 ∨ b.ptr + n ≤ nb.ptr ∨ nb.ptr + n ≤ b.ptr := by
    omega
  have inv1 : Inv W base regs
      ⟨{ h with mem := (fun x => if nb.ptr ≤ x ∧ x < nb.ptr + n then h.mem (b.ptr + (x - nb.ptr))
                                 else h.mem x) }, nb :: live⟩ fl k := by
    refine inv.write_live wf _ ?_
    intro x hx
    refine ⟨nb, by simp, ?_⟩
    by_cases hx' : nb.ptr ≤ x ∧ x < nb.ptr + n
    · omega
    · simp [hx'] at hx
  have inv2 := inv1.perm ((hperm.cons nb).trans (List.Perm.swap b nb _))
  obtain ⟨inv3, hframe⟩ := inv_after_dealloc wf inv2 hfit
  refine ⟨_, by simp only [moveBlock, copyNonoverlapping, if_pos hov], inv3, ?_, ?_, ?_⟩
  · intro x hx
    rw [hframe _ (by omega)]
    simp only
    rw [if_pos (by omega)]
    congr 1
    omega
  · intro x hx1 hx2
    rw [hframe _ (by omega)]
    simp only
    rw [if_neg (by omega)]
  · intro c hc x hx
    have h1 := hdis3.1 c hc
    have h2 := hdis.1 c (List.mem_of_mem_eraseIdx hc)
    rw [hframe _ (by omega)]
    simp only
    rw [if_neg (by omega)]

/-- Zeroed allocation. -/
theorem allocateZeroed_any {W base : Nat} {regs : List Region} (wf : Wf W base regs) {s : Sys}
    {fl : Nat → List Nat} {k : Nat → Nat} (inv : Inv W base regs s fl k) (lay : Layout) :
    allocateZeroed s.heap lay = (s.heap, none) ∨
    ∃ h' ptr len, allocateZeroed s.heap lay = (h', some (ptr, len)) ∧
      (∀ x, x < len → h'.mem (ptr + x) = 0) ∧
      (∀ c ∈ s.live, ∀ x, x < c.len → h'.mem (c.ptr + x) = s.heap.mem (c.ptr + x)) ∧
      lay.size ≤ len ∧ ∃ fl' k', Inv W base regs ⟨h', ⟨ptr, len, lay.size⟩ :: s.live⟩ fl' k' := by
  rcases allocate_any wf inv lay with h1 | ⟨h', ptr, len, h1, h2, h3, fl', k', h4⟩
  · left
    simp [allocateZeroed, h1]
  · right
    refine ⟨{ h' with mem := zeroBytes h'.mem ptr len }, ptr, len, by simp [allocateZeroed, h1], ?_, ?_, h3, fl', k', ?_⟩
    · intro x hx
      simp only [zeroBytes]
      rw [if_pos (by omega)]
    · intro c hc x hx
      have hd := (List.pairwise_cons.mp (inv_disjoint wf h4)).1 c hc
      simp only at hd
      simp only [zeroBytes]
      rw [if_neg (by omega), h2]
    · refine h4.write_live wf _ ?_
      intro x hx
      refine ⟨⟨ptr, len, lay.size⟩, by simp, ?_⟩
      by_cases hx' : ptr ≤ x ∧ x < ptr + len
      · exact hx'
      · simp [zeroBytes, hx'] at hx

/-- One request keeps the invariant and never runs into undefined behaviour. -/
theorem step_inv {W base : Nat} {regs : List Region} (wf : Wf W base regs) {s : Sys}
    {fl : Nat → List Nat} {k : Nat → Nat} (inv : Inv W base regs s fl k) (op : Op) :
    ∃ s', step s op = some s' ∧ ∃ fl' k', Inv W base regs s' fl' k' := by
  cases op with
  | alloc l =>
    rcases allocate_any wf inv l with h1 | ⟨h', ptr, len, h1, h2, h3, h4⟩
    · exact ⟨s, by simp [step, h1], fl, k, inv⟩
    · exact ⟨_, by simp only [step, h1], h4⟩
  | allocZeroed l =>
    rcases allocateZeroed_any wf inv l with h1 | ⟨h', ptr, len, h1, h2, h3, h4, h5⟩
    · exact ⟨s, by simp [step, h1], fl, k, inv⟩
    · exact ⟨_, by simp only [step, h1], h5⟩
  | dealloc i l =>
    cases hb : s.live[i]? with
    | none => exact ⟨s, by simp [step, hb], fl, k, inv⟩
    | some b =>
      by_cases hf : b.fits l
      · refine ⟨⟨deallocate s.heap b.ptr l, s.live.eraseIdx i⟩, by simp only [step, hb, hf, if_true], ?_⟩
        exact (inv_after_dealloc wf (Inv.perm inv (perm_eraseIdx hb)) hf).1
      · exact ⟨s, by simp [step, hb, hf], fl, k, inv⟩
  | grow i old new =>
    cases hb : s.live[i]? with
    | none => exact ⟨s, by simp [step, hb], fl, k, inv⟩
    | some b =>
      by_cases hf : b.fits old ∧ old.size ≤ new.size
      · have hfit := hf.1
        simp only [Block.fits, decide_eq_true_eq] at hfit
        rcases allocate_any wf inv new with h1 | ⟨h', ptr, len, h1, h2, h3, fl', k', h4⟩
        · exact ⟨s, by simp [step, hb, hf, grow, h1, afterRealloc], fl, k, inv⟩
        · obtain ⟨h'', e1, e2, -⟩ := moveBlock_spec wf h4 hb hf.1 (n := old.size)
            (by simp only; omega) (by omega)
          exact ⟨_, by simp only [step, hb, hf, and_self, if_true, grow, h1, e1, Option.map_some,
            afterRealloc, replaceBlock], e2⟩
      · exact ⟨s, by simp only [step, hb, hf, if_false], fl, k, inv⟩
  | growZeroed i old new =>
    cases hb : s.live[i]? with
    | none => exact ⟨s, by simp [step, hb], fl, k, inv⟩
    | some b =>
      by_cases hf : b.fits old ∧ old.size ≤ new.size
      · have hfit := hf.1
        simp only [Block.fits, decide_eq_true_eq] at hfit
        rcases allocateZeroed_any wf inv new with h1 | ⟨h', ptr, len, h1, h2, h3, h4, fl', k', h5⟩
        · exact ⟨s, by simp [step, hb, hf, growZeroed, h1, afterRealloc], fl, k, inv⟩
        · obtain ⟨h'', e1, e2, -⟩ := moveBlock_spec wf h5 hb hf.1 (n := old.size)
            (by simp only; omega) (by omega)
          exact ⟨_, by simp only [step, hb, hf, and_self, if_true, growZeroed, h1, e1,
            Option.map_some, afterRealloc, replaceBlock], e2⟩
      · exact ⟨s, by simp only [step, hb, hf, if_false], fl, k, inv⟩
  | shrink i old new =>
    cases hb : s.live[i]? with
    | none => exact ⟨s, by simp [step, hb], fl, k, inv⟩
    | some b =>
      by_cases hf : b.fits old ∧ new.size ≤ old.size
      · have hfit := hf.1
        simp only [Block.fits, decide_eq_true_eq] at hfit
        rcases allocate_any wf inv new with h1 | ⟨h', ptr, len, h1, h2, h3, fl', k', h4⟩
        · exact ⟨s, by simp [step, hb, hf, shrink, h1, afterRealloc], fl, k, inv⟩
        · obtain ⟨h'', e1, e2, -⟩ := moveBlock_spec wf h4 hb hf.1 (n := new.size)
            (by simp only; omega) (by omega)
          exact ⟨_, by simp only [step, hb, hf, and_self, if_true, shrink, h1, e1,
            Option.map_some, afterRealloc, replaceBlock], e2⟩
      · exact ⟨s, by simp only [step, hb, hf, if_false], fl, k, inv⟩
  | write a v =>
    by_cases hany : s.live.any (fun b => decide (b.ptr ≤ a ∧ a < b.ptr + b.len)) = true
    · refine ⟨{ s with heap := { s.heap with mem := fun x => if x = a then v else s.heap.mem x } },
        by simp only [step, hany, if_true], fl, k, ?_⟩
      refine inv.write_live wf _ ?_
      intro x hx
      have hxa : x = a := by
        by_cases h : x = a
        · exact h
        · simp [h] at hx
      subst hxa
      rw [List.any_eq_true] at hany
      obtain ⟨b, hb1, hb2⟩ := hany
      exact ⟨b, hb1, by simpa using hb2⟩
    · exact ⟨s, by simp only [step, hany]; rfl, fl, k, inv⟩

theorem run_inv {W base : Nat} {regs : List Region} (wf : Wf W base regs) (ops : List Op) :
    ∀ {s : Sys} {fl : Nat → List Nat} {k : Nat → Nat}, Inv W base regs s fl k →
    ∃ s', run s ops = some s' ∧ ∃ fl' k', Inv W base regs s' fl' k' := by
  induction ops with
  | nil => intro s fl k inv; exact ⟨s, rfl, fl, k, inv⟩
  | cons op ops ih =>
    intro s fl k inv
    obtain ⟨s1, e1, fl1, k1, inv1⟩ := step_inv wf inv op
    obtain ⟨s2, e2, r⟩ := ih inv1
    exact ⟨s2, by simp only [run, e1, e2], r⟩

theorem Reachable.inv {W base : Nat} {cfg : List (Nat × Nat)} (hl : Legal W base cfg) {s : Sys}
    (hs : Reachable W base cfg s) : ∃ fl k, Inv W base (regions base cfg) s fl k := by
  obtain ⟨mem, ops, h⟩ := hs
  obtain ⟨s', e, r⟩ := run_inv hl.wf ops (start_inv cfg mem)
  rw [h] at e
  simp only [Option.some.injEq] at e
  subst e
  exact r

/-! ### Allocating until the heap refuses -/

theorem length_le_of_lt : ∀ (n : Nat) (l : List Nat), l.Nodup → (∀ x ∈ l, x < n) → l.length ≤ n
  | 0, l, _, h => by
    cases l with
    | nil => exact Nat.le_refl _
    | cons x l => exact absurd (h x (by simp)) (Nat.not_lt_zero _)
  | n + 1, l, hd, h => by
    have h1 := length_le_of_lt n (l.erase n) (hd.erase n) fun x hx => by
      have hx' := (hd.mem_erase_iff).mp hx
      have := h x hx'.2
      omega
    have h2 := List.length_erase (a := n) (l := l)
    by_cases hn : n ∈ l
    · rw [if_pos hn] at h2; omega
    · rw [if_neg hn] at h2; omega

theorem run_snoc : ∀ (ops : List Op) (s s' : Sys) (op : Op), run s ops = some s' →
    run s (ops ++ [op]) = step s' op
  | [], s, s', op, h => by
    cases h
    simp only [List.nil_append, run]
    cases step s op <;> rfl
  | o :: ops, s, s', op, h => by
    simp only [List.cons_append, run] at h ⊢
    cases hs : step s o with
    | none => rw [hs] at h; cases h
    | some s1 => rw [hs] at h; exact run_snoc ops s1 s' op h

/-- Requests of the same layout are granted until all blocks that are long enough are held. -/
theorem fill {W base : Nat} {cfg : List (Nat × Nat)} (hl : Legal W base cfg) (lay : Layout)
    (hsz : lay.size ≠ 0) (P : Nat → Prop)
    (hP : ∀ s h' ptr len, Reachable W base cfg s → allocate s.heap lay = (h', some (ptr, len)) → P ptr) :
    ∃ s, Reachable W base cfg s ∧ (∀ b ∈ s.live, P b.ptr) ∧ allocate s.heap lay = (s.heap, none) := by
  have key : ∀ n, ∃ s, Reachable W base cfg s ∧ (∀ b ∈ s.live, P b.ptr ∧ b.len ≠ 0) ∧
      (s.live.length = n ∨ allocate s.heap lay = (s.heap, none)) := by
    intro n
    induction n with
    | zero => exact ⟨start W base cfg (fun _ => 0), ⟨_, [], rfl⟩, by simp [start], .inl rfl⟩
    | succ n ih =>
      obtain ⟨s, hs, hb, hn | hn⟩ := ih
      · obtain ⟨fl, k, inv⟩ := hs.inv hl
        rcases allocate_spec hl.wf inv lay hsz with ⟨h1, -⟩ | ⟨i, r, h', ptr, j, g1, g2, g3, -⟩
        · exact ⟨s, hs, hb, .inr h1⟩
        · refine ⟨⟨h', ⟨ptr, r.size, lay.size⟩ :: s.live⟩, ?_, ?_, .inl (by simp [hn])⟩
          · obtain ⟨mem, ops, hr⟩ := hs
            refine ⟨mem, ops ++ [.alloc lay], ?_⟩
            rw [run_snoc ops _ s _ hr, step, g3]
          · intro b hb'
            rcases List.mem_cons.mp hb' with rfl | hb'
            · exact ⟨hP s h' ptr r.size hs g3, by simp only; omega⟩
            · exact hb b hb'
      · exact ⟨s, hs, hb, .inr hn⟩
  obtain ⟨s, hs, hb, hn | hn⟩ := key (heapEnd base cfg + 1)
  · exfalso
    obtain ⟨fl, k, inv⟩ := hs.inv hl
    have hd : (s.live.map (·.ptr)).Nodup := by
      rw [List.Nodup, List.pairwise_map]
      refine List.Pairwise.imp_of_mem ?_ inv.distinct
      intro b c hb' hc h
      rcases h with h | h | h
      · exact absurd h (hb b hb').2
      · exact absurd h (hb c hc).2
      · exact h
    have := length_le_of_lt (heapEnd base cfg) _ hd (by
      intro x hx
      obtain ⟨b, hb', rfl⟩ := List.mem_map.mp hx
      rcases (inv.live b hb').2 with h | ⟨i, r, j, h1, h2, h3, h4, -⟩
      · exact absurd h (hb b hb').2
      · obtain ⟨p, hp⟩ : ∃ p, s.heap.pools[i]? = some p :=
          ⟨_, List.getElem?_eq_getElem (by rw [inv.len]; exact (List.getElem?_eq_some_iff.mp h1).1)⟩
        have hk := (inv.pools i r p h1 hp).le
        have h5 := block_le_stop r (Nat.lt_of_lt_of_le h2 hk)
        have h6 := (regions_bounds cfg base r (List.mem_of_getElem? h1)).2.1
        have h7 := (hb b hb').2
        omega)
    simp only [List.length_map] at this
    omega
  · exact ⟨s, hs, fun b hb' => (hb b hb').1, hn⟩

end Verif.Heap
