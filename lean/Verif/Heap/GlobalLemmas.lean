import Verif.Heap.GlobalSpec
import Verif.Heap.TraceProps
/-! # Lemmas about the global allocator -/
namespace Verif.Heap

/-- An entry of the joint view of allocator, program and ideal objects. -/
abbrev Entry := Block × GBlock × Obj

structure EntryOk (m : Mem) (W : Nat) (p : Entry) : Prop where
  ptr : p.2.1.ptr = p.1.ptr
  req : p.2.1.layout.size = p.1.req
  size : p.2.2.size = p.1.req
  pos : p.1.req ≠ 0
  le : p.1.req ≤ p.1.len
  small : p.1.req < 256 ^ W
  bytes : ∀ x v, x < p.1.req → p.2.2.bytes x = some v → m (p.1.ptr + x) = v

structure GInv (W base : Nat) (regs : List Region) (s : GSys) (objs : List Obj) (P : List Entry) : Prop where
  inv : ∃ fl k, Inv W base regs ⟨s.heap, P.map (·.1)⟩ fl k
  live : s.live = P.map (·.2.1)
  objs : objs = P.map (·.2.2)
  ok : ∀ p ∈ P, EntryOk s.heap.mem W p

theorem EntryOk.mem {m m' : Mem} {W : Nat} {p : Entry} (h : EntryOk m W p) (hm : ∀ x, x < p.1.len → m' (p.1.ptr + x) = m (p.1.ptr + x)) : EntryOk m' W p :=
  ⟨h.ptr, h.req, h.size, h.pos, h.le, h.small, fun x v hx hv => by rw [hm x (Nat.lt_of_lt_of_le hx h.le)]; exact h.bytes x v hx hv⟩

theorem map_eraseIdx' {α β : Type} (f : α → β) : ∀ (l : List α) (i : Nat), (l.map f).eraseIdx i = (l.eraseIdx i).map f
  | [], _ => rfl
  | _ :: _, 0 => rfl
  | a :: l, i + 1 => by simp [map_eraseIdx' f l i]

theorem mem_of_mem_eraseIdx' {α : Type} {l : List α} {i : Nat} {a : α} (h : a ∈ l.eraseIdx i) : a ∈ l :=
  (List.eraseIdx_sublist l i).subset h

/-- The pointer of a successful request is not null. -/
theorem alloc_ptr_ne {W base : Nat} {regs : List Region} (wf : Wf W base regs) {s : Sys} {fl : Nat → List Nat} {k : Nat → Nat}
    (inv : Inv W base regs s fl k) {lay : Layout} (hz : lay.size ≠ 0) :
    allocate s.heap lay = (s.heap, none) ∨
    ∃ h' ptr len, ptr ≠ 0 ∧ allocate s.heap lay = (h', some (ptr, len)) ∧ h'.mem = s.heap.mem ∧
      lay.size ≤ len ∧ ∃ fl' k', Inv W base regs ⟨h', ⟨ptr, len, lay.size⟩ :: s.live⟩ fl' k' := by
  rcases allocate_any wf inv lay with h1 | ⟨h', ptr, len, h1, h2, h3, h4⟩
  · exact Or.inl h1
  · refine Or.inr ⟨h', ptr, len, ?_, h1, h2, h3, h4⟩
    rcases allocate_spec wf inv lay hz with ⟨g1, -⟩ | ⟨i, r, h'', ptr', j, g1, g2, g3, g4, g5, g6, g7⟩
    · rw [h1] at g1; simp at g1
    · rw [h1] at g3
      simp only [Prod.mk.injEq, Option.some.injEq] at g3
      obtain ⟨-, rfl, -⟩ := g3
      subst g6
      exact block_pos wf g1 j

theorem gperm {P : List Entry} {i : Nat} {p : Entry} (h : P[i]? = some p) : ∀ q ∈ P.eraseIdx i, q ∈ P := fun _ hq => mem_of_mem_eraseIdx' hq

/-- Other blocks do not contain an address of a block. -/
theorem head_apart {W base : Nat} {regs : List Region} (wf : Wf W base regs) {h : Heap} {b : Block} {l : List Block} {fl : Nat → List Nat} {k : Nat → Nat}
    (inv : Inv W base regs ⟨h, b :: l⟩ fl k) {c : Block} (hc : c ∈ l) {x y : Nat} (hx : x < b.len) (hy : y < c.len) : b.ptr + x ≠ c.ptr + y := by
  have := (List.pairwise_cons.1 (inv_disjoint wf inv)).1 c hc
  omega

theorem galloc_inv {W base : Nat} {regs : List Region} (wf : Wf W base regs) {s : GSys} {objs : List Obj} {P : List Entry}
    (g : GInv W base regs s objs P) {l : Layout} (hz : l.size ≠ 0) (hW : l.size < 256 ^ W) :
    galloc s.heap l = (s.heap, 0) ∨
    ∃ h ptr b, ptr ≠ 0 ∧ galloc s.heap l = (h, ptr) ∧ h.mem = s.heap.mem ∧
      GInv W base regs ⟨h, ⟨ptr, l⟩ :: s.live⟩ (⟨l.size, fun _ => none⟩ :: objs) ((b, ⟨ptr, l⟩, ⟨l.size, fun _ => none⟩) :: P) ∧ b.ptr = ptr ∧ b.req = l.size := by
  obtain ⟨fl, k, inv⟩ := g.inv
  rcases alloc_ptr_ne wf inv hz with h1 | ⟨h', ptr, len, h0, h1, h2, h3, fl', k', h4⟩
  · left; simp only at h1; simp [galloc, h1]
  · right
    refine ⟨h', ptr, ⟨ptr, len, l.size⟩, h0, by simp only at h1; simp [galloc, h1], h2, ⟨⟨fl', k', h4⟩, ?_, ?_, ?_⟩, rfl, rfl⟩
    · simp [g.live]
    · simp [g.objs]
    · intro p hp
      rcases List.mem_cons.1 hp with rfl | hp
      · exact ⟨rfl, rfl, rfl, hz, h3, hW, fun x v _ h => by simp at h⟩
      · exact (g.ok p hp).mem (fun x _ => by rw [show h'.mem = s.heap.mem from h2])

/-- Dropping an entry together with its block. -/
theorem gdealloc_inv {W base : Nat} {regs : List Region} (wf : Wf W base regs) {s : GSys} {objs : List Obj} {P : List Entry}
    (g : GInv W base regs s objs P) {i : Nat} {p : Entry} (hp : P[i]? = some p) :
    GInv W base regs ⟨gdealloc s.heap p.1.ptr p.2.1.layout, s.live.eraseIdx i⟩ (objs.eraseIdx i) (P.eraseIdx i) := by
  obtain ⟨fl, k, inv⟩ := g.inv
  have hb : (P.map (·.1))[i]? = some p.1 := by simp [hp]
  have po := g.ok p (List.mem_of_getElem? hp)
  have hfit : p.1.fits p.2.1.layout = true := by
    simp only [Block.fits, decide_eq_true_eq, po.req]
    exact ⟨Nat.le_refl _, po.le⟩
  have inv' := Inv.perm inv (perm_eraseIdx hb)
  obtain ⟨⟨fl', k', i1⟩, i2⟩ := inv_after_dealloc wf inv' hfit
  refine ⟨⟨fl', k', by rw [← map_eraseIdx']; exact i1⟩, by rw [g.live, map_eraseIdx'], by rw [g.objs, map_eraseIdx'], ?_⟩
  intro q hq
  refine (g.ok q (mem_of_mem_eraseIdx' hq)).mem (fun x hx => i2 _ ?_)
  intro hh
  have hqm : q.1 ∈ (P.map (·.1)).eraseIdx i := by rw [map_eraseIdx']; exact List.mem_map_of_mem hq
  exact head_apart wf inv' hqm (x := q.1.ptr + x - p.1.ptr) (y := x) (by omega) hx (by omega)

/-- Changing bytes of the first entry. -/
theorem gwrite_inv {W base : Nat} {regs : List Region} (wf : Wf W base regs) {h : Heap} {live : List GBlock} {objs : List Obj} {P : List Entry} {b : Block} {c : GBlock} {o : Obj}
    (g : GInv W base regs ⟨h, c :: live⟩ (o :: objs) ((b, c, o) :: P)) (m' : Mem) (o' : Obj) (hs : o'.size = o.size)
    (hm : ∀ x, ¬ (b.ptr ≤ x ∧ x < b.ptr + b.len) → m' x = h.mem x)
    (hb : ∀ x v, x < b.req → o'.bytes x = some v → m' (b.ptr + x) = v) :
    GInv W base regs ⟨{ h with mem := m' }, c :: live⟩ (o' :: objs) ((b, c, o') :: P) := by
  obtain ⟨fl, k, inv⟩ := g.inv
  have e := g.ok _ (List.mem_cons_self ..)
  refine ⟨⟨fl, k, inv.write_live wf m' ?_⟩, g.live, ?_, ?_⟩
  · intro x hx
    refine ⟨b, by simp, ?_⟩
    by_cases hh : b.ptr ≤ x ∧ x < b.ptr + b.len
    · exact hh
    · exact absurd (hm x hh) hx
  · have := g.objs
    simp only [List.map_cons, List.cons.injEq, true_and] at this
    simp [this]
  · intro p hp
    rcases List.mem_cons.1 hp with rfl | hp
    · exact ⟨e.ptr, e.req, hs.trans e.size, e.pos, e.le, e.small, hb⟩
    · refine (g.ok p (List.mem_cons_of_mem _ hp)).mem (fun x hx => hm _ ?_)
      intro hh
      exact head_apart (b := b) wf inv (c := p.1) (List.mem_map_of_mem hp) (x := p.1.ptr + x - b.ptr) (y := x) (by omega) hx (by omega)

/-- Reordering. -/
theorem GInv.perm {W base : Nat} {regs : List Region} {s : GSys} {objs : List Obj} {P Q : List Entry}
    (g : GInv W base regs s objs P) (h : P.Perm Q) : GInv W base regs ⟨s.heap, Q.map (·.2.1)⟩ (Q.map (·.2.2)) Q := by
  obtain ⟨fl, k, inv⟩ := g.inv
  exact ⟨⟨fl, k, inv.perm (h.map _)⟩, rfl, rfl, fun p hp => g.ok p (h.mem_iff.2 hp)⟩

theorem perm_set {α : Type} : ∀ {l : List α} {i : Nat} {a : α} (b : α), l[i]? = some a → (l.set i b).Perm (b :: l.eraseIdx i)
  | [], _, _, _, h => by simp at h
  | x :: l, 0, a, b, _ => List.Perm.refl _
  | x :: l, i + 1, a, b, h => by
    simp only [List.getElem?_cons_succ] at h
    exact ((perm_set b h).cons x).trans (List.Perm.swap ..)

theorem perm_erase {α : Type} : ∀ {l : List α} {i : Nat} {a : α}, l[i]? = some a → l.Perm (a :: l.eraseIdx i)
  | [], _, _, h => by simp at h
  | x :: l, 0, a, h => by simp only [List.getElem?_cons_zero, Option.some.injEq] at h; subst h; exact List.Perm.refl _
  | x :: l, i + 1, a, h => by
    simp only [List.getElem?_cons_succ] at h
    exact ((perm_erase h).cons x).trans (List.Perm.swap ..)

theorem map_set_self {α β : Type} (f : α → β) : ∀ {l : List α} {i : Nat} {a b : α}, l[i]? = some a → f b = f a → (l.set i b).map f = l.map f
  | [], _, _, _, h, _ => by simp at h
  | x :: l, 0, a, b, h, e => by simp only [List.getElem?_cons_zero, Option.some.injEq] at h; subst h; simp [e]
  | x :: l, i + 1, a, b, h, e => by
    simp only [List.getElem?_cons_succ] at h
    simp [map_set_self f h e]

/-- Changing bytes of any entry. -/
theorem gwrite_at {W base : Nat} {regs : List Region} (wf : Wf W base regs) {s : GSys} {objs : List Obj} {P : List Entry} {i : Nat} {p : Entry}
    (g : GInv W base regs s objs P) (hp : P[i]? = some p) (m' : Mem) (o' : Obj) (hs : o'.size = p.2.2.size)
    (hm : ∀ x, ¬ (p.1.ptr ≤ x ∧ x < p.1.ptr + p.1.len) → m' x = s.heap.mem x)
    (hb : ∀ x v, x < p.1.req → o'.bytes x = some v → m' (p.1.ptr + x) = v) :
    GInv W base regs ⟨{ s.heap with mem := m' }, s.live⟩ (objs.set i o') (P.set i (p.1, p.2.1, o')) := by
  have g1 := g.perm (perm_erase hp)
  have g2 := gwrite_inv wf (b := p.1) (c := p.2.1) (o := p.2.2) g1 m' o' hs hm hb
  have g3 := g2.perm (perm_set (p.1, p.2.1, o') hp).symm
  have e1 : (P.set i (p.1, p.2.1, o')).map (·.2.1) = s.live := by rw [g.live]; exact map_set_self _ hp rfl
  have e2 : (P.set i (p.1, p.2.1, o')).map (·.2.2) = objs.set i o' := by rw [g.objs, List.map_set]
  rw [e1, e2] at g3
  exact g3

theorem gstep_inv {W base : Nat} {regs : List Region} (wf : Wf W base regs) {s : GSys} {objs : List Obj} {P : List Entry}
    (g : GInv W base regs s objs P) (op : GOp) (hW : op.small W) :
    ∃ s' ok P', gstep s op = some (s', ok) ∧ GInv W base regs s' (ideal objs op ok) P' := by
  cases op with
  | alloc l =>
    by_cases hz : l.size = 0
    · exact ⟨s, false, P, by simp [gstep, hz], g⟩
    rcases galloc_inv wf g hz hW with h1 | ⟨h, ptr, b, h0, h1, -, h2, -⟩
    · exact ⟨s, false, P, by simp [gstep, hz, h1], g⟩
    · exact ⟨_, true, _, by simp [gstep, hz, h1, h0], h2⟩
  | allocZeroed l =>
    by_cases hz : l.size = 0
    · exact ⟨s, false, P, by simp [gstep, hz], g⟩
    rcases galloc_inv wf g hz hW with h1 | ⟨h, ptr, b, h0, h1, -, h2, h3, h4⟩
    · exact ⟨s, false, P, by simp [gstep, gallocZeroed, hz, h1], g⟩
    · have hle := (h2.ok _ (List.mem_cons_self ..)).le
      have h5 := gwrite_inv wf h2 (zeroBytes h.mem ptr l.size) ⟨l.size, fun _ => some 0⟩ rfl
        (fun x hx => by
          simp only [zeroBytes]
          rw [if_neg]
          simp only at hle
          omega)
        (fun x v hx hv => by
          simp only [Option.some.injEq] at hv
          simp only [zeroBytes]
          rw [if_pos (by omega), hv])
      exact ⟨_, true, _, by simp [gstep, gallocZeroed, hz, h1, h0], h5⟩
  | dealloc i =>
    cases hp : P[i]? with
    | none =>
      have : s.live[i]? = none := by rw [g.live]; simpa using hp
      exact ⟨s, false, P, by simp [gstep, this], g⟩
    | some p =>
      have hl : s.live[i]? = some p.2.1 := by rw [g.live]; simp [hp]
      have := gdealloc_inv wf g hp
      rw [← (g.ok p (List.mem_of_getElem? hp)).ptr] at this
      exact ⟨_, true, _, by simp only [gstep, hl], this⟩
  | realloc i n =>
    cases hp : P[i]? with
    | none =>
      have : s.live[i]? = none := by rw [g.live]; simpa using hp
      exact ⟨s, false, P, by simp [gstep, this], g⟩
    | some p =>
      have hl : s.live[i]? = some p.2.1 := by rw [g.live]; simp [hp]
      have ho : objs[i]? = some p.2.2 := by rw [g.objs]; simp [hp]
      have po := g.ok p (List.mem_of_getElem? hp)
      by_cases hz : n = 0
      · exact ⟨s, false, P, by simp [gstep, hl, hz], g⟩
      rcases galloc_inv wf g (l := ⟨n, p.2.1.layout.align⟩) hz hW with h1 | ⟨h, ptr, b, h0, h1, hmem, h2, h3, h4⟩
      · exact ⟨s, false, P, by simp [gstep, hl, grealloc, hz, h1], g⟩
      · have hle := (h2.ok _ (List.mem_cons_self ..)).le
        simp only at hle h4
        obtain ⟨fl, k, inv⟩ := h2.inv
        have hap : b.ptr + b.len ≤ p.1.ptr ∨ p.1.ptr + p.1.len ≤ b.ptr := by
          have := (List.pairwise_cons.1 (inv_disjoint wf inv)).1 p.1 (List.mem_map_of_mem (List.mem_of_getElem? hp))
          simp only at this
          have := po.le
          have := po.pos
          omega
        have hcopy : copyNonoverlapping h.mem p.2.1.ptr ptr (min p.2.1.layout.size n) =
            some (fun x => if ptr ≤ x ∧ x < ptr + min p.2.1.layout.size n then h.mem (p.2.1.ptr + (x - ptr)) else h.mem x) := by
          simp only [copyNonoverlapping]
          rw [if_pos]
          have := po.le
          have := po.req
          have := po.ptr
          omega
        have h5 := gwrite_inv wf h2 (fun x => if ptr ≤ x ∧ x < ptr + min p.2.1.layout.size n then h.mem (p.2.1.ptr + (x - ptr)) else h.mem x)
          ⟨n, fun x => if x < p.2.2.size then p.2.2.bytes x else none⟩ rfl
          (fun x hx => by
            rw [if_neg]
            omega)
          (fun x v hx hv => by
            simp only at hv
            by_cases hxs : x < p.2.2.size
            · rw [if_pos hxs] at hv
              have hxr : x < p.1.req := by rw [← po.size]; exact hxs
              rw [if_pos (by have := po.req; omega)]
              rw [show p.2.1.ptr + (b.ptr + x - ptr) = p.1.ptr + x by rw [po.ptr]; omega, hmem]
              exact po.bytes x v hxr hv
            · rw [if_neg hxs] at hv
              simp at hv)
        have h6 := gdealloc_inv wf h5 (i := i + 1) (p := p) (by simpa using hp)
        rw [← po.ptr] at h6
        refine ⟨⟨gdealloc { h with mem := (fun x => if ptr ≤ x ∧ x < ptr + min p.2.1.layout.size n then h.mem (p.2.1.ptr + (x - ptr)) else h.mem x) } p.2.1.ptr p.2.1.layout,
            ⟨ptr, n, p.2.1.layout.align⟩ :: s.live.eraseIdx i⟩, true,
          (b, ⟨ptr, n, p.2.1.layout.align⟩, ⟨n, fun x => if x < p.2.2.size then p.2.2.bytes x else none⟩) :: P.eraseIdx i, ?_, ?_⟩
        · simp only [gstep, hl, grealloc, hz, h1, h0, hcopy, ↓reduceIte]
        · simp only [ideal, ho]
          simpa using h6
  | write i off v =>
    cases hp : P[i]? with
    | none =>
      have : s.live[i]? = none := by rw [g.live]; simpa using hp
      exact ⟨s, false, P, by simp [gstep, this], g⟩
    | some p =>
      have hl : s.live[i]? = some p.2.1 := by rw [g.live]; simp [hp]
      have ho : objs[i]? = some p.2.2 := by rw [g.objs]; simp [hp]
      have po := g.ok p (List.mem_of_getElem? hp)
      by_cases hoff : off < p.2.1.layout.size
      · have h1 := gwrite_at wf g hp (fun x => if x = p.2.1.ptr + off then v else s.heap.mem x)
          { p.2.2 with bytes := fun x => if x = off then some v else p.2.2.bytes x } rfl
          (fun x hx => by
            rw [if_neg]
            have := po.ptr
            have := po.req
            have := po.le
            omega)
          (fun x w hx hw => by
            simp only at hw
            by_cases e : x = off
            · rw [if_pos e] at hw
              rw [if_pos (by rw [po.ptr, e])]
              simpa using hw
            · rw [if_neg e] at hw
              rw [if_neg (by have := po.ptr; omega)]
              exact po.bytes x w hx hw)
        refine ⟨_, true, P.set i (p.1, p.2.1, { p.2.2 with bytes := fun x => if x = off then some v else p.2.2.bytes x }),
          by simp only [gstep, hl, hoff, ↓reduceIte]; rfl, ?_⟩
        · simp only [ideal, ho]
          exact h1
      · exact ⟨s, false, P, by simp [gstep, hl, hoff], g⟩

theorem grun_inv {W base : Nat} {regs : List Region} (wf : Wf W base regs) : ∀ (ops : List GOp) {s : GSys} {objs : List Obj} {P : List Entry},
    (∀ op ∈ ops, op.small W) → GInv W base regs s objs P →
    ∃ s' oks P', grun s ops = some (s', oks) ∧ GInv W base regs s' (idealRun objs ops oks) P'
  | [], s, objs, P, _, g => ⟨s, [], P, rfl, g⟩
  | op :: ops, s, objs, P, hW, g => by
    obtain ⟨s1, ok, P1, e1, g1⟩ := gstep_inv wf g op (hW op (by simp))
    obtain ⟨s2, oks, P2, e2, g2⟩ := grun_inv wf ops (fun o h => hW o (by simp [h])) g1
    exact ⟨s2, ok :: oks, P2, by simp [grun, e1, e2], g2⟩

theorem gstart_inv {W base : Nat} (cfg : List (Nat × Nat)) (m : Mem) : GInv W base (regions base cfg) (gstart W base cfg m) [] [] :=
  ⟨⟨_, _, start_inv cfg m⟩, rfl, rfl, fun _ h => by simp at h⟩

theorem GInv.holds {W base : Nat} {regs : List Region} {s : GSys} {objs : List Obj} {P : List Entry} (g : GInv W base regs s objs P) : Holds s objs := by
  refine ⟨by simp [g.live, g.objs], ?_⟩
  intro i b o hb ho
  rw [g.live, List.getElem?_map] at hb
  rw [g.objs, List.getElem?_map] at ho
  cases hp : P[i]? with
  | none => simp [hp] at hb
  | some p =>
    simp only [hp, Option.map_some, Option.some.injEq] at hb ho
    have po := g.ok p (List.mem_of_getElem? hp)
    subst hb ho
    refine ⟨po.req.trans po.size.symm, fun x v hx hv => ?_⟩
    rw [po.ptr]
    exact po.bytes x v (by rw [← po.size]; exact hx) hv

theorem liveBytes_erase : ∀ {l : List Obj} {i : Nat} {o : Obj}, l[i]? = some o → liveBytes (l.eraseIdx i) = liveBytes l - o.size
  | [], _, _, h => by simp at h
  | x :: l, 0, o, h => by
    simp only [List.getElem?_cons_zero, Option.some.injEq] at h
    subst h
    simp [liveBytes]
    omega
  | x :: l, i + 1, o, h => by
    simp only [List.getElem?_cons_succ] at h
    have := liveBytes_erase h
    simp only [liveBytes, List.eraseIdx_cons_succ, List.map_cons, List.sum_cons] at this ⊢
    omega

theorem liveBytes_set : ∀ {l : List Obj} {i : Nat} {o o' : Obj}, l[i]? = some o → o'.size = o.size → liveBytes (l.set i o') = liveBytes l := by
  intro l i o o' h e
  simp only [liveBytes]
  rw [map_set_self (fun o : Obj => (o.size : Int)) h (by simp [e])]

/-- The trace of one operation. -/
theorem gstep_trace {W base : Nat} {regs : List Region} (h4 : 4 ≤ W) {s s' : GSys} {ok : Bool} {objs : List Obj} {P : List Entry}
    (g : GInv W base regs s objs P) {op : GOp} (hW : op.small W) (h : gstep s op = some (s', ok)) :
    tracedLive W (gmessages W s ok op) = liveBytes (ideal objs op ok) - liveBytes objs + refusedBy objs op ok := by
  have dA : ∀ l : Layout, l.size < 256 ^ W → tracedLive W [traceAllocate W l] = l.size := fun l h =>
    tracedLive_single (C14_decodes W h4 l l h h).1
  have dD : ∀ l : Layout, l.size < 256 ^ W → tracedLive W [traceDeallocate W l] = - (l.size : Int) := fun l h =>
    tracedLive_single (C14_decodes W h4 l l h h).2.1
  have d0 : tracedLive W [] = 0 := rfl
  cases op with
  | alloc l =>
    simp only [gmessages]
    by_cases hz : l.size = 0
    · simp only [gstep, hz, ↓reduceIte, Option.some.injEq, Prod.mk.injEq] at h
      obtain ⟨-, rfl⟩ := h
      simp [hz, d0, ideal, refusedBy]
    · rw [if_neg hz, dA l hW]
      cases ok <;> simp [ideal, liveBytes, refusedBy]
  | allocZeroed l =>
    simp only [gmessages]
    by_cases hz : l.size = 0
    · simp only [gstep, hz, ↓reduceIte, Option.some.injEq, Prod.mk.injEq] at h
      obtain ⟨-, rfl⟩ := h
      simp [hz, d0, ideal, refusedBy]
    · rw [if_neg hz, dA l hW]
      cases ok <;> simp [ideal, liveBytes, refusedBy]
  | dealloc i =>
    cases hp : P[i]? with
    | none =>
      have hl : s.live[i]? = none := by rw [g.live]; simpa using hp
      simp only [gstep, hl, Option.some.injEq, Prod.mk.injEq] at h
      obtain ⟨-, rfl⟩ := h
      simp [gmessages, hl, d0, ideal, refusedBy]
    | some p =>
      have hl : s.live[i]? = some p.2.1 := by rw [g.live]; simp [hp]
      have ho : objs[i]? = some p.2.2 := by rw [g.objs]; simp [hp]
      have po := g.ok p (List.mem_of_getElem? hp)
      simp only [gstep, hl, Option.some.injEq, Prod.mk.injEq] at h
      obtain ⟨-, rfl⟩ := h
      simp only [gmessages, hl, ideal, refusedBy, liveBytes_erase ho]
      rw [dD _ (by rw [po.req]; exact po.small), po.req, po.size]
      omega
  | realloc i n =>
    cases hp : P[i]? with
    | none =>
      have hl : s.live[i]? = none := by rw [g.live]; simpa using hp
      have ho : ¬ i < objs.length := by
        rw [g.objs, List.length_map]
        simpa using hp
      simp only [gstep, hl, Option.some.injEq, Prod.mk.injEq] at h
      obtain ⟨-, rfl⟩ := h
      simp [gmessages, hl, d0, ideal, ho, refusedBy]
    | some p =>
      have hl : s.live[i]? = some p.2.1 := by rw [g.live]; simp [hp]
      have ho : objs[i]? = some p.2.2 := by rw [g.objs]; simp [hp]
      have hlt : i < objs.length := (List.getElem?_eq_some_iff.1 ho).1
      have po := g.ok p (List.mem_of_getElem? hp)
      by_cases hz : n = 0
      · simp only [gstep, hl, hz, ↓reduceIte, Option.some.injEq, Prod.mk.injEq] at h
        obtain ⟨-, rfl⟩ := h
        simp [gmessages, hl, hz, d0, ideal, refusedBy]
      · simp only [gmessages, hl, hz, ↓reduceIte]
        cases ok with
        | false =>
          simp only [ideal, refusedBy, hlt, ↓reduceIte, Bool.false_eq_true]
          rw [dA ⟨n, _⟩ hW]
          simp
        | true =>
          simp only [ideal, refusedBy, ho, ↓reduceIte]
          rw [show ∀ a b : List UInt8, [a, b] = [a] ++ [b] from fun _ _ => rfl, tracedLive_append, dA ⟨n, _⟩ hW, dD _ (by rw [po.req]; exact po.small)]
          have := liveBytes_erase ho
          simp only [liveBytes, List.map_cons, List.sum_cons] at this ⊢
          have := po.req
          have := po.size
          omega
  | write i off v =>
    simp only [gmessages, d0]
    cases ok with
    | false => simp [ideal, refusedBy]
    | true =>
      simp only [ideal, refusedBy]
      cases ho : objs[i]? with
      | none => simp
      | some o =>
        simp only
        rw [liveBytes_set (o' := { o with bytes := fun x => if x = off then some v else o.bytes x }) ho rfl]
        omega

theorem grun_trace {W base : Nat} {regs : List Region} (wf : Wf W base regs) (h4 : 4 ≤ W) : ∀ (ops : List GOp) {s s' : GSys} {oks : List Bool} {objs : List Obj} {P : List Entry},
    (∀ op ∈ ops, op.small W) → GInv W base regs s objs P → grun s ops = some (s', oks) →
    tracedLive W (gmessagesRun W s ops) = liveBytes (idealRun objs ops oks) - liveBytes objs + refusedBytes objs ops oks
  | [], s, s', oks, objs, P, _, g, h => by
    simp only [grun, Option.some.injEq, Prod.mk.injEq] at h
    obtain ⟨-, rfl⟩ := h
    simp [gmessagesRun, tracedLive, idealRun, refusedBytes]
  | op :: ops, s, s', oks, objs, P, hW, g, h => by
    obtain ⟨s1, ok, P1, e1, g1⟩ := gstep_inv wf g op (hW op (by simp))
    have t1 := gstep_trace h4 g (hW op (by simp)) e1
    simp only [grun, e1] at h
    cases e2 : grun s1 ops with
    | none => simp [e2] at h
    | some r =>
      obtain ⟨s2, oks2⟩ := r
      simp only [e2, Option.some.injEq, Prod.mk.injEq] at h
      obtain ⟨rfl, rfl⟩ := h
      have t2 := grun_trace wf h4 ops (fun o h => hW o (by simp [h])) g1 e2
      simp only [gmessagesRun, e1, tracedLive_append, t1, t2, idealRun, refusedBytes]
      omega

end Verif.Heap
