import Verif.Heap.ConcModel
/-! # Lemmas for the concurrent pool -/
namespace Verif.Heap.Conc

theorem Linked.congr {link link' : Nat → Nat} : ∀ {l : List Nat} {p : Nat}, Linked link p l →
    (∀ a ∈ l, link' a = link a) → Linked link' p l
  | [], _, h, _ => h
  | a :: l, p, ⟨h1, h2, h3⟩, hc => by
    refine ⟨h1, h2, ?_⟩
    rw [hc a (by simp)]
    exact Linked.congr h3 (fun b hb => hc b (by simp [hb]))

/-- The block a context is releasing. -/
def releasing : Pc → Option Nat
  | .deLoad p | .deWrite p _ | .deCas p _ => some p
  | _ => none

/-- The part of the invariant shared by both builds: `address`, `size`, `count`
is the pool, `fl` the free list, `k` the number of blocks ever carved out. -/
structure Inv (address size count : Nat) (s : State) (fl : List Nat) (k : Nat) : Prop where
  hsize : s.size = size
  hedge : s.edge = address + size * count
  huninit : s.uninit = address + size * k
  hk : k ≤ count
  linked : Linked s.link s.free fl
  blocks : ∀ a, a ∈ s.held ++ fl → ∃ j < k, a = address + size * j
  nodup : (s.held ++ fl).Nodup
  rel : ∀ t p, releasing (s.pc t) = some p → p ∉ s.held ++ fl ∧ ∃ j < k, p = address + size * j
  relApart : ∀ t u p, releasing (s.pc t) = some p → releasing (s.pc u) = some p → t = u
  complete : ∀ j < k, address + size * j ∈ s.held ++ fl ∨
    ∃ t, releasing (s.pc t) = some (address + size * j)
  auCas : ∀ t old, s.pc t = .auCas old → old ≠ s.edge
  deCas : ∀ t p old, s.pc t = .deCas p old → s.link p = old

theorem init_inv (address size count : Nat) (link : Nat → Nat) :
    Inv address size count (init address size count link) [] 0 := by
  constructor <;> simp [init, releasing, Linked]

theorem pos_block {address size : Nat} (ha : 0 < address) (j : Nat) : address + size * j ≠ 0 := by
  omega

/-- Moving a context between program points that release nothing. -/
theorem Inv.goto {address size count : Nat} {s : State} {fl : List Nat} {k : Nat}
    (inv : Inv address size count s fl k) (t : Tid) (pc : Pc)
    (h0 : releasing (s.pc t) = releasing pc)
    (h1 : ∀ old, pc = .auCas old → old ≠ s.edge)
    (h2 : ∀ p old, pc = .deCas p old → s.link p = old) :
    Inv address size count (s.goto t pc) fl k := by
  have hr : ∀ u, releasing ((s.goto t pc).pc u) = releasing (s.pc u) := by
    intro u
    simp only [State.goto]
    split
    · rename_i h; rw [h, h0]
    · rfl
  constructor
  · exact inv.hsize
  · exact inv.hedge
  · exact inv.huninit
  · exact inv.hk
  · exact inv.linked
  · exact inv.blocks
  · exact inv.nodup
  · intro u p hu; rw [hr] at hu; exact inv.rel u p hu
  · intro u v p hu hv; rw [hr] at hu hv; exact inv.relApart u v p hu hv
  · intro j hj
    rcases inv.complete j hj with h | ⟨u, hu⟩
    · exact Or.inl h
    · exact Or.inr ⟨u, by rw [hr]; exact hu⟩
  · intro u old hu
    simp only [State.goto] at hu
    split at hu
    · exact h1 old hu
    · exact inv.auCas u old hu
  · intro u p old hu
    simp only [State.goto] at hu
    split at hu
    · exact h2 p old hu
    · exact inv.deCas u p old hu

/-- A successful pop. -/
theorem Inv.pop {address size count : Nat} {s : State} {a : Nat} {fl : List Nat} {k : Nat}
    (inv : Inv address size count s (a :: fl) k) (t : Tid) (h0 : releasing (s.pc t) = none)
    {next : Nat} (hn : s.link a = next) :
    Inv address size count { s.goto t .idle with free := next, held := a :: s.held } fl k := by
  have hr : ∀ u, releasing ((s.goto t .idle).pc u) = releasing (s.pc u) := by
    intro u
    simp only [State.goto]
    split
    · rename_i h; rw [h, h0]; rfl
    · rfl
  have hperm : ((a :: s.held) ++ fl).Perm (s.held ++ (a :: fl)) :=
    (List.perm_middle (a := a) (l₁ := s.held) (l₂ := fl)).symm
  constructor
  · exact inv.hsize
  · exact inv.hedge
  · exact inv.huninit
  · exact inv.hk
  · have := inv.linked.2.2
    rw [hn] at this
    exact this
  · intro x hx; exact inv.blocks x ((hperm.mem_iff).mp hx)
  · exact hperm.nodup_iff.mpr inv.nodup
  · intro u p hu
    have hu' : releasing (s.pc u) = some p := by rw [← hr u]; exact hu
    obtain ⟨h1, h2⟩ := inv.rel u p hu'
    exact ⟨fun h => h1 ((hperm.mem_iff).mp h), h2⟩
  · intro u v p hu hv
    exact inv.relApart u v p (by rw [← hr u]; exact hu) (by rw [← hr v]; exact hv)
  · intro j hj
    rcases inv.complete j hj with h | ⟨u, hu⟩
    · exact Or.inl ((hperm.mem_iff).mpr h)
    · exact Or.inr ⟨u, by rw [← hr u] at hu; exact hu⟩
  · intro u old hu
    simp only [State.goto] at hu
    split at hu
    · simp at hu
    · exact inv.auCas u old hu
  · intro u p old hu
    simp only [State.goto] at hu
    split at hu
    · simp at hu
    · exact inv.deCas u p old hu

/-- A successful carve. -/
theorem Inv.carve {address size count : Nat} (hs : 0 < size) {s : State} {fl : List Nat} {k : Nat}
    (inv : Inv address size count s fl k) (t : Tid) (h0 : releasing (s.pc t) = none)
    (hne : s.uninit ≠ s.edge) :
    Inv address size count
      { s.goto t .idle with uninit := s.uninit + s.size, held := s.uninit :: s.held } fl (k + 1) := by
  have hr : ∀ u, releasing ((s.goto t .idle).pc u) = releasing (s.pc u) := by
    intro u
    simp only [State.goto]
    split
    · rename_i h; rw [h, h0]; rfl
    · rfl
  have hlt : k < count := by
    rcases Nat.lt_or_ge k count with h | h
    · exact h
    · have : k = count := Nat.le_antisymm inv.hk h
      rw [inv.huninit, inv.hedge, this] at hne
      exact absurd rfl hne
  have hfresh : ∀ j < k, s.uninit ≠ address + size * j := by
    intro j hj h
    rw [inv.huninit] at h
    have := Nat.mul_lt_mul_of_pos_left hj hs
    omega
  have hnew : s.uninit ∉ s.held ++ fl := by
    intro h
    obtain ⟨j, hj, e⟩ := inv.blocks _ h
    exact hfresh j hj e
  constructor
  · exact inv.hsize
  · exact inv.hedge
  · simp only [inv.huninit, inv.hsize, Nat.mul_add, Nat.mul_one, Nat.add_assoc]
  · exact hlt
  · exact inv.linked
  · intro x hx
    rw [List.cons_append, List.mem_cons] at hx
    rcases hx with rfl | hx
    · exact ⟨k, Nat.lt_succ_self k, inv.huninit⟩
    · obtain ⟨j, hj, e⟩ := inv.blocks x hx
      exact ⟨j, by omega, e⟩
  · rw [List.cons_append]
    exact List.nodup_cons.mpr ⟨hnew, inv.nodup⟩
  · intro u p hu
    have hu' : releasing (s.pc u) = some p := by rw [← hr u]; exact hu
    obtain ⟨h1, j, hj, e⟩ := inv.rel u p hu'
    refine ⟨?_, j, by omega, e⟩
    rw [List.cons_append, List.mem_cons]
    rintro (h | h)
    · exact hfresh j hj (by rw [← h, e])
    · exact h1 h
  · intro u v p hu hv
    exact inv.relApart u v p (by rw [← hr u]; exact hu) (by rw [← hr v]; exact hv)
  · intro j hj
    rcases Nat.lt_or_ge j k with h | h
    · rcases inv.complete j h with h | ⟨u, hu⟩
      · exact Or.inl (by rw [List.cons_append]; exact List.mem_cons_of_mem _ h)
      · exact Or.inr ⟨u, by rw [← hr u] at hu; exact hu⟩
    · have : j = k := by omega
      subst this
      exact Or.inl (by rw [List.cons_append, ← inv.huninit]; exact List.mem_cons_self ..)
  · intro u old hu
    simp only [State.goto] at hu
    split at hu
    · simp at hu
    · exact inv.auCas u old hu
  · intro u p old hu
    simp only [State.goto] at hu
    split at hu
    · simp at hu
    · exact inv.deCas u p old hu

/-- A successful push, with the link already written. -/
theorem Inv.push {address size count : Nat} (ha : 0 < address) {s : State} {fl : List Nat} {k : Nat}
    (inv : Inv address size count s fl k) (t : Tid) {p : Nat} (h0 : releasing (s.pc t) = some p)
    (hl : s.link p = s.free) :
    Inv address size count { s.goto t .idle with free := p } (p :: fl) k := by
  have hr : ∀ u, u ≠ t → (s.goto t .idle).pc u = s.pc u := by
    intro u hu
    simp only [State.goto, hu, if_false]
  have ht : releasing ((s.goto t .idle).pc t) = none := by simp [State.goto, releasing]
  have hrel : ∀ u q, releasing ((s.goto t .idle).pc u) = some q → u ≠ t ∧ releasing (s.pc u) = some q := by
    intro u q hu
    have hne : u ≠ t := by
      rintro rfl
      rw [ht] at hu
      simp at hu
    exact ⟨hne, by rw [hr u hne] at hu; exact hu⟩
  obtain ⟨hp1, j0, hj0, hp2⟩ := inv.rel t p h0
  have hperm : (s.held ++ p :: fl).Perm (p :: (s.held ++ fl)) := List.perm_middle
  constructor
  · exact inv.hsize
  · exact inv.hedge
  · exact inv.huninit
  · exact inv.hk
  · refine ⟨rfl, by rw [hp2]; exact pos_block ha j0, ?_⟩
    show Linked s.link (s.link p) fl
    rw [hl]
    exact inv.linked
  · intro x hx
    rcases List.mem_cons.mp (hperm.mem_iff.mp hx) with rfl | hx
    · exact ⟨j0, hj0, hp2⟩
    · exact inv.blocks x hx
  · exact hperm.nodup_iff.mpr (List.nodup_cons.mpr ⟨hp1, inv.nodup⟩)
  · intro u q hu
    obtain ⟨hne, hu'⟩ := hrel u q hu
    obtain ⟨h1, h2⟩ := inv.rel u q hu'
    refine ⟨fun h => ?_, h2⟩
    rcases List.mem_cons.mp (hperm.mem_iff.mp h) with rfl | h
    · exact hne (inv.relApart u t q hu' h0)
    · exact h1 h
  · intro u v q hu hv
    exact inv.relApart u v q (hrel u q hu).2 (hrel v q hv).2
  · intro j hj
    rcases inv.complete j hj with h | ⟨u, hu⟩
    · exact Or.inl (hperm.mem_iff.mpr (List.mem_cons_of_mem _ h))
    · by_cases hut : u = t
      · subst hut
        rw [h0] at hu
        simp only [Option.some.injEq] at hu
        exact Or.inl (hperm.mem_iff.mpr (by rw [hu]; exact List.mem_cons_self ..))
      · refine Or.inr ⟨u, ?_⟩
        show releasing ((s.goto t .idle).pc u) = _
        rw [hr u hut]
        exact hu
  · intro u old hu
    simp only [State.goto] at hu
    split at hu
    · simp at hu
    · exact inv.auCas u old hu
  · intro u q old hu
    simp only [State.goto] at hu
    split at hu
    · simp at hu
    · exact inv.deCas u q old hu

/-- Writing the link of a block that is being released or held. -/
theorem Inv.setLink {address size count : Nat} {s : State} {fl : List Nat} {k : Nat}
    (inv : Inv address size count s fl k) (p v : Nat) (hp : p ∉ fl)
    (hd : ∀ t q old, s.pc t = .deCas q old → q ≠ p) :
    Inv address size count { s with link := fun x => if x = p then v else s.link x } fl k := by
  constructor
  · exact inv.hsize
  · exact inv.hedge
  · exact inv.huninit
  · exact inv.hk
  · refine inv.linked.congr (fun a ha => ?_)
    have : a ≠ p := fun h => hp (h ▸ ha)
    simp [this]
  · exact inv.blocks
  · exact inv.nodup
  · exact inv.rel
  · exact inv.relApart
  · exact inv.complete
  · exact inv.auCas
  · intro t q old h
    have := hd t q old h
    simp only [this, if_false]
    exact inv.deCas t q old h

/-- Calls and owners' writes. -/
theorem Inv.call {address size count : Nat} {s : State} {fl : List Nat} {k : Nat}
    (inv : Inv address size count s fl k) (a : Act) : Inv address size count (call s a) fl k := by
  cases a with
  | alloc t =>
    simp only [Conc.call]
    split
    · rename_i h
      exact inv.goto t _ (by rw [h]; rfl) (by simp) (by simp)
    · exact inv
  | step t b => exact inv
  | write p v =>
    simp only [Conc.call]
    split
    · rename_i h
      have hnd := List.nodup_append.mp inv.nodup
      refine inv.setLink p v (fun hp => hnd.2.2 p h p hp rfl) ?_
      intro t q old hq e
      subst e
      exact (inv.rel t q (by rw [hq]; rfl)).1 (List.mem_append_left _ h)
    · exact inv
  | dealloc t p =>
    simp only [Conc.call]
    split
    · rename_i h
      obtain ⟨hidle, hp⟩ := h
      have hnd := List.nodup_append.mp inv.nodup
      have hsub : ∀ x, x ∈ s.held.erase p ++ fl → x ∈ s.held ++ fl := by
        intro x hx
        rcases List.mem_append.mp hx with h | h
        · exact List.mem_append_left _ (List.mem_of_mem_erase h)
        · exact List.mem_append_right _ h
      have hpn : p ∉ s.held.erase p ++ fl := by
        intro h
        rcases List.mem_append.mp h with h | h
        · exact hnd.1.not_mem_erase h
        · exact hnd.2.2 p hp p h rfl
      have hr : ∀ u, u ≠ t → (s.goto t (.deLoad p)).pc u = s.pc u := by
        intro u hu
        simp only [State.goto, hu, if_false]
      have ht : releasing ((s.goto t (.deLoad p)).pc t) = some p := by simp [State.goto, releasing]
      constructor
      · exact inv.hsize
      · exact inv.hedge
      · exact inv.huninit
      · exact inv.hk
      · exact inv.linked
      · intro x hx; exact inv.blocks x (hsub x hx)
      · refine List.nodup_append.mpr ⟨hnd.1.erase p, hnd.2.1, ?_⟩
        intro x hx y hy
        exact hnd.2.2 x (List.mem_of_mem_erase hx) y hy
      · intro u q hu
        by_cases hut : u = t
        · subst hut
          have : some p = some q := by rw [← ht]; exact hu
          simp only [Option.some.injEq] at this
          subst this
          exact ⟨hpn, inv.blocks p (List.mem_append_left _ hp)⟩
        · have hu' : releasing (s.pc u) = some q := by rw [← hr u hut]; exact hu
          obtain ⟨h1, h2⟩ := inv.rel u q hu'
          exact ⟨fun h => h1 (hsub q h), h2⟩
      · have key : ∀ u q, releasing ((s.goto t (.deLoad p)).pc u) = some q →
            (u = t ∧ q = p) ∨ (u ≠ t ∧ releasing (s.pc u) = some q ∧ q ≠ p) := by
          intro u q hu
          by_cases hut : u = t
          · subst hut
            rw [ht] at hu
            simp only [Option.some.injEq] at hu
            exact Or.inl ⟨rfl, hu.symm⟩
          · rw [hr u hut] at hu
            refine Or.inr ⟨hut, hu, fun e => ?_⟩
            exact (inv.rel u q hu).1 (List.mem_append_left _ (e ▸ hp))
        intro u v q hu hv
        rcases key u q hu with ⟨h1, h2⟩ | ⟨h1, h2, h3⟩ <;>
          rcases key v q hv with ⟨g1, g2⟩ | ⟨g1, g2, g3⟩
        · rw [h1, g1]
        · exact absurd h2 g3
        · exact absurd g2 h3
        · exact inv.relApart u v q h2 g2
      · intro j hj
        rcases inv.complete j hj with h | ⟨u, hu⟩
        · by_cases e : address + size * j = p
          · exact Or.inr ⟨t, by rw [e]; exact ht⟩
          · left
            rcases List.mem_append.mp h with h | h
            · exact List.mem_append_left _ ((List.mem_erase_of_ne e).mpr h)
            · exact List.mem_append_right _ h
        · have hut : u ≠ t := by
            rintro rfl
            rw [hidle] at hu
            simp [releasing] at hu
          exact Or.inr ⟨u, by
            show releasing ((s.goto t (.deLoad p)).pc u) = _
            rw [hr u hut]; exact hu⟩
      · intro u old hu
        simp only [State.goto] at hu
        split at hu
        · simp at hu
        · exact inv.auCas u old hu
      · intro u q old hu
        simp only [State.goto] at hu
        split at hu
        · simp at hu
        · exact inv.deCas u q old hu
    · exact inv

/-- Context `t` releasing `p` writes the link; nobody else looks at it. -/
theorem Inv.setLinkRel {address size count : Nat} {s : State} {fl : List Nat} {k : Nat}
    (inv : Inv address size count s fl k) (t : Tid) {p : Nat} (v : Nat)
    (h0 : releasing (s.pc t) = some p) (h1 : ∀ q old, s.pc t ≠ .deCas q old) :
    Inv address size count { s with link := fun x => if x = p then v else s.link x } fl k := by
  obtain ⟨g1, g2⟩ := inv.rel t p h0
  refine inv.setLink p v (fun h => g1 (List.mem_append_right _ h)) ?_
  intro u q old hu e
  subst e
  have hut : u = t := inv.relApart u t q (by rw [hu]; rfl) h0
  subst hut
  exact h1 _ _ hu

/-- The build with critical sections. -/
theorem soft_step {address size count : Nat} (ha : 0 < address) (hs : 0 < size) {s : State}
    {fl : List Nat} {k : Nat} (inv : Inv address size count s fl k) (a : Act) :
    ∃ fl' k', Inv address size count (stepSoft s a) fl' k' := by
  cases a with
  | alloc t => exact ⟨fl, k, inv.call (.alloc t)⟩
  | dealloc t p => exact ⟨fl, k, inv.call (.dealloc t p)⟩
  | write p v => exact ⟨fl, k, inv.call (.write p v)⟩
  | step t b =>
    simp only [stepSoft]
    split
    · rename_i h
      by_cases hf : s.free = 0
      · rw [if_pos hf]
        exact ⟨fl, k, inv.goto t _ (by rw [h]; rfl) (by simp) (by simp)⟩
      · rw [if_neg hf]
        cases fl with
        | nil => exact absurd inv.linked hf
        | cons a fl =>
          have e : s.free = a := inv.linked.1
          rw [e]
          exact ⟨fl, k, inv.pop t (by rw [h]; rfl) rfl⟩
    · rename_i h
      by_cases hf : s.uninit = s.edge
      · rw [if_pos hf]
        exact ⟨fl, k, inv.goto t _ (by rw [h]; rfl) (by simp) (by simp)⟩
      · rw [if_neg hf]
        exact ⟨fl, k + 1, inv.carve hs t (by rw [h]; rfl) hf⟩
    · rename_i p h
      have h0 : releasing (s.pc t) = some p := by rw [h]; rfl
      have := (inv.setLinkRel t s.free h0 (by rw [h]; simp)).push ha t h0 (by simp)
      exact ⟨p :: fl, k, this⟩
    · exact ⟨fl, k, inv⟩

theorem soft_run {address size count : Nat} (ha : 0 < address) (hs : 0 < size) (as : List Act) :
    ∀ {s : State} {fl : List Nat} {k : Nat}, Inv address size count s fl k →
    ∃ fl' k', Inv address size count (run stepSoft s as) fl' k' := by
  induction as with
  | nil => intro s fl k inv; exact ⟨fl, k, inv⟩
  | cons a as ih =>
    intro s fl k inv
    obtain ⟨fl', k', inv'⟩ := soft_step ha hs inv a
    exact ih inv'

/-- What the lock-free build needs in addition: a block read by a pop in
progress is still on the free list with the same link. -/
def PopOk (s : State) (fl : List Nat) : Prop :=
  ∀ t, (∀ old, s.pc t = .afRead old → old ∈ fl) ∧
    (∀ old next, s.pc t = .afCas old next → old ∈ fl ∧ s.link old = next)

theorem hw_step {address size count : Nat} (ha : 0 < address) (hs : 0 < size) {s : State}
    {fl : List Nat} {k : Nat} (inv : Inv address size count s fl k) (hp : PopOk s fl)
    (hsolo : ∀ t u, InPop s t → InPop s u → t = u) (a : Act) :
    ∃ fl' k', Inv address size count (stepHw s a) fl' k' ∧ PopOk (stepHw s a) fl' := by
  have gotoPop : ∀ t pc, (∀ old, pc = .afRead old → old ∈ fl) →
      (∀ old next, pc = .afCas old next → old ∈ fl ∧ s.link old = next) → PopOk (s.goto t pc) fl := by
    intro t pc h1 h2 u
    constructor
    · intro old hu
      simp only [State.goto] at hu
      split at hu
      · exact h1 old hu
      · exact (hp u).1 old hu
    · intro old next hu
      simp only [State.goto] at hu
      split at hu
      · exact h2 old next hu
      · exact (hp u).2 old next hu
  have setLinkPop : ∀ {s' : State} (p v : Nat), p ∉ fl → PopOk s' fl →
      PopOk { s' with link := fun x => if x = p then v else s'.link x } fl := by
    intro s' p v hpfl h u
    refine ⟨(h u).1, fun old next hu => ?_⟩
    obtain ⟨g1, g2⟩ := (h u).2 old next hu
    have : old ≠ p := fun e => hpfl (e ▸ g1)
    exact ⟨g1, by simp only [this, if_false]; exact g2⟩
  have mono : ∀ {s' : State} {fl' : List Nat}, PopOk s' fl → (∀ x ∈ fl, x ∈ fl') → PopOk s' fl' := by
    intro s' fl' h hsub u
    exact ⟨fun old hu => hsub _ ((h u).1 old hu),
      fun old next hu => ⟨hsub _ ((h u).2 old next hu).1, ((h u).2 old next hu).2⟩⟩
  have afCase : ∀ t, releasing (s.pc t) = none →
      Inv address size count (afAfter s t s.free) fl k ∧ PopOk (afAfter s t s.free) fl := by
    intro t h0
    unfold afAfter
    by_cases hf : s.free = 0
    · rw [if_pos hf]
      exact ⟨inv.goto t _ (by rw [h0]; rfl) (by simp) (by simp), gotoPop t _ (by simp) (by simp)⟩
    · rw [if_neg hf]
      refine ⟨inv.goto t _ (by rw [h0]; rfl) (by simp) (by simp), gotoPop t _ ?_ (by simp)⟩
      intro old e
      simp only [Pc.afRead.injEq] at e
      subst e
      cases fl with
      | nil => exact absurd inv.linked hf
      | cons a fl => rw [inv.linked.1]; exact List.mem_cons_self ..
  have auCase : ∀ t, releasing (s.pc t) = none →
      Inv address size count (auAfter s t s.uninit) fl k ∧ PopOk (auAfter s t s.uninit) fl := by
    intro t h0
    unfold auAfter
    by_cases hf : s.uninit = s.edge
    · rw [if_pos hf]
      exact ⟨inv.goto t _ (by rw [h0]; rfl) (by simp) (by simp), gotoPop t _ (by simp) (by simp)⟩
    · rw [if_neg hf]
      refine ⟨inv.goto t _ (by rw [h0]; rfl) ?_ (by simp), gotoPop t _ (by simp) (by simp)⟩
      intro old e
      simp only [Pc.auCas.injEq] at e
      subst e
      exact hf
  cases a with
  | alloc t =>
    refine ⟨fl, k, inv.call (.alloc t), ?_⟩
    simp only [stepHw, call]
    split
    · exact gotoPop t _ (by simp) (by simp)
    · exact hp
  | dealloc t p =>
    refine ⟨fl, k, inv.call (.dealloc t p), ?_⟩
    simp only [stepHw, call]
    split
    · exact gotoPop t (.deLoad p) (by simp) (by simp)
    · exact hp
  | write p v =>
    refine ⟨fl, k, inv.call (.write p v), ?_⟩
    simp only [stepHw, call]
    split
    · rename_i h
      have hnd := List.nodup_append.mp inv.nodup
      exact setLinkPop p v (fun hpf => hnd.2.2 p h p hpf rfl) hp
    · exact hp
  | step t b =>
    simp only [stepHw]
    split
    · exact ⟨fl, k, inv, hp⟩
    · rename_i h
      exact ⟨fl, k, afCase t (by rw [h]; rfl)⟩
    · rename_i old h
      refine ⟨fl, k, inv.goto t _ (by rw [h]; rfl) (by simp) (by simp), gotoPop t _ (by simp) ?_⟩
      intro o n e
      simp only [Pc.afCas.injEq] at e
      obtain ⟨rfl, rfl⟩ := e
      exact ⟨(hp t).1 _ h, rfl⟩
    · rename_i old next h
      by_cases hc : s.free = old ∧ b = false
      · rw [if_pos hc]
        obtain ⟨g1, g2⟩ := (hp t).2 old next h
        cases fl with
        | nil => simp at g1
        | cons a fl =>
          have e : s.free = a := inv.linked.1
          have e2 : a = old := by rw [← e]; exact hc.1
          subst e2
          refine ⟨fl, k, inv.pop t (by rw [h]; rfl) g2, ?_⟩
          have hin : InPop s t := by simp [InPop, h]
          intro u
          have hu : ∀ pc, (s.goto t .idle).pc u = pc → u = t ∨ s.pc u = pc := by
            intro pc hpc
            by_cases hut : u = t
            · exact Or.inl hut
            · right
              simpa [State.goto, hut] using hpc
          constructor
          · intro o ho
            by_cases hut : u = t
            · subst hut
              simp [State.goto] at ho
            · have ho' : s.pc u = .afRead o := by
                simpa [State.goto, hut] using ho
              exact absurd (hsolo u t (by simp [InPop, ho']) hin) hut
          · intro o n ho
            by_cases hut : u = t
            · subst hut
              simp [State.goto] at ho
            · have ho' : s.pc u = .afCas o n := by
                simpa [State.goto, hut] using ho
              exact absurd (hsolo u t (by simp [InPop, ho']) hin) hut
      · rw [if_neg hc]
        exact ⟨fl, k, afCase t (by rw [h]; rfl)⟩
    · rename_i h
      exact ⟨fl, k, auCase t (by rw [h]; rfl)⟩
    · rename_i old h
      by_cases hc : s.uninit = old ∧ b = false
      · rw [if_pos hc]
        have hne := inv.auCas t old h
        obtain ⟨rfl, -⟩ := hc
        exact ⟨fl, k + 1, inv.carve hs t (by rw [h]; rfl) hne, gotoPop t .idle (by simp) (by simp)⟩
      · rw [if_neg hc]
        exact ⟨fl, k, auCase t (by rw [h]; rfl)⟩
    · rename_i p h
      exact ⟨fl, k, inv.goto t _ (by rw [h]; rfl) (by simp) (by simp), gotoPop t _ (by simp) (by simp)⟩
    · rename_i p old h
      have h0 : releasing (s.pc t) = some p := by rw [h]; rfl
      have hpfl : p ∉ fl := fun hx => (inv.rel t p h0).1 (List.mem_append_right _ hx)
      refine ⟨fl, k, ?_, setLinkPop (s' := s.goto t (.deCas p old)) p old hpfl
        (gotoPop t _ (by simp) (by simp))⟩
      have := (inv.setLinkRel t old h0 (by rw [h]; simp)).goto t (.deCas p old) (by rw [h]; rfl)
        (by simp) (by
          intro q o e
          simp only [Pc.deCas.injEq] at e
          obtain ⟨rfl, rfl⟩ := e
          simp)
      exact this
    · rename_i p old h
      have h0 : releasing (s.pc t) = some p := by rw [h]; rfl
      by_cases hc : s.free = old ∧ b = false
      · rw [if_pos hc]
        have hl := inv.deCas t p old h
        exact ⟨p :: fl, k, inv.push ha t h0 (by rw [hl, hc.1]),
          mono (s' := { s.goto t .idle with free := p }) (gotoPop t .idle (by simp) (by simp))
            (fun x hx => List.mem_cons_of_mem _ hx)⟩
      · rw [if_neg hc]
        exact ⟨fl, k, inv.goto t _ (by rw [h]; rfl) (by simp) (by simp),
          gotoPop t _ (by simp) (by simp)⟩

theorem hw_run {address size count : Nat} (ha : 0 < address) (hs : 0 < size) (as : List Act) :
    ∀ {s : State} {fl : List Nat} {k : Nat}, Inv address size count s fl k → PopOk s fl →
    PopsApart s as →
    ∃ fl' k', Inv address size count (run stepHw s as) fl' k' := by
  induction as with
  | nil => intro s fl k inv _ _; exact ⟨fl, k, inv⟩
  | cons a as ih =>
    intro s fl k inv hp hap
    obtain ⟨fl', k', inv', hp'⟩ := hw_step ha hs inv hp hap.1 a
    exact ih inv' hp' hap.2

/-- What the lock-free build needs at least: if a block read by a pop in progress is still, or
again, on the free list, its link is the one that was read. -/
def LinkOk (s : State) (fl : List Nat) : Prop :=
  (∀ t old, s.pc t = .afRead old → old ≠ 0) ∧
  ∀ t old next, s.pc t = .afCas old next → old ≠ 0 ∧ (old ∈ fl → s.link old = next)

theorem hw_step_return {address size count : Nat} (ha : 0 < address) (hs : 0 < size) {s : State}
    {fl : List Nat} {k : Nat} (inv : Inv address size count s fl k) (hp : LinkOk s fl) (a : Act)
    (hr : ∀ p, returns s a = some p → ∀ t next, s.pc t ≠ .afCas p next) :
    ∃ fl' k', Inv address size count (stepHw s a) fl' k' ∧ LinkOk (stepHw s a) fl' := by
  have gotoPop : ∀ t pc, (∀ old, pc = .afRead old → old ≠ 0) →
      (∀ old next, pc = .afCas old next → old ≠ 0 ∧ (old ∈ fl → s.link old = next)) →
      LinkOk (s.goto t pc) fl := by
    intro t pc h1 h2
    refine ⟨fun u old hu => ?_, fun u old next hu => ?_⟩
    · simp only [State.goto] at hu
      split at hu
      · exact h1 old hu
      · exact hp.1 u old hu
    · simp only [State.goto] at hu
      split at hu
      · exact h2 old next hu
      · exact hp.2 u old next hu
  have setLinkPop : ∀ {s' : State} (p v : Nat), p ∉ fl → LinkOk s' fl →
      LinkOk { s' with link := fun x => if x = p then v else s'.link x } fl := by
    intro s' p v hpfl h
    refine ⟨h.1, fun u old next hu => ⟨(h.2 u old next hu).1, fun hm => ?_⟩⟩
    have : old ≠ p := fun e => hpfl (e ▸ hm)
    simp only [this, if_false]
    exact (h.2 u old next hu).2 hm
  have afCase : ∀ t, releasing (s.pc t) = none →
      Inv address size count (afAfter s t s.free) fl k ∧ LinkOk (afAfter s t s.free) fl := by
    intro t h0
    unfold afAfter
    split
    · exact ⟨inv.goto t _ (by rw [h0]; rfl) (by simp) (by simp), gotoPop t _ (by simp) (by simp)⟩
    · rename_i hf
      exact ⟨inv.goto t _ (by rw [h0]; rfl) (by simp) (by simp), gotoPop t _
        (fun old e => by simp only [Pc.afRead.injEq] at e; subst e; exact hf) (by simp)⟩
  have auCase : ∀ t, releasing (s.pc t) = none →
      Inv address size count (auAfter s t s.uninit) fl k ∧ LinkOk (auAfter s t s.uninit) fl := by
    intro t h0
    unfold auAfter
    by_cases hf : s.uninit = s.edge
    · rw [if_pos hf]
      exact ⟨inv.goto t _ (by rw [h0]; rfl) (by simp) (by simp), gotoPop t _ (by simp) (by simp)⟩
    · rw [if_neg hf]
      refine ⟨inv.goto t _ (by rw [h0]; rfl) ?_ (by simp), gotoPop t _ (by simp) (by simp)⟩
      intro old e
      simp only [Pc.auCas.injEq] at e
      subst e
      exact hf
  cases a with
  | alloc t =>
    refine ⟨fl, k, inv.call (.alloc t), ?_⟩
    simp only [stepHw, call]
    split
    · exact gotoPop t _ (by simp) (by simp)
    · exact hp
  | dealloc t p =>
    refine ⟨fl, k, inv.call (.dealloc t p), ?_⟩
    simp only [stepHw, call]
    split
    · exact gotoPop t (.deLoad p) (by simp) (by simp)
    · exact hp
  | write p v =>
    refine ⟨fl, k, inv.call (.write p v), ?_⟩
    simp only [stepHw, call]
    split
    · rename_i h
      have hnd := List.nodup_append.mp inv.nodup
      exact setLinkPop p v (fun hpf => hnd.2.2 p h p hpf rfl) hp
    · exact hp
  | step t b =>
    simp only [returns] at hr
    simp only [stepHw]
    split
    · exact ⟨fl, k, inv, hp⟩
    · rename_i h
      exact ⟨fl, k, afCase t (by rw [h]; rfl)⟩
    · rename_i old h
      refine ⟨fl, k, inv.goto t _ (by rw [h]; rfl) (by simp) (by simp), gotoPop t _ (by simp) ?_⟩
      intro o n e
      simp only [Pc.afCas.injEq] at e
      obtain ⟨rfl, rfl⟩ := e
      exact ⟨hp.1 t old h, fun _ => rfl⟩
    · rename_i old next h
      by_cases hc : s.free = old ∧ b = false
      · rw [if_pos hc]
        cases fl with
        | nil =>
          exact absurd (inv.linked : s.free = 0) (by rw [hc.1]; exact (hp.2 t old next h).1)
        | cons a fl =>
          have e : s.free = a := inv.linked.1
          have e2 : a = old := by rw [← e]; exact hc.1
          subst e2
          refine ⟨fl, k, inv.pop t (by rw [h]; rfl) ((hp.2 t _ next h).2 (List.mem_cons_self ..)), ?_⟩
          refine ⟨fun u o ho => ?_, fun u o n ho => ?_⟩
          · by_cases hut : u = t
            · subst hut
              simp [State.goto] at ho
            · exact hp.1 u o (by simpa [State.goto, hut] using ho)
          by_cases hut : u = t
          · subst hut
            simp [State.goto] at ho
          · have ho' : s.pc u = .afCas o n := by
              simpa [State.goto, hut] using ho
            exact ⟨(hp.2 u o n ho').1, fun hm => (hp.2 u o n ho').2 (List.mem_cons_of_mem _ hm)⟩
      · rw [if_neg hc]
        exact ⟨fl, k, afCase t (by rw [h]; rfl)⟩
    · rename_i h
      exact ⟨fl, k, auCase t (by rw [h]; rfl)⟩
    · rename_i old h
      by_cases hc : s.uninit = old ∧ b = false
      · rw [if_pos hc]
        have hne := inv.auCas t old h
        obtain ⟨rfl, -⟩ := hc
        exact ⟨fl, k + 1, inv.carve hs t (by rw [h]; rfl) hne, gotoPop t .idle (by simp) (by simp)⟩
      · rw [if_neg hc]
        exact ⟨fl, k, auCase t (by rw [h]; rfl)⟩
    · rename_i p h
      exact ⟨fl, k, inv.goto t _ (by rw [h]; rfl) (by simp) (by simp), gotoPop t _ (by simp) (by simp)⟩
    · rename_i p old h
      have h0 : releasing (s.pc t) = some p := by rw [h]; rfl
      have hpfl : p ∉ fl := fun hx => (inv.rel t p h0).1 (List.mem_append_right _ hx)
      refine ⟨fl, k, ?_, setLinkPop (s' := s.goto t (.deCas p old)) p old hpfl
        (gotoPop t _ (by simp) (by simp))⟩
      have := (inv.setLinkRel t old h0 (by rw [h]; simp)).goto t (.deCas p old) (by rw [h]; rfl)
        (by simp) (by
          intro q o e
          simp only [Pc.deCas.injEq] at e
          obtain ⟨rfl, rfl⟩ := e
          simp)
      exact this
    · rename_i p old h
      have h0 : releasing (s.pc t) = some p := by rw [h]; rfl
      by_cases hc : s.free = old ∧ b = false
      · rw [if_pos hc]
        have hl := inv.deCas t p old h
        refine ⟨p :: fl, k, inv.push ha t h0 (by rw [hl, hc.1]), ?_⟩
        refine ⟨fun u o ho => ?_, fun u o n ho => ?_⟩
        · by_cases hut : u = t
          · subst hut
            simp [State.goto] at ho
          · exact hp.1 u o (by simpa [State.goto, hut] using ho)
        by_cases hut : u = t
        · subst hut
          simp [State.goto] at ho
        · have ho' : s.pc u = .afCas o n := by
            simpa [State.goto, hut] using ho
          refine ⟨(hp.2 u o n ho').1, fun hm => ?_⟩
          rcases List.mem_cons.1 hm with rfl | hm
          · exact absurd ho' (hr o (by simp only [h]; rw [if_pos hc]) u n)
          · exact (hp.2 u o n ho').2 hm
      · rw [if_neg hc]
        exact ⟨fl, k, inv.goto t _ (by rw [h]; rfl) (by simp) (by simp), gotoPop t _ (by simp) (by simp)⟩

theorem hw_run_return {address size count : Nat} (ha : 0 < address) (hs : 0 < size) (as : List Act) :
    ∀ {s : State} {fl : List Nat} {k : Nat}, Inv address size count s fl k → LinkOk s fl →
    NoReturn s as →
    ∃ fl' k', Inv address size count (run stepHw s as) fl' k' := by
  induction as with
  | nil => intro s fl k inv _ _; exact ⟨fl, k, inv⟩
  | cons a as ih =>
    intro s fl k inv hp hap
    obtain ⟨fl', k', inv', hp'⟩ := hw_step_return ha hs inv hp a hap.1
    exact ih inv' hp' hap.2

/-- The context that acts. -/
def actor : Act → Option Tid
  | .alloc t | .dealloc t _ | .step t _ => some t
  | .write _ _ => none

theorem stepHw_pc_other (s : State) (a : Act) (u : Tid) (h : actor a ≠ some u) :
    (stepHw s a).pc u = s.pc u := by
  have g : ∀ (t : Tid) (pc : Pc), t ≠ u → (s.goto t pc).pc u = s.pc u := by
    intro t pc ht
    simp [State.goto, Ne.symm ht]
  cases a with
  | alloc t =>
    have ht : t ≠ u := fun e => h (by simp [actor, e])
    simp only [stepHw, call]
    split <;> simp [g t _ ht]
  | dealloc t p =>
    have ht : t ≠ u := fun e => h (by simp [actor, e])
    simp only [stepHw, call]
    split
    · exact g t (.deLoad p) ht
    · rfl
  | write p v =>
    simp only [stepHw, call]
    split <;> rfl
  | step t b =>
    have ht : t ≠ u := fun e => h (by simp [actor, e])
    simp only [stepHw, afAfter, auAfter]
    split
    · rfl
    · split <;> exact g t _ ht
    · exact g t _ ht
    · split
      · exact g t .idle ht
      · split <;> exact g t _ ht
    · split <;> exact g t _ ht
    · split
      · exact g t .idle ht
      · split <;> exact g t _ ht
    · exact g t _ ht
    · exact g t (.deCas _ _) ht
    · split
      · exact g t .idle ht
      · exact g t _ ht

/-- A test for `NoReturn` in histories of the contexts below `n`. -/
def noReturnB (n : Nat) (s : State) : List Act → Bool
  | [] => true
  | a :: as =>
    (match returns s a with
      | none => true
      | some p => (List.range n).all fun t => match s.pc t with | .afCas q _ => q != p | _ => true) &&
    (match actor a with | some t => decide (t < n) | none => true) &&
    noReturnB n (stepHw s a) as

theorem noReturn_of_test (n : Nat) : ∀ (as : List Act) (s : State), (∀ t, n ≤ t → s.pc t = .idle) →
    noReturnB n s as = true → NoReturn s as := by
  intro as
  induction as with
  | nil => intros; trivial
  | cons a as ih =>
    intro s hs h
    simp only [noReturnB, Bool.and_eq_true] at h
    obtain ⟨⟨h1, h2⟩, h3⟩ := h
    refine ⟨fun p hp t next ht => ?_, ih _ (fun t ht => ?_) h3⟩
    · by_cases hn : n ≤ t
      · rw [hs t hn] at ht; cases ht
      · simp only [hp, List.all_eq_true, List.mem_range] at h1
        have := h1 t (by omega)
        simp [ht] at this
    · rw [stepHw_pc_other s a t, hs t ht]
      intro e
      rw [e] at h2
      exact absurd (of_decide_eq_true h2) (Nat.not_lt.2 ht)

theorem popsApart_append (as : List Act) : ∀ (s : State) (bs : List Act), PopsApart s (as ++ bs) →
    ∀ t u, InPop (run stepHw s as) t → InPop (run stepHw s as) u → t = u := by
  induction as with
  | nil =>
    intro s bs h
    cases bs with
    | nil => exact h
    | cons b bs => exact h.1
  | cons a as ih => intro s bs h; exact ih _ bs h.2

theorem Inv.noLeak {address size count : Nat} {s : State} {fl : List Nat} {k : Nat}
    (inv : Inv address size count s fl k) (hidle : ∀ t, s.pc t = .idle) : NoLeak address s := by
  refine ⟨fl, inv.linked, inv.nodup, ?_⟩
  intro j hj
  rcases Nat.lt_or_ge j k with h | h
  · rcases inv.complete j h with h | ⟨t, ht⟩
    · right; rw [inv.hsize]; exact h
    · rw [hidle t] at ht
      simp [releasing] at ht
  · left
    rw [inv.huninit, inv.hsize]
    exact Nat.add_le_add_left (Nat.mul_le_mul_left _ h) _

end Verif.Heap.Conc
