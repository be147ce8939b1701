import Verif.LinkedList.OrderLemmas
/-! # The steps of the linked list with memory orderings -/
namespace Verif.LinkedList.Conc.Order

open Verif.LinkedList.Conc
open Verif.Order

variable {α : Type} {r : Nat} {o : Ords}

/-- The orderings that the list has: all that it needs but for `cut_out`. -/
structure Most (o : Ords) : Prop where
  pushCas : o.pushCas.rel = true
  popRead : o.popRead = true
  drain : o.drain = true

theorem known_load {s : LState α} {H : List Nat} {tr : List Ev} (h : LInv r o s H tr) {k v : Nat} (hk : H[k]? = some v) {a : Bool}
    {pc : Pc} (hm : ∀ x ∈ main pc, x ∈ main (s.base.pc r) ∨ (a = true ∧ x = v))
    (hs : ∀ x ∈ side pc, x = 0 ∨ x ∈ side (s.base.pc r) ∨ (x = v ∧ (o.cutRead = true → a = true))) :
    ∃ K, Known r o H (tr ++ [⟨r, 0, .load a k⟩]) pc K := by
  obtain ⟨K, hK⟩ := h.rem.known
  have hlt := (List.getElem?_eq_some_iff.1 hk).1
  have hv : v ∈ H.take (k + 1) := List.mem_of_getElem? (i := k) (by rw [List.getElem?_take_of_lt (by omega)]; exact hk)
  have hK' := hK.append (f := ⟨r, 0, .load a k⟩) fun h => absurd rfl h
  cases a with
  | false =>
    refine ⟨K, hK.le, hK'.know, fun x hx => ?_, fun hc x hx => ?_⟩
    · rcases hm x hx with hx | ⟨hx, -⟩
      · exact hK.main x hx
      · cases hx
    · rcases hs x hx with hx | hx | ⟨-, hx⟩
      · exact .inl hx
      · exact hK.side hc x hx
      · cases hx hc
  | true =>
    refine ⟨max K k, by have := hK.le; omega, fun x hx h0 => ?_, fun x hx => ?_, fun hc x hx => ?_⟩
    · rcases Nat.le_total K k with hle | hle
      · rw [Nat.max_eq_right hle] at hx
        intro i e he hl ht
        rcases get_append he with he | ⟨-, rfl⟩
        · exact know_append.2 (.inr ⟨rfl, .inr ⟨rfl, h.msg k x h0 hx i e he hl ht⟩⟩)
        · exact absurd rfl ht
      · rw [Nat.max_eq_left hle] at hx
        exact hK'.know x hx h0
    · rcases hm x hx with hx | ⟨-, rfl⟩
      · exact (hK.main x hx).imp id fun e => take_mono e (Nat.le_max_left _ _)
      · exact .inr (take_mono hv (Nat.le_max_right _ _))
    · rcases hs x hx with hx | hx | ⟨rfl, -⟩
      · exact .inl hx
      · exact (hK.side hc x hx).imp id fun e => take_mono e (Nat.le_max_left _ _)
      · exact .inr (take_mono hv (Nat.le_max_right _ _))

theorem load_inv {s : LState α} {H : List Nat} {tr : List Ev} (h : LInv r o s H tr) {k t : Nat} {a : Bool} {pc : Pc}
    (h5 : ∀ n, mine pc = some n → mine (s.base.pc t) = some n) (h6 : ∀ n old, pc ≠ .pushCas n old)
    (h7 : t ≠ r → main pc = [] ∧ side pc = []) (h8 : t = r → Rem r o H (tr ++ [⟨r, 0, .load a k⟩]) pc) :
    LInv r o { s with base := s.base.goto t pc } H (tr ++ [⟨t, 0, .load a k⟩]) := by
  have hpc : (s.base.goto t pc).pc t = pc := by simp [State.goto]
  refine quiet_step h ⟨nofun, by simp [Kind.atomic], by simp [Ev.writes], by simp [Ev.isStore], h.pos, fun u n hu e => ?_, fun _ e => ?_⟩
    rfl rfl (fun v n x hv => ⟨?_, ?_, h.link v n x hv⟩) (fun u hu => ?_) (fun n hn => h5 n (hpc ▸ hn)) (fun u n old hu => ?_)
    (fun ht => ?_) fun ht => ?_
  · exact absurd e.symm (h.own u n hu).1
  · exact absurd rfl e
  · rintro rfl
    exact absurd (hv.symm.trans h.node0) nofun
  · refine Nat.lt_of_not_ge fun hge => ?_
    exact absurd (hv.symm.trans (h.fresh v hge).2.1) nofun
  · dsimp only at hu
    simp [State.goto, hu]
  · simp only [State.goto] at hu ⊢
    split at hu
    · exact absurd hu (h6 n old)
    · exact h.linked u n old hu
  · dsimp only at ht ⊢; rw [hpc]; exact h7 ht
  · dsimp only at ht ⊢
    subst ht
    rw [hpc]; exact h8 rfl

theorem load_go {p p' : PState (LState α) Nat} {t k : Nat} {a : Bool} (hs : (machine α r o).go p t k (some (.load 0 a)) = some p') :
    p' = p ∨ ∃ v x, (p.hist 0)[k]? = some v ∧ step true { p.s.base with head := v } (.step t (p.s.flag t)) = some x ∧
      p'.s = { p.s with base := { x.1 with head := p.s.base.head } } ∧ p'.hist = p.hist ∧ p'.tr = p.tr ++ [⟨t, 0, .load a k⟩] := by
  simp only [Machine.go] at hs
  split at hs
  · split at hs
    · exact .inl (Option.some.inj hs).symm
    · rename_i v hv
      split at hs
      · cases hs
      · rename_i s' hs'
        have hs := Option.some.inj hs
        subst hs
        obtain ⟨x, hx, rfl⟩ := Option.map_eq_some_iff.1 hs'
        exact .inr ⟨v, x, hv, hx, rfl, rfl, rfl⟩
  · exact .inl (Option.some.inj hs).symm

theorem rmw_go {p p' : PState (LState α) Nat} {t k : Nat} {d : Ord} (hs : (machine α r o).go p t k (some (.rmw 0 d)) = some p') :
    ∃ x, step true p.s.base (.step t (p.s.flag t)) = some x ∧ p'.s = { p.s with base := x.1 } ∧ p'.hist 0 = p.hist 0 ++ [x.1.head] ∧
      p'.tr = p.tr ++ [⟨t, 0, .rmw d.acq d.rel⟩] := by
  simp only [Machine.go] at hs
  split at hs
  · cases hs
  · rename_i s' hs'
    have hs := Option.some.inj hs
    subst hs
    obtain ⟨x, hx, rfl⟩ := Option.map_eq_some_iff.1 hs'
    exact ⟨x, hx, rfl, rfl, rfl⟩

theorem other_go {p p' : PState (LState α) Nat} {t k l : Nat} {d : Kind} (hs : (machine α r o).go p t k (some (.other l d)) = some p') :
    ∃ x, step true p.s.base (.step t (p.s.flag t)) = some x ∧ p'.s = { p.s with base := x.1 } ∧ p'.hist = p.hist ∧
      p'.tr = p.tr ++ [⟨t, l, d⟩] := by
  simp only [Machine.go] at hs
  split at hs
  · cases hs
  · rename_i s' hs'
    have hs := Option.some.inj hs
    subst hs
    obtain ⟨x, hx, rfl⟩ := Option.map_eq_some_iff.1 hs'
    exact ⟨x, hx, rfl, rfl, rfl⟩

/-- The new access is ordered, or it is one of `cut_out`. -/
def Safe (r : Nat) (o : Ords) (s : LState α) (tr : List Ev) (f : Ev) : Prop :=
  ∀ (i : Nat) (x : Ev), tr[i]? = some x → Conflict x f → Know tr f.tid i ∨ (o.cutRead = false ∧ f.tid = r ∧ InCut (s.base.pc r))

theorem safe_atomic {s : LState α} {H : List Nat} {tr : List Ev} (h : LInv r o s H tr) {f : Ev} (hl : f.loc = 0)
    (ha : f.kind.atomic = true) : Safe r o s tr f := by
  rintro i x hx ⟨-, hc⟩
  obtain ⟨h1, h2, -⟩ := h.evs i x hx
  rcases hc with hc | hc | ⟨hc, -, hn⟩
  · exact absurd hc h1
  · rw [hc] at ha; cases ha
  · exact absurd ⟨h2.1 (hc.trans hl), ha⟩ hn

theorem safe_own {s : LState α} {H : List Nat} {tr : List Ev} (h : LInv r o s H tr) {f : Ev} (hf : f.kind ≠ .free)
    (hm : mine (s.base.pc f.tid) = some f.loc) : Safe r o s tr f := by
  rintro i x hx ⟨ht, hc⟩
  obtain ⟨h1, -, -⟩ := h.evs i x hx
  rcases hc with hc | hc | ⟨hc, -, -⟩
  · exact absurd hc h1
  · exact absurd hc hf
  · exact absurd ((h.own _ _ hm).2.2.2.1 i x hx hc) ht

theorem safe_known {s : LState α} {H : List Nat} {tr : List Ev} (h : LInv r o s H tr) {f : Ev} (hf : f.kind ≠ .free) (ht : f.tid = r)
    (h0 : f.loc ≠ 0) (hm : f.loc ∈ main (s.base.pc r) ∨ (f.loc ∈ side (s.base.pc r) ∧ InCut (s.base.pc r))) : Safe r o s tr f := by
  rintro i x hx ⟨hne, hc⟩
  obtain ⟨h1, -, -⟩ := h.evs i x hx
  obtain ⟨K, hK⟩ := h.rem.known
  rcases hc with hc | hc | ⟨hc, -, -⟩
  · exact absurd hc h1
  · exact absurd hc hf
  · rcases hm with hm | ⟨hm, hcut⟩
    · exact .inl (ht ▸ hK.know _ ((hK.main _ hm).resolve_left h0) h0 i x hx hc (ht ▸ hne))
    · cases hcr : o.cutRead with
      | false => exact .inr ⟨rfl, ht, hcut⟩
      | true => exact .inl (ht ▸ hK.know _ ((hK.side hcr _ hm).resolve_left h0) h0 i x hx hc (ht ▸ hne))

/-- What a step has to give. -/
def Next (r : Nat) (o : Ords) (p p' : PState (LState α) Nat) (t : Nat) : Prop :=
  p' = p ∨ ∃ f, f.tid = t ∧ p'.tr = p.tr ++ [f] ∧ LInv r o p'.s (p'.hist 0) p'.tr ∧ Safe r o p.s p.tr f

theorem next_load {p p' : PState (LState α) Nat} (h : LInv r o p.s (p.hist 0) p.tr) {t k : Nat} {a : Bool} {pc : Nat → Pc}
    (hs : (machine α r o).go p t k (some (.load 0 a)) = some p')
    (hstep : ∀ v, ∃ e, step true { p.s.base with head := v } (.step t (p.s.flag t)) = some (({ p.s.base with head := v } : State α).goto t (pc v), e))
    (h5 : ∀ v n, mine (pc v) = some n → mine (p.s.base.pc t) = some n) (h6 : ∀ v n old, pc v ≠ .pushCas n old)
    (h7 : ∀ v, t ≠ r → main (pc v) = [] ∧ side (pc v) = [])
    (h8 : t = r → ∀ v, ∀ x ∈ main (pc v), x ∈ main (p.s.base.pc r) ∨ (a = true ∧ x = v))
    (h9 : t = r → ∀ v, ∀ x ∈ side (pc v), x = 0 ∨ x ∈ side (p.s.base.pc r) ∨ (x = v ∧ (o.cutRead = true → a = true)))
    (h10 : t = r → ∀ v, Chain (p.hist 0) (pc v)) : Next r o p p' t := by
  rcases load_go hs with e | ⟨v, x, hv, hx, e1, e2, e3⟩
  · exact .inl e
  · obtain ⟨e, he⟩ := hstep v
    rw [he] at hx
    obtain rfl := Option.some.inj hx
    refine .inr ⟨⟨t, 0, .load a k⟩, rfl, e3, ?_, safe_atomic h rfl rfl⟩
    rw [e1, e2, e3]
    refine load_inv h (h5 v) (h6 v) (h7 v) fun ht => ⟨known_load h hv (h8 ht v) (h9 ht v), fun y hy => ?_, h10 ht v⟩
    rcases h9 ht v y hy with h | h' | ⟨rfl, -⟩
    · exact .inl h
    · exact h.rem.sides y h'
    · exact .inr (List.mem_of_getElem? hv)

/-- The list may be followed from here. -/
def From (H : List Nat) (l : List Nat) (x : Nat) : Prop := x = 0 ∨ x ∈ l ∨ ∃ a ∈ l, a ≠ 0 ∧ Old H a x

theorem from_mem {H l : List Nat} {K x : Nat} (hl : ∀ v ∈ l, v = 0 ∨ v ∈ H.take (K + 1)) (h : From H l x) : x = 0 ∨ x ∈ H.take (K + 1) := by
  rcases h with h | h | ⟨a, ha, h0, h⟩
  · exact .inl h
  · exact hl x h
  · exact old_mem h ((hl a ha).resolve_left h0)

theorem next_other {p p' : PState (LState α) Nat} (h : LInv r o p.s (p.hist 0) p.tr) {t k l : Nat} {d : Kind}
    (hs : (machine α r o).go p t k (some (.other l d)) = some p') (hd : d ≠ .free) (hd' : d.atomic = false) (h0 : l ≠ 0)
    (hl : mine (p.s.base.pc t) = some l ∨
      (t = r ∧ (l ∈ main (p.s.base.pc r) ∨ (l ∈ side (p.s.base.pc r) ∧ InCut (p.s.base.pc r)))))
    {pc : Pc} {node : Nat → Option (Nat × α)} {ev : List (Event α)}
    (hstep : step true p.s.base (.step t (p.s.flag t)) = some (({ p.s.base with node := node } : State α).goto t pc, ev))
    (hn : ∀ v, v ≠ l → node v = p.s.base.node v) (hn' : ∀ n x, node l = some (n, x) → Old (p.hist 0) l n)
    (h5 : ∀ n, mine pc = some n → mine (p.s.base.pc t) = some n) (h6 : ∀ n old, pc = .pushCas n old → ∃ x, node n = some (old, x))
    (h7 : t ≠ r → main pc = [] ∧ side pc = [])
    (h8 : t = r → ∀ x ∈ main pc, From (p.hist 0) (main (p.s.base.pc r)) x)
    (h9 : t = r → ∀ x ∈ side pc, x ∈ main (p.s.base.pc r) ∨ From (p.hist 0) (side (p.s.base.pc r)) x)
    (h10 : t = r → Chain (p.hist 0) pc) : Next r o p p' t := by
  obtain ⟨x, hx, e1, e2, e3⟩ := other_go hs
  rw [hstep] at hx
  obtain rfl := Option.some.inj hx
  obtain ⟨K, hK⟩ := h.rem.known
  have hH : mine (p.s.base.pc t) = some l ∨ (t = r ∧ l ∈ p.hist 0) := by
    rcases hl with hl | ⟨ht, hl | ⟨hl, -⟩⟩
    · exact .inl hl
    · exact .inr ⟨ht, List.take_subset _ _ ((hK.main l hl).resolve_left h0)⟩
    · exact .inr ⟨ht, (h.rem.sides l hl).resolve_left h0⟩
  have hlt : l < p.s.next := by
    rcases hH with hH | ⟨-, hH⟩
    · exact (h.own _ _ hH).2.1
    · exact Nat.lt_of_not_ge fun hge => (h.fresh l hge).1 hH
  have hown : ∀ u n, mine (p.s.base.pc u) = some n → l = n → t = u := by
    rintro u n hu rfl
    rcases hH with hH | ⟨-, hH⟩
    · exact (h.own _ _ hu).2.2.2.2 t hH
    · exact absurd hH (h.own _ _ hu).2.2.1
  have hpc : (({ p.s.base with node := node } : State α).goto t pc).pc t = pc := by simp [State.goto]
  have hsh : t ≠ r → l ≠ 0 → l ∉ p.hist 0 := by
    intro ht _
    rcases hH with hH | ⟨e, -⟩
    · exact (h.own _ _ hH).2.2.1
    · exact absurd e ht
  refine .inr ⟨⟨t, l, d⟩, rfl, e3, ?_, ?_⟩
  · rw [e1, e2, e3]
    refine quiet_step h ⟨hd, ⟨fun e => absurd e h0, fun e => by rw [hd'] at e; cases e⟩, by simp [Ev.writes, h0], by simp [Ev.isStore, h0], hlt,
      hown, hsh⟩ rfl rfl (fun v n x hv => ?_) (fun u hu => ?_) (fun n hn => h5 n (hpc ▸ hn)) (fun u n old hu => ?_)
      (fun ht => ?_) fun ht => ?_
    · by_cases e : v = l
      · subst e
        exact ⟨h0, hlt, hn' n x hv⟩
      · have hv : p.s.base.node v = some (n, x) := (hn v e).symm.trans hv
        refine ⟨?_, Nat.lt_of_not_ge fun hge => absurd (hv.symm.trans (h.fresh v hge).2.1) nofun, h.link v n x hv⟩
        rintro rfl
        exact absurd (hv.symm.trans h.node0) nofun
    · dsimp only at hu
      simp [State.goto, hu]
    · simp only [State.goto] at hu ⊢
      split at hu
      · exact h6 n old hu
      · rename_i hne
        rw [hn n fun e => hne (hown u n (by rw [hu]; rfl) e.symm).symm]
        exact h.linked u n old hu
    · dsimp only at ht ⊢; rw [hpc]; exact h7 ht
    · dsimp only at ht ⊢
      subst ht
      rw [hpc]
      have hK' := hK.append (f := ⟨t, l, d⟩) fun h => absurd rfl h
      refine ⟨⟨K, hK.le, hK'.know, fun x hx => from_mem hK.main (h8 rfl x hx), fun hc x hx => ?_⟩, fun x hx => ?_, h10 rfl⟩
      · rcases h9 rfl x hx with hx | hx
        · exact hK.main x hx
        · exact from_mem (hK.side hc) hx
      · rcases h9 rfl x hx with hx | hx
        · exact (hK.main x hx).imp id fun e => List.take_subset _ _ e
        · have := from_mem (K := (p.hist 0).length - 1) (fun v hv => (h.rem.sides v hv).imp id mem_take_last) hx
          exact this.imp id fun e => List.take_subset _ _ e
  · rcases hl with hl | ⟨ht, hl⟩
    · exact safe_own h hd hl
    · exact safe_known h hd ht h0 hl

/-- A push that succeeds. -/
theorem next_push {p p' : PState (LState α) Nat} (h : LInv r o p.s (p.hist 0) p.tr) {t k n old : Nat} (hpc : p.s.base.pc t = .pushCas n old)
    (ho : o.pushCas.rel = true) (hs : (machine α r o).go p t k (some (.rmw 0 o.pushCas)) = some p') (hf : p.s.flag t = false)
    (hh : p.s.base.head = old) : Next r o p p' t := by
  obtain ⟨x, hx, e1, e2, e3⟩ := rmw_go hs
  obtain ⟨y, hy⟩ := h.linked t n old hpc
  simp only [step, hpc, hf, hh, and_self, if_true, hy, Option.some.injEq] at hx
  subst hx
  have hm : mine (p.s.base.pc t) = some n := by rw [hpc]; rfl
  refine .inr ⟨⟨t, 0, .rmw o.pushCas.acq o.pushCas.rel⟩, rfl, e3, ?_, safe_atomic h rfl rfl⟩
  rw [e1, e2, e3]
  refine head_step h rfl rfl rfl rfl rfl rfl rfl (fun u hu => ?_) ?_ (fun _ => ?_) (fun ht => ?_) (.inr (.inr ⟨hm, fun _ => ho, fun m z hz => ?_⟩))
  · dsimp only at hu; simp [State.goto, hu]
  · simp [State.goto, mine]
  · simp [State.goto, main, side]
  · dsimp only at ht ⊢
    subst ht
    obtain ⟨K, hK⟩ := h.rem.known
    have hK' := hK.append (f := ⟨t, 0, .rmw o.pushCas.acq o.pushCas.rel⟩) fun h => absurd rfl h
    refine ⟨⟨K, by rw [List.length_append]; have := hK.le; omega, fun v hv h0 => ?_, fun v hv => ?_, fun _ v hv => ?_⟩, fun v hv => ?_, ?_⟩
    · rcases take_append_mem hv with hv | ⟨-, hk⟩
      · exact hK'.know v hv h0
      · have := hK.le; omega
    · simp [State.goto, main] at hv
    · simp [State.goto, side] at hv
    · simp [State.goto, side] at hv
    · simp [State.goto, Chain]
  · rw [hy] at hz
    obtain ⟨rfl, -⟩ := Prod.mk.inj (Option.some.inj hz)
    exact .inr (List.mem_of_getElem? (hh ▸ h.last))

/-- A removal that succeeds. -/
theorem next_remove {p p' : PState (LState α) Nat} (h : LInv r o p.s (p.hist 0) p.tr) {k next : Nat} {d : Ord}
    (hs : (machine α r o).go p r k (some (.rmw 0 d)) = some p') {pc : Pc} {ev : List (Event α)}
    (hstep : step true p.s.base (.step r (p.s.flag r)) = some ({ p.s.base.goto r pc with head := next }, ev))
    (hm : next ∈ main (p.s.base.pc r)) (h5 : mine pc = none) (h8 : ∀ x ∈ main pc, x ∈ main (p.s.base.pc r)) (h9 : ∀ x ∈ side pc, x = 0)
    (h10 : Chain (p.hist 0 ++ [next]) pc) : Next r o p p' r := by
  obtain ⟨x, hx, e1, e2, e3⟩ := rmw_go hs
  rw [hstep] at hx
  obtain rfl := Option.some.inj hx
  refine .inr ⟨⟨r, 0, .rmw d.acq d.rel⟩, rfl, e3, ?_, safe_atomic h rfl rfl⟩
  rw [e1, e2, e3]
  have hpc : (p.s.base.goto r pc).pc r = pc := by simp [State.goto]
  obtain ⟨K, hK⟩ := h.rem.known
  have hK' := hK.append (f := ⟨r, 0, .rmw d.acq d.rel⟩) fun h => absurd rfl h
  refine head_step h rfl rfl rfl rfl rfl rfl rfl (fun u hu => ?_) ?_ (fun h => absurd rfl h) (fun _ => ?_) ?_
  · dsimp only at hu; simp [State.goto, hu]
  · dsimp only; rw [hpc]; exact h5
  · dsimp only
    rw [hpc]
    refine ⟨⟨K, by rw [List.length_append]; have := hK.le; omega, fun v hv h0 => ?_, fun v hv => (hK.main v (h8 v hv)).imp id mem_take_append,
      fun _ v hv => .inl (h9 v hv)⟩, fun v hv => .inl (h9 v hv), h10⟩
    rcases take_append_mem hv with hv | ⟨-, hk⟩
    · exact hK'.know v hv h0
    · have := hK.le; omega
  · rcases hK.main _ hm with e | e
    · exact .inl e
    · exact .inr (.inl (List.take_subset _ _ e))

/-- Only `r` is at an access of the remover. -/
theorem at_r {s : LState α} {H : List Nat} {tr : List Ev} (h : LInv r o s H tr) {t : Nat} (hm : main (s.base.pc t) ≠ []) : t = r :=
  Classical.byContradiction fun ht => hm (h.others t ht).1

theorem node_pos {s : LState α} {H : List Nat} {tr : List Ev} (h : LInv r o s H tr) {v : Nat} {y : Nat × α} (hv : s.base.node v = some y) :
    v ≠ 0 := by
  rintro rfl
  rw [h.node0] at hv; cases hv

theorem other_node {p p' : PState (LState α) Nat} {t k l : Nat} {d : Kind} (hs : (machine α r o).go p t k (some (.other l d)) = some p')
    (hn : p.s.base.node l = none → step true p.s.base (.step t (p.s.flag t)) = none) : ∃ n x, p.s.base.node l = some (n, x) := by
  obtain ⟨x, hx, -⟩ := other_go hs
  cases hl : p.s.base.node l with
  | none => rw [hn hl] at hx; cases hx
  | some y => exact ⟨y.1, y.2, rfl⟩

theorem next_step (ho : Most o) {p p' : PState (LState α) Nat} (h : LInv r o p.s (p.hist 0) p.tr) {t k : Nat}
    (hs : (machine α r o).pstep p (.step t k) = some p') : Next r o p p' t := by
  replace hs : (machine α r o).go p t k (accOf o (p.s.flag t) p.s.base.head (p.s.base.pc t)) = some p' := hs
  have hr : t = r → ∀ {pc}, p.s.base.pc t = pc → p.s.base.pc r = pc := fun e => e ▸ fun h => h
  have chain : t = r → ∀ {pc}, p.s.base.pc t = pc → Chain (p.hist 0) pc := fun e {pc} hpc => (hr e hpc) ▸ h.rem.chain
  have isr : ∀ {pc}, p.s.base.pc t = pc → main pc ≠ [] → t = r := fun {pc} hpc hm => at_r h (hpc ▸ hm)
  cases hpc : p.s.base.pc t with
  | idle => rw [hpc] at hs; exact .inl (Option.some.inj hs).symm
  | pushLoad n =>
    rw [hpc] at hs
    exact next_load (pc := fun v => .pushWrite n v) h hs (fun v => ⟨[], by simp [step, hpc]⟩) (fun v m hm => hpc ▸ hm) nofun
      (fun _ _ => ⟨rfl, rfl⟩) (fun _ _ => nofun) (fun _ _ => nofun) fun _ _ => trivial
  | pushWrite n old =>
    rw [hpc] at hs
    obtain ⟨m, x, hx⟩ := other_node hs fun e => by simp [step, hpc, e]
    have hm : mine (p.s.base.pc t) = some n := by rw [hpc]; rfl
    have hnH := (h.own _ _ hm).2.2.1
    refine next_other (pc := .pushCas n old) (node := (p.s.base.put n (some (old, x))).node) (ev := []) h hs nofun rfl (node_pos h hx) (.inl hm)
      (by simp only [step, hpc, hx]; rfl) (fun v hv => by simp [State.put, hv]) (fun m y hy => .inr fun j hj => ?_) (fun a ha => hm ▸ ha) ?_
      (fun _ => ⟨rfl, rfl⟩) (fun _ => nofun) (fun _ => nofun) fun _ => trivial
    · exact absurd (List.mem_of_getElem? hj) hnH
    · rintro _ _ ⟨⟩
      exact ⟨x, by simp [State.put]⟩
  | pushCas n old =>
    rw [hpc] at hs
    simp only [accOf, cas] at hs
    split at hs
    · rename_i hf
      exact next_load (pc := fun v => .pushWrite n v) h hs (fun v => ⟨[], by simp [step, hpc, hf]⟩) (fun v m hm => hpc ▸ hm) nofun
        (fun _ _ => ⟨rfl, rfl⟩) (fun _ _ => nofun) (fun _ _ => nofun) fun _ _ => trivial
    · rename_i hf
      split at hs
      · rename_i hh
        exact next_push h hpc ho.pushCas hs (by simpa using hf) hh
      · exact .inl (Option.some.inj hs).symm
  | popLoad =>
    rw [hpc] at hs
    have ht := isr hpc nofun
    refine next_load (pc := fun v => if v = 0 then .idle else .popRead v) h hs (fun v => ?_) (fun v m hm => ?_) (fun v => ?_)
      (fun _ e => absurd ht e) (fun _ v x hx => ?_) (fun _ v x hx => ?_) fun _ v => ?_
    · by_cases e : v = 0 <;> simp [step, hpc, popAfter, e]
    · by_cases e : v = 0 <;> simp [e, mine] at hm
    · by_cases e : v = 0 <;> simp [e]
    · by_cases e : v = 0 <;> simp [e, main] at hx
      exact .inr ⟨ho.popRead, hx⟩
    · by_cases e : v = 0 <;> simp [e, side] at hx
    · by_cases e : v = 0 <;> simp [e, Chain]
  | popRead old =>
    rw [hpc] at hs
    have ht := isr hpc nofun
    obtain ⟨m, x, hx⟩ := other_node hs fun e => by simp [step, hpc, e]
    have h0 := node_pos h hx
    have hm : main (p.s.base.pc r) = [old] := by rw [hr ht hpc]; rfl
    have hlink := h.link old m x hx
    refine next_other (pc := .popCas old m) (node := p.s.base.node) (ev := []) h hs nofun rfl h0 (.inr ⟨ht, .inl (by simp [hm])⟩)
      (by simp only [step, hpc, hx]) (fun v hv => rfl) (fun m y hy => h.link old m y hy) nofun nofun
      (fun e => absurd ht e) (fun _ a ha => ?_) (fun _ => nofun) fun _ => ⟨h0, hlink⟩
    rw [hm]
    simp only [main, List.mem_cons, List.not_mem_nil, or_false] at ha
    rcases ha with rfl | rfl
    · exact .inr (.inl (by simp))
    · exact .inr (.inr ⟨old, by simp, h0, hlink⟩)
  | popCas old next =>
    rw [hpc] at hs
    have ht := isr hpc nofun
    simp only [accOf, cas] at hs
    split at hs
    · rename_i hf
      refine next_load (pc := fun v => if v = 0 then .idle else .popRead v) h hs (fun v => ?_) (fun v m hm => ?_) (fun v => ?_)
        (fun _ e => absurd ht e) (fun _ v x hx => ?_) (fun _ v x hx => ?_) fun _ v => ?_
      · by_cases e : v = 0 <;> simp [step, hpc, popAfter, e, hf]
      · by_cases e : v = 0 <;> simp [e, mine] at hm
      · by_cases e : v = 0 <;> simp [e]
      · by_cases e : v = 0 <;> simp [e, main] at hx
        exact .inr ⟨ho.popRead, hx⟩
      · by_cases e : v = 0 <;> simp [e, side] at hx
      · by_cases e : v = 0 <;> simp [e, Chain]
    · rename_i hf
      split at hs
      · rename_i hh
        subst ht
        obtain ⟨x, hx, -⟩ := rmw_go hs
        have hf' : p.s.flag t = false := by simpa using hf
        simp only [step, hpc, hf', hh, and_self, if_true] at hx
        split at hx
        · cases hx
        · rename_i n y hy
          refine next_remove (next := next) (pc := .popFree old) (ev := [.popped t y]) h hs (by simp [step, hpc, hf', hh, hy]) (by simp [hpc, main]) rfl (fun a ha => ?_) nofun trivial
          simp only [main, List.mem_singleton] at ha
          simp [hpc, main, ha]
      · exact .inl (Option.some.inj hs).symm
  | popFree q =>
    rw [hpc] at hs
    have ht := isr hpc nofun
    obtain ⟨m, x, hx⟩ := other_node hs fun e => by simp [step, hpc, e]
    have h0 := node_pos h hx
    have hm : main (p.s.base.pc r) = [q] := by rw [hr ht hpc]; rfl
    exact next_other (pc := .idle) (node := (p.s.base.put q none).node) (ev := [.popRet t x]) h hs nofun rfl h0 (.inr ⟨ht, .inl (by simp [hm])⟩)
      (by simp only [step, hpc, hx]; rfl) (fun v hv => by simp [State.put, hv]) (fun m y hy => by simp [State.put] at hy) nofun nofun
      (fun e => absurd ht e) (fun _ => nofun) (fun _ => nofun) fun _ => trivial
  | drLoad =>
    rw [hpc] at hs
    have ht := isr hpc nofun
    refine next_load (pc := fun v => if v = 0 then .idle else .drNext 0 v) h hs (fun v => ?_) (fun v m hm => ?_) (fun v => ?_)
      (fun _ e => absurd ht e) (fun _ v x hx => ?_) (fun _ v x hx => ?_) fun _ v => ?_
    · by_cases e : v = 0 <;> simp [step, hpc, drTest, e]
    · by_cases e : v = 0 <;> simp [e, mine] at hm
    · by_cases e : v = 0 <;> simp [e]
    · by_cases e : v = 0 <;> simp [e, main] at hx
      exact .inr ⟨ho.drain, hx⟩
    · by_cases e : v = 0 <;> simp [e, side] at hx
      exact .inl hx
    · by_cases e : v = 0 <;> simp [e, Chain]
  | drNext prev curr =>
    rw [hpc] at hs
    have ht := isr hpc nofun
    obtain ⟨m, x, hx⟩ := other_node hs fun e => by simp [step, hpc, e]
    have h0 := node_pos h hx
    have hm : main (p.s.base.pc r) = [curr] := by rw [hr ht hpc]; rfl
    have hsd : side (p.s.base.pc r) = [prev] := by rw [hr ht hpc]; rfl
    have hlink := h.link curr m x hx
    have hch := chain ht hpc
    refine next_other (pc := .drFilter prev curr m) (node := p.s.base.node) (ev := []) h hs nofun rfl h0 (.inr ⟨ht, .inl (by simp [hm])⟩)
      (by simp only [step, hpc, hx]) (fun v hv => rfl) (fun m y hy => h.link curr m y hy) nofun nofun
      (fun e => absurd ht e) (fun _ a ha => ?_) (fun _ a ha => ?_) fun _ => ⟨h0, hlink, hch.2⟩
    · rw [hm]
      simp only [main, List.mem_cons, List.not_mem_nil, or_false] at ha
      rcases ha with rfl | rfl
      · exact .inr (.inl (by simp))
      · exact .inr (.inr ⟨curr, by simp, h0, hlink⟩)
    · rw [hsd]
      exact .inr (.inr (.inl ha))
  | drFilter prev curr next =>
    rw [hpc] at hs
    have ht := isr hpc nofun
    obtain ⟨m, x, hx⟩ := other_node hs fun e => by simp [step, hpc, e]
    have h0 := node_pos h hx
    have hm : main (p.s.base.pc r) = [curr, next] := by rw [hr ht hpc]; rfl
    have hsd : side (p.s.base.pc r) = [prev] := by rw [hr ht hpc]; rfl
    obtain ⟨c1, c2, c3⟩ := chain ht hpc
    have key : ∀ (pc : Pc) (ev : List (Event α)), step true p.s.base (.step t (p.s.flag t)) = some (p.s.base.goto t pc, ev) → mine pc = none →
        (∀ x ∈ main pc, x = curr ∨ x = next) → (∀ x ∈ side pc, x = curr ∨ x = prev) → Chain (p.hist 0) pc → Next r o p p' t := by
      intro pc ev hst h5 h8 h9 h10
      refine next_other (pc := pc) (node := p.s.base.node) (ev := ev) h hs nofun rfl h0 (.inr ⟨ht, .inl (by simp [hm])⟩)
        hst (fun v hv => rfl) (fun m y hy => h.link curr m y hy) (fun n hn => by rw [h5] at hn; cases hn)
        (fun n old e => by rw [e] at h5; cases h5) (fun e => absurd ht e) (fun _ a ha => .inr (.inl ?_)) (fun _ a ha => ?_) fun _ => h10
      · rw [hm]; simpa using h8 a ha
      · rcases h9 a ha with e | e
        · exact .inl (by simp [hm, e])
        · exact .inr (.inr (.inl (by simp [hsd, e])))
    cases hf : p.s.flag t with
    | true =>
      by_cases hp : prev = 0
      · exact key (.cutLoad curr next) [.visit x true] (by simp [step, hpc, hx, hf, hp]) rfl (by simp [main]) nofun ⟨h0, c2⟩
      · exact key (.cutWrite prev curr next) [.visit x true] (by simp [step, hpc, hx, hf, hp]) rfl (by simp [main]) (by simp [side]) ⟨h0, c2, hp, c3.resolve_left hp⟩
    | false =>
      by_cases hp : next = 0
      · exact key .idle [.visit x false, .drainEnd] (by simp [step, hpc, hx, hf, hp, drTest]) rfl nofun nofun trivial
      · exact key (.drNext curr next) [.visit x false] (by simp [step, hpc, hx, hf, hp, drTest]) rfl (by simp [main]) (by simp [side]) ⟨hp, .inr c2⟩
  | cutLoad curr next =>
    rw [hpc] at hs
    have ht := isr hpc nofun
    have hch := chain ht hpc
    refine next_load (pc := fun v => if v = curr then .cutCas curr next else .cutWalk v curr next) h hs (fun v => ?_) (fun v m hm => ?_) (fun v => ?_)
      (fun _ e => absurd ht e) (fun _ v x hx => ?_) (fun _ v x hx => ?_) fun _ v => ?_
    · by_cases e : v = curr <;> simp [step, hpc, cutAfter, e]
    · by_cases e : v = curr <;> simp [e, mine] at hm
    · by_cases e : v = curr <;> simp [e]
    · left
      rw [hr ht hpc]
      by_cases e : v = curr <;> simpa [e, main] using hx
    · by_cases e : v = curr <;> simp [e, side] at hx
      exact .inr (.inr ⟨hx, fun e => e⟩)
    · by_cases e : v = curr <;> simpa [e, Chain] using hch
  | cutCas curr next =>
    rw [hpc] at hs
    have ht := isr hpc nofun
    have hch := chain ht hpc
    simp only [accOf, cas] at hs
    split at hs
    · rename_i hf
      refine next_load (pc := fun v => if v = curr then .cutCas curr next else .cutWalk v curr next) h hs (fun v => ?_) (fun v m hm => ?_) (fun v => ?_)
        (fun _ e => absurd ht e) (fun _ v x hx => ?_) (fun _ v x hx => ?_) fun _ v => ?_
      · by_cases e : v = curr <;> simp [step, hpc, cutAfter, e, hf]
      · by_cases e : v = curr <;> simp [e, mine] at hm
      · by_cases e : v = curr <;> simp [e]
      · left
        rw [hr ht hpc]
        by_cases e : v = curr <;> simpa [e, main] using hx
      · by_cases e : v = curr <;> simp [e, side] at hx
        exact .inr (.inr ⟨hx, fun e => e⟩)
      · by_cases e : v = curr <;> simpa [e, Chain] using hch
    · rename_i hf
      split at hs
      · rename_i hh
        subst ht
        have hf' : p.s.flag t = false := by simpa using hf
        refine next_remove (next := next) (pc := .drFree 0 curr next) (ev := []) h hs (by simp [step, hpc, hf', hh]) (by simp [hpc, main]) rfl (fun a ha => ?_)
          (by simp [side]) (.inl rfl)
        rw [hpc]; exact ha
      · exact .inl (Option.some.inj hs).symm
  | cutWalk prev curr next =>
    rw [hpc] at hs
    have ht : t = r := isr hpc nofun
    obtain ⟨m, x, hx⟩ := other_node hs fun e => by simp [step, hpc, e]
    have h0 := node_pos h hx
    have hm : main (p.s.base.pc r) = [curr, next] := by rw [hr ht hpc]; rfl
    have hsd : side (p.s.base.pc r) = [prev] := by rw [hr ht hpc]; rfl
    obtain ⟨c1, c2⟩ := chain ht hpc
    have hlink := h.link prev m x hx
    have hcut : InCut (p.s.base.pc r) := by rw [hr ht hpc]; trivial
    have key : ∀ (pc : Pc), step true p.s.base (.step t (p.s.flag t)) = some (p.s.base.goto t pc, []) → mine pc = none →
        (∀ x ∈ main pc, x = curr ∨ x = next) → (∀ x ∈ side pc, x = prev ∨ x = m) → Chain (p.hist 0) pc → Next r o p p' t := by
      intro pc hst h5 h8 h9 h10
      refine next_other (pc := pc) (node := p.s.base.node) (ev := []) h hs nofun rfl h0 (.inr ⟨ht, .inr ⟨by simp [hsd], hcut⟩⟩)
        hst (fun v hv => rfl) (fun m y hy => h.link prev m y hy) (fun n hn => by rw [h5] at hn; cases hn)
        (fun n old e => by rw [e] at h5; cases h5) (fun e => absurd ht e) (fun _ a ha => .inr (.inl ?_)) (fun _ a ha => .inr ?_) fun _ => h10
      · rw [hm]; simpa using h8 a ha
      · rw [hsd]
        rcases h9 a ha with rfl | rfl
        · exact .inr (.inl (by simp))
        · exact .inr (.inr ⟨prev, by simp, h0, hlink⟩)
    by_cases e : m = curr
    · exact key (.cutWrite prev curr next) (by simp [step, hpc, hx, e]) rfl (by simp [main]) (by simp [side]) ⟨c1, c2, h0, e ▸ hlink⟩
    · exact key (.cutWalk m curr next) (by simp [step, hpc, hx, e]) rfl (by simp [main]) (by simp [side]) ⟨c1, c2⟩
  | cutWrite prev curr next =>
    rw [hpc] at hs
    have ht : t = r := isr hpc nofun
    obtain ⟨m, x, hx⟩ := other_node hs fun e => by simp [step, hpc, e]
    have hm : main (p.s.base.pc r) = [curr, next] := by rw [hr ht hpc]; rfl
    have hsd : side (p.s.base.pc r) = [prev] := by rw [hr ht hpc]; rfl
    obtain ⟨c1, c2, c3, c4⟩ := chain ht hpc
    have hcut : InCut (p.s.base.pc r) := by rw [hr ht hpc]; trivial
    refine next_other (pc := .drFree prev curr next) (node := (p.s.base.put prev (some (next, x))).node) (ev := []) h hs nofun rfl c3
      (.inr ⟨ht, .inr ⟨by simp [hsd], hcut⟩⟩) (by simp only [step, hpc, hx]; rfl) (fun v hv => by simp [State.put, hv])
      (fun n y hy => ?_) nofun nofun (fun e => absurd ht e) (fun _ a ha => .inr (.inl (hm ▸ ha))) (fun _ a ha => .inr (.inr (.inl (hsd ▸ ha))))
      fun _ => .inr (old_trans c1 c4 c2)
    simp only [State.put, if_true, Option.some.injEq, Prod.mk.injEq] at hy
    exact hy.1 ▸ old_trans c1 c4 c2
  | drFree prev curr next =>
    rw [hpc] at hs
    have ht : t = r := isr hpc nofun
    obtain ⟨m, x, hx⟩ := other_node hs fun e => by simp [step, hpc, e]
    have h0 := node_pos h hx
    have hm : main (p.s.base.pc r) = [curr, next] := by rw [hr ht hpc]; rfl
    have hsd : side (p.s.base.pc r) = [prev] := by rw [hr ht hpc]; rfl
    have hch := chain ht hpc
    have key : ∀ (pc : Pc) (ev : List (Event α)),
        step true p.s.base (.step t (p.s.flag t)) = some ((p.s.base.put curr none).goto t pc, ev) → mine pc = none →
        (∀ x ∈ main pc, x = next) → (∀ x ∈ side pc, x = prev) → Chain (p.hist 0) pc → Next r o p p' t := by
      intro pc ev hst h5 h8 h9 h10
      refine next_other (pc := pc) (node := (p.s.base.put curr none).node) (ev := ev) h hs nofun rfl h0 (.inr ⟨ht, .inl (by simp [hm])⟩)
        hst (fun v hv => by simp [State.put, hv]) (fun m y hy => by simp [State.put] at hy) (fun n hn => by rw [h5] at hn; cases hn)
        (fun n old e => by rw [e] at h5; cases h5) (fun e => absurd ht e) (fun _ a ha => .inr (.inl ?_)) (fun _ a ha => .inr (.inr (.inl ?_)))
        fun _ => h10
      · rw [hm, h8 a ha]; simp
      · rw [hsd, h9 a ha]; simp
    by_cases hp : next = 0
    · exact key .idle [.yield x, .drainEnd] (by simp [step, hpc, hx, hp, drTest]) rfl nofun nofun trivial
    · exact key (.drNext prev next) [.yield x] (by simp [step, hpc, hx, hp, drTest]) rfl (by simp [main]) (by simp [side]) ⟨hp, hch⟩

theorem init_inv : LInv r o (machine α r o).init ((machine α r o).pinit.hist 0) [] := by
  refine ⟨rfl, rfl, rfl, Nat.le_refl _, fun v hv => ⟨?_, rfl, nofun⟩, nofun, nofun, nofun, fun _ _ _ _ => nofun, nofun, fun _ _ => ⟨rfl, rfl⟩, ?_⟩
  · have h1 : 1 ≤ v := hv
    have : (machine α r o).pinit.hist 0 = [0] := rfl
    rw [this]
    simp only [List.mem_singleton]
    omega
  · exact ⟨⟨0, Nat.zero_lt_one, fun _ _ _ => nofun, nofun, fun _ => nofun⟩, nofun, trivial⟩

theorem call_inv {s : LState α} {H : List Nat} {tr : List Ev} (h : LInv r o s H tr) (a : Op α) :
    LInv r o ((machine α r o).call s a) H tr := by
  have start : ∀ pc, s.base.pc r = .idle → mine pc = none → main pc = [0] → side pc = [] → Chain H pc →
      LInv r o { s with base := s.base.goto r pc } H tr := by
    intro pc hidle hmine hmain hside hchain
    have hpc : ∀ u, (s.base.goto r pc).pc u = if u = r then pc else s.base.pc u := fun u => rfl
    have hm : ∀ u n, mine ((s.base.goto r pc).pc u) = some n → mine (s.base.pc u) = some n := by
      intro u n hu
      rw [hpc] at hu
      split at hu
      · rw [hmine] at hu; cases hu
      · exact hu
    refine ⟨h.len, h.last, h.node0, h.pos, h.fresh, h.evs, fun t n ht => ?_, fun t n old ht => ?_, h.msg, h.link, fun t ht => ?_, ?_⟩
    · obtain ⟨a1, a2, a3, a4, a5⟩ := h.own t n (hm t n ht)
      exact ⟨a1, a2, a3, a4, fun u hu => a5 u (hm u n hu)⟩
    · dsimp only at ht
      rw [hpc] at ht
      split at ht
      · rw [ht] at hmine; cases hmine
      · exact h.linked t n old ht
    · dsimp only
      rw [hpc, if_neg ht]; exact h.others t ht
    · obtain ⟨⟨K, hK⟩, -, -⟩ := h.rem
      dsimp only
      rw [hpc, if_pos rfl]
      exact ⟨⟨K, hK.le, hK.know, fun v hv => by rw [hmain] at hv; exact .inl (by simpa using hv), fun _ v hv => by rw [hside] at hv; cases hv⟩,
        fun v hv => by rw [hside] at hv; (cases hv), hchain⟩
  cases a with
  | push t a v =>
    simp only [machine]
    split
    · rename_i hidle
      have hna := hidle.2
      have hpc : ∀ u, ((s.base.put a (some (0, v))).goto t (.pushLoad a)).pc u = if u = t then .pushLoad a else s.base.pc u :=
        fun u => rfl
      have hnode : ∀ u, ((s.base.put a (some (0, v))).goto t (.pushLoad a)).node u = if u = a then some (0, v) else s.base.node u :=
        fun u => rfl
      have hfr := h.fresh a hna
      refine ⟨h.len, h.last, ?_, Nat.succ_le_succ (Nat.zero_le _), fun u hu => ?_, h.evs, fun u n hu => ?_, fun u n old hu => ?_, h.msg, fun u n x hu => ?_, fun u hu => ?_, ?_⟩
      · dsimp only
        rw [hnode, if_neg (by have := h.pos; omega)]; exact h.node0
      · dsimp only at hu ⊢
        obtain ⟨f1, f2, f3⟩ := h.fresh u (by omega)
        rw [hnode, if_neg (by omega)]
        exact ⟨f1, f2, f3⟩
      · dsimp only at hu ⊢
        rw [hpc] at hu
        split at hu
        · rename_i e
          simp only [mine, Option.some.injEq] at hu
          subst hu
          refine ⟨by have := h.pos; omega, by omega, hfr.1, fun i e he hl => absurd hl (hfr.2.2 i e he), fun w hw => ?_⟩
          rw [hpc] at hw
          split at hw
          · rename_i e'; exact e'.trans e.symm
          · have := (h.own w _ hw).2.1; omega
        · obtain ⟨a1, a2, a3, a4, a5⟩ := h.own u n hu
          refine ⟨a1, by omega, a3, a4, fun w hw => ?_⟩
          rw [hpc] at hw
          split at hw
          · simp only [mine, Option.some.injEq] at hw; omega
          · exact a5 w hw
      · dsimp only at hu ⊢
        rw [hpc] at hu
        split at hu
        · cases hu
        · obtain ⟨x, hx⟩ := h.linked u n old hu
          refine ⟨x, ?_⟩
          rw [hnode, if_neg]
          · exact hx
          · rintro rfl
            rw [hfr.2.1] at hx; cases hx
      · dsimp only at hu
        rw [hnode] at hu
        split at hu
        · simp only [Option.some.injEq, Prod.mk.injEq] at hu
          exact .inl hu.1.symm
        · exact h.link u n x hu
      · dsimp only
        rw [hpc]
        split
        · exact ⟨rfl, rfl⟩
        · exact h.others u hu
      · dsimp only
        rw [hpc]
        split
        · obtain ⟨⟨K, hK⟩, -, -⟩ := h.rem
          exact ⟨⟨K, hK.le, hK.know, nofun, fun _ => nofun⟩, nofun, trivial⟩
        · exact h.rem
    · exact h
  | pop =>
    simp only [machine]
    split
    · rename_i hidle; exact start .popLoad hidle rfl rfl rfl trivial
    · exact h
  | drain =>
    simp only [machine]
    split
    · rename_i hidle; exact start .drLoad hidle rfl rfl rfl trivial
    · exact h
  | choose t b =>
    exact ⟨h.len, h.last, h.node0, h.pos, h.fresh, h.evs, h.own, h.linked, h.msg, h.link, h.others, h.rem⟩

theorem run_inv (ho : Most o) {as : List (PAct (Op α))} {p p' : PState (LState α) Nat} (h : LInv r o p.s (p.hist 0) p.tr)
    (hs : (machine α r o).prun p as = some p') : LInv r o p'.s (p'.hist 0) p'.tr := by
  induction as generalizing p with
  | nil => simp only [Machine.prun, Option.some.injEq] at hs; exact hs ▸ h
  | cons a as ih =>
    simp only [Machine.prun] at hs
    split at hs
    · cases hs
    · rename_i q hq
      refine ih ?_ hs
      cases a with
      | call a =>
        simp only [Machine.pstep, Option.some.injEq] at hq
        subst hq
        exact call_inv h a
      | step t k =>
        rcases next_step ho h hq with rfl | ⟨f, -, -, h', -⟩
        · exact h
        · exact h'

/-- A step completes a race only in `cut_out`, and only if that does not acquire. -/
theorem step_race (ho : Most o) {p p' : PState (LState α) Nat} (h : LInv r o p.s (p.hist 0) p.tr) {a : PAct (Op α)}
    (hs : (machine α r o).pstep p a = some p') {i j : Nat} (hr : Race p'.tr i j) :
    Race p.tr i j ∨ (o.cutRead = false ∧ j = p.tr.length ∧ InCut (p.s.base.pc r) ∧ ∃ k, a = .step r k) := by
  cases a with
  | call a =>
    simp only [Machine.pstep, Option.some.injEq] at hs
    subst hs
    exact .inl hr
  | step t k =>
    rcases next_step ho h hs with rfl | ⟨f, hft, htr, -, hsafe⟩
    · exact .inl hr
    · rw [htr] at hr
      refine no_race (P := fun i j => Race p.tr i j ∨ (o.cutRead = false ∧ j = p.tr.length ∧ InCut (p.s.base.pc r) ∧ ∃ k', PAct.step t k = (.step r k' : PAct (Op α))))
        (fun i j h => .inl h) (fun i e he hc => ?_) i j hr
      rcases hsafe i e he hc with hk | ⟨h1, h2, h3⟩
      · exact .inl hk
      · exact .inr (.inr ⟨h1, rfl, h3, k, by rw [← h2, ← hft]⟩)

end Verif.LinkedList.Conc.Order
