import Verif.LinkedList.OrderSpec
import Verif.Order.MachineLemmas
/-! # Invariant of the linked list with memory orderings -/
namespace Verif.LinkedList.Conc.Order

open Verif.LinkedList.Conc
open Verif.Order

variable {α : Type}

/-- The node that is being pushed. -/
def mine : Pc → Option Nat
  | .pushLoad n | .pushWrite n _ | .pushCas n _ => some n
  | _ => none

/-- Pointers to nodes that were found by following the list. -/
def main : Pc → List Nat
  | .popLoad | .drLoad => [0]
  | .popRead old => [old]
  | .popCas old next => [old, next]
  | .popFree p => [p]
  | .drNext _ curr => [curr]
  | .drFilter _ curr next | .cutLoad curr next | .cutCas curr next | .cutWalk _ curr next | .cutWrite _ curr next
  | .drFree _ curr next => [curr, next]
  | _ => []

/-- The predecessor, which `cut_out` may find from the head. -/
def side : Pc → List Nat
  | .drNext prev _ | .drFilter prev _ _ | .cutWalk prev _ _ | .cutWrite prev _ _ | .drFree prev _ _ => [prev]
  | _ => []

/-- `b` was published before `a`, if `a` was. -/
def Old (H : List Nat) (a b : Nat) : Prop := b = 0 ∨ ∀ k : Nat, H[k]? = some a → b ∈ H.take (k + 1)

def Chain (H : List Nat) : Pc → Prop
  | .popCas old next => old ≠ 0 ∧ Old H old next
  | .drNext prev curr => curr ≠ 0 ∧ (prev = 0 ∨ Old H prev curr)
  | .drFilter prev curr next => curr ≠ 0 ∧ Old H curr next ∧ (prev = 0 ∨ Old H prev curr)
  | .cutLoad curr next | .cutCas curr next | .cutWalk _ curr next => curr ≠ 0 ∧ Old H curr next
  | .cutWrite prev curr next => curr ≠ 0 ∧ Old H curr next ∧ prev ≠ 0 ∧ Old H prev curr
  | .drFree prev _ next => prev = 0 ∨ Old H prev next
  | _ => True

/-- Context `t` knows of what the others did with node `v`. -/
def KnowsNode (r : Nat) (tr : List Ev) (v : Nat) : Prop :=
  ∀ (i : Nat) (e : Ev), tr[i]? = some e → e.loc = v → e.tid ≠ r → Know tr r i

structure Known (r : Nat) (o : Ords) (H : List Nat) (tr : List Ev) (pc : Pc) (K : Nat) : Prop where
  le : K < H.length
  know : ∀ v ∈ H.take (K + 1), v ≠ 0 → KnowsNode r tr v
  main : ∀ v ∈ main pc, v = 0 ∨ v ∈ H.take (K + 1)
  side : o.cutRead = true → ∀ v ∈ side pc, v = 0 ∨ v ∈ H.take (K + 1)

/-- What the remover holds. -/
structure Rem (r : Nat) (o : Ords) (H : List Nat) (tr : List Ev) (pc : Pc) : Prop where
  known : ∃ K, Known r o H tr pc K
  sides : ∀ v ∈ side pc, v = 0 ∨ v ∈ H
  chain : Chain H pc

structure LInv (r : Nat) (o : Ords) (s : LState α) (H : List Nat) (tr : List Ev) : Prop where
  len : H.length = cnt tr 0 + 1
  last : H[cnt tr 0]? = some s.base.head
  node0 : s.base.node 0 = none
  pos : 1 ≤ s.next
  fresh : ∀ v, s.next ≤ v → v ∉ H ∧ s.base.node v = none ∧ ∀ (i : Nat) (e : Ev), tr[i]? = some e → e.loc ≠ v
  evs : ∀ (i : Nat) (e : Ev), tr[i]? = some e → e.kind ≠ .free ∧ (e.loc = 0 ↔ e.kind.atomic = true) ∧ e.isStore 0 = false
  own : ∀ t n, mine (s.base.pc t) = some n → n ≠ 0 ∧ n < s.next ∧ n ∉ H ∧
    (∀ (i : Nat) (e : Ev), tr[i]? = some e → e.loc = n → e.tid = t) ∧ ∀ u, mine (s.base.pc u) = some n → u = t
  linked : ∀ t n old, s.base.pc t = .pushCas n old → ∃ x, s.base.node n = some (old, x)
  msg : ∀ k v, v ≠ 0 → v ∈ H.take (k + 1) → ∀ (i : Nat) (e : Ev), tr[i]? = some e → e.loc = v → e.tid ≠ r → Msg tr 0 k i
  link : ∀ v n x, s.base.node v = some (n, x) → Old H v n
  others : ∀ t, t ≠ r → main (s.base.pc t) = [] ∧ side (s.base.pc t) = []
  rem : Rem r o H tr (s.base.pc r)

/-! ### Lists -/

theorem old_trans {H : List Nat} {a b c : Nat} (hb : b ≠ 0) (h1 : Old H a b) (h2 : Old H b c) : Old H a c := by
  rcases h2 with h2 | h2
  · exact .inl h2
  rcases h1 with h1 | h1
  · exact absurd h1 hb
  right
  intro k hk
  obtain ⟨m, hm⟩ := List.mem_iff_getElem?.1 (h1 k hk)
  have hlt : m < k + 1 := by
    have := (List.getElem?_eq_some_iff.1 hm).1
    rw [List.length_take] at this
    omega
  rw [List.getElem?_take_of_lt hlt] at hm
  exact List.take_subset_take_left H (by omega) (h2 m hm)

theorem old_mem {H : List Nat} {a b : Nat} {K : Nat} (h : Old H a b) (ha : a ∈ H.take (K + 1)) : b = 0 ∨ b ∈ H.take (K + 1) := by
  rcases h with h | h
  · exact .inl h
  obtain ⟨m, hm⟩ := List.mem_iff_getElem?.1 ha
  have hlt : m < K + 1 := by
    have := (List.getElem?_eq_some_iff.1 hm).1
    rw [List.length_take] at this
    omega
  rw [List.getElem?_take_of_lt hlt] at hm
  exact .inr (List.take_subset_take_left H (by omega) (h m hm))

theorem old_append {H : List Nat} {a b x : Nat} (h : Old H a b) (hx : a = x → a ∈ H) : Old (H ++ [x]) a b := by
  rcases h with h | h
  · exact .inl h
  right
  intro k hk
  rcases Nat.lt_or_ge k H.length with hl | hl
  · rw [List.getElem?_append_left hl] at hk
    rw [List.take_append_of_le_length (by omega)]
    exact h k hk
  · have hlt := (List.getElem?_eq_some_iff.1 hk).1
    rw [List.length_append, List.length_singleton] at hlt
    have : k = H.length := by omega
    subst this
    simp only [List.getElem?_append_right (Nat.le_refl _), Nat.sub_self, List.getElem?_cons_zero, Option.some.injEq] at hk
    rw [List.take_of_length_le (by simp)]
    obtain ⟨m, hm⟩ := List.mem_iff_getElem?.1 (hx hk.symm)
    exact List.mem_append_left _ (List.take_subset _ _ (h m hm))

theorem mem_take_append {H : List Nat} {v x K : Nat} (h : v ∈ H.take (K + 1)) : v ∈ (H ++ [x]).take (K + 1) := by
  rw [List.take_append]
  exact List.mem_append_left _ h

theorem take_append_mem {H : List Nat} {v x K : Nat} (h : v ∈ (H ++ [x]).take (K + 1)) :
    v ∈ H.take (K + 1) ∨ (v = x ∧ H.length ≤ K) := by
  rw [List.take_append] at h
  rcases List.mem_append.1 h with h | h
  · exact .inl h
  · right
    have h1 := List.take_subset _ _ h
    simp only [List.mem_singleton] at h1
    refine ⟨h1, ?_⟩
    rcases Nat.lt_or_ge K H.length with hl | hl
    · rw [show K + 1 - H.length = 0 by omega] at h; simp at h
    · exact hl

theorem take_mono {H : List Nat} {v a b : Nat} (h : v ∈ H.take (a + 1)) (hab : a ≤ b) : v ∈ H.take (b + 1) :=
  List.take_subset_take_left H (by omega) h

theorem mem_take_last {H : List Nat} {v : Nat} (h : v ∈ H) : v ∈ H.take (H.length - 1 + 1) := by
  rw [List.take_of_length_le (by omega)]; exact h

/-! ### Messages -/

theorem msg_mono {tr : List Ev} {k m i : Nat} (hs : ∀ (i : Nat) (e : Ev), tr[i]? = some e → e.isStore 0 = false) (hkm : k ≤ m)
    (h : Msg tr 0 k i) : Msg tr 0 m i := by
  obtain ⟨j, ⟨h1, h2, -⟩, h4⟩ := h
  exact ⟨j, ⟨h1, by omega, fun a e _ he hst => by rw [hs a e he] at hst; cases hst⟩, h4⟩

theorem msg_append {tr : List Ev} {f : Ev} {k i : Nat} (hf : f.isStore 0 = false) (h : Msg tr 0 k i) : Msg (tr ++ [f]) 0 k i := by
  obtain ⟨j, h1, h2⟩ := h
  refine ⟨j, carries_append.2 (.inl ⟨h1, fun h => by rw [hf] at h; cases h⟩), h2.imp id (hb_append (carries_lt h1)).2⟩

theorem msg_release {tr : List Ev} {f : Ev} {k i : Nat} (hw : f.writes 0 = true) (hr : f.rel = true) (hk : cnt tr 0 < k)
    (h : i = tr.length ∨ Know tr f.tid i) : Msg (tr ++ [f]) 0 k i :=
  ⟨tr.length, carries_append.2 (.inr ⟨rfl, hw, hr, hk⟩), h.imp id fun h => hb_last.2 (.inl h)⟩

/-! ### Steps -/

/-- An access that does not change the head: what it accesses. -/
structure Quiet (r : Nat) (s : LState α) (H : List Nat) (f : Ev) : Prop where
  free : f.kind ≠ .free
  atomic : f.loc = 0 ↔ f.kind.atomic = true
  writes : f.writes 0 = false
  store : f.isStore 0 = false
  small : f.loc < s.next
  own : ∀ u n, mine (s.base.pc u) = some n → f.loc = n → f.tid = u
  shared : f.tid ≠ r → f.loc ≠ 0 → f.loc ∉ H

theorem knowsNode_append {r : Nat} {tr : List Ev} {v : Nat} {f : Ev} (h : KnowsNode r tr v) (hf : f.loc = v → f.tid = r) :
    KnowsNode r (tr ++ [f]) v := by
  intro i e he hl ht
  rcases get_append he with he | ⟨rfl, rfl⟩
  · exact know_append.2 (.inl (h i e he hl ht))
  · exact absurd (hf hl) ht

theorem Known.append {r : Nat} {o : Ords} {H : List Nat} {tr : List Ev} {pc : Pc} {K : Nat} {f : Ev} (h : Known r o H tr pc K)
    (hf : f.tid ≠ r → f.loc ≠ 0 → f.loc ∉ H) : Known r o H (tr ++ [f]) pc K :=
  ⟨h.le, fun v hv h0 => knowsNode_append (h.know v hv h0) fun e => Classical.byContradiction fun hn =>
    hf hn (e ▸ h0) (e ▸ List.take_subset _ _ hv), h.main, h.side⟩

theorem Rem.append {r : Nat} {o : Ords} {H : List Nat} {tr : List Ev} {pc : Pc} {f : Ev} (h : Rem r o H tr pc)
    (hf : f.tid ≠ r → f.loc ≠ 0 → f.loc ∉ H) : Rem r o H (tr ++ [f]) pc :=
  ⟨h.known.imp fun _ hk => hk.append hf, h.sides, h.chain⟩

/-- A step that leaves the head. -/
theorem quiet_step {r : Nat} {o : Ords} {s s' : LState α} {H : List Nat} {tr : List Ev} {f : Ev} (h : LInv r o s H tr)
    (q : Quiet r s H f) (h1 : s'.base.head = s.base.head) (h2 : s'.next = s.next)
    (h3 : ∀ v n x, s'.base.node v = some (n, x) → v ≠ 0 ∧ v < s.next ∧ Old H v n)
    (h4 : ∀ u, u ≠ f.tid → s'.base.pc u = s.base.pc u)
    (h5 : ∀ n, mine (s'.base.pc f.tid) = some n → mine (s.base.pc f.tid) = some n)
    (h6 : ∀ u n old, s'.base.pc u = .pushCas n old → ∃ x, s'.base.node n = some (old, x))
    (h7 : f.tid ≠ r → main (s'.base.pc f.tid) = [] ∧ side (s'.base.pc f.tid) = [])
    (h8 : f.tid = r → Rem r o H (tr ++ [f]) (s'.base.pc r)) : LInv r o s' H (tr ++ [f]) := by
  have hmine : ∀ u n, mine (s'.base.pc u) = some n → mine (s.base.pc u) = some n := by
    intro u n hu
    by_cases e : u = f.tid
    · subst e; exact h5 n hu
    · rw [h4 u e] at hu; exact hu
  have hc : cnt (tr ++ [f]) 0 = cnt tr 0 := by rw [cnt_append, q.writes]; simp
  have hnone : ∀ v, (∀ n x, s'.base.node v ≠ some (n, x)) → s'.base.node v = none := by
    intro v hv
    cases hn : s'.base.node v with
    | none => rfl
    | some y => exact absurd hn (hv y.1 y.2)
  refine ⟨by rw [hc]; exact h.len, by rw [hc, h1]; exact h.last, hnone 0 fun n x e => (h3 0 n x e).1 rfl, h2 ▸ h.pos, fun v hv => ?_,
    fun i e he => ?_, fun t n ht => ?_, h6, fun k v h0 hv i e he hl ht => ?_, fun v n x e => (h3 v n x e).2.2, fun t ht => ?_, ?_⟩
  · rw [h2] at hv
    refine ⟨(h.fresh v hv).1, hnone v fun n x e => ?_, fun i e he => ?_⟩
    · have := (h3 v n x e).2.1; omega
    · rcases get_append he with he | ⟨-, rfl⟩
      · exact (h.fresh v hv).2.2 i e he
      · have := q.small; omega
  · rcases get_append he with he | ⟨-, rfl⟩
    · exact h.evs i e he
    · exact ⟨q.free, q.atomic, q.store⟩
  · obtain ⟨a1, a2, a3, a4, a5⟩ := h.own t n (hmine t n ht)
    refine ⟨a1, h2 ▸ a2, a3, fun i e he hl => ?_, fun u hu => a5 u (hmine u n hu)⟩
    rcases get_append he with he | ⟨-, rfl⟩
    · exact a4 i e he hl
    · exact q.own t n (hmine t n ht) hl
  · rcases get_append he with he | ⟨-, rfl⟩
    · exact msg_append q.store (h.msg k v h0 hv i e he hl ht)
    · exact absurd (hl ▸ List.take_subset _ _ hv) (q.shared ht (hl ▸ h0))
  · by_cases e : t = f.tid
    · subst e; exact h7 ht
    · rw [h4 t e]; exact h.others t ht
  · by_cases e : r = f.tid
    · exact h8 e.symm
    · rw [h4 r e]; exact h.rem.append q.shared

/-- A step that appends `x` to the values of the head. -/
theorem head_step {r : Nat} {o : Ords} {s s' : LState α} {H : List Nat} {tr : List Ev} {f : Ev} {x : Nat} (h : LInv r o s H tr)
    (hf : f.kind.atomic = true) (hl : f.loc = 0) (hw : f.writes 0 = true) (hst : f.isStore 0 = false)
    (h1 : s'.base.head = x) (h2 : s'.next = s.next) (h3 : s'.base.node = s.base.node)
    (h4 : ∀ u, u ≠ f.tid → s'.base.pc u = s.base.pc u) (h5 : mine (s'.base.pc f.tid) = none)
    (h7 : f.tid ≠ r → main (s'.base.pc f.tid) = [] ∧ side (s'.base.pc f.tid) = [])
    (h8 : f.tid = r → Rem r o (H ++ [x]) (tr ++ [f]) (s'.base.pc r))
    (hx : x = 0 ∨ x ∈ H ∨ (mine (s.base.pc f.tid) = some x ∧ (f.tid ≠ r → f.rel = true) ∧ ∀ n y, s.base.node x = some (n, y) → n = 0 ∨ n ∈ H)) :
    LInv r o s' (H ++ [x]) (tr ++ [f]) := by
  have hmine : ∀ u n, mine (s'.base.pc u) = some n → u ≠ f.tid ∧ mine (s.base.pc u) = some n := by
    intro u n hu
    by_cases e : u = f.tid
    · subst e; rw [h5] at hu; cases hu
    · rw [h4 u e] at hu; exact ⟨e, hu⟩
  have hc : cnt (tr ++ [f]) 0 = cnt tr 0 + 1 := by rw [cnt_append, hw]; simp
  have hxn : ∀ v, s.next ≤ v → v ≠ x := by
    intro v hv e
    subst e
    rcases hx with hx | hx | ⟨hx, -⟩
    · have := h.pos; omega
    · exact (h.fresh v hv).1 hx
    · have := (h.own _ _ hx).2.1; omega
  have hkind : f.kind ≠ .free := fun e => by rw [e] at hf; cases hf
  refine ⟨by rw [hc, List.length_append, h.len]; rfl, ?_, h3 ▸ h.node0, h2 ▸ h.pos, fun v hv => ?_, fun i e he => ?_, fun t n ht => ?_,
    fun t n old ht => ?_, fun k v h0 hv i e he hle ht => ?_, fun v n y hn => ?_, fun t ht => ?_, ?_⟩
  · rw [hc, h1, ← h.len]; simp
  · rw [h2] at hv
    refine ⟨fun hm => ?_, h3 ▸ (h.fresh v hv).2.1, fun i e he => ?_⟩
    · rcases List.mem_append.1 hm with hm | hm
      · exact (h.fresh v hv).1 hm
      · exact hxn v hv (List.mem_singleton.1 hm)
    · rcases get_append he with he | ⟨-, rfl⟩
      · exact (h.fresh v hv).2.2 i e he
      · have := h.pos; omega
  · rcases get_append he with he | ⟨-, rfl⟩
    · exact h.evs i e he
    · exact ⟨hkind, ⟨fun _ => hf, fun _ => hl⟩, hst⟩
  · obtain ⟨hne, ht⟩ := hmine t n ht
    obtain ⟨a1, a2, a3, a4, a5⟩ := h.own t n ht
    refine ⟨a1, h2 ▸ a2, fun hm => ?_, fun i e he hle => ?_, fun u hu => a5 u (hmine u n hu).2⟩
    · rcases List.mem_append.1 hm with hm | hm
      · exact a3 hm
      · have := List.mem_singleton.1 hm
        subst this
        rcases hx with hx | hx | ⟨hx, -⟩
        · exact a1 hx
        · exact a3 hx
        · exact hne (a5 _ hx).symm
    · rcases get_append he with he | ⟨-, rfl⟩
      · exact a4 i e he hle
      · exact absurd (hle.symm.trans hl) a1
  · rw [h3]
    by_cases e : t = f.tid
    · subst e; rw [ht] at h5; cases h5
    · rw [h4 t e] at ht; exact h.linked t n old ht
  · rcases get_append he with he | ⟨-, rfl⟩
    · rcases take_append_mem hv with hv | ⟨rfl, hk⟩
      · exact msg_append hst (h.msg k v h0 hv i e he hle ht)
      · rcases hx with hx | hx | ⟨hx, hrel, -⟩
        · exact absurd hx h0
        · refine msg_append hst (h.msg k v h0 ?_ i e he hle ht)
          rw [List.take_of_length_le (by omega)]; exact hx
        · have htid := (h.own _ _ hx).2.2.2.1 i e he hle
          exact msg_release hw (hrel (htid ▸ ht)) (by have := h.len; omega) (.inr ⟨i, e, he, htid, .inl rfl⟩)
    · exact absurd (hle.symm.trans hl) h0
  · rw [h3] at hn
    by_cases hv : v = x
    · subst hv
      rcases hx with hx | hx | ⟨hx, -, hl'⟩
      · rw [hx, h.node0] at hn; cases hn
      · exact old_append (h.link v n y hn) fun _ => hx
      · rcases hl' n y hn with e | e
        · exact .inl e
        · right
          intro k hk
          have hnm := (h.own _ _ hx).2.2.1
          rcases Nat.lt_or_ge k H.length with hlt | hge
          · rw [List.getElem?_append_left hlt] at hk
            exact absurd (List.mem_of_getElem? hk) hnm
          · rw [List.take_append, List.take_of_length_le (by omega)]
            exact List.mem_append_left _ e
    · exact old_append (h.link v n y hn) fun e => absurd e hv
  · by_cases e : t = f.tid
    · subst e; exact h7 ht
    · rw [h4 t e]; exact h.others t ht
  · by_cases e : r = f.tid
    · exact h8 e.symm
    · rw [h4 r e]
      obtain ⟨⟨K, hK⟩, hside, hchain⟩ := h.rem
      have hn0 : f.tid ≠ r → f.loc ≠ 0 → f.loc ∉ H := fun _ h0 => absurd hl h0
      have hK' := hK.append (f := f) hn0
      have hmain : ∀ v ∈ main (s.base.pc r), v = 0 ∨ v ∈ H := fun v hv => (hK.main v hv).imp id fun e => List.take_subset _ _ e
      have old : ∀ {a b}, a = 0 ∨ a ∈ H → a ≠ 0 → Old H a b → Old (H ++ [x]) a b := fun ha h0 ho =>
        old_append ho fun _ => ha.resolve_left h0
      refine ⟨⟨K, by rw [List.length_append]; have := hK.le; omega, fun v hv h0 => ?_, fun v hv => (hK.main v hv).imp id mem_take_append,
        fun hcr v hv => (hK.side hcr v hv).imp id mem_take_append⟩, fun v hv => (hside v hv).imp id (List.mem_append_left _), ?_⟩
      · rcases take_append_mem hv with hv | ⟨-, hk⟩
        · exact hK'.know v hv h0
        · have := hK.le; omega
      · revert hchain hmain hside
        have side' : ∀ {a b}, a = 0 ∨ a ∈ H → a = 0 ∨ Old H a b → a = 0 ∨ Old (H ++ [x]) a b := fun {a b} ha ho => by
          by_cases e : a = 0
          · exact .inl e
          · exact .inr (old ha e (ho.resolve_left e))
        cases s.base.pc r <;> simp only [Chain, main, side, List.mem_cons, List.not_mem_nil, or_false, forall_eq_or_imp, forall_eq,
          false_imp_iff, imp_true_iff] <;> intro hside hchain hmain
        case popCas => exact ⟨hchain.1, old hmain.1 hchain.1 hchain.2⟩
        case drNext => exact ⟨hchain.1, side' hside hchain.2⟩
        case drFilter => exact ⟨hchain.1, old hmain.1 hchain.1 hchain.2.1, side' hside hchain.2.2⟩
        case cutLoad => exact ⟨hchain.1, old hmain.1 hchain.1 hchain.2⟩
        case cutCas => exact ⟨hchain.1, old hmain.1 hchain.1 hchain.2⟩
        case cutWalk => exact ⟨hchain.1, old hmain.1 hchain.1 hchain.2⟩
        case cutWrite => exact ⟨hchain.1, old hmain.1 hchain.1 hchain.2.1, hchain.2.2.1, old hside hchain.2.2.1 hchain.2.2.2⟩
        case drFree => exact side' hside hchain

end Verif.LinkedList.Conc.Order
