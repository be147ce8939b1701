import Verif.Soft.OrderSpec
import Verif.Order.Lemmas
import Verif.Order.Cases
/-! # The invariant of the software threads with memory orderings -/
namespace Verif.Soft.Order

open Verif.Order

theorem memLoc_inj {i j : Nat} (h : memLoc i = memLoc j) : i = j := by unfold memLoc at h; omega

theorem msgLoc_inj {i j : Nat} (h : msgLoc i = msgLoc j) : i = j := by unfold msgLoc at h; omega

theorem cell_pos (count u p : Nat) : cellIdx count u p ≠ 0 := by
  unfold cellIdx
  generalize u >>> colBits = a
  omega

/-- The cell of a request. -/
def cellLoc (count : Nat) (x : Nat × Nat) : Nat := memLoc (cellIdx count x.1 x.2)

theorem cellLoc_ne (count : Nat) (x : Nat × Nat) : cellLoc count x ≠ memLoc 0 := fun h => cell_pos count x.1 x.2 (memLoc_inj h)

/-- `t` accesses its message. -/
def Wr (t : Nat) (e : Ev) : Prop := e.tid = t ∧ e.loc = msgLoc t

/-- `t` updates `l`. -/
def Up (t l : Nat) (e : Ev) : Prop := e.tid = t ∧ e.writes l = true

/-- The contexts and the ghosts. -/
structure Core (count : Nat) (s : SState) : Prop where
  zero : s.ctx 0 = .idle
  early : ∀ t, (s.ctx t = .idle ∨ (∃ u, s.ctx t = .write u) ∨ (∃ u, s.ctx t = .req u .load) ∨ ∃ u p, s.ctx t = .req u (.cell p)) → s.said t = none
  head : ∀ t u p, s.ctx t = .req u (.header p) → s.said t = some (u, p)
  served : ∀ t, s.served t = true → s.said t ≠ none
  due : ∀ t, s.due t = true → s.said t ≠ none
  started : ∀ t, s.started t = true → s.said t ≠ none
  nexted : ∀ t, s.nexted t = true → s.said t ≠ none
  has : ∀ t x, s.said t = some x → s.gone t = false → s.base.mem (cellIdx count x.1 x.2) &&& pendingBit x.1 ≠ 0
  task : ∀ t, s.task = some t → s.served t = true

structure SInv (count : Nat) (o : Ords) (s : SState) (hist : Nat → List Nat) (tr : List Ev) : Prop where
  core : Core count s
  len : ∀ l, (hist l).length = cnt tr l + 1
  stores : ∀ (i : Nat) (e : Ev), tr[i]? = some e → ∀ l, e.isStore l = false
  kinds : ∀ (i : Nat) (e : Ev), tr[i]? = some e → (e.kind.atomic = true ∧ ∀ t, e.loc ≠ msgLoc t) ∨
    ∃ t, t ≠ 0 ∧ e.loc = msgLoc t ∧ ((e.tid = t ∧ e.kind = .write) ∨ (e.tid = 0 ∧ e.kind = .read))
  unused : ∀ t, (s.ctx t = .idle ∨ ∃ u, s.ctx t = .write u) → ∀ (i : Nat) (e : Ev), tr[i]? = some e → e.loc ≠ msgLoc t
  wrote : o.setCell.rel = true → ∀ t x, s.said t = some x → Lasts tr (cellLoc count x) (Wr t)
  read : o.setCell.rel = true → o.run.acq = true → ∀ t, s.served t = true → Knows tr 0 (Wr t)
  due : o.setHead.rel = true → ∀ t x, s.due t = true → s.said t = some x → Lasts tr (memLoc 0) (Up t (cellLoc count x))
  started : o.setHead.rel = true → o.startCas.acq = true → ∀ t x, s.started t = true → s.said t = some x → Knows tr 0 (Up t (cellLoc count x))
  nexted : o.setHead.rel = true → o.next.acq = true → ∀ t x, s.nexted t = true → s.said t = some x → Knows tr 0 (Up t (cellLoc count x))
  calm : ∀ t, t ≠ 0 → s.said t = none → ∀ (i : Nat) (e : Ev), tr[i]? = some e → e.tid = t → ∀ l, e.writes l = false
  put : ∀ t x, s.said t = some x → ∃ (a : Nat) (e : Ev), tr[a]? = some e ∧ Up t (cellLoc count x) e
  bit : ∀ t x, s.said t = some x → s.gone t = false → ∀ (a : Nat) (e : Ev), tr[a]? = some e → Up t (cellLoc count x) e →
    ∀ (k v : Nat), (hist (cellLoc count x))[k]? = some v → cnt (tr.take (a + 1)) (cellLoc count x) ≤ k → BitVec.ofNat 32 v &&& pendingBit x.1 ≠ 0

theorem Know.mono {tr : List Ev} {f : Ev} {t i : Nat} (h : Know tr t i) : Know (tr ++ [f]) t i := know_append.2 (.inl h)

/-- One more access. -/
theorem inv_next {count : Nat} {o : Ords} {s s' : SState} {hist hist' : Nat → List Nat} {tr : List Ev} (h : SInv count o s hist tr) {f : Ev}
    (hcore : Core count s') (hstore : ∀ l, f.isStore l = false)
    (hkind : (f.kind.atomic = true ∧ ∀ t, f.loc ≠ msgLoc t) ∨
      ∃ t, t ≠ 0 ∧ f.loc = msgLoc t ∧ ((f.tid = t ∧ f.kind = .write) ∨ (f.tid = 0 ∧ f.kind = .read)))
    (hctx : ∀ t, (s'.ctx t = .idle ∨ ∃ u, s'.ctx t = .write u) → (s.ctx t = .idle ∨ ∃ u, s.ctx t = .write u) ∧ f.loc ≠ msgLoc t)
    (hsaid : ∀ t, s'.said t = s.said t ∨ (s.said t = none ∧ ∃ x, s'.said t = some x ∧ Up t (cellLoc count x) f ∧
      f.rel = o.setCell.rel ∧ t ≠ 0))
    (hcalm : ∀ t, t ≠ 0 → s'.said t = none → f.tid = t → ∀ l, f.writes l = false)
    (hup : ∀ t x, s.said t = some x → ¬ Up t (cellLoc count x) f) (hwr : ∀ t x, s.said t = some x → ¬ Wr t f)
    (hdue : ∀ t, s'.due t = true → (s.due t = true ∧ s.said t ≠ none) ∨ (s.said t ≠ none ∧ f.tid = t ∧ f.writes (memLoc 0) = true ∧ f.rel = o.setHead.rel))
    (hstart : ∀ t, s'.started t = true → (s.started t = true ∧ s.said t ≠ none) ∨
      (s.due t = true ∧ s.said t ≠ none ∧ f.tid = 0 ∧ f.loc = memLoc 0 ∧ (∀ a k, f.kind ≠ .load a k) ∧ f.acq = o.startCas.acq))
    (hnext : ∀ t, s'.nexted t = true → (s.nexted t = true ∧ s.said t ≠ none) ∨
      (s.due t = true ∧ s.said t ≠ none ∧ f.tid = 0 ∧ f.loc = memLoc 0 ∧ (∀ a k, f.kind ≠ .load a k) ∧ f.acq = o.next.acq))
    (hserved : ∀ t, s'.served t = true → s.served t = true ∨
      ∃ x, s.said t = some x ∧ f.tid = 0 ∧ f.loc = cellLoc count x ∧ (∀ a k, f.kind ≠ .load a k) ∧ f.acq = o.run.acq)
    (hgone : ∀ t, s'.gone t = false → s.gone t = false)
    (hhist : ∀ l, hist' l = if f.writes l = true then hist l ++ [(machine count s.base.prio o).word s' l] else hist l) :
    SInv count o s' hist' (tr ++ [f]) := by
  have srcE : (∀ a k, f.kind ≠ .load a k) → src tr f = cnt tr f.loc := by
    intro hl
    unfold src
    split
    · rename_i a k e; exact absurd e (hl a k)
    · rfl
  have old : ∀ t x, s.said t ≠ none → s'.said t = some x → s.said t = some x := by
    intro t x h1 h2
    rcases hsaid t with e | ⟨e, -⟩
    · rw [← e]; exact h2
    · exact absurd e h1
  constructor
  · exact hcore
  · intro l
    rw [hhist, cnt_append]
    split
    · rw [List.length_append, h.len]; rfl
    · rw [h.len]
  · intro i e he l
    rcases get_append he with he | ⟨-, rfl⟩
    · exact h.stores i e he l
    · exact hstore l
  · intro i e he
    rcases get_append he with he | ⟨-, rfl⟩
    · exact h.kinds i e he
    · exact hkind
  · intro t ht i e he
    rcases get_append he with he | ⟨-, rfl⟩
    · exact h.unused t (hctx t ht).1 i e he
    · exact (hctx t ht).2
  · intro o1 t x hx
    rcases hsaid t with e | ⟨e, y, hy, hu, hr, -⟩
    · rw [e] at hx
      exact (h.wrote o1 t x hx).append (hwr t x hx) (hstore _)
    · rw [hx, Option.some.injEq] at hy
      subst hy
      have : Knows (tr ++ [f]) f.tid (Wr t) := by
        rw [hu.1]; exact knows_own fun e he => he.1
      exact this.release hu.2 (by rw [hr]; exact o1)
  · intro o1 o2 t ht
    rcases hserved t ht with hs | ⟨x, hx, h0, hl, hk, ha⟩
    · have hx : s.said t ≠ none := h.core.served t hs
      obtain ⟨x, hx⟩ := Option.ne_none_iff_exists'.1 hx
      exact (h.read o1 o2 t hs).append fun hf => absurd hf (hwr t x hx)
    · have hL := h.wrote o1 t x hx
      rw [← hl] at hL
      have := hL.acquire (by rw [ha]; exact o2) (srcE hk)
      rw [h0] at this
      exact this
  · intro o1 t x hd hx
    rcases hdue t hd with ⟨hs, hn⟩ | ⟨hn, ht, hw, hr⟩
    · have hx' := old t x hn hx
      exact (h.due o1 t x hs hx').append (hup t x hx') (hstore _)
    · have : Knows (tr ++ [f]) f.tid (Up t (cellLoc count x)) := by
        rw [ht]; exact knows_own fun e he => he.1
      exact this.release hw (by rw [hr]; exact o1)
  · intro o1 o2 t x hd hx
    rcases hstart t hd with ⟨hs, hn⟩ | ⟨hs, hn, h0, hl, hk, ha⟩
    · have hx' := old t x hn hx
      exact (h.started o1 o2 t x hs hx').append fun hf => absurd hf (hup t x hx')
    · have hL := h.due o1 t x hs (old t x hn hx)
      rw [← hl] at hL
      have := hL.acquire (by rw [ha]; exact o2) (srcE hk)
      rw [h0] at this
      exact this
  · intro o1 o2 t x hd hx
    rcases hnext t hd with ⟨hs, hn⟩ | ⟨hs, hn, h0, hl, hk, ha⟩
    · have hx' := old t x hn hx
      exact (h.nexted o1 o2 t x hs hx').append fun hf => absurd hf (hup t x hx')
    · have hL := h.due o1 t x hs (old t x hn hx)
      rw [← hl] at hL
      have := hL.acquire (by rw [ha]; exact o2) (srcE hk)
      rw [h0] at this
      exact this
  · intro t h0 hn i e he ht l
    have hn' : s.said t = none := by
      rcases hsaid t with e1 | ⟨e1, -⟩
      · rw [← e1]; exact hn
      · exact e1
    rcases get_append he with he | ⟨-, rfl⟩
    · exact h.calm t h0 hn' i e he ht l
    · exact hcalm t h0 hn ht l
  · intro t x hx
    rcases hsaid t with e | ⟨e, y, hy, hu, -⟩
    · rw [e] at hx
      obtain ⟨a, e, he, h1⟩ := h.put t x hx
      exact ⟨a, e, by rw [List.getElem?_append_left (List.getElem?_eq_some_iff.1 he).1]; exact he, h1⟩
    · rw [hx, Option.some.injEq] at hy
      subst hy
      exact ⟨tr.length, f, by simp, hu⟩
  · intro t x hx hg a e he hu k v hv hk
    have hnew : (machine count s.base.prio o).word s' (cellLoc count x) = (s'.base.mem (cellIdx count x.1 x.2)).toNat := by
      have e1 : cellLoc count x % 3 = 0 := by unfold cellLoc memLoc; omega
      have e2 : cellLoc count x / 3 = cellIdx count x.1 x.2 := by unfold cellLoc memLoc; omega
      simp only [machine, e1, e2, if_true]
    have hhas := hcore.has t x hx hg
    have hlen := h.len (cellLoc count x)
    have last : ∀ v, (hist (cellLoc count x) ++ [(machine count s.base.prio o).word s' (cellLoc count x)])[(hist (cellLoc count x)).length]? = some v →
        BitVec.ofNat 32 v &&& pendingBit x.1 ≠ 0 := by
      intro v hv
      rw [List.getElem?_append_right (Nat.le_refl _), Nat.sub_self, List.getElem?_cons_zero, Option.some.injEq] at hv
      rw [← hv, hnew, BitVec.ofNat_toNat, BitVec.setWidth_eq]
      exact hhas
    rw [hhist] at hv
    rcases hsaid t with e1 | ⟨e1, y, hy, hu', -, hno⟩
    · rw [e1] at hx
      rcases get_append he with he | ⟨rfl, rfl⟩
      · have ha := (List.getElem?_eq_some_iff.1 he).1
        rw [List.take_append_of_le_length (by omega)] at hk
        split at hv
        · rcases Nat.lt_or_ge k (hist (cellLoc count x)).length with hlt | hge
          · rw [List.getElem?_append_left hlt] at hv
            exact h.bit t x hx (hgone t hg) a e he hu k v hv hk
          · have hk2 := (List.getElem?_eq_some_iff.1 hv).1
            rw [List.length_append, List.length_singleton] at hk2
            have : k = (hist (cellLoc count x)).length := by omega
            subst this
            exact last v hv
        · exact h.bit t x hx (hgone t hg) a e he hu k v hv hk
      · exact absurd hu (hup t x hx)
    · rw [hx, Option.some.injEq] at hy
      subst hy
      rcases get_append he with he | ⟨rfl, rfl⟩
      · have := h.calm t hno e1 a e he hu.1 (cellLoc count x)
        rw [hu.2] at this; cases this
      · rw [List.take_of_length_le (by simp), cnt_append, if_pos hu.2] at hk
        rw [if_pos hu.2] at hv
        have hk2 := (List.getElem?_eq_some_iff.1 hv).1
        rw [List.length_append, List.length_singleton] at hk2
        have : k = (hist (cellLoc count x)).length := by omega
        subst this
        exact last v hv

end Verif.Soft.Order
