import Verif.Order.Model
/-! # What threads know

`Know tr t i`: access `i` is one of thread `t` or happens before one of them. `Msg tr l k i`: write number `k` of `l` carries
the knowledge of `i`. -/
namespace Verif.Order

def Know (tr : List Ev) (t i : Nat) : Prop := ∃ j e, tr[j]? = some e ∧ e.tid = t ∧ (i = j ∨ Hb tr i j)

def Msg (tr : List Ev) (l k i : Nat) : Prop := ∃ j, Carries tr l k j ∧ (i = j ∨ Hb tr i j)

/-- The last write. -/
def Last (tr : List Ev) (l i : Nat) : Prop := Msg tr l (cnt tr l) i

theorem Edge.lt {tr : List Ev} {i j : Nat} (h : Edge tr i j) : i < j ∧ j < tr.length := by
  obtain ⟨f, hf, h⟩ := h
  have hj := (List.getElem?_eq_some_iff.1 hf).1
  have key : ∀ e, (tr.take j)[i]? = some e → i < j := by
    intro e he
    have := (List.getElem?_eq_some_iff.1 he).1
    rw [List.length_take] at this
    omega
  rcases h with ⟨e, he, -⟩ | ⟨-, ⟨e, he, -⟩, -⟩
  · exact ⟨key e he, hj⟩
  · exact ⟨key e he, hj⟩

theorem Hb.lt {tr : List Ev} {i j : Nat} (h : Hb tr i j) : i < j ∧ j < tr.length := by
  induction h with
  | one h => exact h.lt
  | more _ h ih => exact ⟨by have := h.lt; omega, h.lt.2⟩

theorem Hb.trans {tr : List Ev} {i j k : Nat} (h : Hb tr i j) (h' : Hb tr j k) : Hb tr i k := by
  induction h' with
  | one e => exact .more h e
  | more _ e ih => exact .more ih e

theorem edge_append {tr : List Ev} {f : Ev} {i j : Nat} (hj : j < tr.length) : Edge (tr ++ [f]) i j ↔ Edge tr i j := by
  unfold Edge
  rw [List.getElem?_append_left hj, List.take_append_of_le_length (by omega)]

theorem hb_append {tr : List Ev} {f : Ev} {i j : Nat} (hj : j < tr.length) : Hb (tr ++ [f]) i j ↔ Hb tr i j := by
  constructor
  · intro h
    induction h with
    | one e => exact .one ((edge_append hj).1 e)
    | more _ e ih =>
      have := e.lt
      exact .more (ih (by omega)) ((edge_append hj).1 e)
  · intro h
    induction h with
    | one e => exact .one ((edge_append hj).2 e)
    | more _ e ih =>
      have := e.lt
      exact .more (ih (by omega)) ((edge_append hj).2 e)

theorem edge_last {tr : List Ev} {f : Ev} {j : Nat} : Edge (tr ++ [f]) j tr.length ↔
    (∃ e, tr[j]? = some e ∧ e.tid = f.tid) ∨ (f.acq = true ∧ Carries tr f.loc (src tr f) j) := by
  unfold Edge
  rw [List.take_append_of_le_length (by omega), List.take_length]
  constructor
  · rintro ⟨g, hg, h⟩
    rw [List.getElem?_append_right (by omega)] at hg
    simp only [Nat.sub_self, List.getElem?_cons_zero, Option.some.injEq] at hg
    subst hg
    exact h
  · intro h
    exact ⟨f, by simp, h⟩

theorem carries_lt {tr : List Ev} {l k j : Nat} (h : Carries tr l k j) : j < tr.length := by
  obtain ⟨⟨e, he, -⟩, -⟩ := h
  exact (List.getElem?_eq_some_iff.1 he).1

theorem hb_last {tr : List Ev} {f : Ev} {i : Nat} : Hb (tr ++ [f]) i tr.length ↔
    Know tr f.tid i ∨ (f.acq = true ∧ Msg tr f.loc (src tr f) i) := by
  constructor
  · intro h
    have key : ∀ j, Edge (tr ++ [f]) j tr.length → (i = j ∨ Hb (tr ++ [f]) i j) →
        Know tr f.tid i ∨ (f.acq = true ∧ Msg tr f.loc (src tr f) i) := by
      intro j he hi
      have hj := he.lt.1
      have hi' : i = j ∨ Hb tr i j := hi.imp id (hb_append hj).1
      rcases edge_last.1 he with ⟨e, h1, h2⟩ | ⟨h1, h2⟩
      · exact .inl ⟨j, e, h1, h2, hi'⟩
      · exact .inr ⟨h1, j, h2, hi'⟩
    generalize hn : tr.length = n at h key
    cases h with
    | one e => exact key _ e (.inl rfl)
    | more h e => exact key _ e (.inr h)
  · have lift : ∀ j, Edge (tr ++ [f]) j tr.length → (i = j ∨ Hb tr i j) → j < tr.length → Hb (tr ++ [f]) i tr.length := by
      intro j he hi hj
      rcases hi with rfl | hi
      · exact .one he
      · exact .more ((hb_append hj).2 hi) he
    rintro (⟨j, e, h1, h2, h3⟩ | ⟨h1, j, h2, h3⟩)
    · exact lift j (edge_last.2 (.inl ⟨e, h1, h2⟩)) h3 (List.getElem?_eq_some_iff.1 h1).1
    · exact lift j (edge_last.2 (.inr ⟨h1, h2⟩)) h3 (carries_lt h2)

theorem know_append {tr : List Ev} {f : Ev} {t i : Nat} : Know (tr ++ [f]) t i ↔
    Know tr t i ∨ (t = f.tid ∧ (i = tr.length ∨ (f.acq = true ∧ Msg tr f.loc (src tr f) i))) := by
  constructor
  · rintro ⟨j, e, h1, h2, h3⟩
    have hj := (List.getElem?_eq_some_iff.1 h1).1
    rw [List.length_append, List.length_singleton] at hj
    rcases Nat.lt_or_ge j tr.length with hl | hl
    · rw [List.getElem?_append_left hl] at h1
      exact .inl ⟨j, e, h1, h2, h3.imp id (hb_append hl).1⟩
    · have : j = tr.length := by omega
      subst this
      simp only [List.getElem?_append_right (Nat.le_refl _), Nat.sub_self, List.getElem?_cons_zero, Option.some.injEq] at h1
      subst h1
      rcases h3 with rfl | h3
      · exact .inr ⟨h2.symm, .inl rfl⟩
      · rcases hb_last.1 h3 with h | h
        · left; rw [← h2]; exact h
        · exact .inr ⟨h2.symm, .inr h⟩
  · rintro (⟨j, e, h1, h2, h3⟩ | ⟨rfl, h⟩)
    · have hl := (List.getElem?_eq_some_iff.1 h1).1
      exact ⟨j, e, by rw [List.getElem?_append_left hl]; exact h1, h2, h3.imp id (hb_append hl).2⟩
    · refine ⟨tr.length, f, by simp, rfl, ?_⟩
      rcases h with rfl | h
      · exact .inl rfl
      · exact .inr (hb_last.2 (.inr h))

theorem cnt_append {tr : List Ev} {f : Ev} {l : Nat} : cnt (tr ++ [f]) l = cnt tr l + if f.writes l then 1 else 0 := by
  unfold cnt
  rw [List.countP_append, List.countP_singleton]

theorem cnt_take_le {tr : List Ev} {l i : Nat} : cnt (tr.take i) l ≤ cnt tr l :=
  List.Sublist.countP_le (List.take_sublist _ _)

theorem carries_append {tr : List Ev} {f : Ev} {l k j : Nat} : Carries (tr ++ [f]) l k j ↔
    (Carries tr l k j ∧ (f.isStore l = true → k ≤ cnt tr l)) ∨
    (j = tr.length ∧ f.writes l = true ∧ f.rel = true ∧ cnt tr l < k) := by
  unfold Carries
  rcases Nat.lt_trichotomy j tr.length with hj | hj | hj
  · rw [List.getElem?_append_left hj, List.take_append_of_le_length (by omega)]
    constructor
    · rintro ⟨h1, h2, h3⟩
      refine .inl ⟨⟨h1, h2, fun m e hm he hs => ?_⟩, fun hs => ?_⟩
      · have hl := (List.getElem?_eq_some_iff.1 he).1
        have := h3 m e hm (by rw [List.getElem?_append_left hl]; exact he) hs
        rwa [List.take_append_of_le_length (by omega)] at this
      · have := h3 tr.length f hj (by simp) hs
        rwa [List.take_append_of_le_length (by omega), List.take_length] at this
    · rintro (⟨⟨h1, h2, h3⟩, h4⟩ | ⟨rfl, -⟩)
      · refine ⟨h1, h2, fun m e hm he hs => ?_⟩
        have hl := (List.getElem?_eq_some_iff.1 he).1
        rw [List.length_append, List.length_singleton] at hl
        rcases Nat.lt_or_ge m tr.length with hl' | hl'
        · rw [List.getElem?_append_left hl'] at he
          rw [List.take_append_of_le_length (by omega)]
          exact h3 m e hm he hs
        · have : m = tr.length := by omega
          subst this
          simp only [List.getElem?_append_right (Nat.le_refl _), Nat.sub_self, List.getElem?_cons_zero,
            Option.some.injEq] at he
          subst he
          rw [List.take_append_of_le_length (by omega), List.take_length]
          exact h4 hs
      · omega
  · subst hj
    rw [List.take_append_of_le_length (by omega), List.take_length]
    constructor
    · rintro ⟨⟨e, h1, h2, h3⟩, h4, -⟩
      simp only [List.getElem?_append_right (Nat.le_refl _), Nat.sub_self, List.getElem?_cons_zero,
        Option.some.injEq] at h1
      subst h1
      exact .inr ⟨rfl, h2, h3, h4⟩
    · rintro (⟨⟨⟨e, h1, -⟩, -⟩, -⟩ | ⟨-, h2, h3, h4⟩)
      · have := (List.getElem?_eq_some_iff.1 h1).1; omega
      · refine ⟨⟨f, by simp, h2, h3⟩, h4, fun m e hm he _ => ?_⟩
        have := (List.getElem?_eq_some_iff.1 he).1
        rw [List.length_append, List.length_singleton] at this
        omega
  · constructor
    · rintro ⟨⟨e, h1, -⟩, -⟩
      have := (List.getElem?_eq_some_iff.1 h1).1
      rw [List.length_append, List.length_singleton] at this
      omega
    · rintro (⟨⟨⟨e, h1, -⟩, -⟩, -⟩ | ⟨rfl, -⟩)
      · have := (List.getElem?_eq_some_iff.1 h1).1; omega
      · omega

theorem carries_le {tr : List Ev} {l k j : Nat} (h : Carries tr l k j) (hk : cnt tr l ≤ k) : Carries tr l (cnt tr l) j ∧
    (cnt tr l < k → ∀ m e, j < m → tr[m]? = some e → e.isStore l = true → False) := by
  obtain ⟨⟨e, he, hw, hr⟩, h2, h3⟩ := h
  have hlt : cnt (tr.take j) l < cnt tr l := by
    have hj := (List.getElem?_eq_some_iff.1 he).1
    have : cnt (tr.take (j+1)) l = cnt (tr.take j) l + 1 := by
      rw [List.take_add_one, he]
      simp only [Option.toList_some]
      rw [cnt_append, hw]; rfl
    have := cnt_take_le (tr := tr) (l := l) (i := j + 1)
    omega
  refine ⟨⟨⟨e, he, hw, hr⟩, hlt, fun m e hm he hs => Nat.le_trans hk (h3 m e hm he hs)⟩, fun hk' m e hm he hs => ?_⟩
  have := h3 m e hm he hs
  have := cnt_take_le (tr := tr) (l := l) (i := m)
  omega

/-- Who knows of an access carried by the last write, after one more access. -/
theorem last_append {tr : List Ev} {f : Ev} {l i : Nat} : Last (tr ++ [f]) l i ↔
    if f.writes l = true then (f.isStore l = false ∧ Last tr l i) ∨ (f.rel = true ∧ Know (tr ++ [f]) f.tid i)
    else Last tr l i := by
  have hbl : ∀ {j}, j < tr.length → ((i = j ∨ Hb (tr ++ [f]) i j) ↔ (i = j ∨ Hb tr i j)) := fun hj =>
    ⟨fun h => h.imp id (hb_append hj).1, fun h => h.imp id (hb_append hj).2⟩
  unfold Last Msg
  by_cases hw : f.writes l = true
  · rw [if_pos hw, cnt_append, if_pos hw]
    constructor
    · rintro ⟨j, hc, hi⟩
      rcases carries_append.1 hc with ⟨hc, hs⟩ | ⟨rfl, -, hr, -⟩
      · left
        have hns : f.isStore l = false := by
          cases h : f.isStore l
          · rfl
          · have := hs h; omega
        exact ⟨hns, j, (carries_le hc (by omega)).1, (hbl (carries_lt hc)).1 hi⟩
      · right
        refine ⟨hr, tr.length, f, by simp, rfl, hi⟩
    · rintro (⟨hns, j, hc, hi⟩ | ⟨hr, j, e, h1, h2, h3⟩)
      · refine ⟨j, carries_append.2 (.inl ⟨⟨hc.1, by have := hc.2.1; omega, fun m e hm he hs => ?_⟩, fun h => ?_⟩), (hbl (carries_lt hc)).2 hi⟩
        · exfalso
          have h3 := hc.2.2 m e hm he hs
          have hlt : cnt (tr.take m) l < cnt tr l := by
            have : cnt (tr.take (m+1)) l = cnt (tr.take m) l + 1 := by
              rw [List.take_add_one, he]
              simp only [Option.toList_some]
              rw [cnt_append]
              have : e.writes l = true := by
                unfold Ev.isStore at hs
                unfold Ev.writes
                simp only [Bool.and_eq_true] at hs ⊢
                refine ⟨hs.1, ?_⟩
                cases hk : e.kind <;> rw [hk] at hs <;> simp at hs ⊢
              rw [this]; rfl
            have := cnt_take_le (tr := tr) (l := l) (i := m + 1)
            omega
          omega
        · rw [hns] at h; cases h
      · refine ⟨tr.length, carries_append.2 (.inr ⟨rfl, hw, hr, by omega⟩), ?_⟩
        have hl := (List.getElem?_eq_some_iff.1 h1).1
        rw [List.length_append, List.length_singleton] at hl
        rcases Nat.lt_or_ge j tr.length with hj | hj
        · rw [List.getElem?_append_left hj] at h1
          have he := edge_last.2 (.inl ⟨e, h1, h2⟩)
          rcases h3 with rfl | h3
          · exact .inr (.one he)
          · exact .inr (.more h3 he)
        · have : j = tr.length := by omega
          subst this
          exact h3
  · rw [if_neg hw, cnt_append, if_neg hw, Nat.add_zero]
    constructor
    · rintro ⟨j, hc, hi⟩
      rcases carries_append.1 hc with ⟨hc, -⟩ | ⟨-, h, -⟩
      · exact ⟨j, hc, (hbl (carries_lt hc)).1 hi⟩
      · exact absurd h hw
    · rintro ⟨j, hc, hi⟩
      exact ⟨j, carries_append.2 (.inl ⟨hc, fun _ => Nat.le_refl _⟩), (hbl (carries_lt hc)).2 hi⟩

/-! ### All accesses of a sort -/

/-- Thread `t` knows all accesses with `P`. -/
def Knows (tr : List Ev) (t : Nat) (P : Ev → Prop) : Prop := ∀ (i : Nat) (e : Ev), tr[i]? = some e → P e → Know tr t i

/-- The last write of `l` carries the knowledge of all accesses with `P`. -/
def Lasts (tr : List Ev) (l : Nat) (P : Ev → Prop) : Prop := ∀ (i : Nat) (e : Ev), tr[i]? = some e → P e → Last tr l i

/-- There are none. -/
def Nones (tr : List Ev) (P : Ev → Prop) : Prop := ∀ (i : Nat) (e : Ev), tr[i]? = some e → ¬ P e

theorem get_append {tr : List Ev} {f : Ev} {i : Nat} {e : Ev} (h : (tr ++ [f])[i]? = some e) :
    tr[i]? = some e ∨ (i = tr.length ∧ e = f) := by
  have hl := (List.getElem?_eq_some_iff.1 h).1
  rw [List.length_append, List.length_singleton] at hl
  rcases Nat.lt_or_ge i tr.length with hj | hj
  · rw [List.getElem?_append_left hj] at h; exact .inl h
  · have : i = tr.length := by omega
    subst this
    simp only [List.getElem?_append_right (Nat.le_refl _), Nat.sub_self, List.getElem?_cons_zero, Option.some.injEq] at h
    exact .inr ⟨rfl, h.symm⟩

theorem Nones.append {tr : List Ev} {P : Ev → Prop} (h : Nones tr P) {f : Ev} (hf : ¬ P f) : Nones (tr ++ [f]) P := by
  intro i e he
  rcases get_append he with he | ⟨-, rfl⟩
  · exact h i e he
  · exact hf

theorem Nones.knows {tr : List Ev} {P : Ev → Prop} (h : Nones tr P) (t : Nat) : Knows tr t P :=
  fun i e he hp => absurd hp (h i e he)

theorem Nones.lasts {tr : List Ev} {P : Ev → Prop} (h : Nones tr P) (l : Nat) : Lasts tr l P :=
  fun i e he hp => absurd hp (h i e he)

/-- A thread knows what it did. -/
theorem knows_own {tr : List Ev} {t : Nat} {P : Ev → Prop} (h : ∀ e, P e → e.tid = t) : Knows tr t P :=
  fun i e he hp => ⟨i, e, he, h e hp, .inl rfl⟩

theorem Knows.append {tr : List Ev} {t : Nat} {P : Ev → Prop} (h : Knows tr t P) {f : Ev} (hf : P f → t = f.tid) :
    Knows (tr ++ [f]) t P := by
  intro i e he hp
  rcases get_append he with he | ⟨rfl, rfl⟩
  · exact know_append.2 (.inl (h i e he hp))
  · exact know_append.2 (.inr ⟨hf hp, .inl rfl⟩)

/-- An acquire read-modify-write learns what the last write carries. -/
theorem Lasts.acquire {tr : List Ev} {P : Ev → Prop} {f : Ev} (h : Lasts tr f.loc P) (hf : f.acq = true)
    (hs : src tr f = cnt tr f.loc) : Knows (tr ++ [f]) f.tid P := by
  intro i e he hp
  rcases get_append he with he | ⟨rfl, rfl⟩
  · exact know_append.2 (.inr ⟨rfl, .inr ⟨hf, hs ▸ h i e he hp⟩⟩)
  · exact know_append.2 (.inr ⟨rfl, .inl rfl⟩)

/-- Other accesses leave the last write. -/
theorem Lasts.append {tr : List Ev} {l : Nat} {P : Ev → Prop} (h : Lasts tr l P) {f : Ev} (hf : ¬ P f)
    (hw : f.isStore l = false) : Lasts (tr ++ [f]) l P := by
  intro i e he hp
  rcases get_append he with he | ⟨rfl, rfl⟩
  · rw [last_append]
    split
    · exact .inl ⟨hw, h i e he hp⟩
    · exact h i e he hp
  · exact absurd hp hf

/-- A release write carries what its thread knows. -/
theorem Knows.release {tr : List Ev} {l : Nat} {P : Ev → Prop} {f : Ev} (h : Knows (tr ++ [f]) f.tid P) (hw : f.writes l = true)
    (hr : f.rel = true) : Lasts (tr ++ [f]) l P := by
  intro i e he hp
  rw [last_append, if_pos hw]
  exact .inr ⟨hr, h i e he hp⟩

/-- Without a release write afterwards, an access does not happen before those of other threads. -/
theorem hb_same {tr : List Ev} {i j : Nat} {e : Ev} (he : tr[i]? = some e)
    (hn : ∀ (m : Nat) (f : Ev), i ≤ m → tr[m]? = some f → f.tid = e.tid → f.rel = false) (h : Hb tr i j) :
    ∃ f, tr[j]? = some f ∧ f.tid = e.tid := by
  have key : ∀ {a b : Nat} {g : Ev}, i ≤ a → tr[a]? = some g → g.tid = e.tid → Edge tr a b →
      ∃ f, tr[b]? = some f ∧ f.tid = e.tid := by
    rintro a b g ha hg ht ⟨f, hf, h⟩
    have tk : ∀ {x : Ev}, (tr.take b)[a]? = some x → x = g := by
      intro x hx
      rw [List.getElem?_take] at hx
      split at hx
      · rw [hg] at hx; exact (Option.some.inj hx).symm
      · cases hx
    rcases h with ⟨x, hx, hxt⟩ | ⟨-, ⟨x, hx, -, hr⟩, -⟩
    · exact ⟨f, hf, by rw [← hxt, tk hx, ht]⟩
    · rw [tk hx] at hr
      rw [hn a g ha hg ht] at hr
      cases hr
  induction h with
  | one h => exact key (Nat.le_refl _) he rfl h
  | more h h' ih =>
    obtain ⟨g, hg, ht⟩ := ih
    exact key (by have := h.lt; omega) hg ht h'

/-- Without an acquire read in between, accesses of other threads do not happen before. -/
theorem hb_acq {tr : List Ev} {i j : Nat} {e f : Ev} (he : tr[i]? = some e) (hf : tr[j]? = some f) (hne : e.tid ≠ f.tid)
    (h : Hb tr i j) : ∃ (m : Nat) (g : Ev), i < m ∧ m ≤ j ∧ tr[m]? = some g ∧ g.tid = f.tid ∧ g.acq = true := by
  induction h generalizing f with
  | one h =>
    have hl := h.lt
    obtain ⟨g, hg, h⟩ := h
    rw [hf] at hg; obtain rfl := Option.some.inj hg
    rcases h with ⟨x, hx, ht⟩ | ⟨h, -⟩
    · rw [List.getElem?_take_of_lt hl.1, he] at hx
      exact absurd (Option.some.inj hx ▸ ht) hne
    · exact ⟨_, f, hl.1, Nat.le_refl _, hf, rfl, h⟩
  | more h1 h ih =>
    have hl := h.lt
    have hl1 := h1.lt
    obtain ⟨g, hg, h⟩ := h
    rw [hf] at hg; obtain rfl := Option.some.inj hg
    rcases h with ⟨x, hx, ht⟩ | ⟨h, -⟩
    · rw [List.getElem?_take_of_lt hl.1] at hx
      obtain ⟨m, g, h2, h3, h4, h5, h6⟩ := ih hx (by rw [ht]; exact hne)
      exact ⟨m, g, h2, by omega, h4, by rw [h5, ht], h6⟩
    · exact ⟨_, f, by omega, Nat.le_refl _, hf, rfl, h⟩

/-- A new access is in no race if its thread knows the conflicting ones. -/
theorem no_race {tr : List Ev} {f : Ev} {P : Nat → Nat → Prop} (h : ∀ i j, Race tr i j → P i j)
    (hf : ∀ (i : Nat) (e : Ev), tr[i]? = some e → Conflict e f → Know tr f.tid i ∨ P i tr.length) :
    ∀ i j, Race (tr ++ [f]) i j → P i j := by
  rintro i j ⟨hij, e, g, h1, h2, hc, hn⟩
  rcases get_append h2 with h2 | ⟨rfl, rfl⟩
  · have hj := (List.getElem?_eq_some_iff.1 h2).1
    rw [List.getElem?_append_left (by omega)] at h1
    exact h i j ⟨hij, e, g, h1, h2, hc, fun hb => hn ((hb_append hj).2 hb)⟩
  · rw [List.getElem?_append_left hij] at h1
    rcases hf i e h1 hc with h | h
    · exact absurd (hb_last.2 (.inl h)) hn
    · exact h

/-- Without stores, a releasing update happens before every later acquiring one. -/
theorem hb_rmw {tr : List Ev} {l i j : Nat} {e f : Ev} (hij : i < j) (he : tr[i]? = some e) (hf : tr[j]? = some f)
    (hw : e.writes l = true) (hr : e.rel = true) (hl : f.loc = l) (ha : f.acq = true) (hs : ∀ a k, f.kind ≠ .load a k)
    (hn : ∀ (m : Nat) (g : Ev), tr[m]? = some g → g.isStore l = false) : Hb tr i j := by
  subst hl
  have hit : (tr.take j)[i]? = some e := by rw [List.getElem?_take_of_lt hij]; exact he
  have hsrc : src (tr.take j) f = cnt (tr.take j) f.loc := by
    unfold src
    cases hk : f.kind <;> simp only []
    exact absurd hk (hs _ _)
  refine .one ⟨f, hf, .inr ⟨ha, ⟨e, hit, hw, hr⟩, ?_, fun m g hm hg hst => ?_⟩⟩
  · rw [hsrc]
    have h1 : (tr.take j).take (i + 1) = (tr.take j).take i ++ [e] := by
      rw [List.take_add_one, hit]; rfl
    have h2 := cnt_take_le (tr := tr.take j) (l := f.loc) (i := i + 1)
    rw [h1, cnt_append, if_pos hw] at h2
    omega
  · rw [List.getElem?_take] at hg
    split at hg
    · rw [hn m g hg] at hst; cases hst
    · cases hg

end Verif.Order
