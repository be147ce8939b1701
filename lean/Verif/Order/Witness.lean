import Verif.Order.Lemmas
/-! # Showing that a trace has a race -/
namespace Verif.Order

theorem race_rel {tr : List Ev} (i j : Nat) {e f : Ev} (hij : i < j) (he : tr[i]? = some e) (hf : tr[j]? = some f)
    (hc : Conflict e f) (h : (tr.drop i).all (fun g => g.tid != e.tid || !g.rel) = true) : Race tr i j := by
  refine ⟨hij, e, f, he, hf, hc, fun hb => ?_⟩
  have hn : ∀ (m : Nat) (g : Ev), i ≤ m → tr[m]? = some g → g.tid = e.tid → g.rel = false := by
    intro m g hm hg hgt
    have := List.all_eq_true.1 h g (List.mem_of_getElem? (i := m - i) (by rw [List.getElem?_drop, ← hg]; congr 1; omega))
    simpa [hgt] using this
  obtain ⟨f', hf', ht⟩ := hb_same he hn hb
  rw [hf, Option.some.injEq] at hf'
  subst hf'
  exact hc.1 ht.symm

theorem race_acq {tr : List Ev} (i j : Nat) {e f : Ev} (hij : i < j) (he : tr[i]? = some e) (hf : tr[j]? = some f)
    (hc : Conflict e f) (h : ((tr.take (j + 1)).drop (i + 1)).all (fun g => g.tid != f.tid || !g.acq) = true) :
    Race tr i j := by
  refine ⟨hij, e, f, he, hf, hc, fun hb => ?_⟩
  obtain ⟨m, g, h1, h2, h3, h4, h5⟩ := hb_acq he hf hc.1 hb
  have := List.all_eq_true.1 h g (List.mem_of_getElem? (i := m - (i + 1)) (by
    rw [List.getElem?_drop, List.getElem?_take_of_lt (by omega), ← h3]; congr 1; omega))
  simp [h4, h5] at this

/-- Between accesses of two threads of which one happens before the other there is an acquire read of a release sequence. -/
theorem hb_carries {tr : List Ev} {i j : Nat} {e f : Ev} (he : tr[i]? = some e) (hf : tr[j]? = some f) (hne : e.tid ≠ f.tid)
    (h : Hb tr i j) : ∃ (m : Nat) (g : Ev) (c : Nat), i < m ∧ m ≤ j ∧ tr[m]? = some g ∧ g.tid = f.tid ∧ g.acq = true ∧
      Carries (tr.take m) g.loc (src (tr.take m) g) c := by
  induction h generalizing f with
  | one h =>
    have hl := h.lt
    obtain ⟨g, hg, h⟩ := h
    rw [hf] at hg; obtain rfl := Option.some.inj hg
    rcases h with ⟨x, hx, ht⟩ | ⟨h, hc⟩
    · rw [List.getElem?_take_of_lt hl.1, he] at hx
      exact absurd (Option.some.inj hx ▸ ht) hne
    · exact ⟨_, f, _, hl.1, Nat.le_refl _, hf, rfl, h, hc⟩
  | more h1 h ih =>
    have hl := h.lt
    have hl1 := h1.lt
    obtain ⟨g, hg, h⟩ := h
    rw [hf] at hg; obtain rfl := Option.some.inj hg
    rcases h with ⟨x, hx, ht⟩ | ⟨h, hc⟩
    · rw [List.getElem?_take_of_lt hl.1] at hx
      obtain ⟨m, g, c, h2, h3, h4, h5, h6, h7⟩ := ih hx (by rw [ht]; exact hne)
      exact ⟨m, g, c, h2, by omega, h4, by rw [h5, ht], h6, h7⟩
    · exact ⟨_, f, _, by omega, Nat.le_refl _, hf, rfl, h, hc⟩

/-- The same as `race_acq` where acquire reads of initial values are allowed. -/
theorem race_acq_init {tr : List Ev} (i j : Nat) {e f : Ev} (hij : i < j) (he : tr[i]? = some e) (hf : tr[j]? = some f)
    (hc : Conflict e f)
    (h : ∀ m g, i < m → m ≤ j → tr[m]? = some g → g.tid = f.tid → g.acq = true → src (tr.take m) g = 0) : Race tr i j := by
  refine ⟨hij, e, f, he, hf, hc, fun hb => ?_⟩
  obtain ⟨m, g, c, h1, h2, h3, h4, h5, h6⟩ := hb_carries he hf hc.1 hb
  rw [h m g h1 h2 h3 h4 h5] at h6
  exact absurd h6.2.1 (by omega)

end Verif.Order
