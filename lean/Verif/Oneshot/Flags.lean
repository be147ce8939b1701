import Verif.Oneshot.Model
/-! # Flag arithmetic of the oneshot state word -/
namespace Verif.Oneshot

open Verif.Spsc

theorem has_or {w : Nat} (s m n : BitVec w) : has (s ||| m) n = (has s n || has m n) := by
  unfold has
  have : (s ||| m) &&& n = (s &&& n) ||| (m &&& n) := BitVec.and_or_distrib_right
  rw [this, Bool.eq_iff_iff]
  simp only [bne_iff_ne, ne_eq, Bool.or_eq_true, BitVec.or_eq_zero_iff]
  exact ⟨fun h => by
    by_cases h1 : s &&& n = 0#w
    · exact Or.inr (fun h2 => h ⟨h1, h2⟩)
    · exact Or.inl h1, fun h ⟨h1, h2⟩ => h.elim (fun h => h h1) (fun h => h h2)⟩

theorem has_zero (n : BitVec 8) : has 0#8 n = false := by
  simp [has]

theorem has_ite (c : Bool) (a b n : BitVec 8) :
    has (if c = true then a else b) n = if c = true then has a n else has b n := by
  cases c <;> rfl

theorem has_TX_TX : has TX TX = true := by decide
theorem has_TX_RX : has TX RX = false := by decide
theorem has_TX_DATA : has TX DATA = false := by decide
theorem has_TX_CLOSED : has TX CLOSED = false := by decide
theorem has_TX_HALF : has TX HALF = false := by decide
theorem has_RX_TX : has RX TX = false := by decide
theorem has_RX_RX : has RX RX = true := by decide
theorem has_RX_DATA : has RX DATA = false := by decide
theorem has_RX_CLOSED : has RX CLOSED = false := by decide
theorem has_RX_HALF : has RX HALF = false := by decide
theorem has_DATA_TX : has DATA TX = false := by decide
theorem has_DATA_RX : has DATA RX = false := by decide
theorem has_DATA_DATA : has DATA DATA = true := by decide
theorem has_DATA_CLOSED : has DATA CLOSED = false := by decide
theorem has_DATA_HALF : has DATA HALF = false := by decide
theorem has_CLOSED_TX : has CLOSED TX = false := by decide
theorem has_CLOSED_RX : has CLOSED RX = false := by decide
theorem has_CLOSED_DATA : has CLOSED DATA = false := by decide
theorem has_CLOSED_CLOSED : has CLOSED CLOSED = true := by decide
theorem has_CLOSED_HALF : has CLOSED HALF = false := by decide
theorem has_HALF_TX : has HALF TX = false := by decide
theorem has_HALF_RX : has HALF RX = false := by decide
theorem has_HALF_DATA : has HALF DATA = false := by decide
theorem has_HALF_CLOSED : has HALF CLOSED = false := by decide
theorem has_HALF_HALF : has HALF HALF = true := by decide
theorem has_clear_TX (s : BitVec 8) : has (s &&& ~~~DATA) TX = has s TX := by
  revert s; decide
theorem has_clear_RX (s : BitVec 8) : has (s &&& ~~~DATA) RX = has s RX := by
  revert s; decide
theorem has_clear_DATA (s : BitVec 8) : has (s &&& ~~~DATA) DATA = false := by
  revert s; decide
theorem has_clear_CLOSED (s : BitVec 8) : has (s &&& ~~~DATA) CLOSED = has s CLOSED := by
  revert s; decide
theorem has_clear_HALF (s : BitVec 8) : has (s &&& ~~~DATA) HALF = has s HALF := by
  revert s; decide

/-- Everything about the flags. -/
macro "flag_simp" : tactic => `(tactic| simp only [has_or, has_zero, has_ite, has_TX_TX, has_TX_RX, has_TX_DATA, has_TX_CLOSED, has_TX_HALF, has_RX_TX, has_RX_RX, has_RX_DATA, has_RX_CLOSED, has_RX_HALF, has_DATA_TX, has_DATA_RX, has_DATA_DATA, has_DATA_CLOSED, has_DATA_HALF, has_CLOSED_TX, has_CLOSED_RX, has_CLOSED_DATA, has_CLOSED_CLOSED, has_CLOSED_HALF, has_HALF_TX, has_HALF_RX, has_HALF_DATA, has_HALF_CLOSED, has_HALF_HALF, has_clear_TX, has_clear_RX, has_clear_DATA, has_clear_CLOSED, has_clear_HALF, Bool.or_false, Bool.or_true, Bool.false_or, Bool.true_or] at *)

end Verif.Oneshot
