import Verif.Pulse.Model
/-! # Arithmetic of the pulse state word -/
namespace Verif.Pulse

open Verif.Spsc

variable {n : Nat}

theorem has_or {w : Nat} (s m k : BitVec w) : has (s ||| m) k = (has s k || has m k) := by
  unfold has
  have : (s ||| m) &&& k = (s &&& k) ||| (m &&& k) := BitVec.and_or_distrib_right
  rw [this, Bool.eq_iff_iff]
  simp only [bne_iff_ne, ne_eq, Bool.or_eq_true, BitVec.or_eq_zero_iff]
  exact ⟨fun h => by
    by_cases h1 : s &&& k = 0#w
    · exact Or.inr (fun h2 => h ⟨h1, h2⟩)
    · exact Or.inl h1, fun h ⟨h1, h2⟩ => h.elim (fun h => h h1) (fun h => h h2)⟩

theorem has_zero {w : Nat} (k : BitVec w) : has 0#w k = false := by
  simp [has]

theorem has_ite {w : Nat} (c : Bool) (a b k : BitVec w) :
    has (if c = true then a else b) k = if c = true then has a k else has b k := by
  cases c <;> rfl

theorem has_flag_flag (i j : Nat) (hi : i < n + 6) : has (flag (n + 6) i) (flag (n + 6) j) = decide (i = j) := by
  rw [has_flag, getLsbD_flag]; simp [hi]

theorem cnt_eq (st : Word n) : cnt st = st.toNat / 32 := by
  unfold cnt
  rw [BitVec.toNat_ushiftRight, Nat.shiftRight_eq_div_pow]

theorem cnt_lt (st : Word n) : cnt st < 2 ^ (n + 1) := by
  rw [cnt_eq]
  have := st.isLt
  have e : 2 ^ (n + 6) = 32 * 2 ^ (n + 1) := by rw [show n + 6 = (n + 1) + 5 from rfl, Nat.pow_add]; omega
  omega

/-- The low five bits depend only on the residue. -/
theorem getLsbD_mod {a b : Word n} (h : a.toNat % 32 = b.toNat % 32) {i : Nat} (hi : i < 5) :
    a.getLsbD i = b.getLsbD i := by
  have h1 : a.toNat.testBit i = b.toNat.testBit i := by
    have := congrArg (fun x => Nat.testBit x i) h
    have e : (32 : Nat) = 2 ^ 5 := rfl
    simp only [e, Nat.testBit_mod_two_pow, hi, decide_true, Bool.true_and] at this
    exact this
  exact h1

theorem toNat_capacity : (capacity n).toNat = 2 ^ (n + 1) := by
  unfold capacity
  rw [BitVec.toNat_shiftLeft, Nat.shiftLeft_eq]
  have h1 : (1#(n + 6)).toNat = 1 := by
    simp
  rw [h1, Nat.one_mul, show n + 6 - 5 = n + 1 by omega]
  exact Nat.mod_eq_of_lt (Nat.pow_lt_pow_right (by omega) (by omega))

theorem toNat_capacity_sub : (capacity n - 1).toNat = 2 ^ (n + 1) - 1 := by
  have hp : 0 < 2 ^ (n + 1) := Nat.pos_of_ne_zero (by simp)
  have h2 : 2 ^ (n + 1) < 2 ^ (n + 6) := Nat.pow_lt_pow_right (by omega) (by omega)
  have h1 : (1 : Word n).toNat = 1 := by
    show (BitVec.ofNat (n + 6) 1).toNat = 1
    simp
  rw [BitVec.toNat_sub_of_le, toNat_capacity, h1]
  rw [BitVec.le_def, toNat_capacity, h1]
  omega

theorem toNat_shift5 (p : Word n) (h : p.toNat < 2 ^ (n + 1)) : (p <<< 5).toNat = p.toNat * 32 := by
  rw [BitVec.toNat_shiftLeft, Nat.shiftLeft_eq]
  have e : 2 ^ (n + 6) = 32 * 2 ^ (n + 1) := by rw [show n + 6 = (n + 1) + 5 from rfl, Nat.pow_add]; omega
  exact Nat.mod_eq_of_lt (by omega)

theorem lt_capacity {p : Word n} : ¬ capacity n - 1 < p ↔ p.toNat < 2 ^ (n + 1) := by
  rw [BitVec.lt_def, toNat_capacity_sub]
  have hp : 0 < 2 ^ (n + 1) := Nat.pos_of_ne_zero (by simp)
  omega

theorem pow_split : 2 ^ (n + 6) = 32 * 2 ^ (n + 1) := by
  rw [show n + 6 = (n + 1) + 5 from rfl, Nat.pow_add]; omega

/-- When the addition overflows. -/
theorem checkedAdd_isNone (st p : Word n) (h : p.toNat < 2 ^ (n + 1)) :
    (checkedAdd st (p <<< 5)).isNone = decide (2 ^ (n + 1) ≤ cnt st + p.toNat) := by
  unfold checkedAdd
  rw [toNat_shift5 p h, cnt_eq, pow_split]
  have := st.isLt
  rw [pow_split] at this
  by_cases hlt : st.toNat + p.toNat * 32 < 32 * 2 ^ (n + 1)
  · rw [if_pos hlt]; simp; omega
  · rw [if_neg hlt]; simp; omega

theorem checkedAdd_eq {st q r : Word n} (h : checkedAdd st q = some r) : r.toNat = st.toNat + q.toNat := by
  unfold checkedAdd at h
  split at h
  · simp at h
    subst h
    rw [BitVec.toNat_add]
    exact Nat.mod_eq_of_lt (by assumption)
  · simp at h

/-- The counter after `send`. -/
theorem cnt_addWord (st p : Word n) (h : p.toNat < 2 ^ (n + 1)) :
    cnt (addWord st (p <<< 5)) = if 2 ^ (n + 1) ≤ cnt st + p.toNat then cnt st else cnt st + p.toNat := by
  have hn := checkedAdd_isNone st p h
  unfold addWord
  cases hc : checkedAdd st (p <<< 5) with
  | none =>
    rw [hc] at hn
    simp at hn
    rw [if_pos hn]
    rfl
  | some r =>
    rw [hc] at hn
    simp at hn
    rw [if_neg (by omega)]
    simp only [Option.getD_some]
    have := checkedAdd_eq hc
    rw [toNat_shift5 p h] at this
    rw [cnt_eq, cnt_eq, this]
    omega

/-- `send` does not touch the flags. -/
theorem has_addWord (st p : Word n) (h : p.toNat < 2 ^ (n + 1)) {i : Nat} (hi : i < 5) :
    has (addWord st (p <<< 5)) (flag (n + 6) i) = has st (flag (n + 6) i) := by
  rw [has_flag, has_flag]
  unfold addWord
  cases hc : checkedAdd st (p <<< 5) with
  | none => rfl
  | some r =>
    have := checkedAdd_eq hc
    rw [toNat_shift5 p h] at this
    exact getLsbD_mod (by simp only [Option.getD_some]; omega) hi

theorem toNat_satArg (p : Word n) : (satArg p).toNat = 32 * min p.toNat (2 ^ (n + 1) - 1) := by
  unfold satArg
  have hp : 0 < 2 ^ (n + 1) := Nat.pos_of_ne_zero (by simp)
  split
  · rename_i h
    have : ¬ p.toNat < 2 ^ (n + 1) := fun hh => lt_capacity.2 hh h
    rw [toNat_shift5 _ (by rw [toNat_capacity_sub]; omega), toNat_capacity_sub]
    omega
  · rename_i h
    have := lt_capacity.1 h
    rw [toNat_shift5 _ this]
    omega

theorem toNat_or_full (st : Word n) :
    (st ||| (capacity n - 1) <<< 5).toNat = 32 * (2 ^ (n + 1) - 1) + st.toNat % 32 := by
  have hp : 0 < 2 ^ (n + 1) := Nat.pos_of_ne_zero (by simp)
  rw [BitVec.toNat_or, toNat_shift5 _ (by rw [toNat_capacity_sub]; omega), toNat_capacity_sub]
  apply Nat.eq_of_testBit_eq
  intro i
  have hst := st.isLt
  rw [Nat.testBit_or]
  have e1 : (2 ^ (n + 1) - 1) * 32 = 2 ^ 5 * (2 ^ (n + 1) - 1) + 0 := by omega
  have e2 : 32 * (2 ^ (n + 1) - 1) + st.toNat % 32 = 2 ^ 5 * (2 ^ (n + 1) - 1) + st.toNat % 32 := by omega
  rw [e1, e2, Nat.testBit_two_pow_mul_add _ (by omega), Nat.testBit_two_pow_mul_add _ (by omega)]
  by_cases hi : i < 5
  · simp only [hi, if_true]
    have : (32 : Nat) = 2 ^ 5 := rfl
    rw [this, Nat.testBit_mod_two_pow]
    simp [hi]
  · simp only [hi, if_false, Nat.testBit_two_pow_sub_one]
    by_cases h2 : i - 5 < n + 1
    · simp [h2]
    · have : st.toNat.testBit i = false := Nat.testBit_lt_two_pow (Nat.lt_of_lt_of_le hst (Nat.pow_le_pow_right (by omega) (by omega)))
      simp [h2, this]

/-- The counter after `saturating_send`. -/
theorem cnt_satWord (st p : Word n) :
    cnt (satWord st (satArg p)) = min (cnt st + p.toNat) (2 ^ (n + 1) - 1) := by
  have hp : 0 < 2 ^ (n + 1) := Nat.pos_of_ne_zero (by simp)
  have hlt := cnt_lt st
  have hst := st.isLt
  rw [pow_split] at hst
  unfold satWord
  cases hc : checkedAdd st (satArg p) with
  | none =>
    have hn : ¬ st.toNat + (satArg p).toNat < 2 ^ (n + 6) := by
      intro hh
      simp [checkedAdd, hh] at hc
    rw [toNat_satArg, pow_split] at hn
    simp only [Option.getD_none]
    rw [cnt_eq, toNat_or_full]
    rw [cnt_eq] at hlt ⊢
    omega
  | some r =>
    have := checkedAdd_eq hc
    have hr := cnt_lt r
    rw [toNat_satArg] at this
    simp only [Option.getD_some]
    rw [cnt_eq] at hlt hr ⊢
    rw [cnt_eq]
    omega

/-- `saturating_send` does not touch the flags. -/
theorem has_satWord (st p : Word n) {i : Nat} (hi : i < 5) :
    has (satWord st (satArg p)) (flag (n + 6) i) = has st (flag (n + 6) i) := by
  rw [has_flag, has_flag]
  unfold satWord
  cases hc : checkedAdd st (satArg p) with
  | none =>
    refine getLsbD_mod ?_ hi
    simp only [Option.getD_none]
    rw [toNat_or_full]
    omega
  | some r =>
    have := checkedAdd_eq hc
    rw [toNat_satArg] at this
    exact getLsbD_mod (by simp only [Option.getD_some]; omega) hi

/-- Setting a flag does not touch the counter. -/
theorem cnt_or_flag (st : Word n) {i : Nat} (hi : i < 5) : cnt (st ||| flag (n + 6) i) = cnt st := by
  unfold cnt
  rw [BitVec.ushiftRight_or_distrib]
  have : flag (n + 6) i >>> 5 = 0#(n + 6) := by
    apply BitVec.eq_of_getLsbD_eq
    intro j hj
    rw [BitVec.getLsbD_ushiftRight, getLsbD_flag]
    have : ¬ i = 5 + j := by omega
    simp [this]
  rw [this, BitVec.or_zero]

theorem getLsbD_mask (j : Nat) : (1#(n + 6) <<< 5 - 1).getLsbD j = decide (j < 5) := by
  have h : (1#(n + 6) <<< 5 - 1).toNat = 2 ^ 5 - 1 := by
    have h1 : (1#(n + 6) <<< 5).toNat = 32 := by
      rw [BitVec.toNat_shiftLeft, Nat.shiftLeft_eq]
      have h1 : (1#(n + 6)).toNat = 1 := by simp
      rw [h1, pow_split]
      have : 0 < 2 ^ n := Nat.pos_of_ne_zero (by simp)
      rw [Nat.pow_succ]
      exact Nat.mod_eq_of_lt (by omega)
    have h2 : (1 : Word n).toNat = 1 := by
      show (BitVec.ofNat (n + 6) 1).toNat = 1
      simp
    rw [BitVec.toNat_sub_of_le, h1, h2]
    rw [BitVec.le_def, h1, h2]
    omega
  show Nat.testBit _ _ = _
  rw [h, Nat.testBit_two_pow_sub_one]

/-- Taking the count. -/
theorem cnt_takeWord (st : Word n) : cnt (takeWord st) = 0 := by
  unfold cnt takeWord
  have : (st &&& (1#(n + 6) <<< 5 - 1) &&& ~~~ERR n) >>> 5 = 0#(n + 6) := by
    apply BitVec.eq_of_getLsbD_eq
    intro j hj
    rw [BitVec.getLsbD_ushiftRight, BitVec.getLsbD_and, BitVec.getLsbD_and, getLsbD_mask]
    have : ¬ 5 + j < 5 := by omega
    simp [this]
  rw [this]
  rfl

theorem has_takeWord (st : Word n) {i : Nat} (hi : i < 5) :
    has (takeWord st) (flag (n + 6) i) = (has st (flag (n + 6) i) && !decide (i = 2)) := by
  rw [has_flag, has_flag]
  unfold takeWord ERR
  rw [BitVec.getLsbD_and, BitVec.getLsbD_and, getLsbD_mask, BitVec.getLsbD_not, getLsbD_flag]
  have h6 : i < n + 6 := by omega
  have h2 : 2 < n + 6 := by omega
  simp only [hi, h6, h2, decide_true, Bool.and_true, Bool.true_and]
  by_cases he : i = 2 <;> simp [he, eq_comm]

/-! ### For rewriting -/

section
variable (st : Word n)
theorem cnt_TX : cnt (st ||| TX n) = cnt st := cnt_or_flag st (by omega)
theorem cnt_RX : cnt (st ||| RX n) = cnt st := cnt_or_flag st (by omega)
theorem cnt_ERR : cnt (st ||| ERR n) = cnt st := cnt_or_flag st (by omega)
theorem cnt_CLOSED : cnt (st ||| CLOSED n) = cnt st := cnt_or_flag st (by omega)
theorem cnt_HALF : cnt (st ||| HALF n) = cnt st := cnt_or_flag st (by omega)
theorem cnt_zero_or : cnt (st ||| 0#(n + 6)) = cnt st := by rw [BitVec.or_zero]
theorem has_TX_TX : has (TX n) (TX n) = true := by unfold TX; rw [has_flag_flag _ _ (by omega)]; simp
theorem has_TX_RX : has (TX n) (RX n) = false := by unfold TX RX; rw [has_flag_flag _ _ (by omega)]; simp
theorem has_TX_ERR : has (TX n) (ERR n) = false := by unfold TX ERR; rw [has_flag_flag _ _ (by omega)]; simp
theorem has_TX_CLOSED : has (TX n) (CLOSED n) = false := by unfold TX CLOSED; rw [has_flag_flag _ _ (by omega)]; simp
theorem has_TX_HALF : has (TX n) (HALF n) = false := by unfold TX HALF; rw [has_flag_flag _ _ (by omega)]; simp
theorem has_RX_TX : has (RX n) (TX n) = false := by unfold TX RX; rw [has_flag_flag _ _ (by omega)]; simp
theorem has_RX_RX : has (RX n) (RX n) = true := by unfold RX; rw [has_flag_flag _ _ (by omega)]; simp
theorem has_RX_ERR : has (RX n) (ERR n) = false := by unfold RX ERR; rw [has_flag_flag _ _ (by omega)]; simp
theorem has_RX_CLOSED : has (RX n) (CLOSED n) = false := by unfold RX CLOSED; rw [has_flag_flag _ _ (by omega)]; simp
theorem has_RX_HALF : has (RX n) (HALF n) = false := by unfold RX HALF; rw [has_flag_flag _ _ (by omega)]; simp
theorem has_ERR_TX : has (ERR n) (TX n) = false := by unfold TX ERR; rw [has_flag_flag _ _ (by omega)]; simp
theorem has_ERR_RX : has (ERR n) (RX n) = false := by unfold ERR RX; rw [has_flag_flag _ _ (by omega)]; simp
theorem has_ERR_ERR : has (ERR n) (ERR n) = true := by unfold ERR; rw [has_flag_flag _ _ (by omega)]; simp
theorem has_ERR_CLOSED : has (ERR n) (CLOSED n) = false := by unfold ERR CLOSED; rw [has_flag_flag _ _ (by omega)]; simp
theorem has_ERR_HALF : has (ERR n) (HALF n) = false := by unfold ERR HALF; rw [has_flag_flag _ _ (by omega)]; simp
theorem has_CLOSED_TX : has (CLOSED n) (TX n) = false := by unfold TX CLOSED; rw [has_flag_flag _ _ (by omega)]; simp
theorem has_CLOSED_RX : has (CLOSED n) (RX n) = false := by unfold CLOSED RX; rw [has_flag_flag _ _ (by omega)]; simp
theorem has_CLOSED_ERR : has (CLOSED n) (ERR n) = false := by unfold CLOSED ERR; rw [has_flag_flag _ _ (by omega)]; simp
theorem has_CLOSED_CLOSED : has (CLOSED n) (CLOSED n) = true := by unfold CLOSED; rw [has_flag_flag _ _ (by omega)]; simp
theorem has_CLOSED_HALF : has (CLOSED n) (HALF n) = false := by unfold CLOSED HALF; rw [has_flag_flag _ _ (by omega)]; simp
theorem has_HALF_TX : has (HALF n) (TX n) = false := by unfold TX HALF; rw [has_flag_flag _ _ (by omega)]; simp
theorem has_HALF_RX : has (HALF n) (RX n) = false := by unfold HALF RX; rw [has_flag_flag _ _ (by omega)]; simp
theorem has_HALF_ERR : has (HALF n) (ERR n) = false := by unfold HALF ERR; rw [has_flag_flag _ _ (by omega)]; simp
theorem has_HALF_CLOSED : has (HALF n) (CLOSED n) = false := by unfold HALF CLOSED; rw [has_flag_flag _ _ (by omega)]; simp
theorem has_HALF_HALF : has (HALF n) (HALF n) = true := by unfold HALF; rw [has_flag_flag _ _ (by omega)]; simp
theorem has_take_TX : has (takeWord st) (TX n) = has st (TX n) := by unfold TX; rw [has_takeWord _ (by omega)]; simp
theorem has_take_RX : has (takeWord st) (RX n) = has st (RX n) := by unfold RX; rw [has_takeWord _ (by omega)]; simp
theorem has_take_ERR : has (takeWord st) (ERR n) = false := by unfold ERR; rw [has_takeWord _ (by omega)]; simp
theorem has_take_CLOSED : has (takeWord st) (CLOSED n) = has st (CLOSED n) := by
  unfold CLOSED; rw [has_takeWord _ (by omega)]; simp
theorem has_take_HALF : has (takeWord st) (HALF n) = has st (HALF n) := by
  unfold HALF; rw [has_takeWord _ (by omega)]; simp
end

/-- Everything about the flags. -/
macro "flag_simp" : tactic => `(tactic| try simp only [has_or, has_zero, has_ite, has_TX_TX, has_TX_RX, has_TX_ERR, has_TX_CLOSED, has_TX_HALF, has_RX_TX, has_RX_RX, has_RX_ERR, has_RX_CLOSED, has_RX_HALF, has_ERR_TX, has_ERR_RX, has_ERR_ERR, has_ERR_CLOSED, has_ERR_HALF, has_CLOSED_TX, has_CLOSED_RX, has_CLOSED_ERR, has_CLOSED_CLOSED, has_CLOSED_HALF, has_HALF_TX, has_HALF_RX, has_HALF_ERR, has_HALF_CLOSED, has_HALF_HALF, has_take_TX, has_take_RX, has_take_ERR, has_take_CLOSED, has_take_HALF, Bool.or_false, Bool.or_true, Bool.false_or, Bool.true_or])

end Verif.Pulse
