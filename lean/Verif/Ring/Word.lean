import Verif.Ring.Model
/-! # Arithmetic of the ring state word -/
namespace Verif.Ring

open Verif.Spsc

variable {k : Nat}

theorem has_or {w : Nat} (s m j : BitVec w) : has (s ||| m) j = (has s j || has m j) := by
  unfold has
  have : (s ||| m) &&& j = (s &&& j) ||| (m &&& j) := BitVec.and_or_distrib_right
  rw [this, Bool.eq_iff_iff]
  simp only [bne_iff_ne, ne_eq, Bool.or_eq_true, BitVec.or_eq_zero_iff]
  exact ⟨fun h => by
    by_cases h1 : s &&& j = 0#w
    · exact Or.inr (fun h2 => h ⟨h1, h2⟩)
    · exact Or.inl h1, fun h ⟨h1, h2⟩ => h.elim (fun h => h h1) (fun h => h h2)⟩

theorem has_zero {w : Nat} (j : BitVec w) : has 0#w j = false := by
  simp [has]

theorem has_ite {w : Nat} (c : Bool) (a b j : BitVec w) :
    has (if c = true then a else b) j = if c = true then has a j else has b j := by
  cases c <;> rfl

theorem has_flag_flag (i j : Nat) (hi : i < 2 * k + 6) :
    has (flag (2 * k + 6) i) (flag (2 * k + 6) j) = decide (i = j) := by
  rw [has_flag, getLsbD_flag]; simp [hi]

theorem has_andNot (st : Word k) {i j : Nat} (hi : i < 2 * k + 6) (hj : j < 2 * k + 6) :
    has (st &&& ~~~flag (2 * k + 6) i) (flag (2 * k + 6) j) = (has st (flag (2 * k + 6) j) && !decide (i = j)) := by
  rw [has_flag, has_flag, BitVec.getLsbD_and, BitVec.getLsbD_not, getLsbD_flag]
  simp [hi, hj]

theorem pow_split : 2 ^ (2 * k + 6) = 64 * 2 ^ k * 2 ^ k := by
  rw [show 2 * k + 6 = k + k + 6 by omega, Nat.pow_add, Nat.pow_add]
  rw [Nat.mul_comm, Nat.mul_assoc]

theorem pow_pos' : 0 < 2 ^ k := Nat.pos_of_ne_zero (by simp)

theorem len_eq (st : Word k) : len st = st.toNat / (64 * 2 ^ k) := by
  unfold len
  rw [BitVec.toNat_ushiftRight, Nat.shiftRight_eq_div_pow, Nat.pow_add]

theorem toNat_mask : (1#(2 * k + 6) <<< k - 1#(2 * k + 6)).toNat = 2 ^ k - 1 := by
  have hlt : 2 ^ k < 2 ^ (2 * k + 6) := Nat.pow_lt_pow_right (by omega) (by omega)
  have h1 : (1#(2 * k + 6)).toNat = 1 := by simp
  have h2 : (1#(2 * k + 6)).toNat = 1 := h1
  have h3 : (1#(2 * k + 6) <<< k).toNat = 2 ^ k := by
    rw [BitVec.toNat_shiftLeft, Nat.shiftLeft_eq, h1, Nat.one_mul]
    exact Nat.mod_eq_of_lt hlt
  have := pow_pos' (k := k)
  rw [BitVec.toNat_sub_of_le, h3, h2]
  rw [BitVec.le_def, h3, h2]
  omega

theorem cur_eq (st : Word k) : cur st = st.toNat / 64 % 2 ^ k := by
  unfold cur
  rw [BitVec.toNat_and, toNat_mask, BitVec.toNat_ushiftRight, Nat.shiftRight_eq_div_pow,
    Nat.and_two_pow_sub_one_eq_mod]

theorem len_lt (st : Word k) : len st < 2 ^ k := by
  rw [len_eq]
  have := st.isLt
  rw [pow_split] at this
  exact Nat.div_lt_of_lt_mul this

theorem cur_lt (st : Word k) : cur st < 2 ^ k := by
  rw [cur_eq]
  exact Nat.mod_lt _ pow_pos'

/-- Length and cursor depend only on the upper bits. -/
theorem lc_congr {a b : Word k} (h : ∀ j, 6 ≤ j → a.getLsbD j = b.getLsbD j) : len a = len b ∧ cur a = cur b := by
  constructor
  · unfold len
    congr 1
    apply BitVec.eq_of_getLsbD_eq
    intro j _
    rw [BitVec.getLsbD_ushiftRight, BitVec.getLsbD_ushiftRight]
    exact h _ (by omega)
  · unfold cur
    congr 2
    apply BitVec.eq_of_getLsbD_eq
    intro j _
    rw [BitVec.getLsbD_ushiftRight, BitVec.getLsbD_ushiftRight]
    exact h _ (by omega)

/-- The flags depend only on the residue. -/
theorem getLsbD_mod {a b : Word k} (h : a.toNat % 64 = b.toNat % 64) {i : Nat} (hi : i < 6) :
    a.getLsbD i = b.getLsbD i := by
  have h1 : a.toNat.testBit i = b.toNat.testBit i := by
    have := congrArg (fun x => Nat.testBit x i) h
    have e : (64 : Nat) = 2 ^ 6 := rfl
    simp only [e, Nat.testBit_mod_two_pow, hi, decide_true, Bool.true_and] at this
    exact this
  exact h1

theorem len_or_flag (st : Word k) {i : Nat} (hi : i < 6) : len (st ||| flag (2 * k + 6) i) = len st :=
  (lc_congr fun j hj => by
    rw [BitVec.getLsbD_or, getLsbD_flag]
    have : ¬ i = j := by omega
    simp [this]).1

theorem cur_or_flag (st : Word k) {i : Nat} (hi : i < 6) : cur (st ||| flag (2 * k + 6) i) = cur st :=
  (lc_congr fun j hj => by
    rw [BitVec.getLsbD_or, getLsbD_flag]
    have : ¬ i = j := by omega
    simp [this]).2

theorem andNot_bit (st : Word k) {i j : Nat} (hi : i < 6) (hj : 6 ≤ j) :
    (st &&& ~~~flag (2 * k + 6) i).getLsbD j = st.getLsbD j := by
  rw [BitVec.getLsbD_and, BitVec.getLsbD_not, getLsbD_flag]
  have : ¬ i = j := by omega
  by_cases hw : j < 2 * k + 6
  · simp [this, hw]
  · have := BitVec.getLsbD_of_ge st j (by omega)
    simp [this]

theorem len_andNot_flag (st : Word k) {i : Nat} (hi : i < 6) : len (st &&& ~~~flag (2 * k + 6) i) = len st :=
  (lc_congr fun _ hj => andNot_bit st hi hj).1

theorem cur_andNot_flag (st : Word k) {i : Nat} (hi : i < 6) : cur (st &&& ~~~flag (2 * k + 6) i) = cur st :=
  (lc_congr fun _ hj => andNot_bit st hi hj).2

/-! ### `claim_next` -/

theorem addCursor_lt {c a cap : Nat} (hc : c < cap) (ha : a ≤ cap) : addCursor c a cap < cap := by
  unfold addCursor; split <;> omega

theorem toNat_low (st : Word k) : (st &&& (1#(2 * k + 6) <<< 6 - 1#(2 * k + 6))).toNat = st.toNat % 64 := by
  have h1 : (1#(2 * k + 6)).toNat = 1 := by simp
  have hm : (1#(2 * k + 6) <<< 6 - 1#(2 * k + 6)).toNat = (2 ^ 6 - 1) % 2 ^ (2 * k + 6) := by
    have h2 : (1#(2 * k + 6)).toNat = 1 := h1
    by_cases hk : k = 0
    · subst hk; decide
    · have hlt : 2 ^ 6 < 2 ^ (2 * k + 6) := Nat.pow_lt_pow_right (by omega) (by omega)
      have h3 : (1#(2 * k + 6) <<< 6).toNat = 2 ^ 6 := by
        rw [BitVec.toNat_shiftLeft, Nat.shiftLeft_eq, h1, Nat.one_mul]
        exact Nat.mod_eq_of_lt hlt
      rw [BitVec.toNat_sub_of_le, h3, h2]
      · exact (Nat.mod_eq_of_lt (by omega)).symm
      · rw [BitVec.le_def, h3, h2]; omega
  have hle : 2 ^ 6 ≤ 2 ^ (2 * k + 6) := Nat.pow_le_pow_right (by omega) (by omega)
  rw [BitVec.toNat_and, hm, Nat.mod_eq_of_lt (by omega), Nat.and_two_pow_sub_one_eq_mod]

theorem toNat_claimNext {cap : Nat} {st : Word k} {l : Nat} (hcap : cap ≤ 2 ^ k) (hc : cur st < cap) (h1 : 1 ≤ cap)
    (hl : l - 1 < 2 ^ k) :
    (claimNext cap st l).toNat = (l - 1) * (64 * 2 ^ k) + (addCursor (cur st) 1 cap * 64 + st.toNat % 64) := by
  have hp := pow_pos' (k := k)
  have ha := addCursor_lt hc h1
  have e6 : (64 : Nat) = 2 ^ 6 := rfl
  have hA : addCursor (cur st) 1 cap < 2 ^ k := by omega
  have hB : (2 : Nat) ^ k ≤ 2 ^ (2 * k + 6) := Nat.pow_le_pow_right (by omega) (by omega)
  have t1 : (BitVec.ofNat (2 * k + 6) (addCursor (cur st) 1 cap) <<< 6).toNat = addCursor (cur st) 1 cap <<< 6 := by
    rw [BitVec.toNat_shiftLeft, BitVec.toNat_ofNat, Nat.mod_eq_of_lt (a := addCursor (cur st) 1 cap) (by omega)]
    apply Nat.mod_eq_of_lt
    rw [Nat.shiftLeft_eq, pow_split, ← e6]
    have : addCursor (cur st) 1 cap * 64 < 64 * 2 ^ k := by omega
    exact Nat.lt_of_lt_of_le this (Nat.le_mul_of_pos_right _ hp)
  have t2 : (BitVec.ofNat (2 * k + 6) (l - 1) <<< (6 + k)).toNat = (l - 1) <<< (6 + k) := by
    rw [BitVec.toNat_shiftLeft, BitVec.toNat_ofNat, Nat.mod_eq_of_lt (a := l - 1) (by omega)]
    apply Nat.mod_eq_of_lt
    rw [Nat.shiftLeft_eq, pow_split, Nat.pow_add, ← e6, Nat.mul_comm]
    exact Nat.mul_lt_mul_of_pos_left hl (by omega)
  unfold claimNext
  rw [BitVec.toNat_or, BitVec.toNat_or, toNat_low, t1, t2]
  have s1 : st.toNat % 64 ||| addCursor (cur st) 1 cap <<< 6 = addCursor (cur st) 1 cap * 64 + st.toNat % 64 := by
    rw [Nat.or_comm, ← Nat.shiftLeft_add_eq_or_of_lt (by omega), Nat.shiftLeft_eq]
  have s2 : addCursor (cur st) 1 cap * 64 + st.toNat % 64 < 2 ^ (6 + k) := by
    rw [Nat.pow_add]; omega
  rw [s1, Nat.or_comm, ← Nat.shiftLeft_add_eq_or_of_lt s2, Nat.shiftLeft_eq, Nat.pow_add]

theorem len_claimNext {cap : Nat} {st : Word k} {l : Nat} (hcap : cap ≤ 2 ^ k) (hc : cur st < cap)
    (hl : l - 1 < 2 ^ k) : len (claimNext cap st l) = l - 1 := by
  have ha := addCursor_lt hc (show 1 ≤ cap by omega)
  rw [len_eq, toNat_claimNext hcap hc (by omega) hl]
  rw [Nat.mul_comm, Nat.mul_add_div (by have := pow_pos' (k := k); omega), Nat.div_eq_of_lt (by omega), Nat.add_zero]

theorem cur_claimNext {cap : Nat} {st : Word k} {l : Nat} (hcap : cap ≤ 2 ^ k) (hc : cur st < cap)
    (hl : l - 1 < 2 ^ k) : cur (claimNext cap st l) = addCursor (cur st) 1 cap := by
  have ha := addCursor_lt hc (show 1 ≤ cap by omega)
  rw [cur_eq, toNat_claimNext hcap hc (by omega) hl]
  have : ((l - 1) * (64 * 2 ^ k) + (addCursor (cur st) 1 cap * 64 + st.toNat % 64)) / 64
      = (l - 1) * 2 ^ k + addCursor (cur st) 1 cap := by
    rw [show (l - 1) * (64 * 2 ^ k) = (l - 1) * 2 ^ k * 64 by rw [Nat.mul_assoc, Nat.mul_comm 64]]
    omega
  rw [this, Nat.mul_add_mod_of_lt' (by omega)]
where
  Nat.mul_add_mod_of_lt' {a b c : Nat} (h : c < b) : (a * b + c) % b = c := by
    rw [Nat.mul_comm, Nat.mul_add_mod]; exact Nat.mod_eq_of_lt h

theorem has_claimNext (cap : Nat) (st : Word k) (l : Nat) {i : Nat} (hi : i < 6) :
    has (claimNext cap st l) (flag (2 * k + 6) i) = has st (flag (2 * k + 6) i) := by
  rw [has_flag, has_flag]
  unfold claimNext
  have hw : i < 2 * k + 6 := by omega
  have hm : (st &&& (1#(2 * k + 6) <<< 6 - 1#(2 * k + 6))).getLsbD i = st.getLsbD i :=
    getLsbD_mod (by rw [toNat_low]; omega) hi
  rw [BitVec.getLsbD_or, BitVec.getLsbD_or, hm, BitVec.getLsbD_shiftLeft, BitVec.getLsbD_shiftLeft]
  have h2 : i < 6 + k := by omega
  simp [hi, h2]

/-! ### `add_length` -/

theorem toNat_unit : (1#(2 * k + 6) <<< (6 + k)).toNat = (64 * 2 ^ k) % 2 ^ (2 * k + 6) := by
  have h1 : (1#(2 * k + 6)).toNat = 1 := by simp
  rw [BitVec.toNat_shiftLeft, Nat.shiftLeft_eq, h1, Nat.one_mul, Nat.pow_add]

theorem toNat_add {st : Word k} (hl : len st + 1 < 2 ^ k) :
    (st + 1#(2 * k + 6) <<< (6 + k)).toNat = st.toNat + 64 * 2 ^ k := by
  rw [len_eq] at hl
  have hp := pow_pos' (k := k)
  have h0 : st.toNat < (st.toNat / (64 * 2 ^ k) + 1) * (64 * 2 ^ k) := by
    have := Nat.div_add_mod st.toNat (64 * 2 ^ k)
    have := Nat.mod_lt st.toNat (show 64 * 2 ^ k > 0 by omega)
    rw [Nat.add_mul, Nat.mul_comm (st.toNat / _)]
    omega
  have h2 : (st.toNat / (64 * 2 ^ k) + 1 + 1) * (64 * 2 ^ k) ≤ 2 ^ (2 * k + 6) := by
    rw [pow_split, Nat.mul_comm]
    exact Nat.mul_le_mul_left _ hl
  rw [Nat.add_mul (st.toNat / (64 * 2 ^ k) + 1)] at h2
  rw [BitVec.toNat_add, toNat_unit, Nat.mod_eq_of_lt (a := 64 * 2 ^ k) (by omega)]
  exact Nat.mod_eq_of_lt (by omega)

theorem len_addLength {st : Word k} (hl : len st + 1 < 2 ^ k) :
    len (addLength st) = if has st (CLOSED k) then len st else len st + 1 := by
  unfold addLength
  cases has st (CLOSED k) with
  | true => rfl
  | false =>
    simp only [Bool.not_false, if_true, Bool.false_eq_true, if_false]
    rw [len_eq, len_eq, toNat_add hl]
    have := pow_pos' (k := k)
    exact Nat.add_div_right _ (by omega)

theorem cur_addLength {st : Word k} (hl : len st + 1 < 2 ^ k) : cur (addLength st) = cur st := by
  unfold addLength
  split
  · rw [cur_eq, cur_eq, toNat_add hl]
    have : (st.toNat + 64 * 2 ^ k) / 64 = st.toNat / 64 + 2 ^ k := by omega
    rw [this, Nat.add_mod_right]
  · rfl

/-- Without room for the length the word wraps around: the length becomes zero. -/
theorem addLength_wraps {st : Word k} (hk : 0 < k) (hl : len st + 1 = 2 ^ k) (ho : has st (CLOSED k) = false) :
    len (addLength st) = 0 ∧ cur (addLength st) = cur st := by
  have hp := pow_pos' (k := k)
  have h2 : 2 ≤ 2 ^ k := by
    have : 2 ^ 1 ≤ 2 ^ k := Nat.pow_le_pow_right (by omega) (by omega)
    omega
  rw [len_eq] at hl
  have hst := st.isLt
  have hdm := Nat.div_add_mod st.toNat (64 * 2 ^ k)
  have hml := Nat.mod_lt st.toNat (show 64 * 2 ^ k > 0 by omega)
  have e : 64 * 2 ^ k * (st.toNat / (64 * 2 ^ k)) + 64 * 2 ^ k = 2 ^ (2 * k + 6) := by
    have := congrArg (fun x => 64 * 2 ^ k * x) hl
    simp only [Nat.mul_add, Nat.mul_one] at this
    rw [pow_split]; exact this
  have hu : 64 * 2 ^ k < 2 ^ (2 * k + 6) := by
    have : 64 * 2 ^ k * 1 ≤ 64 * 2 ^ k * (st.toNat / (64 * 2 ^ k)) := Nat.mul_le_mul_left _ (by omega)
    omega
  have t : (addLength st).toNat = st.toNat % (64 * 2 ^ k) := by
    unfold addLength
    rw [ho]
    simp only [Bool.not_false, if_true]
    rw [BitVec.toNat_add, toNat_unit, Nat.mod_eq_of_lt hu]
    have : st.toNat + 64 * 2 ^ k = 2 ^ (2 * k + 6) + st.toNat % (64 * 2 ^ k) := by omega
    rw [this, Nat.add_mod_left]
    exact Nat.mod_eq_of_lt (by omega)
  constructor
  · rw [len_eq, t, Nat.div_eq_of_lt hml]
  · rw [cur_eq, cur_eq, t]
    rw [Nat.mod_mul_right_div_self, Nat.mod_mod]

theorem has_addLength (st : Word k) {i : Nat} (hi : i < 6) :
    has (addLength st) (flag (2 * k + 6) i) = has st (flag (2 * k + 6) i) := by
  rw [has_flag, has_flag]
  unfold addLength
  split
  · refine getLsbD_mod ?_ hi
    rw [BitVec.toNat_add, toNat_unit]
    have e : 2 ^ (2 * k + 6) = 64 * (2 ^ k * 2 ^ k) := by rw [pow_split, Nat.mul_assoc]
    rw [Nat.add_mod_mod, e]
    rw [Nat.mod_mul_right_mod]
    omega
  · rfl

/-! ### `Receiver::drop` -/

theorem clearLen_bit (st : Word k) (j : Nat) :
    (clearLen st).getLsbD j = (decide (j < k + 6) && st.getLsbD j) := by
  unfold clearLen
  rw [BitVec.getLsbD_ushiftRight, BitVec.getLsbD_shiftLeft]
  by_cases h : j < k + 6
  · have h1 : k + j < 2 * k + 6 := by omega
    have h2 : k + j - k = j := by omega
    simp [h, h1, h2]
  · have h1 : ¬ k + j < 2 * k + 6 := by omega
    simp [h, h1]

theorem has_clearLen (st : Word k) {i : Nat} (hi : i < 6) :
    has (clearLen st) (flag (2 * k + 6) i) = has st (flag (2 * k + 6) i) := by
  rw [has_flag, has_flag, clearLen_bit]
  have : i < k + 6 := by omega
  simp [this]

theorem len_clearLen (st : Word k) : len (clearLen st) = 0 := by
  unfold len
  have : clearLen st >>> (6 + k) = 0#(2 * k + 6) := by
    apply BitVec.eq_of_getLsbD_eq
    intro j hj
    rw [BitVec.getLsbD_ushiftRight, clearLen_bit]
    have : ¬ 6 + k + j < k + 6 := by omega
    simp [this]
  rw [this]
  rfl

theorem cur_clearLen (st : Word k) : cur (clearLen st) = cur st := by
  unfold cur
  congr 1
  apply BitVec.eq_of_getLsbD_eq
  intro j hj
  rw [BitVec.getLsbD_and, BitVec.getLsbD_and, BitVec.getLsbD_ushiftRight, BitVec.getLsbD_ushiftRight, clearLen_bit]
  by_cases h : 6 + j < k + 6
  · simp [h]
  · have : (1#(2 * k + 6) <<< k - 1#(2 * k + 6)).getLsbD j = false := by
      show Nat.testBit _ _ = _
      rw [toNat_mask, Nat.testBit_two_pow_sub_one]
      simp; omega
    rw [this]
    simp

/-! ### For rewriting -/

theorem len_or_zero (st : Word k) : len (st ||| 0#(2 * k + 6)) = len st := by rw [BitVec.or_zero]
theorem cur_or_zero (st : Word k) : cur (st ||| 0#(2 * k + 6)) = cur st := by rw [BitVec.or_zero]
theorem len_zero : len (0#(2 * k + 6)) = 0 := by simp [len]
theorem cur_zero : cur (0#(2 * k + 6)) = 0 := by simp [cur]

theorem has_READY_READY : has (READY k) (READY k) = true := by unfold READY; rw [has_flag_flag _ _ (by omega)]; simp
theorem has_READY_FLUSH : has (READY k) (FLUSH k) = false := by unfold READY FLUSH; rw [has_flag_flag _ _ (by omega)]; simp
theorem has_READY_RX : has (READY k) (RX k) = false := by unfold READY RX; rw [has_flag_flag _ _ (by omega)]; simp
theorem has_READY_ERR : has (READY k) (ERR k) = false := by unfold READY ERR; rw [has_flag_flag _ _ (by omega)]; simp
theorem has_READY_CLOSED : has (READY k) (CLOSED k) = false := by unfold READY CLOSED; rw [has_flag_flag _ _ (by omega)]; simp
theorem has_READY_HALF : has (READY k) (HALF k) = false := by unfold READY HALF; rw [has_flag_flag _ _ (by omega)]; simp
theorem has_FLUSH_READY : has (FLUSH k) (READY k) = false := by unfold FLUSH READY; rw [has_flag_flag _ _ (by omega)]; simp
theorem has_FLUSH_FLUSH : has (FLUSH k) (FLUSH k) = true := by unfold FLUSH; rw [has_flag_flag _ _ (by omega)]; simp
theorem has_FLUSH_RX : has (FLUSH k) (RX k) = false := by unfold FLUSH RX; rw [has_flag_flag _ _ (by omega)]; simp
theorem has_FLUSH_ERR : has (FLUSH k) (ERR k) = false := by unfold FLUSH ERR; rw [has_flag_flag _ _ (by omega)]; simp
theorem has_FLUSH_CLOSED : has (FLUSH k) (CLOSED k) = false := by unfold FLUSH CLOSED; rw [has_flag_flag _ _ (by omega)]; simp
theorem has_FLUSH_HALF : has (FLUSH k) (HALF k) = false := by unfold FLUSH HALF; rw [has_flag_flag _ _ (by omega)]; simp
theorem has_RX_READY : has (RX k) (READY k) = false := by unfold RX READY; rw [has_flag_flag _ _ (by omega)]; simp
theorem has_RX_FLUSH : has (RX k) (FLUSH k) = false := by unfold RX FLUSH; rw [has_flag_flag _ _ (by omega)]; simp
theorem has_RX_RX : has (RX k) (RX k) = true := by unfold RX; rw [has_flag_flag _ _ (by omega)]; simp
theorem has_RX_ERR : has (RX k) (ERR k) = false := by unfold RX ERR; rw [has_flag_flag _ _ (by omega)]; simp
theorem has_RX_CLOSED : has (RX k) (CLOSED k) = false := by unfold RX CLOSED; rw [has_flag_flag _ _ (by omega)]; simp
theorem has_RX_HALF : has (RX k) (HALF k) = false := by unfold RX HALF; rw [has_flag_flag _ _ (by omega)]; simp
theorem has_ERR_READY : has (ERR k) (READY k) = false := by unfold ERR READY; rw [has_flag_flag _ _ (by omega)]; simp
theorem has_ERR_FLUSH : has (ERR k) (FLUSH k) = false := by unfold ERR FLUSH; rw [has_flag_flag _ _ (by omega)]; simp
theorem has_ERR_RX : has (ERR k) (RX k) = false := by unfold ERR RX; rw [has_flag_flag _ _ (by omega)]; simp
theorem has_ERR_ERR : has (ERR k) (ERR k) = true := by unfold ERR; rw [has_flag_flag _ _ (by omega)]; simp
theorem has_ERR_CLOSED : has (ERR k) (CLOSED k) = false := by unfold ERR CLOSED; rw [has_flag_flag _ _ (by omega)]; simp
theorem has_ERR_HALF : has (ERR k) (HALF k) = false := by unfold ERR HALF; rw [has_flag_flag _ _ (by omega)]; simp
theorem has_CLOSED_READY : has (CLOSED k) (READY k) = false := by unfold CLOSED READY; rw [has_flag_flag _ _ (by omega)]; simp
theorem has_CLOSED_FLUSH : has (CLOSED k) (FLUSH k) = false := by unfold CLOSED FLUSH; rw [has_flag_flag _ _ (by omega)]; simp
theorem has_CLOSED_RX : has (CLOSED k) (RX k) = false := by unfold CLOSED RX; rw [has_flag_flag _ _ (by omega)]; simp
theorem has_CLOSED_ERR : has (CLOSED k) (ERR k) = false := by unfold CLOSED ERR; rw [has_flag_flag _ _ (by omega)]; simp
theorem has_CLOSED_CLOSED : has (CLOSED k) (CLOSED k) = true := by unfold CLOSED; rw [has_flag_flag _ _ (by omega)]; simp
theorem has_CLOSED_HALF : has (CLOSED k) (HALF k) = false := by unfold CLOSED HALF; rw [has_flag_flag _ _ (by omega)]; simp
theorem has_HALF_READY : has (HALF k) (READY k) = false := by unfold HALF READY; rw [has_flag_flag _ _ (by omega)]; simp
theorem has_HALF_FLUSH : has (HALF k) (FLUSH k) = false := by unfold HALF FLUSH; rw [has_flag_flag _ _ (by omega)]; simp
theorem has_HALF_RX : has (HALF k) (RX k) = false := by unfold HALF RX; rw [has_flag_flag _ _ (by omega)]; simp
theorem has_HALF_ERR : has (HALF k) (ERR k) = false := by unfold HALF ERR; rw [has_flag_flag _ _ (by omega)]; simp
theorem has_HALF_CLOSED : has (HALF k) (CLOSED k) = false := by unfold HALF CLOSED; rw [has_flag_flag _ _ (by omega)]; simp
theorem has_HALF_HALF : has (HALF k) (HALF k) = true := by unfold HALF; rw [has_flag_flag _ _ (by omega)]; simp
theorem has_not_READY_READY (st : Word k) : has (st &&& ~~~READY k) (READY k) = false := by unfold READY; rw [has_andNot _ (by omega) (by omega)]; simp
theorem has_not_READY_FLUSH (st : Word k) : has (st &&& ~~~READY k) (FLUSH k) = has st (FLUSH k) := by unfold READY FLUSH; rw [has_andNot _ (by omega) (by omega)]; simp
theorem has_not_READY_RX (st : Word k) : has (st &&& ~~~READY k) (RX k) = has st (RX k) := by unfold READY RX; rw [has_andNot _ (by omega) (by omega)]; simp
theorem has_not_READY_ERR (st : Word k) : has (st &&& ~~~READY k) (ERR k) = has st (ERR k) := by unfold READY ERR; rw [has_andNot _ (by omega) (by omega)]; simp
theorem has_not_READY_CLOSED (st : Word k) : has (st &&& ~~~READY k) (CLOSED k) = has st (CLOSED k) := by unfold READY CLOSED; rw [has_andNot _ (by omega) (by omega)]; simp
theorem has_not_READY_HALF (st : Word k) : has (st &&& ~~~READY k) (HALF k) = has st (HALF k) := by unfold READY HALF; rw [has_andNot _ (by omega) (by omega)]; simp
theorem has_not_FLUSH_READY (st : Word k) : has (st &&& ~~~FLUSH k) (READY k) = has st (READY k) := by unfold FLUSH READY; rw [has_andNot _ (by omega) (by omega)]; simp
theorem has_not_FLUSH_FLUSH (st : Word k) : has (st &&& ~~~FLUSH k) (FLUSH k) = false := by unfold FLUSH; rw [has_andNot _ (by omega) (by omega)]; simp
theorem has_not_FLUSH_RX (st : Word k) : has (st &&& ~~~FLUSH k) (RX k) = has st (RX k) := by unfold FLUSH RX; rw [has_andNot _ (by omega) (by omega)]; simp
theorem has_not_FLUSH_ERR (st : Word k) : has (st &&& ~~~FLUSH k) (ERR k) = has st (ERR k) := by unfold FLUSH ERR; rw [has_andNot _ (by omega) (by omega)]; simp
theorem has_not_FLUSH_CLOSED (st : Word k) : has (st &&& ~~~FLUSH k) (CLOSED k) = has st (CLOSED k) := by unfold FLUSH CLOSED; rw [has_andNot _ (by omega) (by omega)]; simp
theorem has_not_FLUSH_HALF (st : Word k) : has (st &&& ~~~FLUSH k) (HALF k) = has st (HALF k) := by unfold FLUSH HALF; rw [has_andNot _ (by omega) (by omega)]; simp
theorem has_not_RX_READY (st : Word k) : has (st &&& ~~~RX k) (READY k) = has st (READY k) := by unfold RX READY; rw [has_andNot _ (by omega) (by omega)]; simp
theorem has_not_RX_FLUSH (st : Word k) : has (st &&& ~~~RX k) (FLUSH k) = has st (FLUSH k) := by unfold RX FLUSH; rw [has_andNot _ (by omega) (by omega)]; simp
theorem has_not_RX_RX (st : Word k) : has (st &&& ~~~RX k) (RX k) = false := by unfold RX; rw [has_andNot _ (by omega) (by omega)]; simp
theorem has_not_RX_ERR (st : Word k) : has (st &&& ~~~RX k) (ERR k) = has st (ERR k) := by unfold RX ERR; rw [has_andNot _ (by omega) (by omega)]; simp
theorem has_not_RX_CLOSED (st : Word k) : has (st &&& ~~~RX k) (CLOSED k) = has st (CLOSED k) := by unfold RX CLOSED; rw [has_andNot _ (by omega) (by omega)]; simp
theorem has_not_RX_HALF (st : Word k) : has (st &&& ~~~RX k) (HALF k) = has st (HALF k) := by unfold RX HALF; rw [has_andNot _ (by omega) (by omega)]; simp
theorem has_not_ERR_READY (st : Word k) : has (st &&& ~~~ERR k) (READY k) = has st (READY k) := by unfold ERR READY; rw [has_andNot _ (by omega) (by omega)]; simp
theorem has_not_ERR_FLUSH (st : Word k) : has (st &&& ~~~ERR k) (FLUSH k) = has st (FLUSH k) := by unfold ERR FLUSH; rw [has_andNot _ (by omega) (by omega)]; simp
theorem has_not_ERR_RX (st : Word k) : has (st &&& ~~~ERR k) (RX k) = has st (RX k) := by unfold ERR RX; rw [has_andNot _ (by omega) (by omega)]; simp
theorem has_not_ERR_ERR (st : Word k) : has (st &&& ~~~ERR k) (ERR k) = false := by unfold ERR; rw [has_andNot _ (by omega) (by omega)]; simp
theorem has_not_ERR_CLOSED (st : Word k) : has (st &&& ~~~ERR k) (CLOSED k) = has st (CLOSED k) := by unfold ERR CLOSED; rw [has_andNot _ (by omega) (by omega)]; simp
theorem has_not_ERR_HALF (st : Word k) : has (st &&& ~~~ERR k) (HALF k) = has st (HALF k) := by unfold ERR HALF; rw [has_andNot _ (by omega) (by omega)]; simp
theorem has_not_CLOSED_READY (st : Word k) : has (st &&& ~~~CLOSED k) (READY k) = has st (READY k) := by unfold CLOSED READY; rw [has_andNot _ (by omega) (by omega)]; simp
theorem has_not_CLOSED_FLUSH (st : Word k) : has (st &&& ~~~CLOSED k) (FLUSH k) = has st (FLUSH k) := by unfold CLOSED FLUSH; rw [has_andNot _ (by omega) (by omega)]; simp
theorem has_not_CLOSED_RX (st : Word k) : has (st &&& ~~~CLOSED k) (RX k) = has st (RX k) := by unfold CLOSED RX; rw [has_andNot _ (by omega) (by omega)]; simp
theorem has_not_CLOSED_ERR (st : Word k) : has (st &&& ~~~CLOSED k) (ERR k) = has st (ERR k) := by unfold CLOSED ERR; rw [has_andNot _ (by omega) (by omega)]; simp
theorem has_not_CLOSED_CLOSED (st : Word k) : has (st &&& ~~~CLOSED k) (CLOSED k) = false := by unfold CLOSED; rw [has_andNot _ (by omega) (by omega)]; simp
theorem has_not_CLOSED_HALF (st : Word k) : has (st &&& ~~~CLOSED k) (HALF k) = has st (HALF k) := by unfold CLOSED HALF; rw [has_andNot _ (by omega) (by omega)]; simp
theorem has_not_HALF_READY (st : Word k) : has (st &&& ~~~HALF k) (READY k) = has st (READY k) := by unfold HALF READY; rw [has_andNot _ (by omega) (by omega)]; simp
theorem has_not_HALF_FLUSH (st : Word k) : has (st &&& ~~~HALF k) (FLUSH k) = has st (FLUSH k) := by unfold HALF FLUSH; rw [has_andNot _ (by omega) (by omega)]; simp
theorem has_not_HALF_RX (st : Word k) : has (st &&& ~~~HALF k) (RX k) = has st (RX k) := by unfold HALF RX; rw [has_andNot _ (by omega) (by omega)]; simp
theorem has_not_HALF_ERR (st : Word k) : has (st &&& ~~~HALF k) (ERR k) = has st (ERR k) := by unfold HALF ERR; rw [has_andNot _ (by omega) (by omega)]; simp
theorem has_not_HALF_CLOSED (st : Word k) : has (st &&& ~~~HALF k) (CLOSED k) = has st (CLOSED k) := by unfold HALF CLOSED; rw [has_andNot _ (by omega) (by omega)]; simp
theorem has_not_HALF_HALF (st : Word k) : has (st &&& ~~~HALF k) (HALF k) = false := by unfold HALF; rw [has_andNot _ (by omega) (by omega)]; simp
theorem has_clearLen_READY (st : Word k) : has (clearLen st) (READY k) = has st (READY k) := by unfold READY; exact has_clearLen st (by omega)
theorem has_addLength_READY (st : Word k) : has (addLength st) (READY k) = has st (READY k) := by unfold READY; exact has_addLength st (by omega)
theorem has_claimNext_READY (cap : Nat) (st : Word k) (l : Nat) : has (claimNext cap st l) (READY k) = has st (READY k) := by unfold READY; exact has_claimNext cap st l (by omega)
theorem has_claimIfFull_READY (cap : Nat) (st : Word k) : has (claimIfFull cap st) (READY k) = has st (READY k) := by unfold claimIfFull; split <;> first | exact has_claimNext_READY .. | rfl
theorem has_claimUnlessEmpty_READY (cap : Nat) (st : Word k) : has (claimUnlessEmpty cap st) (READY k) = has st (READY k) := by unfold claimUnlessEmpty; split <;> first | exact has_claimNext_READY .. | rfl
theorem has_take_READY (cap : Nat) (st : Word k) : has (take cap st) (READY k) = has st (READY k) := by unfold take; rw [has_not_ERR_READY]; exact has_claimUnlessEmpty_READY ..
theorem has_clearLen_FLUSH (st : Word k) : has (clearLen st) (FLUSH k) = has st (FLUSH k) := by unfold FLUSH; exact has_clearLen st (by omega)
theorem has_addLength_FLUSH (st : Word k) : has (addLength st) (FLUSH k) = has st (FLUSH k) := by unfold FLUSH; exact has_addLength st (by omega)
theorem has_claimNext_FLUSH (cap : Nat) (st : Word k) (l : Nat) : has (claimNext cap st l) (FLUSH k) = has st (FLUSH k) := by unfold FLUSH; exact has_claimNext cap st l (by omega)
theorem has_claimIfFull_FLUSH (cap : Nat) (st : Word k) : has (claimIfFull cap st) (FLUSH k) = has st (FLUSH k) := by unfold claimIfFull; split <;> first | exact has_claimNext_FLUSH .. | rfl
theorem has_claimUnlessEmpty_FLUSH (cap : Nat) (st : Word k) : has (claimUnlessEmpty cap st) (FLUSH k) = has st (FLUSH k) := by unfold claimUnlessEmpty; split <;> first | exact has_claimNext_FLUSH .. | rfl
theorem has_take_FLUSH (cap : Nat) (st : Word k) : has (take cap st) (FLUSH k) = has st (FLUSH k) := by unfold take; rw [has_not_ERR_FLUSH]; exact has_claimUnlessEmpty_FLUSH ..
theorem has_clearLen_RX (st : Word k) : has (clearLen st) (RX k) = has st (RX k) := by unfold RX; exact has_clearLen st (by omega)
theorem has_addLength_RX (st : Word k) : has (addLength st) (RX k) = has st (RX k) := by unfold RX; exact has_addLength st (by omega)
theorem has_claimNext_RX (cap : Nat) (st : Word k) (l : Nat) : has (claimNext cap st l) (RX k) = has st (RX k) := by unfold RX; exact has_claimNext cap st l (by omega)
theorem has_claimIfFull_RX (cap : Nat) (st : Word k) : has (claimIfFull cap st) (RX k) = has st (RX k) := by unfold claimIfFull; split <;> first | exact has_claimNext_RX .. | rfl
theorem has_claimUnlessEmpty_RX (cap : Nat) (st : Word k) : has (claimUnlessEmpty cap st) (RX k) = has st (RX k) := by unfold claimUnlessEmpty; split <;> first | exact has_claimNext_RX .. | rfl
theorem has_take_RX (cap : Nat) (st : Word k) : has (take cap st) (RX k) = has st (RX k) := by unfold take; rw [has_not_ERR_RX]; exact has_claimUnlessEmpty_RX ..
theorem has_clearLen_ERR (st : Word k) : has (clearLen st) (ERR k) = has st (ERR k) := by unfold ERR; exact has_clearLen st (by omega)
theorem has_addLength_ERR (st : Word k) : has (addLength st) (ERR k) = has st (ERR k) := by unfold ERR; exact has_addLength st (by omega)
theorem has_claimNext_ERR (cap : Nat) (st : Word k) (l : Nat) : has (claimNext cap st l) (ERR k) = has st (ERR k) := by unfold ERR; exact has_claimNext cap st l (by omega)
theorem has_claimIfFull_ERR (cap : Nat) (st : Word k) : has (claimIfFull cap st) (ERR k) = has st (ERR k) := by unfold claimIfFull; split <;> first | exact has_claimNext_ERR .. | rfl
theorem has_claimUnlessEmpty_ERR (cap : Nat) (st : Word k) : has (claimUnlessEmpty cap st) (ERR k) = has st (ERR k) := by unfold claimUnlessEmpty; split <;> first | exact has_claimNext_ERR .. | rfl
theorem has_take_ERR (cap : Nat) (st : Word k) : has (take cap st) (ERR k) = false := by unfold take; rw [has_not_ERR_ERR]
theorem has_clearLen_CLOSED (st : Word k) : has (clearLen st) (CLOSED k) = has st (CLOSED k) := by unfold CLOSED; exact has_clearLen st (by omega)
theorem has_addLength_CLOSED (st : Word k) : has (addLength st) (CLOSED k) = has st (CLOSED k) := by unfold CLOSED; exact has_addLength st (by omega)
theorem has_claimNext_CLOSED (cap : Nat) (st : Word k) (l : Nat) : has (claimNext cap st l) (CLOSED k) = has st (CLOSED k) := by unfold CLOSED; exact has_claimNext cap st l (by omega)
theorem has_claimIfFull_CLOSED (cap : Nat) (st : Word k) : has (claimIfFull cap st) (CLOSED k) = has st (CLOSED k) := by unfold claimIfFull; split <;> first | exact has_claimNext_CLOSED .. | rfl
theorem has_claimUnlessEmpty_CLOSED (cap : Nat) (st : Word k) : has (claimUnlessEmpty cap st) (CLOSED k) = has st (CLOSED k) := by unfold claimUnlessEmpty; split <;> first | exact has_claimNext_CLOSED .. | rfl
theorem has_take_CLOSED (cap : Nat) (st : Word k) : has (take cap st) (CLOSED k) = has st (CLOSED k) := by unfold take; rw [has_not_ERR_CLOSED]; exact has_claimUnlessEmpty_CLOSED ..
theorem has_clearLen_HALF (st : Word k) : has (clearLen st) (HALF k) = has st (HALF k) := by unfold HALF; exact has_clearLen st (by omega)
theorem has_addLength_HALF (st : Word k) : has (addLength st) (HALF k) = has st (HALF k) := by unfold HALF; exact has_addLength st (by omega)
theorem has_claimNext_HALF (cap : Nat) (st : Word k) (l : Nat) : has (claimNext cap st l) (HALF k) = has st (HALF k) := by unfold HALF; exact has_claimNext cap st l (by omega)
theorem has_claimIfFull_HALF (cap : Nat) (st : Word k) : has (claimIfFull cap st) (HALF k) = has st (HALF k) := by unfold claimIfFull; split <;> first | exact has_claimNext_HALF .. | rfl
theorem has_claimUnlessEmpty_HALF (cap : Nat) (st : Word k) : has (claimUnlessEmpty cap st) (HALF k) = has st (HALF k) := by unfold claimUnlessEmpty; split <;> first | exact has_claimNext_HALF .. | rfl
theorem has_take_HALF (cap : Nat) (st : Word k) : has (take cap st) (HALF k) = has st (HALF k) := by unfold take; rw [has_not_ERR_HALF]; exact has_claimUnlessEmpty_HALF ..
theorem len_or_READY (st : Word k) : len (st ||| READY k) = len st := len_or_flag st (by omega)
theorem len_not_READY (st : Word k) : len (st &&& ~~~READY k) = len st := len_andNot_flag st (by omega)
theorem len_or_FLUSH (st : Word k) : len (st ||| FLUSH k) = len st := len_or_flag st (by omega)
theorem len_not_FLUSH (st : Word k) : len (st &&& ~~~FLUSH k) = len st := len_andNot_flag st (by omega)
theorem len_or_RX (st : Word k) : len (st ||| RX k) = len st := len_or_flag st (by omega)
theorem len_not_RX (st : Word k) : len (st &&& ~~~RX k) = len st := len_andNot_flag st (by omega)
theorem len_or_ERR (st : Word k) : len (st ||| ERR k) = len st := len_or_flag st (by omega)
theorem len_not_ERR (st : Word k) : len (st &&& ~~~ERR k) = len st := len_andNot_flag st (by omega)
theorem len_or_CLOSED (st : Word k) : len (st ||| CLOSED k) = len st := len_or_flag st (by omega)
theorem len_not_CLOSED (st : Word k) : len (st &&& ~~~CLOSED k) = len st := len_andNot_flag st (by omega)
theorem len_or_HALF (st : Word k) : len (st ||| HALF k) = len st := len_or_flag st (by omega)
theorem len_not_HALF (st : Word k) : len (st &&& ~~~HALF k) = len st := len_andNot_flag st (by omega)
theorem cur_or_READY (st : Word k) : cur (st ||| READY k) = cur st := cur_or_flag st (by omega)
theorem cur_not_READY (st : Word k) : cur (st &&& ~~~READY k) = cur st := cur_andNot_flag st (by omega)
theorem cur_or_FLUSH (st : Word k) : cur (st ||| FLUSH k) = cur st := cur_or_flag st (by omega)
theorem cur_not_FLUSH (st : Word k) : cur (st &&& ~~~FLUSH k) = cur st := cur_andNot_flag st (by omega)
theorem cur_or_RX (st : Word k) : cur (st ||| RX k) = cur st := cur_or_flag st (by omega)
theorem cur_not_RX (st : Word k) : cur (st &&& ~~~RX k) = cur st := cur_andNot_flag st (by omega)
theorem cur_or_ERR (st : Word k) : cur (st ||| ERR k) = cur st := cur_or_flag st (by omega)
theorem cur_not_ERR (st : Word k) : cur (st &&& ~~~ERR k) = cur st := cur_andNot_flag st (by omega)
theorem cur_or_CLOSED (st : Word k) : cur (st ||| CLOSED k) = cur st := cur_or_flag st (by omega)
theorem cur_not_CLOSED (st : Word k) : cur (st &&& ~~~CLOSED k) = cur st := cur_andNot_flag st (by omega)
theorem cur_or_HALF (st : Word k) : cur (st ||| HALF k) = cur st := cur_or_flag st (by omega)
theorem cur_not_HALF (st : Word k) : cur (st &&& ~~~HALF k) = cur st := cur_andNot_flag st (by omega)

theorem len_or_ite (st a b : Word k) (c : Bool) :
    len (st ||| (if c = true then a else b)) = if c = true then len (st ||| a) else len (st ||| b) := by cases c <;> rfl
theorem cur_or_ite (st a b : Word k) (c : Bool) :
    cur (st ||| (if c = true then a else b)) = if c = true then cur (st ||| a) else cur (st ||| b) := by cases c <;> rfl
theorem len_setKind (κ : Kind) (st : Word k) : len (setKind κ st) = len st := by
  cases κ <;> simp only [setKind, len_or_READY, len_or_FLUSH, len_not_READY, len_not_FLUSH]
theorem cur_setKind (κ : Kind) (st : Word k) : cur (setKind κ st) = cur st := by
  cases κ <;> simp only [setKind, cur_or_READY, cur_or_FLUSH, cur_not_READY, cur_not_FLUSH]
theorem hasWaker_setKind (κ : Kind) (st : Word k) : hasWaker (setKind κ st) = true := by
  cases κ <;> simp [setKind, hasWaker, has_or, has_READY_READY, has_FLUSH_FLUSH, has_READY_FLUSH, has_FLUSH_READY]
theorem hasKind_setKind (κ : Kind) (st : Word k) : hasKind κ (setKind κ st) = true := by
  cases κ <;> simp [setKind, hasKind, has_or, has_READY_READY, has_FLUSH_FLUSH, has_READY_FLUSH, has_FLUSH_READY,
    has_not_READY_READY, has_not_FLUSH_FLUSH]
theorem has_setKind_RX (κ : Kind) (st : Word k) : has (setKind κ st) (RX k) = has st (RX k) := by
  cases κ <;> simp [setKind, has_or, has_READY_RX, has_FLUSH_RX, has_not_READY_RX, has_not_FLUSH_RX]
theorem has_setKind_ERR (κ : Kind) (st : Word k) : has (setKind κ st) (ERR k) = has st (ERR k) := by
  cases κ <;> simp [setKind, has_or, has_READY_ERR, has_FLUSH_ERR, has_not_READY_ERR, has_not_FLUSH_ERR]
theorem has_setKind_CLOSED (κ : Kind) (st : Word k) : has (setKind κ st) (CLOSED k) = has st (CLOSED k) := by
  cases κ <;> simp [setKind, has_or, has_READY_CLOSED, has_FLUSH_CLOSED, has_not_READY_CLOSED, has_not_FLUSH_CLOSED]
theorem has_setKind_HALF (κ : Kind) (st : Word k) : has (setKind κ st) (HALF k) = has st (HALF k) := by
  cases κ <;> simp [setKind, has_or, has_READY_HALF, has_FLUSH_HALF, has_not_READY_HALF, has_not_FLUSH_HALF]
theorem hasWaker_or (a b : Word k) : hasWaker (a ||| b) = (hasWaker a || hasWaker b) := by
  simp only [hasWaker, has_or]
  cases has a (READY k) <;> cases has b (READY k) <;> cases has a (FLUSH k) <;> cases has b (FLUSH k) <;> rfl
theorem hasWaker_READY : hasWaker (READY k) = true := by simp [hasWaker, has_READY_READY]
theorem hasWaker_FLUSH : hasWaker (FLUSH k) = true := by simp [hasWaker, has_FLUSH_FLUSH]
theorem hasWaker_RX : hasWaker (RX k) = false := by simp [hasWaker, has_RX_READY, has_RX_FLUSH]
theorem hasWaker_ERR : hasWaker (ERR k) = false := by simp [hasWaker, has_ERR_READY, has_ERR_FLUSH]
theorem hasWaker_CLOSED : hasWaker (CLOSED k) = false := by simp [hasWaker, has_CLOSED_READY, has_CLOSED_FLUSH]
theorem hasWaker_HALF : hasWaker (HALF k) = false := by simp [hasWaker, has_HALF_READY, has_HALF_FLUSH]
theorem hasWaker_zero : hasWaker (0#(2 * k + 6)) = false := by simp [hasWaker, has_zero]
theorem hasWaker_ite (c : Bool) (a b : Word k) :
    hasWaker (if c = true then a else b) = if c = true then hasWaker a else hasWaker b := by cases c <;> rfl
theorem hasWaker_take (cap : Nat) (st : Word k) : hasWaker (take cap st) = hasWaker st := by
  simp [hasWaker, has_take_READY, has_take_FLUSH]
theorem hasWaker_clearLen (st : Word k) : hasWaker (clearLen st) = hasWaker st := by
  simp [hasWaker, has_clearLen_READY, has_clearLen_FLUSH]
theorem hasWaker_addLength (st : Word k) : hasWaker (addLength st) = hasWaker st := by
  simp [hasWaker, has_addLength_READY, has_addLength_FLUSH]
theorem hasWaker_claimIfFull (cap : Nat) (st : Word k) : hasWaker (claimIfFull cap st) = hasWaker st := by
  simp [hasWaker, has_claimIfFull_READY, has_claimIfFull_FLUSH]
theorem hasKind_hasWaker {κ : Kind} {st : Word k} (h : hasKind κ st = true) : hasWaker st = true := by
  cases κ <;> simp [hasKind, hasWaker] at * <;> simp [h]
theorem shouldWake_hasWaker {cap : Nat} {st : Word k} (h : shouldWake cap st = true) : hasWaker st = true := by
  unfold shouldWake at h
  split at h
  · exact hasKind_hasWaker (by assumption)
  · split at h
    · exact hasKind_hasWaker (by assumption)
    · simp at h

/-- Taking a value. -/
theorem len_take {cap : Nat} {st : Word k} (hcap : cap ≤ 2 ^ k) (hc : cur st < cap) : len (take cap st) = len st - 1 := by
  unfold take
  rw [len_not_ERR]
  unfold claimUnlessEmpty
  have := len_lt st
  split
  · exact len_claimNext hcap hc (by omega)
  · omega
theorem cur_take {cap : Nat} {st : Word k} (hcap : cap ≤ 2 ^ k) (hc : cur st < cap) :
    cur (take cap st) = if 0 < len st then addCursor (cur st) 1 cap else cur st := by
  unfold take
  rw [cur_not_ERR]
  unfold claimUnlessEmpty
  have := len_lt st
  split
  · exact cur_claimNext hcap hc (by omega)
  · rfl
theorem len_claimIfFull {cap : Nat} {st : Word k} (hcap : cap ≤ 2 ^ k) (hc : cur st < cap) :
    len (claimIfFull cap st) = if !has st (CLOSED k) && len st == cap then len st - 1 else len st := by
  unfold claimIfFull
  have := len_lt st
  split
  · exact len_claimNext hcap hc (by omega)
  · rfl
theorem cur_claimIfFull {cap : Nat} {st : Word k} (hcap : cap ≤ 2 ^ k) (hc : cur st < cap) :
    cur (claimIfFull cap st) = if !has st (CLOSED k) && len st == cap then addCursor (cur st) 1 cap else cur st := by
  unfold claimIfFull
  have := len_lt st
  split
  · exact cur_claimNext hcap hc (by omega)
  · rfl

/-- Everything about the flags. -/
macro "flag_simp" : tactic => `(tactic| try simp only [has_or, has_zero, has_ite, has_setKind_RX, has_setKind_ERR, has_setKind_CLOSED, has_setKind_HALF, hasWaker_setKind, hasKind_setKind, hasWaker_or, hasWaker_READY, hasWaker_FLUSH, hasWaker_RX, hasWaker_ERR, hasWaker_CLOSED, hasWaker_HALF, hasWaker_zero, hasWaker_ite, hasWaker_take, hasWaker_clearLen, hasWaker_addLength, hasWaker_claimIfFull, has_READY_READY, has_READY_FLUSH, has_READY_RX, has_READY_ERR, has_READY_CLOSED, has_READY_HALF, has_FLUSH_READY, has_FLUSH_FLUSH, has_FLUSH_RX, has_FLUSH_ERR, has_FLUSH_CLOSED, has_FLUSH_HALF, has_RX_READY, has_RX_FLUSH, has_RX_RX, has_RX_ERR, has_RX_CLOSED, has_RX_HALF, has_ERR_READY, has_ERR_FLUSH, has_ERR_RX, has_ERR_ERR, has_ERR_CLOSED, has_ERR_HALF, has_CLOSED_READY, has_CLOSED_FLUSH, has_CLOSED_RX, has_CLOSED_ERR, has_CLOSED_CLOSED, has_CLOSED_HALF, has_HALF_READY, has_HALF_FLUSH, has_HALF_RX, has_HALF_ERR, has_HALF_CLOSED, has_HALF_HALF, has_not_READY_READY, has_not_READY_FLUSH, has_not_READY_RX, has_not_READY_ERR, has_not_READY_CLOSED, has_not_READY_HALF, has_not_FLUSH_READY, has_not_FLUSH_FLUSH, has_not_FLUSH_RX, has_not_FLUSH_ERR, has_not_FLUSH_CLOSED, has_not_FLUSH_HALF, has_not_RX_READY, has_not_RX_FLUSH, has_not_RX_RX, has_not_RX_ERR, has_not_RX_CLOSED, has_not_RX_HALF, has_not_ERR_READY, has_not_ERR_FLUSH, has_not_ERR_RX, has_not_ERR_ERR, has_not_ERR_CLOSED, has_not_ERR_HALF, has_not_CLOSED_READY, has_not_CLOSED_FLUSH, has_not_CLOSED_RX, has_not_CLOSED_ERR, has_not_CLOSED_CLOSED, has_not_CLOSED_HALF, has_not_HALF_READY, has_not_HALF_FLUSH, has_not_HALF_RX, has_not_HALF_ERR, has_not_HALF_CLOSED, has_not_HALF_HALF, has_clearLen_READY, has_addLength_READY, has_claimIfFull_READY, has_take_READY, has_clearLen_FLUSH, has_addLength_FLUSH, has_claimIfFull_FLUSH, has_take_FLUSH, has_clearLen_RX, has_addLength_RX, has_claimIfFull_RX, has_take_RX, has_clearLen_ERR, has_addLength_ERR, has_claimIfFull_ERR, has_take_ERR, has_clearLen_CLOSED, has_addLength_CLOSED, has_claimIfFull_CLOSED, has_take_CLOSED, has_clearLen_HALF, has_addLength_HALF, has_claimIfFull_HALF, has_take_HALF, Bool.or_false, Bool.or_true, Bool.false_or, Bool.true_or])

/-- Length and cursor under changes of flags. -/
macro "lc_simp" : tactic => `(tactic| try simp only [len_or_ite, cur_or_ite, len_or_zero, cur_or_zero, len_setKind, cur_setKind, len_or_READY, len_not_READY, len_or_FLUSH, len_not_FLUSH, len_or_RX, len_not_RX, len_or_ERR, len_not_ERR, len_or_CLOSED, len_not_CLOSED, len_or_HALF, len_not_HALF, cur_or_READY, cur_not_READY, cur_or_FLUSH, cur_not_FLUSH, cur_or_RX, cur_not_RX, cur_or_ERR, cur_not_ERR, cur_or_CLOSED, cur_not_CLOSED, cur_or_HALF, cur_not_HALF])

end Verif.Ring
