import Verif.Soft.Spec
/-! # Lemmas: bits of the pending array -/
namespace Verif.Soft

theorem getLsbD_one_shift {i j : Nat} (h : j < 32) : (1#32 <<< i).getLsbD j = decide (j = i) := by
  simp only [BitVec.getLsbD_shiftLeft, h, decide_true, Bool.true_and, BitVec.getLsbD_one]
  by_cases e : j < i
  · simp [e]; omega
  · simp only [e, decide_false, Bool.not_false, Bool.true_and]
    by_cases e' : j = i
    · simp [e']
    · simp [e']; omega

theorem and_bit_ne {x : U32} {i : Nat} (h : i < 32) : (x &&& 1#32 <<< i ≠ 0) ↔ x.getLsbD i = true := by
  constructor
  · intro hn
    cases hx : x.getLsbD i
    · exfalso; apply hn
      ext j hj
      simp only [BitVec.getElem_and, BitVec.getElem_shiftLeft]
      by_cases e : j = i
      · subst e
        rw [BitVec.getLsbD_eq_getElem hj] at hx
        simp [hx]
      · by_cases e' : j < i
        · simp [e']
        · have : ¬ (j - i = 0) := by omega
          simp [e', BitVec.getElem_one, this]
    · rfl
  · intro hx hn
    have := congrArg (fun y => y.getLsbD i) hn
    simp only [BitVec.getLsbD_and, hx, getLsbD_one_shift h, decide_true, Bool.and_self] at this
    simp at this

theorem getLsbD_or_bit {x : U32} {i j : Nat} (h : j < 32) : (x ||| 1#32 <<< i).getLsbD j = (x.getLsbD j || decide (j = i)) := by
  rw [BitVec.getLsbD_or, getLsbD_one_shift h]

theorem getLsbD_andnot_bit {x : U32} {i j : Nat} (h : j < 32) : (x &&& ~~~(1#32 <<< i)).getLsbD j = (x.getLsbD j && decide (j ≠ i)) := by
  rw [BitVec.getLsbD_and, BitVec.getLsbD_not, getLsbD_one_shift h]
  simp [h]

/-- The recorded level is determined by the upper bits. -/
theorem cur_congr {x y : U32} (h : ∀ j, 27 ≤ j → j < 32 → x.getLsbD j = y.getLsbD j) : (x >>> 27).toNat = (y >>> 27).toNat := by
  congr 1
  ext j hj
  simp only [BitVec.getElem_ushiftRight]
  by_cases e : 27 + j < 32
  · exact h _ (by omega) e
  · rw [BitVec.getLsbD_of_ge _ _ (by omega), BitVec.getLsbD_of_ge _ _ (by omega)]

theorem cur_or_bit {x : U32} {i : Nat} (h : i < 27) : ((x ||| 1#32 <<< i) >>> 27).toNat = (x >>> 27).toNat := by
  refine cur_congr fun j h1 h2 => ?_
  rw [getLsbD_or_bit h2]
  simp; omega

theorem cur_andnot_bit {x : U32} {i : Nat} (h : i < 27) : ((x &&& ~~~(1#32 <<< i)) >>> 27).toNat = (x >>> 27).toNat := by
  refine cur_congr fun j h1 h2 => ?_
  rw [getLsbD_andnot_bit h2]
  simp; omega

theorem lvl_setPriority {x : U32} {p i : Nat} (h : i < 27) : (setPriority x p).getLsbD i = x.getLsbD i := by
  simp only [setPriority, levels, BitVec.getLsbD_or, BitVec.getLsbD_and, BitVec.getLsbD_not, BitVec.getLsbD_shiftLeft]
  have : i < 32 := by omega
  simp [h, this]

theorem cur_setPriority {x : U32} {p : Nat} (h : p < 32) : (setPriority x p >>> 27).toNat = p := by
  have : (setPriority x p >>> 27) = BitVec.ofNat 32 p := by
    ext j hj
    simp only [setPriority, levels, BitVec.getElem_ushiftRight, BitVec.getLsbD_or, BitVec.getLsbD_and, BitVec.getLsbD_not, BitVec.getLsbD_shiftLeft]
    by_cases e : 27 + j < 32
    · have h1 : ¬ (27 + j < 27) := by omega
      have h2 : 27 + j - 27 = j := by omega
      simp only [e, h1, h2, decide_true, decide_false, Bool.not_false, Bool.true_and, BitVec.getLsbD_allOnes, hj, Bool.not_true,
        Bool.and_false, Bool.false_or]
      rw [BitVec.getLsbD_eq_getElem hj]
    · simp only [e, decide_false, Bool.false_and, Bool.and_false, Bool.false_or]
      rw [← BitVec.getLsbD_eq_getElem, BitVec.getLsbD_ofNat]
      symm
      simp only [hj, decide_true, Bool.true_and]
      apply Nat.testBit_lt_two_pow
      calc p < 32 := h
        _ = 2 ^ 5 := rfl
        _ ≤ 2 ^ j := Nat.pow_le_pow_right (by omega) (by omega)
  rw [this, BitVec.toNat_ofNat]
  omega

theorem cur_lt (x : U32) : (x >>> 27).toNat < 32 := by
  rw [BitVec.toNat_ushiftRight, Nat.shiftRight_eq_div_pow]
  have := x.isLt
  omega

/-- `cursor_find_priority`. -/
theorem findPriority_spec (c : U32) (prev : Nat) : ∀ start, prev ≤ start → start ≤ 27 →
    match findPriority c prev start with
    | (none, p) => p = prev ∧ ∀ i, prev ≤ i → i < start → c.getLsbD i = false
    | (some new, p) => prev < p ∧ p ≤ start ∧ c.getLsbD (p - 1) = true ∧ (∀ i, p ≤ i → i < start → c.getLsbD i = false) ∧
        (new >>> 27).toNat = p ∧ ∀ i, i < 27 → new.getLsbD i = (c.getLsbD i && decide (i ≠ p - 1))
  | 0, h1, _ => by
    simp only [findPriority]
    exact ⟨by omega, fun i h h' => by omega⟩
  | p + 1, h1, h2 => by
    simp only [findPriority]
    by_cases e : p + 1 = prev
    · simp only [e, ↓reduceIte]
      exact ⟨trivial, fun i h h' => by omega⟩
    · simp only [e, ↓reduceIte]
      by_cases hb : c &&& 1#32 <<< p ≠ 0
      · rw [if_pos hb]
        rw [and_bit_ne (by omega)] at hb
        refine ⟨by omega, by omega, hb, fun i h h' => by omega, ?_, ?_⟩
        · rw [cur_andnot_bit (by omega), cur_setPriority (by omega)]
        · intro i hi
          rw [getLsbD_andnot_bit (by omega), lvl_setPriority hi]
          simp
      · rw [if_neg hb]
        have hb' : c.getLsbD p = false := by
          rw [and_bit_ne (by omega)] at hb
          simpa using hb
        have ih := findPriority_spec c prev p (by omega) (by omega)
        split
        · rename_i q hq
          rw [hq] at ih
          refine ⟨ih.1, fun i h h' => ?_⟩
          by_cases e : i = p
          · rw [e]; exact hb'
          · exact ih.2 i h (by omega)
        · rename_i new q hq
          rw [hq] at ih
          obtain ⟨a1, a2, a3, a4, a5, a6⟩ := ih
          refine ⟨a1, by omega, a3, fun i h h' => ?_, a5, a6⟩
          by_cases e : i = p
          · rw [e]; exact hb'
          · exact a4 i h (by omega)

/-! ## Addresses -/

theorem rowSize_eq (count : Nat) : rowSize count = count / 32 + if count % 32 > 0 then 1 else 0 := by
  have h1 : count >>> colBits = count / 32 := by simp [colBits, Nat.shiftRight_eq_div_pow]
  have h2 : count &&& ((1 <<< colBits) - 1) = count % 32 := by
    have := Nat.and_two_pow_sub_one_eq_mod count 5
    simpa [colBits] using this
  rw [rowSize, h1, h2]

theorem cellIdx_eq (count thr p : Nat) : cellIdx count thr p = 1 + rowSize count * (26 - p) + thr / 32 := by
  simp [cellIdx, levels, colBits, Nat.shiftRight_eq_div_pow]

theorem pendingBit_eq (thr : Nat) : pendingBit thr = 1#32 <<< (thr % 32) := by
  have h2 : thr &&& ((1 <<< colBits) - 1) = thr % 32 := by
    have := Nat.and_two_pow_sub_one_eq_mod thr 5
    simpa [colBits] using this
  rw [pendingBit, h2]

theorem thr_lt_rowSize {count thr : Nat} (h : thr < count) : thr / 32 < rowSize count := by
  rw [rowSize_eq]
  split <;> omega

theorem cellIdx_lt {count thr p : Nat} (h : thr < count) (_hp : p < 27) : cellIdx count thr p < pendingSize count := by
  have := thr_lt_rowSize h
  rw [cellIdx_eq, pendingSize, levels]
  have : rowSize count * (26 - p) + rowSize count ≤ rowSize count * 27 := by
    rw [← Nat.mul_succ]
    exact Nat.mul_le_mul_left _ (by omega)
  omega

theorem cellIdx_inj {count t u p q : Nat} (ht : t < count) (hu : u < count) (hp : p < 27) (hq : q < 27)
    (h : cellIdx count t p = cellIdx count u q) : p = q ∧ t / 32 = u / 32 := by
  have a := thr_lt_rowSize ht
  have b := thr_lt_rowSize hu
  rw [cellIdx_eq, cellIdx_eq] at h
  have h' : t / 32 + rowSize count * (26 - p) = u / 32 + rowSize count * (26 - q) := by omega
  have h0 : 0 < rowSize count := by omega
  have hd := congrArg (fun x => x / rowSize count) h'
  have hm := congrArg (fun x => x % rowSize count) h'
  simp only [Nat.add_mul_div_left _ _ h0, Nat.add_mul_mod_self_left, Nat.div_eq_of_lt a, Nat.div_eq_of_lt b, Nat.mod_eq_of_lt a,
    Nat.mod_eq_of_lt b, Nat.zero_add] at hd hm
  exact ⟨by omega, hm⟩

end Verif.Soft
