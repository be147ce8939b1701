import Verif.Bitfield.Spec
namespace Verif.Bitfield

theorem bitAt_eq {n k : Nat} (h : k < n) : bitAt n k = some (BitVec.twoPow n k) := by
  simp [bitAt, maybeBitAt, shl, h, BitVec.twoPow]

theorem bitAt_none {n k : Nat} (h : ¬ k < n) : bitAt n k = none := by
  simp [bitAt, maybeBitAt, shl, h]

theorem maybeBitAt_eq {n k : Nat} (h : k < n) (b : Bool) :
    maybeBitAt n b k = some (if b then BitVec.twoPow n k else 0#n) := by
  cases b <;> simp [maybeBitAt, shl, h, BitVec.twoPow]

/-- The mask of `w` low bits. -/
def lowMask (n w : Nat) : BitVec n := BitVec.ofNat n (2 ^ w - 1)

theorem getLsbD_lowMask {n w i : Nat} :
    (lowMask n w).getLsbD i = (decide (i < w) && decide (i < n)) := by
  simp [lowMask, BitVec.getLsbD_ofNat, Nat.testBit_two_pow_sub_one, Bool.and_comm]

theorem bitMask_eq {n w : Nat} (h : w < n) : bitMask n w = some (lowMask n w) := by
  have h1 : 1 < 2 ^ n := Nat.one_lt_two_pow (by omega)
  have h2 : 2 ^ w < 2 ^ n := Nat.pow_lt_pow_right (by omega) h
  have h3 : 0 < 2 ^ w := Nat.two_pow_pos w
  simp only [bitMask, bitAt_eq h, Option.bind_eq_bind, Option.bind_some, sub]
  rw [if_pos]
  · congr 1
    apply BitVec.eq_of_toNat_eq
    simp only [lowMask, BitVec.toNat_sub, BitVec.toNat_twoPow, BitVec.toNat_ofNat,
      Nat.mod_eq_of_lt h1, Nat.mod_eq_of_lt h2]
    rw [Nat.mod_eq_of_lt (a := 2 ^ w - 1) (by omega)]
    have : 2 ^ n - 1 + 2 ^ w = (2 ^ w - 1) + 2 ^ n := by omega
    rw [this, Nat.add_mod_right, Nat.mod_eq_of_lt (by omega)]
  · simp [BitVec.toNat_twoPow, Nat.mod_eq_of_lt h1, Nat.mod_eq_of_lt h2]; omega

theorem readBit_eq {n o : Nat} (x : BitVec n) (h : o < n) :
    readBit x o = some (x.getLsbD o) := by
  simp only [readBit, bitAt_eq h, Option.bind_eq_bind, Option.bind_some, Option.pure_def]
  congr 1
  cases hb : x.getLsbD o
  · have : x &&& BitVec.twoPow n o = 0#n := by
      apply BitVec.eq_of_getLsbD_eq
      intro i hi
      simp only [BitVec.getLsbD_and, BitVec.getLsbD_twoPow, BitVec.getLsbD_zero]
      by_cases e : o = i
      · subst e; rw [hb]; rfl
      · simp [e]
    simp [this]
  · have : x &&& BitVec.twoPow n o ≠ 0#n := by
      intro h0
      have := congrArg (fun y => y.getLsbD o) h0
      simp only [BitVec.getLsbD_and, hb, BitVec.getLsbD_twoPow, BitVec.getLsbD_zero] at this
      simp [h] at this
    simpa using this

theorem getLsbD_setBit {n o i : Nat} {x y : BitVec n} (h : o < n) (hy : setBit x o = some y) :
    y.getLsbD i = if i = o then true else x.getLsbD i := by
  simp only [setBit, bitAt_eq h, Option.bind_eq_bind, Option.bind_some, Option.pure_def,
    Option.some.injEq] at hy
  subst hy
  simp only [BitVec.getLsbD_or, BitVec.getLsbD_twoPow]
  by_cases e : i = o
  · subst e; simp [h]
  · simp [e, Ne.symm e]

theorem getLsbD_clearBit {n o i : Nat} {x y : BitVec n} (h : o < n) (hy : clearBit x o = some y) :
    y.getLsbD i = if i = o then false else x.getLsbD i := by
  simp only [clearBit, bitAt_eq h, Option.bind_eq_bind, Option.bind_some, Option.pure_def,
    Option.some.injEq] at hy
  subst hy
  simp only [BitVec.getLsbD_and, BitVec.getLsbD_not, BitVec.getLsbD_twoPow]
  by_cases e : i = o
  · subst e; simp [h]
  · by_cases hi : i < n
    · simp [e, Ne.symm e, hi]
    · simp [e, hi, BitVec.getLsbD_of_ge x i (by omega)]

theorem getLsbD_toggleBit {n o i : Nat} {x y : BitVec n} (h : o < n) (hy : toggleBit x o = some y) :
    y.getLsbD i = if i = o then !x.getLsbD o else x.getLsbD i := by
  simp only [toggleBit, bitAt_eq h, Option.bind_eq_bind, Option.bind_some, Option.pure_def,
    Option.some.injEq] at hy
  subst hy
  simp only [BitVec.getLsbD_xor, BitVec.getLsbD_twoPow]
  by_cases e : i = o
  · subst e; simp [h]
  · simp [e, Ne.symm e]

theorem getLsbD_writeBit {n o i : Nat} {b : Bool} {x y : BitVec n} (h : o < n)
    (hy : writeBit x o b = some y) :
    y.getLsbD i = if i = o then b else x.getLsbD i := by
  simp only [writeBit, bitAt_eq h, maybeBitAt_eq h, Option.bind_eq_bind, Option.bind_some,
    Option.pure_def, Option.some.injEq] at hy
  subst hy
  by_cases e : i = o
  · subst e; cases b <;> simp [h]
  · by_cases hi : i < n
    · cases b <;> simp [e, Ne.symm e, hi]
    · cases b <;> simp [hi, e, Ne.symm e, BitVec.getLsbD_of_ge x i (by omega)]

theorem readBits_isSome {n o w : Nat} (x : BitVec n) (ho : o < n) (hw : o + w ≤ n) :
    ∃ r, readBits x o w = some r := by
  unfold readBits
  by_cases e : w = n
  · simp [e]
  · rw [if_neg e, bitMask_eq (show w < n by omega)]
    simp [shr, ho]

theorem getLsbD_readBits {n o w i : Nat} {x r : BitVec n} (ho : o < n) (hw : o + w ≤ n)
    (hr : readBits x o w = some r) :
    r.getLsbD i = (decide (i < w) && x.getLsbD (o + i)) := by
  unfold readBits at hr
  by_cases e : w = n
  · have : o = 0 := by omega
    subst this
    simp only [e, if_true, Option.some.injEq] at hr
    subst hr
    by_cases hi : i < n
    · simp [e, hi]
    · simp [e, hi, BitVec.getLsbD_of_ge x i (by omega)]
  · rw [if_neg e, bitMask_eq (show w < n by omega)] at hr
    simp only [shr, ho, if_true, Option.bind_eq_bind, Option.bind_some, Option.pure_def,
      Option.some.injEq] at hr
    subst hr
    simp only [BitVec.getLsbD_and, BitVec.getLsbD_ushiftRight, getLsbD_lowMask]
    by_cases hi : i < w
    · have : i < n := by omega
      simp [hi, this]
    · simp [hi]

theorem writeBits_isSome {n o w : Nat} (x v : BitVec n) (ho : o < n) (hw : o + w ≤ n) :
    ∃ y, writeBits x o w v = some y := by
  unfold writeBits
  by_cases e : w = n
  · simp [e]
  · rw [if_neg e, bitMask_eq (show w < n by omega)]
    simp [shl, ho]

theorem getLsbD_writeBits {n o w i : Nat} {x v y : BitVec n} (ho : o < n) (hw : o + w ≤ n)
    (hy : writeBits x o w v = some y) :
    y.getLsbD i = if o ≤ i ∧ i < o + w then v.getLsbD (i - o) else x.getLsbD i := by
  unfold writeBits at hy
  by_cases e : w = n
  · have : o = 0 := by omega
    subst this
    simp only [e, if_true, Option.some.injEq] at hy
    subst hy
    by_cases hi : i < n
    · simp [e, hi]
    · simp [e, hi, BitVec.getLsbD_of_ge x i (by omega), BitVec.getLsbD_of_ge v i (by omega)]
  · rw [if_neg e, bitMask_eq (show w < n by omega)] at hy
    simp only [shl, ho, if_true, Option.bind_eq_bind, Option.bind_some, Option.pure_def,
      Option.some.injEq] at hy
    subst hy
    simp only [BitVec.getLsbD_or, BitVec.getLsbD_and, BitVec.getLsbD_not, BitVec.getLsbD_shiftLeft,
      getLsbD_lowMask]
    by_cases hi : i < n
    · by_cases h1 : i < o
      · have : ¬ o ≤ i := by omega
        simp [hi, h1, this]
      · have h1' : o ≤ i := by omega
        by_cases h2 : i < o + w
        · have h3 : i - o < w := by omega
          have h4 : i - o < n := by omega
          simp [hi, h1, h1', h2, h3, h4]
        · have h3 : ¬ i - o < w := by omega
          simp [hi, h1, h2, h3]
    · have : ¬ (o ≤ i ∧ i < o + w) := by omega
      simp [hi, BitVec.getLsbD_of_ge x i (by omega)]
      intro _ _; omega

/-- `fieldVal` bitwise. -/
theorem testBit_fieldVal {n : Nat} (x : BitVec n) (o w i : Nat) :
    (fieldVal x o w).testBit i = (decide (i < w) && x.getLsbD (o + i)) := by
  simp [fieldVal, Nat.testBit_mod_two_pow, Nat.testBit_div_two_pow, BitVec.getLsbD, Nat.add_comm]

theorem readBits_toNat {n o w : Nat} {x r : BitVec n} (ho : o < n) (hw : o + w ≤ n)
    (hr : readBits x o w = some r) : r.toNat = fieldVal x o w := by
  apply Nat.eq_of_testBit_eq
  intro i
  rw [testBit_fieldVal, ← getLsbD_readBits ho hw hr]
  rfl

theorem fieldVal_congr {n : Nat} {x y : BitVec n} {o w : Nat}
    (h : ∀ i, o ≤ i → i < o + w → x.getLsbD i = y.getLsbD i) : fieldVal x o w = fieldVal y o w := by
  apply Nat.eq_of_testBit_eq
  intro i
  rw [testBit_fieldVal, testBit_fieldVal]
  by_cases hi : i < w
  · rw [h (o + i) (by omega) (by omega)]
  · simp [hi]

theorem fieldVal_one {n : Nat} (x : BitVec n) (o : Nat) :
    fieldVal x o 1 = if x.getLsbD o then 1 else 0 := by
  apply Nat.eq_of_testBit_eq
  intro i
  rw [testBit_fieldVal]
  by_cases hi : i = 0
  · subst hi; cases x.getLsbD o <;> simp
  · have : ¬ i < 1 := by omega
    obtain ⟨j, rfl⟩ : ∃ j, i = j + 1 := ⟨i - 1, by omega⟩
    cases x.getLsbD o <;> simp [Nat.testBit_succ]

theorem fieldVal_writeBits {n o w : Nat} {x v y : BitVec n} (ho : o < n) (hw : o + w ≤ n)
    (hy : writeBits x o w v = some y) : fieldVal y o w = v.toNat % 2 ^ w := by
  apply Nat.eq_of_testBit_eq
  intro i
  rw [testBit_fieldVal, Nat.testBit_mod_two_pow]
  by_cases hi : i < w
  · rw [getLsbD_writeBits ho hw hy]
    simp [hi, BitVec.getLsbD]
  · simp [hi]

/-- An operation succeeds on an in-range field. -/
theorem FieldOp.apply_isSome {n : Nat} (x : BitVec n) (op : FieldOp n) (h : InRange n op.field) :
    ∃ y, op.apply x = some y := by
  obtain ⟨h1, h2⟩ := h
  cases op <;> simp only [FieldOp.field] at h1 h2
  · simp [FieldOp.apply, setBit, bitAt_eq h1]
  · simp [FieldOp.apply, clearBit, bitAt_eq h1]
  · simp [FieldOp.apply, toggleBit, bitAt_eq h1]
  · simp [FieldOp.apply, Bitfield.writeBit, bitAt_eq h1, maybeBitAt_eq h1]
  · exact writeBits_isSome _ _ h1 h2

/-- An operation changes no bit outside its field. -/
theorem FieldOp.apply_frame {n : Nat} {x y : BitVec n} {op : FieldOp n} (h : InRange n op.field)
    (hy : op.apply x = some y) {i : Nat} (hi : i < op.field.1 ∨ op.field.1 + op.field.2 ≤ i) :
    y.getLsbD i = x.getLsbD i := by
  obtain ⟨h1, h2⟩ := h
  cases op <;> simp only [FieldOp.field] at h1 h2 hi <;> simp only [FieldOp.apply] at hy
  · rw [getLsbD_setBit h1 hy, if_neg (by omega)]
  · rw [getLsbD_clearBit h1 hy, if_neg (by omega)]
  · rw [getLsbD_toggleBit h1 hy, if_neg (by omega)]
  · rw [getLsbD_writeBit h1 hy, if_neg (by omega)]
  · rw [getLsbD_writeBits h1 h2 hy, if_neg (by omega)]

/-- An operation has its intended effect on its own field. -/
theorem FieldOp.apply_effect {n : Nat} {x y : BitVec n} {op : FieldOp n} (h : InRange n op.field)
    (hy : op.apply x = some y) :
    fieldVal y op.field.1 op.field.2 = op.effect (fieldVal x op.field.1 op.field.2) := by
  obtain ⟨h1, h2⟩ := h
  cases op <;> simp only [FieldOp.field] at h1 h2 ⊢ <;> simp only [FieldOp.apply] at hy <;>
    simp only [FieldOp.effect]
  · rw [fieldVal_one, getLsbD_setBit h1 hy]; simp
  · rw [fieldVal_one, getLsbD_clearBit h1 hy]; simp
  · rw [fieldVal_one, fieldVal_one, getLsbD_toggleBit h1 hy]; cases x.getLsbD _ <;> simp
  · rw [fieldVal_one, getLsbD_writeBit h1 hy]; simp
  · exact fieldVal_writeBits h1 h2 hy

theorem applyAll_spec {n : Nat} (f : Nat × Nat) (ops : List (FieldOp n)) :
    ∀ x : BitVec n, (∀ op ∈ ops, InRange n op.field) →
      (∀ op ∈ ops, op.field = f ∨ Disjoint op.field f) →
      ∃ y, applyAll x ops = some y ∧
        fieldVal y f.1 f.2 = expected f (fieldVal x f.1 f.2) ops := by
  induction ops with
  | nil => intro x _ _; exact ⟨x, rfl, rfl⟩
  | cons op ops ih =>
    intro x hr hd
    obtain ⟨z, hz⟩ := op.apply_isSome x (hr op (by simp))
    obtain ⟨y, hy, hv⟩ := ih z (fun o ho => hr o (by simp [ho])) (fun o ho => hd o (by simp [ho]))
    refine ⟨y, ?_, ?_⟩
    · simp [applyAll, hz, hy]
    · rw [hv]
      simp only [expected]
      congr 1
      by_cases e : op.field = f
      · rw [if_pos e, ← e]
        exact FieldOp.apply_effect (hr op (by simp)) hz
      · rw [if_neg e]
        have hd' := (hd op (by simp)).resolve_left e
        apply fieldVal_congr
        intro i h1 h2
        apply FieldOp.apply_frame (hr op (by simp)) hz
        unfold Disjoint at hd'
        omega

end Verif.Bitfield
