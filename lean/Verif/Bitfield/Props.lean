import Verif.Bitfield.Lemmas
/-!
# Properties C01–C03 (register fields)
-/
namespace Verif.Bitfield

/-- **C01.** For a field inside the word: writing never panics; reading it back
never panics and returns the written value modulo `2^width`; all bits outside
the field keep their value; a read returns the number held in the field; and a
full-word write replaces the whole word. -/
theorem C01_field_roundtrip {n : Nat} (x v : BitVec n) (offset width : Nat)
    (ho : offset < n) (hw : offset + width ≤ n) :
    ∃ y r r0, writeBits x offset width v = some y ∧
      readBits y offset width = some r ∧ r.toNat = v.toNat % 2 ^ width ∧
      (∀ i, i < offset ∨ offset + width ≤ i → y.getLsbD i = x.getLsbD i) ∧
      readBits x offset width = some r0 ∧ r0.toNat = x.toNat / 2 ^ offset % 2 ^ width ∧
      (width = n → y = v) := by
  obtain ⟨y, hy⟩ := writeBits_isSome x v ho hw
  obtain ⟨r, hr⟩ := readBits_isSome y ho hw
  obtain ⟨r0, hr0⟩ := readBits_isSome x ho hw
  refine ⟨y, r, r0, hy, hr, ?_, ?_, hr0, ?_, ?_⟩
  · rw [readBits_toNat ho hw hr, fieldVal_writeBits ho hw hy]
  · intro i hi
    rw [getLsbD_writeBits ho hw hy, if_neg (by omega)]
  · rw [readBits_toNat ho hw hr0]; rfl
  · intro e
    simp only [writeBits, e, if_true, Option.some.injEq] at hy
    exact hy.symm

example : (4 < 32 ∧ 4 + 5 ≤ 32) ∧
    writeBits (0xFFFFFFFF#32) 4 5 (0x12#32) = some (0xFFFFFF2F#32) ∧
    readBits (0xFFFFFF2F#32) 4 5 = some (0x12#32) := by decide

/-- **C01**, boundary of the documented precondition ("`offset + width` must not
exceed the integer size"): an empty field right behind the last bit meets the
documented precondition but panics (shift overflow). -/
theorem C01_empty_field_at_end_panics (n : Nat) (hn : 0 < n) (x v : BitVec n) :
    readBits x n 0 = none ∧ writeBits x n 0 v = none := by
  have h0 : ¬ 0 = n := by omega
  constructor
  · simp [readBits, h0, shr]
  · simp only [writeBits, h0, if_false, bitMask_eq hn]
    simp [shl]

example : readBits (5#8) 8 0 = none := by decide

/-- **C02.** Single-bit operations: none panics for an in-range position, each
has its effect on the bit read afterwards, and no other bit changes. -/
theorem C02_bit_ops {n : Nat} (x : BitVec n) (offset : Nat) (bit : Bool) (ho : offset < n) :
    ∃ old s c t w, readBit x offset = some old ∧
      setBit x offset = some s ∧ clearBit x offset = some c ∧
      toggleBit x offset = some t ∧ writeBit x offset bit = some w ∧
      readBit s offset = some true ∧ readBit c offset = some false ∧
      readBit t offset = some (!old) ∧ readBit w offset = some bit ∧
      old = x.getLsbD offset ∧
      ∀ other, other < n → other ≠ offset →
        readBit s other = readBit x other ∧ readBit c other = readBit x other ∧
        readBit t other = readBit x other ∧ readBit w other = readBit x other := by
  obtain ⟨s, hs⟩ := FieldOp.apply_isSome x (.set offset) ⟨ho, ho⟩
  obtain ⟨c, hc⟩ := FieldOp.apply_isSome x (.clear offset) ⟨ho, ho⟩
  obtain ⟨t, ht⟩ := FieldOp.apply_isSome x (.toggle offset) ⟨ho, ho⟩
  obtain ⟨w, hw⟩ := FieldOp.apply_isSome x (.writeBit offset bit) ⟨ho, ho⟩
  simp only [FieldOp.apply] at hs hc ht hw
  refine ⟨x.getLsbD offset, s, c, t, w, readBit_eq x ho, hs, hc, ht, hw, ?_, ?_, ?_, ?_, rfl, ?_⟩
  · rw [readBit_eq s ho, getLsbD_setBit ho hs]; simp
  · rw [readBit_eq c ho, getLsbD_clearBit ho hc]; simp
  · rw [readBit_eq t ho, getLsbD_toggleBit ho ht]; simp
  · rw [readBit_eq w ho, getLsbD_writeBit ho hw]; simp
  · intro k hk hne
    rw [readBit_eq _ hk, readBit_eq _ hk, readBit_eq _ hk, readBit_eq _ hk, readBit_eq _ hk,
      getLsbD_setBit ho hs, getLsbD_clearBit ho hc, getLsbD_toggleBit ho ht,
      getLsbD_writeBit ho hw]
    simp [hne]

example : setBit (0x10#8) 3 = some (0x18#8) ∧ toggleBit (0x18#8) 3 = some (0x10#8) ∧
    readBit (0x18#8) 3 = some true := by decide

/-- **C03.** A chain of field operations (`modify`) whose fields are in range
and, relative to field `f`, either equal to `f` or disjoint from it: the chain
does not panic, and reading `f` afterwards gives the last value written to `f`
(or its old value), regardless of the other operations. -/
theorem C03_last_write_wins {n : Nat} (mem : BitVec n) (ops : List (FieldOp n)) (f : Nat × Nat)
    (hf : InRange n f) (hr : ∀ op ∈ ops, InRange n op.field)
    (hd : ∀ op ∈ ops, op.field = f ∨ Disjoint op.field f) :
    ∃ mem' r, modify mem ops = some mem' ∧ readBits mem' f.1 f.2 = some r ∧
      r.toNat = expected f (mem.toNat / 2 ^ f.1 % 2 ^ f.2) ops := by
  obtain ⟨y, hy, hv⟩ := applyAll_spec f ops mem hr hd
  obtain ⟨r, hr'⟩ := readBits_isSome y hf.1 hf.2
  exact ⟨y, r, hy, hr', by rw [readBits_toNat hf.1 hf.2 hr', hv]; rfl⟩

/-- **C03** for `store`: fields not written by the closure hold the *reset*
value, whatever the register contained. -/
theorem C03_store_from_reset {n : Nat} (reset mem : BitVec n) (ops : List (FieldOp n))
    (f : Nat × Nat) (hf : InRange n f) (hr : ∀ op ∈ ops, InRange n op.field)
    (hd : ∀ op ∈ ops, op.field = f ∨ Disjoint op.field f) :
    ∃ mem' r, store reset mem ops = some mem' ∧ readBits mem' f.1 f.2 = some r ∧
      r.toNat = expected f (reset.toNat / 2 ^ f.1 % 2 ^ f.2) ops := by
  obtain ⟨y, hy, hv⟩ := applyAll_spec f ops reset hr hd
  obtain ⟨r, hr'⟩ := readBits_isSome y hf.1 hf.2
  exact ⟨y, r, hy, hr', by rw [readBits_toNat hf.1 hf.2 hr', hv]; rfl⟩

/-- Non-vacuity of C03: three disjoint fields of a 32-bit word. -/
example :
    let ops : List (FieldOp 32) :=
      [.writeBits 4 8 0xAB#32, .set 0, .writeBits 12 20 0x54321#32, .toggle 0, .writeBits 4 8 0x1CD#32]
    InRange 32 (4, 8) ∧ (∀ op ∈ ops, InRange 32 op.field) ∧
    (∀ op ∈ ops, op.field = (4, 8) ∨ Disjoint op.field (4, 8)) ∧
    expected (4, 8) 0 ops = 0xCD ∧ modify (0#32) ops = some (0x54321CD0#32) := by decide

end Verif.Bitfield
