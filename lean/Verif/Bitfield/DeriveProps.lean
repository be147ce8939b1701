import Verif.Bitfield.DeriveLemmas
/-! # C74: `#[derive(Bitfield)]` gives a record of fields -/
namespace Verif.Bitfield.Derive

/-- **C74.** For fields within the integer that share no bits: every sequence of calls of the
methods, as documented for mode and width, compiles, does not panic, returns what a record of
independent numbers returns, leaves the fields as the record has them, and does not change bits
outside the fields. Missing: fields outside the integer, where it is false. -/
theorem C74_partial {n : Nat} (fs : List Field) (hc : compiles fs) (hr : ∀ f ∈ fs, InRange n (f.offset, f.bits))
    (hd : fs.Pairwise fun f g => Disjoint (f.offset, f.bits) (g.offset, g.bits)) (us : List (Nat × Use n))
    (x : BitVec n) (ha : ∀ p ∈ us, ∃ f, fs[p.1]? = some f ∧ p.2.allowed f) :
    ∃ y os, useWord fs x us = some (y, os) ∧ useRecord fs (recordOf fs x) us = (recordOf fs y, os) ∧
      ∀ i, (∀ f ∈ fs, i < f.offset ∨ f.offset + f.bits ≤ i) → y.getLsbD i = x.getLsbD i :=
  useWord_ok hc hr hd us x ha

/-- The example of the documentation. -/
def docFields : List Field := [⟨"foo", .readWrite, 1, some 4⟩, ⟨"bar", .readWrite, 5, some 1⟩]

example : compiles docFields ∧ (∀ f ∈ docFields, InRange 8 (f.offset, f.bits)) ∧
    docFields.Pairwise fun f g => Disjoint (f.offset, f.bits) (g.offset, g.bits) := by decide

/-- The assertions of the documentation (36–49). -/
example : useWord docFields 0b00111010#8
    [(1, .get), (1, .clear), (1, .get), (1, .set), (1, .get), (1, .toggle), (1, .get),
     (0, .get), (0, .put 0b1010#8), (0, .get)] =
    some (0b00010100#8, [some 1, none, some 0, none, some 1, none, some 0, some 0b1101, none, some 0b1010]) := by
  decide

/-- C74: the generated code compiles exactly if no two fields clash: two readable or two writable
fields of one name, or a readable field called like a method of a writable one. -/
theorem C74_compiles_iff (fs : List Field) : compiles fs ↔ fs.Pairwise fun f g => ¬ Clash f g := by
  unfold compiles accessors
  rw [List.map_flatMap]
  unfold List.Nodup
  rw [List.pairwise_flatMap]
  constructor
  · rintro ⟨-, h⟩
    refine h.imp fun {f g} h hcl => ?_
    obtain ⟨s, h1, h2⟩ := (clash_iff f g).1 hcl
    exact h s h1 s h2 rfl
  · intro h
    refine ⟨fun f _ => one_nodup f, h.imp fun {f g} h s h1 t h2 => ?_⟩
    rintro rfl
    exact h ((clash_iff f g).2 ⟨s, h1, h2⟩)

example : Clash ⟨"a", .write, 0, none⟩ ⟨"set_a", .read, 1, none⟩ := by simp [Clash, Mode.isRead, Mode.isWrite, Field.bits]
example : ¬ compiles [⟨"a", .write, 0, none⟩, ⟨"set_a", .read, 1, none⟩] := by decide

/-- C74: a field of more than one bit gives back what was written to it exactly if it lies within the
integer, or is as wide as the integer (then the offset is ignored). The macro does not check this. -/
theorem C74_range_exact {n : Nat} (o w : Nat) (hw : 0 < w) :
    (∀ x v : BitVec n, ∃ y r, writeBits x o w v = some y ∧ readBits y o w = some r ∧
      r.toNat = v.toNat % 2 ^ w) ↔ o + w ≤ n ∨ w = n := by
  constructor
  · intro h
    refine Classical.byContradiction fun hne => ?_
    have hwn : w ≠ n := fun e => hne (.inr e)
    obtain ⟨y, r, h1, h2, h3⟩ := h 0#n (BitVec.ofNat n (2 ^ w - 1))
    simp only [readBits, if_neg hwn] at h2
    by_cases hlt : w < n
    · rw [bitMask_eq hlt] at h2
      by_cases ho : o < n
      · simp only [shr, if_pos ho, Option.bind_eq_bind, Option.bind_some, Option.pure_def, Option.some.injEq] at h2
        have hpos : 0 < 2 ^ w := Nat.two_pow_pos w
        have hle : 2 ^ w ≤ 2 ^ n := Nat.pow_le_pow_right (by omega) (by omega)
        have hv : (BitVec.ofNat n (2 ^ w - 1)).toNat % 2 ^ w = 2 ^ w - 1 := by
          rw [BitVec.toNat_ofNat, Nat.mod_eq_of_lt (a := 2 ^ w - 1) (b := 2 ^ n) (by omega),
            Nat.mod_eq_of_lt (by omega)]
        have hle2 : r.toNat ≤ y.toNat / 2 ^ o := by
          rw [← h2, BitVec.toNat_and, BitVec.toNat_ushiftRight, Nat.shiftRight_eq_div_pow]
          exact Nat.and_le_left
        have hlt2 : y.toNat / 2 ^ o < 2 ^ (n - o) := by
          rw [Nat.div_lt_iff_lt_mul (Nat.two_pow_pos o), ← Nat.pow_add, Nat.sub_add_cancel (by omega)]
          exact y.isLt
        have hsm : n - o < w := by omega
        have hle3 : 2 ^ (n - o) ≤ 2 ^ (w - 1) := Nat.pow_le_pow_right (by omega) (by omega)
        have hdbl : 2 ^ w = 2 * 2 ^ (w - 1) := by
          rw [← Nat.pow_succ']; congr 1; omega
        have hp1 : 0 < 2 ^ (w - 1) := Nat.two_pow_pos _
        rw [hv] at h3
        omega
      · simp [shr, ho] at h2
    · have hnone : bitMask n w = none := by simp [bitMask, bitAt_none hlt]
      rw [hnone] at h2
      cases hs : shr y o <;> simp [hs] at h2
  · rintro (h | rfl) x v
    · obtain ⟨y, hy⟩ := writeBits_isSome x v (o := o) (w := w) (by omega) h
      obtain ⟨r, hr⟩ := readBits_isSome y (o := o) (w := w) (by omega) h
      exact ⟨y, r, hy, hr, by rw [readBits_toNat (by omega) h hr, fieldVal_writeBits (by omega) h hy]⟩
    · exact ⟨v, v, by simp [writeBits], by simp [readBits], (Nat.mod_eq_of_lt v.isLt).symm⟩

/-- C74 fails: `foo(rw, 30, 4)` of a 32-bit integer compiles, and the safe methods lose the upper two
bits. -/
theorem C74_false : ∃ (fs : List Field) (v : BitVec 32), compiles fs ∧
    useWord fs 0#32 [(0, .put v), (0, .get)] = some (0xC0000000#32, [none, some 3]) ∧ v.toNat % 2 ^ 4 = 15 :=
  ⟨[⟨"foo", .readWrite, 30, some 4⟩], 15#32, by decide, by decide, by decide⟩

/-- C74 fails: `bar(rw, 32)` compiles, and the safe methods panic (or, without overflow checks,
work on another bit). -/
theorem C74_false_panic : ∃ fs : List Field, compiles fs ∧ call fs (0#32) "set_bar" .none = .panic :=
  ⟨[⟨"bar", .readWrite, 32, none⟩], by decide, by decide⟩

end Verif.Bitfield.Derive
