import Verif.Regs.MarkerLemmas
/-!
# C80: marker traits of registers and fields

The tokens of a register that is declared as documented implement the marker traits that their tag, access and width say, and
generic code that is bounded by a marker trait has the operations of that kind.
-/
namespace Verif.Regs.Marker
open Verif.Regs.Def (Access Variant Field Documented always)
variable {C : Type}

/-- A register token implements exactly the marker trait for its tag and access, except that a copyable read-write token implements
none if the integer has no atomic type. -/
theorem C80_reg_exact (atomics : Bool) (v : Variant C) (f : Field C) (a : Access) (hd : Documented v a) (t t' : Tag) (a' : Access) :
    Has atomics v f t (regMarker t' a') ↔ t' = t ∧ a' = a ∧ (t = .crt → a = .rw → Updatable atomics v) := by
  rw [Has, holds_iff, solve_reg hd.traits, reg_table, decide_eq_true_iff]
  simp [Updatable, or_assoc]

/-- A register token implements exactly the marker trait for its tag and access. Missing: with feature `atomics`, registers of
64 and 128 bits, for which it is false (`C80_false`). -/
theorem C80_reg_partial (atomics : Bool) (v : Variant C) (f : Field C) (a : Access) (hd : Documented v a) (hu : Updatable atomics v) (t t' : Tag)
    (a' : Access) : Has atomics v f t (regMarker t' a') ↔ t' = t ∧ a' = a := by
  rw [C80_reg_exact atomics v f a hd]
  exact ⟨fun h => ⟨h.1, h.2.1⟩, fun h => ⟨h.1, h.2, fun _ _ => hu⟩⟩

/-- The same for fields: exactly the marker trait for the tag, the access of the field, the access of the register and the width,
except that fields of registers without an atomic type have none if the trait needs updates. -/
theorem C80_field_exact (atomics : Bool) (v : Variant C) (f : Field C) (a b : Access) (hd : Documented v a) (hf : f ∈ v.fields)
    (hb : FieldAccess f b) (t t' : Tag) (fa ra : Access) (w : Width) (x : Tr) (hx : fieldMarker t' fa ra w = some x) :
    Has atomics v f t x ↔ t' = t ∧ fa = b ∧ ra = a ∧ w = widthOf f ∧
      (a = .rw → (t = .crt ∨ t = .srt ∧ b ≠ .ro) → Updatable atomics v) := by
  have hab : a = .rw ∨ b = a := by
    obtain ⟨b', h, h'⟩ := hd.fields f hf
    have : b' = b := by
      unfold FieldAccess at hb
      rcases hb with hb | hb <;> rcases h with h | h <;> rw [hb] at h <;> revert h <;> cases b <;> cases b' <;> decide
    exact this ▸ h'
  have h := field_table atomics (v.size = 8 || v.size = 16 || v.size = 32) a b (widthOf f) t t' fa ra w hab
  rw [hx, Option.all_some, beq_iff_eq] at h
  rw [Has, holds_iff, declared_table hd.traits hb, h, decide_eq_true_iff]
  simp [Updatable, or_assoc]

/-- A field token implements exactly the marker trait that its declaration says. Missing: as in `C80_reg_partial`. -/
theorem C80_field_partial (atomics : Bool) (v : Variant C) (f : Field C) (a b : Access) (hd : Documented v a) (hf : f ∈ v.fields)
    (hb : FieldAccess f b) (hu : Updatable atomics v) (t t' : Tag) (fa ra : Access) (w : Width) (x : Tr)
    (hx : fieldMarker t' fa ra w = some x) : Has atomics v f t x ↔ t' = t ∧ fa = b ∧ ra = a ∧ w = widthOf f := by
  rw [C80_field_exact atomics v f a b hd hf hb t t' fa ra w x hx]
  exact ⟨fun h => ⟨h.1, h.2.1, h.2.2.1, h.2.2.2.1⟩, fun h => ⟨h.1, h.2.1, h.2.2.1, h.2.2.2, fun _ _ => hu⟩⟩

/-- A read-write register of `n` bits with one read-write bit. -/
def wide (n : Nat) : Variant Unit :=
  { block := "TST", ident := "REG", on := always, address := 0x40000000, size := n, reset := 0, traits := [.rReg, .wReg],
    fields := [⟨"BIT", always, 0, 1, [.rr, .ww]⟩] }

theorem wide_documented (n : Nat) : Documented (wide n) .rw :=
  ⟨rfl, fun f hf => ⟨.rw, .inl (by simp only [wide, List.mem_singleton] at hf; rw [hf]; rfl), .inl rfl⟩⟩

/-- The marker trait is there for every declared register, and so is the one of its fields: false for 64 bits with feature
`atomics`. -/
theorem C80_false : ∃ (v : Variant Unit) (f : Field Unit), Documented v .rw ∧ f ∈ v.fields ∧ FieldAccess f .rw ∧
    ¬ Has true v f .crt .cRwReg ∧ ¬ Has true v f .srt (.sRwRw .bit) ∧ Has false v f .crt .cRwReg := by
  refine ⟨wide 64, _, wide_documented 64, List.mem_singleton.2 rfl, .inl rfl, ?_, ?_, ?_⟩
  · rw [Has, holds_iff]; decide
  · rw [Has, holds_iff]; decide
  · rw [Has, holds_iff]; decide

/-- Hypotheses of the theorems: a register of 32 bits. -/
example : Documented (wide 32) .rw ∧ Updatable true (wide 32) ∧ FieldAccess (wide 32).fields[0] .rw ∧
    Has true (wide 32) (wide 32).fields[0] .crt .cRwReg ∧ Has true (wide 32) (wide 32).fields[0] .srt (.sRwRw .bit) ∧
    ¬ Has true (wide 32) (wide 32).fields[0] .srt (.sRwRw .bits) ∧ ¬ Has true (wide 32) (wide 32).fields[0] .urt .sRwReg := by
  refine ⟨wide_documented _, fun _ => by simp [wide], .inl rfl, ?_, ?_, ?_, ?_⟩ <;> rw [Has, holds_iff] <;> decide

/-- Every trait of `marker.rs` is implemented for exactly the types that meet its `where` clause. -/
theorem C80_alias (atomics : Bool) (t : Tag) (a fa ra : Access) (w : Width) :
    rule atomics (regMarker t a) = some (supers (regMarker t a)) ∧
    (∀ x, fieldMarker t fa ra w = some x → rule atomics x = some (supers x)) ∧
    ∀ x ∈ [Tr.rwReg t, .rwRw t w, .woRw t w, .roRw t w, .roRo t w], rule atomics x = some (supers x) := by
  refine ⟨by cases t <;> cases a <;> rfl, fun x hx => ?_, fun x hx => ?_⟩
  · cases t <;> cases fa <;> cases ra <;> simp only [fieldMarker, reduceCtorEq, Option.some.injEq] at hx <;> subst hx <;> rfl
  · simp only [List.mem_cons, List.not_mem_nil, or_false] at hx
    rcases hx with rfl | rfl | rfl | rfl | rfl <;> rfl

/-- Generic code has the operations of a register that the marker trait promises. Missing: `modify` of a synchronized read-write
register with feature `atomics`, for which it is false (`C80_generic_false`). -/
theorem C80_generic_partial (atomics : Bool) (t : Tag) (a : Access) (op : Operation) (ho : op.allowed a)
    (hs : ¬ (atomics = true ∧ t = .srt ∧ op = .modify)) : Known atomics (regMarker t a) (op.trait t) := by
  refine known_sound (n := 5) (univ := [.regAtomic .srt, .regAtomic .crt, op.trait t]) ?_
  revert ho hs
  cases atomics <;> cases t <;> cases a <;> cases op <;> simp only [Operation.allowed] <;> decide

/-- All operations of a field are there. -/
theorem C80_generic_field (atomics : Bool) (t : Tag) (fa ra : Access) (w : Width) (op : FieldOp) (ho : op.allowed t fa ra) (x : Tr)
    (hx : fieldMarker t fa ra w = some x) : Known atomics x (op.trait t ra w) := by
  refine known_sound (n := 5) (univ := [op.trait t ra w]) ?_
  revert ho
  cases t <;> cases fa <;> cases ra <;> simp only [fieldMarker, reduceCtorEq, Option.some.injEq] at hx <;> subst hx <;>
    cases atomics <;> cases op <;> cases w <;> simp only [FieldOp.allowed] <;> decide

/-- Generic code bounded by `SRwReg` cannot call `modify` with feature `atomics`: the implementation needs `AtomicBits`, which the
marker trait does not give. -/
theorem C80_generic_false : ¬ Known true .sRwReg (Operation.modify.trait .srt) ∧ Known false .sRwReg (Operation.modify.trait .srt) ∧
    Known true .cRwReg (Operation.modify.trait .crt) := by
  refine ⟨fun h => ?_, known_sound (n := 4) (univ := [.rwRegAtomic .srt]) (by decide), known_sound (n := 2) (univ := []) (by decide)⟩
  have := known_closed (fun y => y ∈ [.sRwReg, .rwReg .srt, .wRegAtomic .srt, .rReg .srt, .wReg .srt, .regAtomic .srt, .regAtomic .crt])
    (by decide) ?_ ?_ ?_ h
  · revert this; decide
  · intro y hy
    cases y <;> simp only [global, Bool.false_eq_true] at hy
    rename_i t
    revert hy
    cases t <;> decide
  · intro y hy z hz
    simp only [List.mem_cons, List.not_mem_nil, or_false] at hy
    rcases hy with rfl | rfl | rfl | rfl | rfl | rfl | rfl <;> simp only [supers, List.mem_cons, List.not_mem_nil, or_false] at hz
    · rcases hz with rfl | rfl <;> decide
    · rcases hz with rfl | rfl <;> decide
    · rcases hz with rfl | rfl <;> decide
  · intro y bs hy hb
    revert hb
    cases y <;> simp only [rule, reduceCtorEq, Option.some.injEq, if_true] at hy <;> subst hy <;>
      (try cases ‹Tag›) <;> (try cases ‹Width›) <;> decide

end Verif.Regs.Marker
