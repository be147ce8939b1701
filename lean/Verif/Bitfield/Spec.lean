import Verif.Bitfield.Model
/-!
# Specification vocabulary for register fields

A field is a pair (offset, width). `fieldVal` is its numeric value, stated with
plain arithmetic: shift right and take the remainder.
-/
namespace Verif.Bitfield

/-- The number held in bits `offset … offset+width-1` of `x`. -/
def fieldVal {n : Nat} (x : BitVec n) (offset width : Nat) : Nat :=
  x.toNat / 2 ^ offset % 2 ^ width

/-- The field an operation targets. -/
def FieldOp.field {n : Nat} : FieldOp n → Nat × Nat
  | .set o => (o, 1)
  | .clear o => (o, 1)
  | .toggle o => (o, 1)
  | .writeBit o _ => (o, 1)
  | .writeBits o w _ => (o, w)

/-- Intended effect of an operation on the number held in its own field. -/
def FieldOp.effect {n : Nat} (cur : Nat) : FieldOp n → Nat
  | .set _ => 1
  | .clear _ => 0
  | .toggle _ => 1 - cur
  | .writeBit _ b => if b then 1 else 0
  | .writeBits _ w v => v.toNat % 2 ^ w

/-- Two fields share no bit. -/
def Disjoint (f g : Nat × Nat) : Prop := f.1 + f.2 ≤ g.1 ∨ g.1 + g.2 ≤ f.1

/-- The field lies inside an `n`-bit word. -/
def InRange (n : Nat) (f : Nat × Nat) : Prop := f.1 < n ∧ f.1 + f.2 ≤ n

instance (n : Nat) (f : Nat × Nat) : Decidable (InRange n f) := by unfold InRange; infer_instance
instance (f g : Nat × Nat) : Decidable (Disjoint f g) := by unfold Disjoint; infer_instance

/-- Last-write-wins: the number a field `f` should hold after a history, given
what it held before. Operations on other fields are ignored. -/
def expected {n : Nat} (f : Nat × Nat) (init : Nat) : List (FieldOp n) → Nat
  | [] => init
  | op :: ops => expected f (if op.field = f then op.effect init else init) ops

end Verif.Bitfield
