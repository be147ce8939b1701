import Verif.Token.Model
/-! # What static tokens are to guarantee -/
namespace Verif.Token

/-- The leaves that a program takes, with repetitions. -/
def taken (ops : List Op) : List Nat :=
  ops.flatMap fun | .take _ ls => ls | _ => []

/-- Value `i` is a usable reference to static `x`. -/
def RefersTo (s : State) (i x : Nat) : Prop := ∃ c, s.cells[i]? = some c ∧ c.kind.refers = some x

/-- The operation uses value `i`. -/
def Op.uses (i : Nat) : Op → Prop
  | .take _ _ => False
  | .split j _ | .move j _ | .get j | .endGet j | .intoStatic j | .read j | .write j _ | .drop j => j = i
  | .join j k => j = i ∨ k = i

/-- No `take`. -/
def Op.safe : Op → Prop
  | .take _ _ => False
  | _ => True

/-- Two mutable references to one static at one time. -/
def Aliased (s : State) : Prop := ∃ i j x, i ≠ j ∧ RefersTo s i x ∧ RefersTo s j x

/-- All accesses to static `x` come from one context. -/
def Local (x : Nat) (es : List Event) : Prop := ∃ c, ∀ e ∈ es, e.s = x → e.ctx = c

end Verif.Token
