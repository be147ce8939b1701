import Verif.Inventory.Model
/-! # What is claimed about inventories -/
namespace Verif.Inventory

/-- Tokens created by the share calls of a program. -/
def shared : List Op → Nat
  | [] => 0
  | .share _ k :: ops => k + shared ops
  | _ :: ops => shared ops

/-- Tokens consumed by the merge calls of a program. -/
def merged : List Op → Nat
  | [] => 0
  | .merge _ k :: ops => k + merged ops
  | _ :: ops => merged ops

/-- Number of inventories a program creates. -/
def created : List Op → Nat
  | [] => 0
  | .new _ :: ops => 1 + created ops
  | _ :: ops => created ops

/-- Sum of the type-level counters. -/
def total (s : State) : Nat := (s.invs.map (·.count)).sum

/-- A token for the item can be reached: one is outstanding, or one is borrowed from the
inventory or from a guard. -/
def Inv.lent (v : Inv) : Prop := 0 < v.count ∨ 0 < v.refs ∨ v.guard ≠ none

/-- The documented duty of the program: tokens are handed out only when the item is in its
active state (lines 262–266, 283–284), and items are not exchanged between inventories. -/
def Duty (s : State) : Op → Prop
  | .share i _ | .guard i | .borrow i => ∀ v, s.invs[i]? = some v → v.active = true
  | .swap _ _ => False
  | _ => True

/-- The duty is met before every call. -/
def Dutiful (s : State) : List Op → Prop
  | [] => True
  | o :: os => Duty s o ∧ ∀ s', step s o = some s' → Dutiful s' os

/-- The calls that need the item to be unused. -/
def Op.closing : Op → Option Nat
  | .teardown i | .free i | .guard i => some i
  | _ => none

end Verif.Inventory
