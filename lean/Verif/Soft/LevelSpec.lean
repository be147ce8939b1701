import Verif.Soft.Spec
/-! # What is claimed about a thread as a whole, over all levels -/
namespace Verif.Soft

/-- How often `thr` was requested, at any level, when it was not pending there. -/
def requestsOf (thr : Nat) : List Event → Nat
  | [] => 0
  | .req t _ fresh :: es => (if t = thr ∧ fresh = true then 1 else 0) + requestsOf thr es
  | _ :: es => requestsOf thr es

/-- How often `thr` was resumed, from any level. -/
def runsOf (thr : Nat) : List Event → Nat
  | [] => 0
  | .run t _ :: es => (if t = thr then 1 else 0) + runsOf thr es
  | _ :: es => runsOf thr es

/-- The priority of `thr` is changed only while it is pending at no level, and while no
`set_pending` for it is between its load of the priority and its update of the cell. -/
def Settled (count thr : Nat) (s : State) : Act → Prop
  | .setPrio t _ => t = thr → (∀ q, q < 27 → ¬ Pending count s thr q) ∧ ∀ q, .req thr (.cell q) ∉ s.stack
  | _ => True

end Verif.Soft
