import Verif.Atomic.Model
import Verif.Bitfield.Spec
/-!
# Specification vocabulary for atomic read-modify-write

A history is *explained* by running the returned calls one after another, in the
order of their returns, on a plain variable.
-/
namespace Verif.Atomic

/-- The calls that returned, in order, with their results. -/
def returned {α : Type} : List (Event α) → List (Tid × (α → Option α) × Except α α)
  | [] => []
  | .inv _ _ :: es => returned es
  | .ret t f r :: es => (t, f, r) :: returned es

/-- The calls invoked by `t`, in order. -/
def invokedBy {α : Type} (t : Tid) : List (Event α) → List (α → Option α)
  | [] => []
  | .inv u f :: es => if u = t then f :: invokedBy t es else invokedBy t es
  | .ret _ _ _ :: es => invokedBy t es

/-- The calls of `t` that returned, in order. -/
def returnedBy {α : Type} (t : Tid) : List (Event α) → List (α → Option α)
  | [] => []
  | .inv _ _ :: es => returnedBy t es
  | .ret u f _ :: es => if u = t then f :: returnedBy t es else returnedBy t es

/-- Plain sequential execution on one variable: an update function that declines
(`none`) leaves the variable alone and reports `error`; either way the reported
value is what the variable held. -/
def sequential {α : Type} (m : α) : List (α → Option α) → α × List (Except α α)
  | [] => (m, [])
  | f :: fs =>
    match f m with
    | some m' => let (e, rs) := sequential m' fs; (e, .ok m :: rs)
    | none => let (e, rs) := sequential m fs; (e, .error m :: rs)

end Verif.Atomic
