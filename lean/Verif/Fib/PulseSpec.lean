import Verif.Fib.PulseModel
import Verif.Pulse.Spec
/-! # Vocabulary for the properties of fiber streams over the pulse channel -/
namespace Verif.Fib.PulseStream

open Verif.Pulse

variable {n : Nat} {ε : Type}

/-- The numbers of pulses the fiber yielded or completed with, last one first. -/
def offered : List (Out n ε) → List Nat
  | [] => []
  | .yielded (some p) :: os => p.toNat :: offered os
  | .complete (.ok (some p)) :: os => p.toNat :: offered os
  | _ :: os => offered os

/-- The calls of `send` that have returned, last one first. -/
def sends : List (Event ε) → List (Nat × Res)
  | [] => []
  | .send p r :: es => (p, r) :: sends es
  | _ :: es => sends es

/-- The sum of the numbers of pulses accepted. -/
def acceptedSum : List (Nat × Res) → Nat
  | [] => 0
  | (p, .ok) :: l => acceptedSum l + p
  | _ :: l => acceptedSum l

/-- How a stream that is not closed ends: `none` if it does not end here, `some none` if it
ends without an error. -/
def finish (overflow : Policy n ε) (outs : List (Out n ε)) (cs : List (Nat × Res)) : Option (Option ε) :=
  match outs, cs with
  | .complete (.error e) :: _, _ => some (some e)
  | .complete (.ok none) :: _, _ => some none
  | .complete (.ok (some _)) :: _, (_, .ok) :: _ => some none
  | .complete (.ok (some _)) :: _, (_, .full) :: _ => some (overflow outs)
  | .yielded (some _) :: _, (_, .full) :: _ => (overflow outs).map some
  | _, _ => none

/-- The fiber has completed. -/
def Out.isComplete : Out n ε → Bool
  | .complete _ => true
  | _ => false

/-- The stream was closed or dropped. -/
def State.closed (s : State n ε) : Prop := Event.closed ∈ s.ch.log

/-- Every state of the schedule satisfies `P`. -/
def Always (overflow : Policy n ε) (P : State n ε → Prop) (s : State n ε) : List (Act n ε) → Prop
  | [] => P s
  | a :: as => P s ∧ ∀ s', step overflow s a = some s' → Always overflow P s' as

end Verif.Fib.PulseStream
