import Verif.Fib.RingModel
import Verif.Ring.SpecProps
/-! # Vocabulary for the properties of fiber streams over the ring channel -/
namespace Verif.Fib.RingStream

open Verif.Ring

variable {k : Nat} {τ ε : Type}

/-- The values the fiber yielded or completed with, last one first. -/
def offered : List (Out τ ε) → List τ
  | [] => []
  | .yielded (some v) :: os => v :: offered os
  | .complete (.ok (some v)) :: os => v :: offered os
  | _ :: os => offered os

/-- What became of a value at the channel. -/
inductive Fate where
  | accepted | dropped | canceled
deriving DecidableEq

/-- Settle the last call. -/
def settle (f : Fate) : List (τ × Option Fate) → List (τ × Option Fate)
  | [] => []
  | (v, _) :: l => (v, some f) :: l

/-- The values passed to `try_send` and `send_overwrite`, last one first, and what became
of them; `none` while the call is running. -/
def calls : List (Event τ ε) → List (τ × Option Fate)
  | [] => []
  | .callSend v :: p => (v, none) :: calls p
  | .callOver v :: p => (v, none) :: calls p
  | .push _ :: p => settle .accepted (calls p)
  | .full _ :: p => settle .dropped (calls p)
  | .canceled _ :: p => settle .canceled (calls p)
  | _ :: p => calls p

/-- The accepted values. -/
def accepted : List (τ × Option Fate) → List τ
  | [] => []
  | (v, some .accepted) :: l => v :: accepted l
  | _ :: l => accepted l

/-- `overflow` of the policy. -/
def Policy.overflow : Policy τ ε → List (Out τ ε) → τ → Option ε
  | .bounded f => f
  | .overwrite => fun _ _ => none

/-- How a stream that is not closed ends: `none` if it does not end here, `some none` if it
ends without an error. -/
def finish (pol : Policy τ ε) (outs : List (Out τ ε)) (cs : List (τ × Option Fate)) : Option (Option ε) :=
  match outs, cs with
  | .complete (.error e) :: _, _ => some (some e)
  | .complete (.ok none) :: _, _ => some none
  | .complete (.ok (some _)) :: _, (_, some .accepted) :: _ => some none
  | .complete (.ok (some v)) :: _, (_, some .dropped) :: _ => some (pol.overflow outs v)
  | .yielded (some v) :: _, (_, some .dropped) :: _ => (pol.overflow outs v).map some
  | _, _ => none

/-- The fiber has completed. -/
def Out.isComplete : Out τ ε → Bool
  | .complete _ => true
  | _ => false

/-- The stream was closed or dropped. -/
def State.closed (s : State k τ ε) : Prop := Event.closed ∈ s.ch.log

/-- Every state of the schedule satisfies `P`. -/
def Always (cap : Nat) (pol : Policy τ ε) (P : State k τ ε → Prop) (s : State k τ ε) : List (Act τ ε) → Prop
  | [] => P s
  | a :: as => P s ∧ ∀ s', step cap pol s a = some s' → Always cap pol P s' as

end Verif.Fib.RingStream
