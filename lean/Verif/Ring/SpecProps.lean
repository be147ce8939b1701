import Verif.Ring.Spec
/-! # More vocabulary for the properties of the ring channel -/
namespace Verif.Ring

open Verif.Spsc

variable {k : Nat} {τ ε : Type}

/-- The pending values in the buffer, oldest first. -/
def contents (cap : Nat) (s : State k τ ε) : List (Option τ) :=
  (List.range (len s.st)).map (fun j => s.buf ((cur s.st + j) % cap))

/-- The values removed by `w`. -/
def removedBy (w : Who) (r : List (Who × τ)) : List τ := (r.filter (fun x => x.1 = w)).map (·.2)

/-- Is it an action of the sender? -/
def Act.ofSender : Act τ ε → Bool
  | .sCall _ | .sStep => true
  | _ => false

/-- Calls of the receiver are not interrupted by the sender, while those of the
sender may be interrupted by the receiver: the receiver runs at the higher
priority. -/
def Uninterrupted (cap : Nat) (s : State k τ ε) : List (Act τ ε) → Prop
  | [] => True
  | a :: as => (a.ofSender = true → s.rpc.resting = true) ∧ ∀ s', step cap s a = some s' → Uninterrupted cap s' as

/-- All polls of the receiver use the waker `w`. -/
def OneRx (w : Waker) : List (Act τ ε) → Prop
  | [] => True
  | .rCall (.pollNext u) :: as => u = w ∧ OneRx w as
  | _ :: as => OneRx w as

/-- All polls of the sender use the waker `w`. -/
def OneTx (w : Waker) : List (Act τ ε) → Prop
  | [] => True
  | .sCall (.poll _ u) :: as => u = w ∧ OneTx w as
  | _ :: as => OneTx w as

/-- `close` is not called. -/
def NoClose : List (Act τ ε) → Prop
  | [] => True
  | .rCall .close :: _ => False
  | _ :: as => NoClose as

/-- The accesses of a whole call of `try_send`. -/
def trySend (v : τ) : List (Act τ ε) := [.sCall (.trySend v), .sStep, .sStep, .sStep, .sStep]

/-- The accesses of a whole call of `send_overwrite`. -/
def sendOverwrite (v : τ) : List (Act τ ε) := [.sCall (.sendOverwrite v), .sStep, .sStep, .sStep, .sStep, .sStep, .sStep]

/-- The accesses of a whole call of `try_next`. -/
def tryNext : List (Act τ ε) := [.rCall .tryNext, .rStep, .rStep, .rStep, .rStep]

/-- The accesses of a whole call of `poll_next`. -/
def pollNext (w : Waker) : List (Act τ ε) := [.rCall (.pollNext w), .rStep, .rStep, .rStep, .rStep, .rStep, .rStep, .rStep]

/-- The accesses of a whole poll of the sender. -/
def poll (κ : Kind) (w : Waker) : List (Act τ ε) := [.sCall (.poll κ w), .sStep, .sStep, .sStep, .sStep]

end Verif.Ring
