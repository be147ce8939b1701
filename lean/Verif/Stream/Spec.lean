import Verif.Stream.Model
/-!
# Specification vocabulary for the debug stream

Only the events and the probe protocol are used; no bookkeeping of the
model's internals.
-/
namespace Verif.Stream

/-- A transaction: stream number and payload. -/
abbrev Frame := UInt8 × List UInt8

/-- The transactions whose write returned success, in order. -/
def acceptedOf : List Event → List Frame
  | [] => []
  | .accepted s p :: es => (s, p) :: acceptedOf es
  | _ :: es => acceptedOf es

/-- The transactions the probe obtained, in order. -/
def receivedOf : List Event → List Frame
  | [] => []
  | .received s p :: es => (s, p) :: receivedOf es
  | _ :: es => receivedOf es

/-- The probe looking at the buffer `k` times with nobody writing. -/
def drain (s : State) (k : Nat) : State × List Event := run s (List.replicate k .consume)

/-- A cell of the buffer the probe may still have to look at: it lies at or
after the read cursor and before the write cursor, in circular order. -/
def Unread (r w i : Nat) : Prop := if r ≤ w then r ≤ i ∧ i < w else r ≤ i ∨ i < w

end Verif.Stream
