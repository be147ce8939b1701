import Verif.Mutex.Spec
/-! # In which turn the waiters of the mutex are woken -/
namespace Verif.Mutex

/-- The wakes, with their nodes. -/
def wakes : List Event → List (Nat × Waker)
  | [] => []
  | .woke n w :: es => (n, w) :: wakes es
  | _ :: es => wakes es

/-- The full property, for a number of clients: while a future waits, the wakes for others are bounded by some number, whatever the
clients do. Even for calls that do not overlap. (In `L` is what happened between `s` and `s'`; the flag of node `n` is set when its owner is woken.) -/
def BoundedOvertaking (clients bound : Nat) : Prop :=
  ∀ as bs s s' L n w, (∀ a ∈ as ++ bs, (match a with | .call p _ => p | .step p => p) < clients) → OwnWaker (as ++ bs) →
    Always Sequential init (as ++ bs) → run init as = some s → run s bs = some s' → Quiet s → Event.store n w ∈ s.log →
    (s'.node n).taken = false → s'.log = L ++ s.log → (wakes L).length ≤ bound

end Verif.Mutex
