import Verif.Exec.Model
import Verif.Soft.Spec
/-! # What is claimed about futures run by software threads -/
namespace Verif.Exec

/-- Nothing runs: no thread, no request, no interrupt handler. -/
def Idle (s : State) : Prop := s.soft.stack = []

/-- The thread that an element of a history wakes. -/
def wakes (s : State) : Act → Option Nat
  | .signal k i => s.waker k i
  | .exec thr _ => some thr
  | _ => none

/-- No thread is woken whose priority is that of a running or preempted thread. -/
def NoSame (s : State) (a : Act) : Prop :=
  ∀ t, wakes s a = some t → ∀ f ∈ s.soft.stack, f.level ≠ some (s.soft.prio t + 1)

/-- `P` holds before every element of the history. -/
def Always (count : Nat) (P : State → Act → Prop) (s : State) : List Act → Prop
  | [] => True
  | a :: as => P s a ∧ ∀ s', step count s a = some s' → Always count P s' as

/-- Task `k` is waiting for something that has not happened. -/
def Waiting (s : State) (k : Nat) : Prop := (s.task k).pos < (s.task k).len ∧ s.fired k (s.task k).pos = false

end Verif.Exec
