import Verif.Exec.LockModel
import Verif.Mutex.Spec
import Verif.Soft.Spec
/-! # What is claimed about futures that share a mutex -/
namespace Verif.Exec.Lock
open Verif.Exec (inside)
open Verif.Mutex (holders waits)

/-- Nothing runs: no thread, no request, no interrupt handler; no other client is in a call. -/
def Idle (s : State) : Prop := s.soft.stack = [] ∧ ∀ p, (s.mutex.client (ext p)).pc = .idle

/-- The thread that an element of a history wakes. -/
def wakes (count : Nat) (s : State) (a : Act) : Option Nat :=
  match act count s a with
  | none => none
  | some (_, w) => w

/-- No thread is woken whose priority is that of a running or preempted thread. -/
def NoSame (count : Nat) (s : State) (a : Act) : Prop :=
  ∀ t, wakes count s a = some t → ∀ f ∈ s.soft.stack, f.level ≠ some (s.soft.prio t + 1)

/-- The client of the mutex that makes its next access in an element of a history. -/
def acting (s : State) : Act → Option Nat
  | .poll =>
    match inside s.soft.stack with
    | none => none
    | some t => (s.queue t).head?.map me
  | .work p => some (ext p)
  | _ => none

/-- The second `try_lock` of a poll is not performed while an `unlock` has started to search for
a waiter and has not yet released the lock. -/
def Timely (s : State) (a : Act) : Prop := ∀ p, acting s a = some p → Mutex.Timely s.mutex (.step p)

/-- No node is released while a future refers to it. -/
def Prompt (s : State) (a : Act) : Prop := ∀ p, acting s a = some p → Mutex.Prompt s.mutex (.step p)

/-- No two calls on the mutex overlap: a client makes an access only if all others are between calls. -/
def Alone (s : State) (a : Act) : Prop := ∀ p, acting s a = some p → ∀ q, q ≠ p → (s.mutex.client q).pc = .idle

/-- `P` holds before every element of the history. -/
def Always (count : Nat) (P : State → Act → Prop) (s : State) : List Act → Prop
  | [] => True
  | a :: as => P s a ∧ ∀ s', step count s a = some s' → Always count P s' as

/-- Task `k` has the guard and waits for a signal that has not occurred. -/
def Waiting (s : State) (k : Nat) : Prop :=
  me k ∈ holders s.mutex.log ∧ (s.task k).pos < (s.task k).len ∧ s.fired k (s.task k).pos = false

/-- How often a client got the lock. -/
def acquisitions (p : Nat) : List Mutex.Event → Nat
  | [] => 0
  | .acquired q :: es => if q = p then acquisitions p es + 1 else acquisitions p es
  | _ :: es => acquisitions p es

/-- A round of accesses: the software threads and the tasks that they run go on, and nothing else happens. How
often and in which order is left open. -/
def Round (as : List Act) : Prop := (.step ∈ as ∧ .poll ∈ as ∧ .ret ∈ as) ∧ ∀ a ∈ as, a = .step ∨ a = .poll ∨ a = .ret

end Verif.Exec.Lock
