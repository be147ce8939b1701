import Verif.Mutex.Model
/-! # What is claimed about the mutex, in terms of logs and schedules -/
namespace Verif.Mutex

/-- The clients that have a guard at the end of the log, one entry per guard. -/
def holders : List Event → List Nat
  | [] => []
  | .acquired p :: es => p :: holders es
  | .released p :: es => (holders es).erase p
  | _ :: es => holders es

/-- The future of `p` exists and its last poll returned pending. -/
def waits (p : Nat) : List Event → Bool
  | [] => false
  | .pending q :: es => if q = p then true else waits p es
  | .callPoll q _ :: es => if q = p then false else waits p es
  | .dropFut q :: es => if q = p then false else waits p es
  | _ :: es => waits p es

/-- Waker `w` was woken since the last poll of the future of `p` began. -/
def wokenSince (p : Nat) (w : Waker) : List Event → Bool
  | [] => false
  | .woke _ v :: es => if v = w then true else wokenSince p w es
  | .callPoll q _ :: es => if q = p then false else wokenSince p w es
  | _ :: es => wokenSince p w es

/-- The waker of the last poll of the future of `p`. -/
def lastWaker (p : Nat) : List Event → Option Waker
  | [] => none
  | .callPoll q w :: es => if q = p then some w else lastWaker p es
  | _ :: es => lastWaker p es

/-- The nodes released. -/
def freedNodes : List Event → List Nat
  | [] => []
  | .freed n :: es => n :: freedNodes es
  | _ :: es => freedNodes es

/-- Wakers stored, with their nodes. -/
def stored : List Event → List (Nat × Waker)
  | [] => []
  | .store n w :: es => (n, w) :: stored es
  | _ :: es => stored es

/-- Wakers consumed (woken or dropped), with their nodes. -/
def consumed : List Event → List (Nat × Waker)
  | [] => []
  | .woke n w :: es => (n, w) :: consumed es
  | .dropWaker n w :: es => (n, w) :: consumed es
  | _ :: es => consumed es

/-- `P` holds before every element of the schedule. -/
def Always (P : State → Act → Prop) (s : State) : List Act → Prop
  | [] => True
  | a :: as => P s a ∧ ∀ s', step s a = some s' → Always P s' as

/-- The client is in `unlock`, after it started to search for a waiter and before it
released the lock. -/
def Pc.scanning : Pc → Bool
  | .ulScan _ | .ulRead _ | .ulStore _ => true
  | _ => false

/-- The second `try_lock` of a poll and the `try_lock` of a drop are not performed
while another client in `unlock` has started to search for a waiter and has not yet
released the lock. -/
def Timely (s : State) : Act → Prop
  | .step p => (s.client p).pc = .p2 ∨ (s.client p).pc = .dTry → ∀ q, (s.client q).pc.scanning = false
  | .call _ _ => True

/-- Every client polls with its own waker. -/
def OwnWaker (acts : List Act) : Prop := ∀ p w, Act.call p (.poll w) ∈ acts → w = p

/-- A future, or a call on it that is in progress, refers to the node. -/
def Refers (c : Client) (n : Nat) : Prop :=
  c.waiter = some n ∨ c.pc = .p1take n ∨ c.pc = .p1read n ∨ c.pc = .dTake n ∨ c.pc = .dRead n

/-- No node is released while a future refers to it. -/
def Prompt (s : State) : Act → Prop
  | .step p => ∀ n rest, (s.client p).pc = .ulCut n rest → ∀ q, ¬Refers (s.client q) n
  | .call _ _ => True

/-- Calls do not overlap: when an element of a client is performed, all others are
between calls. -/
def Sequential (s : State) : Act → Prop
  | .step p => ∀ q, q ≠ p → (s.client q).pc = .idle
  | .call p _ => ∀ q, q ≠ p → (s.client q).pc = .idle

/-- All clients are between calls. -/
def Quiet (s : State) : Prop := ∀ p, (s.client p).pc = .idle

end Verif.Mutex
