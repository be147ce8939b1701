import Verif.Exec.ChanModel
import Verif.Soft.Spec
/-! # What is claimed about futures that await oneshot channels -/
namespace Verif.Exec.Chan
open Verif.Oneshot (sends received SenderLeft Apart)

/-- Nothing runs: no thread, no request, no interrupt handler; no sender is in a call. -/
def Idle (s : State) : Prop := s.soft.stack = [] ∧ ∀ k i, (s.chan k i).spc.resting = true

/-- The thread that an element of a history wakes. -/
def wakes (count : Nat) (s : State) (a : Act) : Option Nat :=
  match act count s a with
  | none => none
  | some (_, w) => w

/-- No thread is woken whose priority is that of a running or preempted thread. -/
def NoSame (count : Nat) (s : State) (a : Act) : Prop :=
  ∀ t, wakes count s a = some t → ∀ f ∈ s.soft.stack, f.level ≠ some (s.soft.prio t + 1)

/-- No end of a channel is about to release it while the other end has still to access it. -/
def AllApart (s : State) (_ : Act) : Prop := ∀ k i, Apart (s.chan k i)

/-- `P` holds before every element of the history. -/
def Always (count : Nat) (P : State → Act → Prop) (s : State) : List Act → Prop
  | [] => True
  | a :: as => P s a ∧ ∀ s', step count s a = some s' → Always count P s' as

/-- Task `k` awaits a receiver whose sender was neither used nor dropped. -/
def Waiting (s : State) (k : Nat) : Prop :=
  (s.task k).pos < (s.task k).len ∧ ¬ SenderLeft (s.chan k (s.task k).pos).log

/-- The receiver of the channel has got what the sender sent, or the sender was dropped
without sending and the receiver has got nothing. -/
def Answered (c : Ch) : Prop :=
  (∃ v, sends c.log = [v] ∧ received c.log = [v]) ∨
    (Oneshot.Event.sDropped ∈ c.log ∧ sends c.log = [] ∧ received c.log = [])

/-- A round of accesses: the software threads and the tasks that they run go on, and nothing else happens. How
often and in which order is left open. -/
def Round (as : List Act) : Prop := (.step ∈ as ∧ .poll ∈ as ∧ .ret ∈ as) ∧ ∀ a ∈ as, a = .step ∨ a = .poll ∨ a = .ret

end Verif.Exec.Chan
