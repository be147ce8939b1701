import Verif.Exec.PipeModel
import Verif.Ring.Spec
import Verif.Soft.Spec
/-! # What is claimed about tasks that send to each other -/
namespace Verif.Exec.Pipe
open Verif.Exec (inside)

variable {k : Nat}

/-- The thread numbers and priorities are those of the software threads; the capacities are those that the
ring can hold. -/
structure Cfg.Valid (k : Nat) (g : Cfg) : Prop where
  count : g.count ≤ 32
  prio : ∀ t, g.prio t < 27
  cap : ∀ j, 1 < g.cap j ∧ g.cap j < Ring.maxCapacity k

/-- The thread that an element of a history wakes. -/
def wakes (g : Cfg) (s : State k) (a : Act) : Option Nat :=
  match act g s a with
  | none => none
  | some (_, w) => w

/-- No thread is woken whose priority is that of a running or preempted thread. -/
def NoSame (g : Cfg) (s : State k) (a : Act) : Prop :=
  ∀ t, wakes g s a = some t → ∀ f ∈ s.soft.stack, f.level ≠ some (s.soft.prio t + 1)

/-- `P` holds before every element of the history and after the last. -/
def Always (g : Cfg) (P : State k → Prop) (s : State k) : List Act → Prop
  | [] => P s
  | a :: as => P s ∧ ∀ s', step g s a = some s' → Always g P s' as

/-- `P` holds for every element of the history. -/
def AlwaysAct (g : Cfg) (P : State k → Act → Prop) (s : State k) : List Act → Prop
  | [] => True
  | a :: as => P s a ∧ ∀ s', step g s a = some s' → AlwaysAct g P s' as

/-- In all rings the two ends work on different slots. -/
def NoClash (g : Cfg) (s : State k) : Prop := ∀ j, ¬ Ring.Clash (g.cap j) (s.chan j)

/-- In all rings no end is about to release what the other end has still to access. -/
def AllApart (s : State k) : Prop := ∀ j, Ring.Apart (s.chan j)

/-- No receiver is preempted by its sender. -/
def Cfg.Downward (g : Cfg) : Prop := ∀ j, g.prio (g.thr (2 * j + 1)) ≤ g.prio (g.thr (2 * j))

/-- The values that are sent to channel `j`. -/
def Cfg.list (g : Cfg) (j : Nat) : List Nat := (g.vals j).map (·.1)

/-- Both tasks of channel `j` have completed, and the values sent are those received, in order. -/
def Completed (g : Cfg) (s : State k) (j : Nat) : Prop :=
  s.done (2 * j) = true ∧ s.done (2 * j + 1) = true ∧ Ring.received (s.chan j).log = g.list j

/-- A round of accesses: the software threads and the tasks that they run go on, and nothing else happens. How
often and in which order is left open. -/
def Round (as : List Act) : Prop := (.step ∈ as ∧ .poll ∈ as ∧ .ret ∈ as) ∧ ∀ a ∈ as, a = .step ∨ a = .poll ∨ a = .ret

end Verif.Exec.Pipe
