import Verif.Soft.Model
/-! # What is claimed about the software threads -/
namespace Verif.Soft

/-- Thread `thr` is pending at level `priority`: its bit is set in the array. -/
def Pending (count : Nat) (s : State) (thr priority : Nat) : Prop :=
  s.mem (cellIdx count thr priority) &&& pendingBit thr ≠ 0

/-- The level number plus one at which the scheduler loop of a call is. -/
def Frame.level : Frame → Option Nat
  | .row r _ => some r.priority
  | _ => none

/-- The level plus one at which the innermost scheduler loop is, or zero. -/
def running : List Frame → Nat
  | [] => 0
  | f :: st => f.level.getD (running st)

/-- The level plus one recorded in the header. -/
def recorded (s : State) : Nat := (s.mem 0 >>> 27).toNat

/-- The call is in the body of thread `thr`. -/
def Frame.inBody : Frame → Option Nat
  | .row _ (.call thr _ _ (.body _)) => some thr
  | .plain thr (.body _) => some thr
  | _ => none

/-- How often `thr` was requested at `priority` when it was not pending there. -/
def requests (thr priority : Nat) : List Event → Nat
  | [] => 0
  | .req t p fresh :: es => (if t = thr ∧ p = priority ∧ fresh = true then 1 else 0) + requests thr priority es
  | _ :: es => requests thr priority es

/-- How often `thr` was found at level `priority` and resumed. -/
def runs (thr priority : Nat) : List Event → Nat
  | [] => 0
  | .run t p :: es => (if t = thr ∧ p = priority then 1 else 0) + runs thr priority es
  | _ :: es => runs thr priority es

/-- `P` holds before every element of the history. -/
def Always (count : Nat) (P : State → Act → Prop) (s : State) : List Act → Prop
  | [] => True
  | a :: as => P s a ∧ ∀ s', step count s a = some s' → Always count P s' as

/-- No call is started, and no priority changed, while a `set_pending` call is between
its accesses. -/
def Whole (s : State) : Act → Prop
  | .step | .ret => True
  | _ => ∀ thr pc rest, s.stack ≠ .req thr pc :: rest

/-- No thread is requested at a level at which a thread runs or was preempted. -/
def NoSame (s : State) : Act → Prop
  | .pend thr => ∀ f ∈ s.stack, f.level ≠ some (s.prio thr + 1)
  | _ => True

/-- The priority of a thread is not changed while a `set_pending` for it is before its
load of the priority. -/
def PrioStill (s : State) : Act → Prop
  | .setPrio thr _ => .req thr .load ∉ s.stack
  | _ => True

/-- `clear_pending` is not called. -/
def NoClear (acts : List Act) : Prop := ∀ thr, Act.clear thr ∉ acts

/-- `set_priority` is called with existing levels only (it panics otherwise). -/
def PrioOk (acts : List Act) : Prop := ∀ thr p, Act.setPrio thr p ∈ acts → p < 27

end Verif.Soft
