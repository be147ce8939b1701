import Verif.Exec.StrModel
import Verif.Exec.ChanSpec
/-! # What is claimed about tasks that read streams -/
namespace Verif.Exec.Str

variable {n k : Nat}

/-- The sender is not in a call. -/
def Ch.rests : Ch n k → Bool
  | .oneshot c => c.spc.resting
  | .pulse c => c.spc.resting
  | .ring _ c => c.spc.resting

/-- The sender was consumed by a call or dropped. -/
def Ch.Left : Ch n k → Prop
  | .oneshot c => Oneshot.SenderLeft c.log
  | .pulse c => Pulse.SenderLeft c.log
  | .ring _ c => Ring.SenderLeft c.log

/-- `sent` is `got` and `lost`, merged in some way. -/
def Merge (sent got lost : List Nat) : Prop :=
  ∃ r : List (Bool × Nat), sent = r.map (·.2) ∧ got = (r.filter (·.1)).map (·.2) ∧ lost = (r.filter (!·.1)).map (·.2)

/-- The receiver has got everything that was sent: the value, if any; as many pulses as were
accepted; the values put in the queue, in order, apart from those that the sender took out of it
again by overwriting; and the error, if any. -/
def Ch.Delivered : Ch n k → Prop
  | .oneshot c => Oneshot.received c.log = Oneshot.sends c.log
  | .pulse c => Pulse.recvTotal c.log = Pulse.accepted n c.log ∧ Pulse.recvErrs c.log = Pulse.errs c.log
  | .ring _ c => Merge (Ring.pushed c.log) (Ring.received c.log) (Ring.overwritten c.log) ∧ Ring.recvErrs c.log = Ring.errs c.log

/-- A ring? -/
def Ch.isRing : Ch n k → Bool
  | .ring _ _ => true
  | _ => false

/-- The two ends of a ring do not work on the same slot. -/
def Ch.NoClash : Ch n k → Prop
  | .ring cap c => ¬ Ring.Clash cap c
  | _ => True

/-- No end of the channel is about to release it while the other end has still to access it. -/
def Ch.Apart : Ch n k → Prop
  | .oneshot c => Oneshot.Apart c
  | .pulse c => Pulse.Apart c
  | .ring _ c => Ring.Apart c

/-- Capacities that the ring can hold. -/
def Kind.Valid (k : Nat) : Kind → Prop
  | .ring cap => 1 < cap ∧ cap < Ring.maxCapacity k
  | _ => True

/-- Nothing runs: no thread, no request, no interrupt handler; no sender is in a call. -/
def Idle (s : State n k) : Prop := s.soft.stack = [] ∧ ∀ q i, (s.chan q i).rests = true

/-- The thread that an element of a history wakes. -/
def wakes (count : Nat) (s : State n k) (a : Act n) : Option Nat :=
  match act count s a with
  | none => none
  | some (_, w) => w

/-- No thread is woken whose priority is that of a running or preempted thread. -/
def NoSame (count : Nat) (s : State n k) (a : Act n) : Prop :=
  ∀ t, wakes count s a = some t → ∀ f ∈ s.soft.stack, f.level ≠ some (s.soft.prio t + 1)

/-- `P` holds before every element of the history and after the last. -/
def Always (count : Nat) (P : State n k → Prop) (s : State n k) : List (Act n) → Prop
  | [] => P s
  | a :: as => P s ∧ ∀ s', step count s a = some s' → Always count P s' as

/-- `P` holds for every element of the history. -/
def AlwaysAct (count : Nat) (P : State n k → Act n → Prop) (s : State n k) : List (Act n) → Prop
  | [] => True
  | a :: as => P s a ∧ ∀ s', step count s a = some s' → AlwaysAct count P s' as

/-- In all rings the two ends work on different slots. -/
def NoClash (s : State n k) : Prop := ∀ q i, (s.chan q i).NoClash

/-- In all channels no end is about to release what the other end has still to access. -/
def AllApart (s : State n k) : Prop := ∀ q i, (s.chan q i).Apart

/-- Task `q` awaits a channel whose sender is still there. -/
def Waiting (s : State n k) (q : Nat) : Prop :=
  (s.task q).pos < (s.task q).len ∧ ¬ (s.chan q (s.task q).pos).Left

/-- A round of accesses: the software threads and the tasks that they run go on, and nothing else happens. How
often and in which order is left open. -/
def Round (as : List (Act n)) : Prop := (.step ∈ as ∧ .poll ∈ as ∧ .ret ∈ as) ∧ ∀ a ∈ as, a = .step ∨ a = .poll ∨ a = .ret

theorem fresh_nil {α : Type} (l : List α) : fresh l l = [] := by simp [fresh]

theorem fresh_one {α : Type} (e : α) (l : List α) : fresh l (e :: l) = [e] := by simp [fresh]

theorem fresh_two {α : Type} (d e : α) (l : List α) : fresh l (d :: e :: l) = [d, e] := by
  simp [fresh, show l.length + 1 + 1 - l.length = 2 by omega]

end Verif.Exec.Str
