import Verif.Pulse.Model
/-! # Vocabulary for the properties of the pulse channel -/
namespace Verif.Pulse

open Verif.Spsc

variable {n : Nat} {ε : Type}

/-- The sender has given up its end (state word updated) and will still access
the object. -/
def SPc.leaving : SPc n ε → Bool
  | .errWaker _ | .errBack _ | .errFree _ | .drWaker _ | .drFree => true
  | _ => false

/-- The receiver has given up its end and will still access the object. -/
def RPc.leaving : RPc n → Bool
  | .drErr _ | .drWaker _ | .drFree => true
  | _ => false

/-- The sender is about to release the object. -/
def SPc.freeing : SPc n ε → Bool
  | .errFree _ | .drFree => true
  | _ => false

/-- The receiver is about to release the object. -/
def RPc.freeing : RPc n → Bool
  | .drFree => true
  | _ => false

/-- No end is about to release the object while the other one still accesses it. -/
structure Apart (s : State n ε) : Prop where
  sender : s.spc.freeing = true → s.rpc.leaving = false
  receiver : s.rpc.freeing = true → s.spc.leaving = false

/-- Calls of the two ends do not overlap. -/
def Sequential (s : State n ε) : Prop := s.spc.resting = true ∨ s.rpc.resting = true

/-- Every state of the schedule satisfies `P`. -/
def Always (P : State n ε → Prop) (s : State n ε) : List (Act n ε) → Prop
  | [] => P s
  | a :: as => P s ∧ ∀ s', step s a = some s' → Always P s' as

/-! ### Reading a log -/

/-- The largest number of pulses the counter can hold. -/
def maxPulses (n : Nat) : Nat := 2 ^ (n + 1) - 1

/-- Pulses that should be pending after the log. `c` tells whether sends that
returned `Canceled` count. -/
def pend (n : Nat) (c : Bool) : List (Event ε) → Nat
  | [] => 0
  | .send p .ok :: es => pend n c es + p
  | .send p .canceled :: es => if c then pend n c es + p else pend n c es
  | .sat p .ok :: es => min (pend n c es + p) (maxPulses n)
  | .sat p .canceled :: es => if c then min (pend n c es + p) (maxPulses n) else pend n c es
  | .recv k :: es => pend n c es - k
  | _ :: es => pend n c es

/-- Pulses handed out so far. -/
def recvTotal : List (Event ε) → Nat
  | [] => 0
  | .recv k :: es => recvTotal es + k
  | _ :: es => recvTotal es

/-- Pulses accepted by sends that returned `Ok`; a saturating send accepts what
fits. -/
def accepted (n : Nat) : List (Event ε) → Nat
  | [] => 0
  | .send p .ok :: es => accepted n es + p
  | .sat p .ok :: es => accepted n es + min p (maxPulses n - pend n false es)
  | _ :: es => accepted n es

/-- No send returned `Canceled`. -/
def noCanceled : List (Event ε) → Prop
  | [] => True
  | .send _ .canceled :: _ => False
  | .sat _ .canceled :: _ => False
  | _ :: es => noCanceled es

/-- Errors passed to `send_err`. -/
def errs : List (Event ε) → List ε
  | [] => []
  | .errCall e :: es => e :: errs es
  | _ :: es => errs es

/-- Errors handed out by `try_next` and `poll_next`. -/
def recvErrs : List (Event ε) → List ε
  | [] => []
  | .recvErr e :: es => e :: recvErrs es
  | _ :: es => recvErrs es

/-- Errors dropped by `Receiver::drop`. -/
def dropErrs : List (Event ε) → List ε
  | [] => []
  | .dropErr e :: es => e :: dropErrs es
  | _ :: es => dropErrs es

/-- Errors handed back by `send_err`. -/
def returned : List (Event ε) → List ε
  | [] => []
  | .errReturned e :: es => e :: returned es
  | _ :: es => returned es

/-- Number of times the object was released. -/
def frees : List (Event ε) → Nat
  | [] => 0
  | .freed :: es => frees es + 1
  | _ :: es => frees es

/-- `send_err` was called while the channel was not closed. -/
def calledOpen : List (Event ε) → Prop
  | [] => False
  | .errCall _ :: es => Event.closed ∉ es
  | _ :: es => calledOpen es

/-- The sender was consumed by `send_err` or dropped. -/
def SenderLeft (p : List (Event ε)) : Prop := errs p ≠ [] ∨ Event.sDropped ∈ p

/-- The error is with nobody yet. -/
def Untaken (p : List (Event ε)) : Prop := recvErrs p = [] ∧ dropErrs p = [] ∧ returned p = []

/-- Wakers of the receiver stored in the shared object. -/
def rxStored : List (Event ε) → List Waker
  | [] => []
  | .storeRx w :: es => w :: rxStored es
  | _ :: es => rxStored es

/-- Wakers of the polls that returned pending, last poll first. -/
def pendings : List (Event ε) → List Waker
  | [] => []
  | .pending w :: es => w :: pendings es
  | _ :: es => pendings es

/-- An event with property `f` happened after the last pending poll. -/
def since (f : Event ε → Bool) : List (Event ε) → Bool
  | [] => false
  | .pending _ :: _ => false
  | e :: es => f e || since f es

/-- Something the receiver waits for: a successful send, an error, the end. -/
def isNotify : Event ε → Bool
  | .send _ .ok | .sat _ .ok | .errOk | .sDropped => true
  | _ => false

/-- A wake of the receiver. -/
def isWake : Event ε → Bool
  | .wakeRefRx _ | .wakeRx _ => true
  | _ => false

/-- Wakers of the receiver woken so far. -/
def rxWoken : List (Event ε) → List Waker
  | [] => []
  | .wakeRefRx w :: es => w :: rxWoken es
  | .wakeRx w :: es => w :: rxWoken es
  | _ :: es => rxWoken es

/-- What an event says about the pulses of the past `p`. -/
def OkCount (n : Nat) : Event ε → List (Event ε) → Prop
  | .send k .ok, p => Event.closed ∉ p ∧ pend n true p + k ≤ maxPulses n
  | .send k .full, p => maxPulses n < pend n true p + k
  | .send k .canceled, p => Event.closed ∈ p ∧ pend n true p + k ≤ maxPulses n
  | .sat _ .ok, p => Event.closed ∉ p
  | .sat _ .full, _ => False
  | .sat _ .canceled, p => Event.closed ∈ p
  | .recv k, p => 0 < k ∧ k = pend n true p
  | .recvErr _, p => pend n true p = 0
  | .ended, p => pend n true p = 0
  | .empty, p => pend n true p = 0
  | .pending _, p => pend n true p = 0
  | .terminated b, p => b = true → pend n true p = 0
  | _, _ => True

/-- What an event says about the error and the end of the stream. -/
def OkErr : Event ε → List (Event ε) → Prop
  | .send _ _, p => errs p = [] ∧ Event.sDropped ∉ p
  | .sat _ _, p => errs p = [] ∧ Event.sDropped ∉ p
  | .errCall _, p => errs p = [] ∧ Event.sDropped ∉ p
  | .recvErr e, p => errs p = [e] ∧ Untaken p ∧ calledOpen p
  | .dropErr e, p => errs p = [e] ∧ Untaken p ∧ calledOpen p
  | .errOk, p => errs p ≠ [] ∧ returned p = [] ∧ calledOpen p
  | .errReturned e, p => errs p = [e] ∧ Untaken p ∧ Event.closed ∈ p ∧ Event.errOk ∉ p
  | .ended, p => (SenderLeft p ∨ Event.closed ∈ p) ∧ (Event.errOk ∈ p → recvErrs p ≠ [])
  | .empty, p => Event.closed ∉ p ∧ Event.sDropped ∉ p ∧ Event.errOk ∉ p
  | .pending _, p => Event.closed ∉ p ∧ Event.sDropped ∉ p ∧ Event.errOk ∉ p
  | .terminated true, p => (SenderLeft p ∨ Event.closed ∈ p) ∧ (Event.errOk ∈ p → recvErrs p ≠ [])
  | .cancelReady, p => Event.closed ∈ p
  | .cancelPending _, p => Event.closed ∉ p
  | .isCanceled b, p => b = true ↔ Event.closed ∈ p
  | .freed, p => SenderLeft p ∧ Event.closed ∈ p ∧ frees p = 0
  | _, _ => True

/-- When `is_terminated` says no, there is a reason. -/
def OkTerm (n : Nat) : Event ε → List (Event ε) → Prop
  | .terminated false, p =>
    pend n true p ≠ 0 ∨ (Event.closed ∉ p ∧ Event.sDropped ∉ p ∧ Event.errOk ∉ p) ∨
      (errs p ≠ [] ∧ Untaken p ∧ calledOpen p)
  | _, _ => True

/-- An error is not handed out after the end was reported. -/
def OkFin : Event ε → List (Event ε) → Prop
  | .recvErr _, p => Event.ended ∉ p ∧ Event.terminated true ∉ p
  | _, _ => True

/-- Every event of the log is right about its past. -/
def Hist (ok : Event ε → List (Event ε) → Prop) : List (Event ε) → Prop
  | [] => True
  | e :: p => ok e p ∧ Hist ok p

end Verif.Pulse
