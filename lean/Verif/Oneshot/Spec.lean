import Verif.Oneshot.Model
/-! # Vocabulary for the properties of the oneshot channel -/
namespace Verif.Oneshot

open Verif.Spsc

variable {α : Type}

/-- The sender has given up its end (state word updated) and will still access
the object. -/
def SPc.leaving : SPc α → Bool
  | .sendWaker _ | .sendBack _ | .sendFree _ | .drWaker _ | .drFree => true
  | _ => false

/-- The receiver has given up its end and will still access the object. -/
def RPc.leaving : RPc → Bool
  | .drData _ | .drWaker _ | .drFree => true
  | _ => false

/-- The sender is about to release the object. -/
def SPc.freeing : SPc α → Bool
  | .sendFree _ | .drFree => true
  | _ => false

/-- The receiver is about to release the object. -/
def RPc.freeing : RPc → Bool
  | .drFree => true
  | _ => false

/-- No end is about to release the object while the other one still accesses it. -/
structure Apart (s : State α) : Prop where
  sender : s.spc.freeing = true → s.rpc.leaving = false
  receiver : s.rpc.freeing = true → s.spc.leaving = false

/-- Calls of the two ends do not overlap. -/
def Sequential (s : State α) : Prop := s.spc.resting = true ∨ s.rpc.resting = true

/-- Every state of the schedule satisfies `P`. -/
def Always (P : State α → Prop) (s : State α) : List (Act α) → Prop
  | [] => P s
  | a :: as => P s ∧ ∀ s', step s a = some s' → Always P s' as

/-! ### Reading a log -/

/-- Values passed to `send`. -/
def sends : List (Event α) → List α
  | [] => []
  | .sendCall v :: es => v :: sends es
  | _ :: es => sends es

/-- Values handed out by `try_recv` and `poll`. -/
def received : List (Event α) → List α
  | [] => []
  | .recv v :: es => v :: received es
  | _ :: es => received es

/-- Values dropped by `Receiver::drop`. -/
def droppedValues : List (Event α) → List α
  | [] => []
  | .dropData v :: es => v :: droppedValues es
  | _ :: es => droppedValues es

/-- Values handed back by `send`. -/
def returned : List (Event α) → List α
  | [] => []
  | .sendErr v :: es => v :: returned es
  | _ :: es => returned es

/-- Number of times the object was released. -/
def frees : List (Event α) → Nat
  | [] => 0
  | .freed :: es => frees es + 1
  | _ :: es => frees es

/-- Wakers of the receiver stored in the shared object. -/
def rxStored : List (Event α) → List Waker
  | [] => []
  | .storeRx w :: es => w :: rxStored es
  | _ :: es => rxStored es

/-- Wakers of the receiver that were woken. -/
def rxWoken : List (Event α) → List Waker
  | [] => []
  | .wakeRx w :: es => w :: rxWoken es
  | _ :: es => rxWoken es

/-- Wakers of the receiver that were dropped. -/
def rxDropped : List (Event α) → List Waker
  | [] => []
  | .dropRx w :: es => w :: rxDropped es
  | _ :: es => rxDropped es

/-- Wakers of the sender stored in the shared object. -/
def txStored : List (Event α) → List Waker
  | [] => []
  | .storeTx w :: es => w :: txStored es
  | _ :: es => txStored es

/-- Wakers of the sender that were woken. -/
def txWoken : List (Event α) → List Waker
  | [] => []
  | .wakeTx w :: es => w :: txWoken es
  | _ :: es => txWoken es

/-- Wakers of the sender that were dropped. -/
def txDropped : List (Event α) → List Waker
  | [] => []
  | .dropTx w :: es => w :: txDropped es
  | _ :: es => txDropped es

/-- Wakers of the polls that returned pending, last poll first. -/
def pendings : List (Event α) → List Waker
  | [] => []
  | .pending w :: es => w :: pendings es
  | _ :: es => pendings es

/-- Wakers of the `poll_canceled` that returned pending, last one first. -/
def cancelPendings : List (Event α) → List Waker
  | [] => []
  | .cancelPending w :: es => w :: cancelPendings es
  | _ :: es => cancelPendings es

/-- `send` was called while the channel was not closed. -/
def calledOpen : List (Event α) → Prop
  | [] => False
  | .sendCall _ :: es => Event.closed ∉ es
  | _ :: es => calledOpen es

/-- The sender was consumed by `send` or dropped. -/
def SenderLeft (p : List (Event α)) : Prop := sends p ≠ [] ∨ Event.sDropped ∈ p

/-- The value is with nobody yet. -/
def Untaken (p : List (Event α)) : Prop := received p = [] ∧ droppedValues p = [] ∧ returned p = []

/-- What an event says about the past `p`. -/
def Ok : Event α → List (Event α) → Prop
  | .sendCall _, p => sends p = [] ∧ Event.sDropped ∉ p
  | .recv v, p => sends p = [v] ∧ Untaken p ∧ calledOpen p
  | .dropData v, p => sends p = [v] ∧ Untaken p ∧ calledOpen p
  | .sendOk, p => sends p ≠ [] ∧ returned p = [] ∧ calledOpen p
  | .sendErr v, p => sends p = [v] ∧ Untaken p ∧ Event.closed ∈ p ∧ Event.sendOk ∉ p
  | .recvCanceled, p => (SenderLeft p ∨ Event.closed ∈ p) ∧ (Event.sendOk ∈ p → received p ≠ [])
  | .recvNone, p => Event.closed ∉ p ∧ Event.sDropped ∉ p ∧ Event.sendOk ∉ p
  | .pending _, p => Event.closed ∉ p ∧ Event.sDropped ∉ p ∧ Event.sendOk ∉ p
  | .terminated true, p => (SenderLeft p ∨ Event.closed ∈ p) ∧ (Event.sendOk ∈ p → received p ≠ [])
  | .terminated false, p =>
    (Event.closed ∉ p ∧ Event.sDropped ∉ p ∧ Event.sendOk ∉ p) ∨
      (sends p ≠ [] ∧ Untaken p ∧ calledOpen p)
  | .cancelReady, p => Event.closed ∈ p
  | .cancelPending _, p => Event.closed ∉ p
  | .isCanceled b, p => b = true ↔ Event.closed ∈ p
  | .freed, p => SenderLeft p ∧ Event.closed ∈ p ∧ frees p = 0
  | _, _ => True

/-- Every event of the log is right about its past. -/
def Hist : List (Event α) → Prop
  | [] => True
  | e :: p => Ok e p ∧ Hist p

end Verif.Oneshot
