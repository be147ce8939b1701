import Verif.Ring.Model
/-! # Vocabulary for the properties of the ring channel -/
namespace Verif.Ring

open Verif.Spsc

variable {k : Nat} {τ ε : Type}

/-! ### Overlaps of the two ends -/

/-- The sender has given up its end (state word updated) and will still access
the object. -/
def SPc.leaving : SPc k τ ε → Bool
  | .errWaker _ | .errBack _ | .errFree _ | .drWaker _ | .drFree => true
  | _ => false

/-- The receiver has given up its end and will still access the object. -/
def RPc.leaving : RPc k → Bool
  | .drSlot _ _ | .drErr _ | .drWaker _ | .drFree => true
  | _ => false

/-- The sender is about to release the object. -/
def SPc.freeing : SPc k τ ε → Bool
  | .errFree _ | .drFree => true
  | _ => false

/-- The receiver is about to release the object. -/
def RPc.freeing : RPc k → Bool
  | .drFree => true
  | _ => false

/-- No end is about to release the object while the other one still accesses it. -/
structure Apart (s : State k τ ε) : Prop where
  sender : s.spc.freeing = true → s.rpc.leaving = false
  receiver : s.rpc.freeing = true → s.spc.leaving = false

/-- The slot the sender is working on. -/
def SPc.slot : SPc k τ ε → Option Nat
  | .owRead _ i | .wrWrite _ i | .wrRmw _ i | .wrBack _ i => some i
  | _ => none

/-- The slots the receiver is working on: claimed and not yet read. -/
def RPc.slots (cap : Nat) : RPc k → List Nat
  | .tvRmw i _ _ | .tvWake i | .tvRead i => [i]
  | .pnUndo st => if 0 < len st then [cur st] else []
  | .drSlot st j => (List.range' j (len st - j)).map (fun i => addCursor (cur st) i cap)
  | _ => []

/-- Both ends work on the same slot. -/
def Clash (cap : Nat) (s : State k τ ε) : Prop := ∃ i, s.spc.slot = some i ∧ i ∈ s.rpc.slots cap

/-- The receiver does not wake the sender after it consumed the sender's waker by
`close`. -/
def Orderly (s : State k τ ε) : Prop := ∀ i, s.rpc = .tvWake i → Event.closed ∉ s.log

/-- Calls of the two ends do not overlap. -/
def Sequential (s : State k τ ε) : Prop := s.spc.resting = true ∨ s.rpc.resting = true

/-- Every state of the schedule satisfies `P`. -/
def Always (cap : Nat) (P : State k τ ε → Prop) (s : State k τ ε) : List (Act τ ε) → Prop
  | [] => P s
  | a :: as => P s ∧ ∀ s', step cap s a = some s' → Always cap P s' as

/-! ### Reading a log: the queue -/

/-- What the log says about the queue: the pending values, the values removed but
not yet read by the receiver and by an overwriting send, and those `Receiver::drop`
has still to drop. -/
structure Abs (τ : Type) where
  pend : List τ
  rx : Option τ
  tx : Option τ
  del : List τ

/-- Replay the log on an abstract queue. -/
def abs : List (Event τ ε) → Abs τ
  | [] => ⟨[], none, none, []⟩
  | .push v :: p => { abs p with pend := (abs p).pend ++ [v] }
  | .claimRx :: p => { abs p with pend := (abs p).pend.tail, rx := (abs p).pend.head? }
  | .recv _ :: p => { abs p with rx := none }
  | .claimTx :: p => { abs p with pend := (abs p).pend.tail, tx := (abs p).pend.head? }
  | .overwrote _ :: p => { abs p with tx := none }
  | .claimAll :: p => { abs p with pend := [], del := (abs p).pend }
  | .dropped _ :: p => { abs p with del := (abs p).del.tail }
  | _ :: p => abs p

/-- Number of pending values. -/
def npend (p : List (Event τ ε)) : Nat := (abs p).pend.length

/-- Values put in the queue, oldest first. -/
def pushed : List (Event τ ε) → List τ
  | [] => []
  | .push v :: p => pushed p ++ [v]
  | _ :: p => pushed p

/-- Values received, oldest first. -/
def received : List (Event τ ε) → List τ
  | [] => []
  | .recv v :: p => received p ++ [v]
  | _ :: p => received p

/-- Values handed back by overwriting sends, oldest first. -/
def overwritten : List (Event τ ε) → List τ
  | [] => []
  | .overwrote v :: p => overwritten p ++ [v]
  | _ :: p => overwritten p

/-- Values dropped by `Receiver::drop`, oldest first. -/
def droppedVals : List (Event τ ε) → List τ
  | [] => []
  | .dropped v :: p => droppedVals p ++ [v]
  | _ :: p => droppedVals p

/-- The value of the last call of `try_send` or `send_overwrite`. -/
def lastCall : List (Event τ ε) → Option τ
  | [] => none
  | .callSend v :: _ => some v
  | .callOver v :: _ => some v
  | _ :: p => lastCall p

/-- What an event says about the number of pending values. -/
def OkCount (cap : Nat) : Event τ ε → List (Event τ ε) → Prop
  | .push v, p => npend p < cap ∧ Event.closed ∉ p ∧ lastCall p = some v
  | .full v, p => npend p = cap ∧ lastCall p = some v
  | .canceled _, p => Event.closed ∈ p
  | .claimTx, p => npend p = cap ∧ Event.closed ∉ p
  | .claimRx, p => 0 < npend p
  | .recvErr _, p => npend p = 0
  | .ended, p => npend p = 0
  | .empty, p => npend p = 0
  | .pending _, p => npend p = 0
  | .terminated b, p => b = true → npend p = 0
  | .pollOk .ready, p => npend p < cap ∧ Event.closed ∉ p
  | .pollOk .flush, p => npend p = 0 ∧ Event.closed ∉ p
  | .pollOk .close, p => Event.closed ∈ p
  | .pollCanceled _, p => Event.closed ∈ p
  | .pollPending .ready _, p => npend p = cap ∧ Event.closed ∉ p
  | .pollPending .flush _, p => 0 < npend p ∧ Event.closed ∉ p
  | .pollPending .close _, p => Event.closed ∉ p
  | .isCanceled b, p => b = true ↔ Event.closed ∈ p
  | _, _ => True

/-- What an event says about the values. -/
def OkVal : Event τ ε → List (Event τ ε) → Prop
  | .claimRx, p => (abs p).rx = none ∧ Event.claimAll ∉ p
  | .claimTx, p => (abs p).tx = none
  | .claimAll, p => (abs p).rx = none ∧ (abs p).del = []
  | .recv v, p => (abs p).rx = some v
  | .overwrote v, p => (abs p).tx = some v
  | .dropped v, p => (abs p).del.head? = some v
  | .canceled v, p => lastCall p = some v
  | _, _ => True

/-! ### Reading a log: the error and the end -/

/-- Errors passed to `send_err`. -/
def errs : List (Event τ ε) → List ε
  | [] => []
  | .errCall e :: es => e :: errs es
  | _ :: es => errs es

/-- Errors handed out by `try_next` and `poll_next`. -/
def recvErrs : List (Event τ ε) → List ε
  | [] => []
  | .recvErr e :: es => e :: recvErrs es
  | _ :: es => recvErrs es

/-- Errors dropped by `Receiver::drop`. -/
def dropErrs : List (Event τ ε) → List ε
  | [] => []
  | .dropErr e :: es => e :: dropErrs es
  | _ :: es => dropErrs es

/-- Errors handed back by `send_err`. -/
def returned : List (Event τ ε) → List ε
  | [] => []
  | .errReturned e :: es => e :: returned es
  | _ :: es => returned es

/-- Number of times the object was released. -/
def frees : List (Event τ ε) → Nat
  | [] => 0
  | .freed :: es => frees es + 1
  | _ :: es => frees es

/-- `send_err` was called while the channel was not closed. -/
def calledOpen : List (Event τ ε) → Prop
  | [] => False
  | .errCall _ :: es => Event.closed ∉ es
  | _ :: es => calledOpen es

/-- The sender was consumed by `send_err` or dropped. -/
def SenderLeft (p : List (Event τ ε)) : Prop := errs p ≠ [] ∨ Event.sDropped ∈ p

/-- The error is with nobody yet. -/
def Untaken (p : List (Event τ ε)) : Prop := recvErrs p = [] ∧ dropErrs p = [] ∧ returned p = []

/-- What an event says about the error and the end of the stream. -/
def OkErr : Event τ ε → List (Event τ ε) → Prop
  | .push _, p => errs p = [] ∧ Event.sDropped ∉ p
  | .errCall _, p => errs p = [] ∧ Event.sDropped ∉ p
  | .recvErr e, p => errs p = [e] ∧ Untaken p ∧ calledOpen p
  | .dropErr e, p => errs p = [e] ∧ Untaken p ∧ calledOpen p
  | .errOk, p => errs p ≠ [] ∧ returned p = [] ∧ calledOpen p
  | .errReturned e, p => errs p = [e] ∧ Untaken p ∧ Event.closed ∈ p ∧ Event.errOk ∉ p
  | .ended, p => (SenderLeft p ∨ Event.closed ∈ p) ∧ (Event.errOk ∈ p → recvErrs p ≠ [])
  | .empty, p => Event.closed ∉ p ∧ Event.sDropped ∉ p ∧ Event.errOk ∉ p
  | .pending _, p => Event.closed ∉ p ∧ Event.sDropped ∉ p ∧ Event.errOk ∉ p
  | .terminated true, p => (SenderLeft p ∨ Event.closed ∈ p) ∧ (Event.errOk ∈ p → recvErrs p ≠ [])
  | .freed, p => SenderLeft p ∧ Event.closed ∈ p ∧ frees p = 0
  | _, _ => True

/-- When `is_terminated` says no, there is a reason. -/
def OkTerm : Event τ ε → List (Event τ ε) → Prop
  | .terminated false, p =>
    npend p ≠ 0 ∨ (Event.closed ∉ p ∧ Event.sDropped ∉ p ∧ Event.errOk ∉ p) ∨
      (errs p ≠ [] ∧ Untaken p ∧ calledOpen p)
  | _, _ => True

/-- Nothing is handed out after the end was reported. -/
def OkFin : Event τ ε → List (Event τ ε) → Prop
  | .recvErr _, p => Event.ended ∉ p ∧ Event.terminated true ∉ p
  | .claimRx, p => Event.ended ∉ p ∧ Event.terminated true ∉ p
  | _, _ => True

/-! ### Reading a log: wakers -/

/-- Wakers of the receiver stored in the shared object. -/
def rxStored : List (Event τ ε) → List Waker
  | [] => []
  | .storeRx w :: es => w :: rxStored es
  | _ :: es => rxStored es

/-- Wakers of the polls that returned pending, last poll first. -/
def pendings : List (Event τ ε) → List Waker
  | [] => []
  | .pending w :: es => w :: pendings es
  | _ :: es => pendings es

/-- An event with property `f` happened after the last pending poll. -/
def since (f : Event τ ε → Bool) : List (Event τ ε) → Bool
  | [] => false
  | .pending _ :: _ => false
  | e :: es => f e || since f es

/-- Something the receiver waits for: a value, an error, the end. -/
def isNotify : Event τ ε → Bool
  | .push _ | .errOk | .sDropped => true
  | _ => false

/-- A wake of the receiver. -/
def isWake : Event τ ε → Bool
  | .wakeRefRx _ | .wakeRx _ => true
  | _ => false

/-- Wakers of the receiver woken so far. -/
def rxWoken : List (Event τ ε) → List Waker
  | [] => []
  | .wakeRefRx w :: es => w :: rxWoken es
  | .wakeRx w :: es => w :: rxWoken es
  | _ :: es => rxWoken es

/-- Wakers of the receiver consumed (woken by value or dropped) so far. -/
def rxUsed : List (Event τ ε) → List Waker
  | [] => []
  | .wakeRx w :: es => w :: rxUsed es
  | .dropRx w :: es => w :: rxUsed es
  | _ :: es => rxUsed es

/-- Wakers of the sender stored in the shared object. -/
def txStored : List (Event τ ε) → List Waker
  | [] => []
  | .storeTx w :: es => w :: txStored es
  | _ :: es => txStored es

/-- Wakers of the sender woken so far. -/
def txWoken : List (Event τ ε) → List Waker
  | [] => []
  | .wakeRefTx w :: es => w :: txWoken es
  | .wakeTx w :: es => w :: txWoken es
  | _ :: es => txWoken es

/-- Wakers of the sender consumed so far. -/
def txUsed : List (Event τ ε) → List Waker
  | [] => []
  | .wakeTx w :: es => w :: txUsed es
  | .dropTx w :: es => w :: txUsed es
  | _ :: es => txUsed es

/-- What the last poll of the sender was waiting for, if it returned pending. -/
def txWaits : List (Event τ ε) → Option Kind
  | [] => none
  | .pollPending κ _ :: _ => some κ
  | .pollOk _ :: _ => none
  | .pollCanceled _ :: _ => none
  | _ :: es => txWaits es

/-- An event with property `f` happened after the last poll of the sender. -/
def txSince (f : Event τ ε → Bool) : List (Event τ ε) → Bool
  | [] => false
  | .pollPending _ _ :: _ => false
  | .pollOk _ :: _ => false
  | .pollCanceled _ :: _ => false
  | e :: es => f e || txSince f es

/-- A wake of the sender. -/
def isTxWake : Event τ ε → Bool
  | .wakeRefTx _ | .wakeTx _ => true
  | _ => false

/-- A removal by an overwriting send. -/
def isClaimTx : Event τ ε → Bool
  | .claimTx => true
  | _ => false

/-- Can a poll of this kind still not be answered, by what the log says? -/
def Blocked (cap : Nat) (κ : Kind) (p : List (Event τ ε)) : Prop :=
  Event.closed ∉ p ∧
  match κ with
  | .ready => npend p = cap
  | .flush => 0 < npend p
  | .close => True

/-- The use of the wakers: at most one waker of each end is ever stored, it is used
only while it is stored, and consumed at most once. -/
def OkWk : Event τ ε → List (Event τ ε) → Prop
  | .storeRx _, p => rxStored p = []
  | .wakeRefRx w, p => rxStored p = [w] ∧ rxUsed p = []
  | .wakeRx w, p => rxStored p = [w] ∧ rxUsed p = []
  | .dropRx w, p => rxStored p = [w] ∧ rxUsed p = []
  | .storeTx _, p => txStored p = []
  | .wakeRefTx w, p => txStored p = [w] ∧ txUsed p = []
  | .wakeTx w, p => txStored p = [w] ∧ txUsed p = []
  | .dropTx w, p => txStored p = [w] ∧ txUsed p = []
  | _, _ => True

/-- Who removed a value from the queue. -/
inductive Who where
  | receiver | sender | drop
deriving DecidableEq

/-- The values removed from the queue, oldest first, and by whom. -/
def removals : List (Event τ ε) → List (Who × τ)
  | [] => []
  | .claimRx :: p => removals p ++ (abs p).pend.head?.toList.map (fun v => (Who.receiver, v))
  | .claimTx :: p => removals p ++ (abs p).pend.head?.toList.map (fun v => (Who.sender, v))
  | .claimAll :: p => removals p ++ (abs p).pend.map (fun v => (Who.drop, v))
  | _ :: p => removals p

/-- Every event of the log is right about its past. -/
def Hist (ok : Event τ ε → List (Event τ ε) → Prop) : List (Event τ ε) → Prop
  | [] => True
  | e :: p => ok e p ∧ Hist ok p

end Verif.Ring
