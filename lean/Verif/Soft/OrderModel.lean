import Verif.Soft.Model
import Verif.Order.Machine
/-!
# The software threads with the memory orderings of the source

The core of `Verif.Soft.Model` (feature `atomics`) as context 0 of a machine with memory orderings (`Verif.Order.Machine`), and any
number of other contexts: handlers or cores that call `will_preempt` (`src/thr/soft/mod.rs` 106–118) and leave the call of
`preempt` to the core. Each of them makes one request. Before it, it writes a message, which is not atomic; the core reads the
messages of requests that it has served.

* `row_start` (221) is a load and a compare-exchange: the scheduler chooses (`choose`) whether the value is loaded, also an old one, which
  ends the call or makes it try again, or the compare-exchange succeeds. `row_run` (244) and `row_next` (272) try until the
  compare-exchange succeeds; their failed attempts have no effect and are left out.
* Steps that access nothing, or only the current thread index, which no other context uses, are calls (`turn`).
* Priorities do not change, and `clear_pending` is called by the core only.
-/
namespace Verif.Soft.Order

open Verif.Order (Ord Acc Machine)

/-- The orderings. -/
structure Ords where
  prioRead : Bool
  setCell : Ord
  setHead : Ord
  startRead : Bool
  startCas : Ord
  cellRead : Bool
  run : Ord
  next : Ord
  clear : Ord
deriving DecidableEq

/-- Lines 109 and 184 (`Relaxed`), 293 (`Release`), 294 (`Release`), 221 (`Relaxed`, `Acquire`), 234 (`Relaxed`), 244 (`Acquire`), 272
(`Release`), 299 (`Release`). -/
def ords : Ords :=
  { prioRead := false, setCell := ⟨false, true⟩, setHead := ⟨false, true⟩, startRead := false, startCas := ⟨true, false⟩, cellRead := false,
    run := ⟨true, false⟩, next := ⟨false, true⟩, clear := ⟨false, true⟩ }

/-- What a context other than the core is doing; `done` with the result of `will_preempt`. -/
inductive Ctx where
  | idle
  | write (thr : Nat)
  | req (thr : Nat) (pc : Req)
  | done (preempt : Bool)
deriving DecidableEq

/-- The core, the other contexts, a message that the core is about to read, the scheduler's choice. The other fields are ghosts: what the
contexts have set pending (thread and priority), which of them have updated the header, from which the scheduler has taken the level since, in
`row_start` or in `row_next`, whose bit was cleared, and whose bit was cleared to resume the thread. -/
structure SState where
  base : State
  ctx : Nat → Ctx
  task : Option Nat
  flag : Bool
  said : Nat → Option (Nat × Nat)
  due : Nat → Bool
  started : Nat → Bool
  nexted : Nat → Bool
  gone : Nat → Bool
  served : Nat → Bool

/-- Calls: of the core; an access-free step of the core; the core reads the message of a request that it has served; context `t` writes
its message and sets `thr` pending; the scheduler's choice. -/
inductive Op where
  | act (a : Act)
  | turn
  | read (t : Nat)
  | pend (t thr : Nat)
  | choose (b : Bool)

/-- The locations: the pending array (0 is the header), priorities, messages. -/
def memLoc (i : Nat) : Nat := 3 * i
def prioLoc (thr : Nat) : Nat := 3 * thr + 1
def msgLoc (t : Nat) : Nat := 3 * t + 2

/-- `row_start` finds a level. -/
def finds (s : State) : Bool := (findPriority (s.mem 0) ((s.mem 0 >>> levels).toNat) levels).1.isSome

/-- The next access of the core. -/
def accFrame (o : Ords) (count : Nat) (flag : Bool) (s : State) : Frame → Option Acc
  | .req thr .load => some (.load (prioLoc thr) o.prioRead)
  | .req thr (.cell p) => some (.rmw (memLoc (cellIdx count thr p)) o.setCell)
  | .req _ (.header _) => some (.rmw (memLoc 0) o.setHead)
  | .start => if flag then some (.load (memLoc 0) o.startRead) else if finds s then some (.rmw (memLoc 0) o.startCas) else none
  | .row r (.load _) => some (.load (memLoc r.ptr) o.cellRead)
  | .row r (.bits _ cell bit) => if cell &&& bit ≠ 0 then some (.rmw (memLoc r.ptr) o.run) else none
  | .row _ (.call ..) => none
  | .row _ .next => some (.rmw (memLoc 0) o.next)
  | .clear thr none => some (.load (prioLoc thr) o.prioRead)
  | .clear thr (some p) => some (.rmw (memLoc (cellIdx count thr p)) o.clear)
  | .plain .. => none

/-- The next access of another context. -/
def accCtx (o : Ords) (count t : Nat) : Ctx → Option Acc
  | .idle | .done _ => none
  | .write _ => some (.other (msgLoc t) .write)
  | .req thr .load => some (.load (prioLoc thr) o.prioRead)
  | .req thr (.cell p) => some (.rmw (memLoc (cellIdx count thr p)) o.setCell)
  | .req _ (.header _) => some (.rmw (memLoc 0) o.setHead)

/-- The bit of the request is in cell `i`, among `bit`. -/
def hits (count i : Nat) (bit : U32) : Option (Nat × Nat) → Bool
  | none => false
  | some (thr, p) => decide (cellIdx count thr p = i ∧ pendingBit thr &&& bit ≠ 0)

/-- The request is for this level (plus one). -/
def atLevel (q : Nat) : Option (Nat × Nat) → Bool
  | none => false
  | some (_, p) => decide (p + 1 = q)

/-- The ghosts after a step of the core with the frame `f` on top. -/
def ghosts (count : Nat) (s : SState) : Frame → SState
  | .start =>
    { s with started := fun t => s.started t || (s.due t && atLevel (findPriority (s.base.mem 0) ((s.base.mem 0 >>> levels).toNat) levels).2 (s.said t)) }
  | .row r .next =>
    if (findPriority (s.base.mem 0) r.prev (r.priority - 1)).1.isSome then
      { s with nexted := fun t => s.nexted t || (s.due t && atLevel (findPriority (s.base.mem 0) r.prev (r.priority - 1)).2 (s.said t)) }
    else s
  | .row r (.bits _ _ bit) =>
    { s with gone := fun t => s.gone t || hits count r.ptr bit (s.said t), served := fun t => s.served t || hits count r.ptr bit (s.said t) }
  | .clear thr (some p) => { s with gone := fun t => s.gone t || hits count (cellIdx count thr p) (pendingBit thr) (s.said t) }
  | _ => s

/-- The next step of the core. A load by `row_start` leaves the loop or tries again. -/
def coreStep (count : Nat) (s : SState) : Option SState :=
  match s.base.stack with
  | [] => some s
  | f :: rest =>
    if f = .start ∧ s.flag = true then
      some { s with base := { s.base with stack := if finds s.base then s.base.stack else rest } }
    else
      match frameStep count s.base rest f with
      | none => none
      | some b => some { ghosts count s f with base := b }

/-- What remains of a request. -/
def after : List Frame → Ctx
  | .req thr pc :: _ => .req thr pc
  | .start :: _ => .done true
  | _ => .done false

/-- The next step of another context. -/
def ctxStep (count : Nat) (s : SState) (t : Nat) : Ctx → Option SState
  | .idle | .done _ => some s
  | .write thr => some { s with ctx := fun u => if u = t then .req thr .load else s.ctx u }
  | .req thr pc =>
    match frameStep count s.base [] (.req thr pc) with
    | none => none
    | some b =>
      some { s with
        base := { b with stack := s.base.stack }
        ctx := fun u => if u = t then after b.stack else s.ctx u
        said := match pc with
          | .cell p => fun u => if u = t then some (thr, p) else s.said u
          | _ => s.said
        due := match pc with
          | .header _ => fun u => if u = t then true else s.due u
          | _ => s.due }

/-- The top of the stack makes a step without an access. -/
def isTurn : List Frame → Bool
  | .row _ (.bits _ cell bit) :: _ => decide (cell &&& bit = 0)
  | .row _ (.call ..) :: _ => true
  | .plain .. :: _ => true
  | _ => false

/-- `count` threads with the priorities `prio`. -/
def machine (count : Nat) (prio : Nat → Nat) (o : Ords) : Machine SState Nat Op where
  init :=
    { base := init prio, ctx := fun _ => .idle, task := none, flag := false, said := fun _ => none, due := fun _ => false,
      started := fun _ => false, nexted := fun _ => false, gone := fun _ => false, served := fun _ => false }
  word s l := if l % 3 = 0 then (s.base.mem (l / 3)).toNat else if l % 3 = 1 then s.base.prio (l / 3) else 0
  setWord s l v :=
    if l % 3 = 0 then { s with base := { s.base with mem := upd s.base.mem (l / 3) (BitVec.ofNat 32 v) } }
    else if l % 3 = 1 then { s with base := { s.base with prio := upd s.base.prio (l / 3) v } } else s
  call s
    | .act a =>
      match a with
      | .step | .setPrio .. => s
      | _ =>
        match step count s.base a with
        | none => s
        | some b => { s with base := b }
    | .turn =>
      if isTurn s.base.stack then
        match step count s.base .step with
        | none => s
        | some b => { s with base := b }
      else s
    | .read t => if s.served t = true ∧ s.task = none then { s with task := some t } else s
    | .pend t thr => if t ≠ 0 ∧ s.ctx t = .idle ∧ thr < count then { s with ctx := fun u => if u = t then .write thr else s.ctx u } else s
    | .choose b => { s with flag := b }
  acc t s :=
    if t = 0 then
      match s.task with
      | some u => some (.other (msgLoc u) .read)
      | none =>
        match s.base.stack with
        | [] => none
        | f :: _ => accFrame o count s.flag s.base f
    else accCtx o count t (s.ctx t)
  step t s :=
    if t = 0 then
      match s.task with
      | some _ => some { s with task := none }
      | none => coreStep count s
    else ctxStep count s t (s.ctx t)

end Verif.Soft.Order
