/-! # Model of the software-managed threads

`src/thr/soft/mod.rs`, `src/thr/soft/wake.rs`, and `Thread::call`,
`Thread::local_checked` of `src/thr/mod.rs`.

Everything runs on one core. A call of `set_pending`, `preempt`, `clear_pending` or
`Thread::call` may be made by a running thread body, and by an interrupt handler
between any two accesses of the call it interrupts; it completes before what it
interrupted goes on. So the state has a stack of calls in progress. The element on top
makes one access per step; a new call may be put on top at any time.

An update of a cell is one step (C04, C55). Memory order arguments are ignored. An
access outside of the pending array, and an overflow of `thr_idx`, is `none`. -/
namespace Verif.Soft

abbrev U32 := BitVec 32

/-- `PRIORITY_LEVELS`, 8. -/
def levels : Nat := 27

/-- `COL_BITS`, 27. -/
def colBits : Nat := 5

/-- `row_size`, 15–17, for `T::COUNT = count`. -/
def rowSize (count : Nat) : Nat :=
  (count >>> colBits) + (if (count &&& ((1 <<< colBits) - 1)) > 0 then 1 else 0)

/-- `pending_size`, 11–13. -/
def pendingSize (count : Nat) : Nat := 1 + rowSize count * levels

/-- `cell_idx`, 19–21. -/
def cellIdx (count thr priority : Nat) : Nat := 1 + rowSize count * (levels - 1 - priority) + (thr >>> colBits)

/-- `pending_bit`, 23–25. -/
def pendingBit (thr : Nat) : U32 := 1#32 <<< (thr &&& ((1 <<< colBits) - 1))

/-- `cursor_set_priority`, 323–325. -/
def setPriority (cursor : U32) (priority : Nat) : U32 :=
  cursor &&& ~~~(BitVec.allOnes 32 <<< levels) ||| BitVec.ofNat 32 priority <<< levels

/-- `cursor_find_priority`, 308–319: the new cursor and the value left in `priority`.
`priority` is counted down to `prev`; the model stops at zero, which the code
does not reach because `prev` is at most `priority` (see C43). -/
def findPriority (cursor : U32) (prev : Nat) : Nat → Option U32 × Nat
  | 0 => (none, 0)
  | p + 1 =>
    if p + 1 = prev then (none, p + 1)
    else
      let bit : U32 := 1#32 <<< p
      if cursor &&& bit ≠ 0 then (some (setPriority cursor (p + 1) &&& ~~~bit), p + 1)
      else findPriority cursor prev p

/-- A `Thread::call`, `thr/mod.rs` 158–165: load the current index (160), store the own
one (161), run the body (162), restore (163). -/
inductive Call where
  | load
  | store (preempted : Nat)
  | body (preempted : Nat)
  | restore (preempted : Nat)
deriving DecidableEq

/-- `will_preempt` and `set_pending`: load the priority (109), update the cell (293),
update the header (294). -/
inductive Req where
  | load
  | cell (priority : Nat)
  | header (priority : Nat)
deriving DecidableEq

/-- `ptr`, `priority` and `prev_priority` of `preempt`, 128. -/
structure Row where
  ptr : Nat
  priority : Nat
  prev : Nat
deriving DecidableEq

/-- `row_run`: load a cell (234); test a bit of it and update the cell (243, 244); the
call of a thread (247); and `row_next` (272). `bit` is `pending_bit`. -/
inductive RowPc where
  | load (thr : Nat)
  | bits (thr : Nat) (cell bit : U32)
  | call (thr : Nat) (cell bit : U32) (c : Call)
  | next
deriving DecidableEq

/-- An element of the stack of calls in progress. -/
inductive Frame where
  /-- `SoftThread::set_pending`, 90–94 -/
  | req (thr : Nat) (pc : Req)
  /-- `preempt`, before `row_start`, 128 -/
  | start
  /-- `preempt`, in the loop, 129–134 -/
  | row (r : Row) (pc : RowPc)
  /-- `clear_pending`, 159–167; `none` before the load of the priority -/
  | clear (thr : Nat) (priority : Option Nat)
  /-- a `Thread::call` that is not made by `preempt` -/
  | plain (thr : Nat) (c : Call)
deriving DecidableEq

/-- Observable events. -/
inductive Event where
  /-- thread `thr` was requested at level `priority`; `fresh`: it was not pending there -/
  | req (thr priority : Nat) (fresh : Bool)
  /-- `preempt` is about to resume `thr`, found at level `priority` -/
  | run (thr priority : Nat)
  /-- thread `thr` was cleared at level `priority` -/
  | clear (thr priority : Nat)
deriving DecidableEq

/-- The pending array (0 is the header), the priorities, the current thread index, the
stack, top first, and the log, newest first. -/
structure State where
  mem : Nat → U32
  prio : Nat → Nat
  current : Nat
  stack : List Frame
  log : List Event

/-- All statics are zero (`macros/src/thr_soft.rs` 176, 213–216, `thr/mod.rs` 87). The
priorities are arbitrary, which stands for calls of `set_priority` during
initialization. -/
def init (prio : Nat → Nat) : State := { mem := fun _ => 0, prio := prio, current := 0, stack := [], log := [] }

/-- Pointwise update. -/
def upd {α : Type} (f : Nat → α) (i : Nat) (x : α) : Nat → α := fun j => if j = i then x else f j

/-- One access of a `Thread::call` of `thr`, other than the body: the new value of the
current index and what remains. -/
def callStep (current thr : Nat) : Call → Nat × Option Call
  | .load => (current, some (.store current))
  | .store p => (thr + 1, some (.body p))
  | .body p => (current, some (.body p))
  | .restore p => (p, none)

/-- `row_run` after the bit of `thr` was dealt with, 249–259. -/
def advance (count : Nat) (r : Row) (thr : Nat) (cell bit : U32) : Frame :=
  if thr + 1 = count then .row r .next
  else
    if bit <<< 1 = 0 then .row { r with ptr := r.ptr + 1 } (.load (thr + 1))
    else .row r (.bits (thr + 1) cell (bit <<< 1))

/-- One access of the call on top of the stack; `rest` is the stack below. -/
def frameStep (count : Nat) (s : State) (rest : List Frame) : Frame → Option State
  | .req thr pc =>
    match pc with
    | .load => some { s with stack := .req thr (.cell (s.prio thr)) :: rest }
    | .cell priority =>
      let i := cellIdx count thr priority
      if i < pendingSize count then
        let old := s.mem i
        let fresh := old &&& pendingBit thr = 0
        some { s with
          mem := upd s.mem i (old ||| pendingBit thr)
          stack := if fresh then .req thr (.header priority) :: rest else rest
          log := .req thr priority fresh :: s.log }
      else none
    | .header priority =>
      let old := s.mem 0
      some { s with
        mem := upd s.mem 0 (old ||| 1#32 <<< priority)
        stack := if (old >>> levels).toNat < priority + 1 then .start :: rest else rest }
  | .start =>
    -- `row_start`, 215–229
    let cursor := s.mem 0
    let prev := (cursor >>> levels).toNat
    match findPriority cursor prev levels with
    | (none, _) => some { s with stack := rest }
    | (some new, priority) =>
      some { s with
        mem := upd s.mem 0 new
        stack := .row ⟨1 + rowSize count * (levels - priority), priority, prev⟩ (.load 0) :: rest }
  | .row r pc =>
    match pc with
    | .load thr =>
      if r.ptr < pendingSize count then
        let cell := s.mem r.ptr
        if cell = 0 then
          let thr' := thr + (1 <<< colBits)
          if thr' < 65536 then
            some { s with
              stack := if thr' ≥ count then .row r .next :: rest else .row { r with ptr := r.ptr + 1 } (.load thr') :: rest }
          else none
        else some { s with stack := .row r (.bits thr cell 1) :: rest }
      else none
    | .bits thr cell bit =>
      if cell &&& bit ≠ 0 then
        if r.ptr < pendingSize count then
          let old := s.mem r.ptr
          some { s with
            mem := upd s.mem r.ptr (old &&& ~~~bit)
            stack := .row r (.call thr old bit .load) :: rest
            log := .run thr (r.priority - 1) :: s.log }
        else none
      else some { s with stack := advance count r thr cell bit :: rest }
    | .call thr cell bit c =>
      match callStep s.current thr c with
      | (current, some c) => some { s with current := current, stack := .row r (.call thr cell bit c) :: rest }
      | (current, none) => some { s with current := current, stack := advance count r thr cell bit :: rest }
    | .next =>
      -- `row_next`, 263–285
      let cursor := s.mem 0
      match findPriority cursor r.prev (r.priority - 1) with
      | (new, next) =>
        some { s with
          mem := upd s.mem 0 (new.getD (setPriority cursor r.prev))
          stack :=
            if next = r.prev then rest
            else if next ≠ r.priority then .row ⟨r.ptr + rowSize count * (r.priority - next), next, r.prev⟩ (.load 0) :: rest
            else .row r (.load 0) :: rest }
  | .clear thr p =>
    match p with
    | none => some { s with stack := .clear thr (some (s.prio thr)) :: rest }
    | some priority =>
      let i := cellIdx count thr priority
      if i < pendingSize count then
        some { s with mem := upd s.mem i (s.mem i &&& ~~~pendingBit thr), stack := rest, log := .clear thr priority :: s.log }
      else none
  | .plain thr c =>
    match callStep s.current thr c with
    | (current, some c) => some { s with current := current, stack := .plain thr c :: rest }
    | (current, none) => some { s with current := current, stack := rest }

/-- The end of the body of the call on top of the stack. -/
def ret : List Frame → List Frame
  | .row r (.call thr cell bit (.body p)) :: rest => .row r (.call thr cell bit (.restore p)) :: rest
  | .plain thr (.body p) :: rest => .plain thr (.restore p) :: rest
  | st => st

/-- What may happen. -/
inductive Act where
  /-- the call on top of the stack makes its next access (a running body makes none) -/
  | step
  /-- the running body ends -/
  | ret
  /-- `set_pending` (also `SoftWaker::wakeup`, `wake.rs` 16–18, and its raw waker,
  31–37) is called -/
  | pend (thr : Nat)
  /-- `preempt` is called -/
  | preempt
  /-- `clear_pending` is called -/
  | clear (thr : Nat)
  /-- `Thread::call` is called -/
  | enter (thr : Nat)
  /-- `set_priority`, 193–196 -/
  | setPrio (thr priority : Nat)
deriving DecidableEq

/-- `is_pending`, 171–179, 302–304. -/
def isPending (count : Nat) (s : State) (thr : Nat) : Bool :=
  s.mem (cellIdx count thr (s.prio thr)) &&& pendingBit thr ≠ 0

/-- `local_checked`, `thr/mod.rs` 133–139: the index of the thread whose storage is
returned. -/
def localChecked (s : State) : Option Nat := if s.current ≠ 0 then some (s.current - 1) else none

/-- One element of a history. Calls for threads that do not exist are not made
(safety requirement, 89 and `thr/mod.rs` 156). `set_priority` panics for
priorities that do not exist (194). -/
def step (count : Nat) (s : State) : Act → Option State
  | .step =>
    match s.stack with
    | [] => some s
    | f :: rest => frameStep count s rest f
  | .ret => some { s with stack := ret s.stack }
  | .pend thr => some (if thr < count then { s with stack := .req thr .load :: s.stack } else s)
  | .preempt => some { s with stack := .start :: s.stack }
  | .clear thr => some (if thr < count then { s with stack := .clear thr none :: s.stack } else s)
  | .enter thr => some (if thr < count then { s with stack := .plain thr .load :: s.stack } else s)
  | .setPrio thr p => if p < levels then some { s with prio := upd s.prio thr p } else none

/-- Perform a history. -/
def run (count : Nat) (s : State) : List Act → Option State
  | [] => some s
  | a :: as =>
    match step count s a with
    | none => none
    | some s => run count s as

end Verif.Soft
