import Verif.Bitfield.Model
/-!
# Model of atomic read-modify-write

* `src/sync/soft_atomic.rs` 66–108: the critical-section implementation.
* `src/atomic_macros.rs` 27–114: the macros; with feature `atomics` a
  read-modify-write is a load followed by a `compare_exchange_weak` loop.
* `src/reg/atomic.rs` 88–149: the same loop on a memory-mapped register.

The interleaving model has any number of contexts (`Tid`), and one atomic memory
access per step. The evaluation of the update closure is local (it does not
touch the cell), so it is merged with the access that produced its argument.
Memory orderings are not modelled (sequential consistency).
-/
namespace Verif.Atomic

/-! ### Critical-section atomics -/

/-- `Atomic::swap`, `src/sync/soft_atomic.rs` 79–81. Returns (new cell, result). -/
def softSwap {α : Type} (cell value : α) : α × α := (value, cell)

/-- `Atomic::modify`, `src/sync/soft_atomic.rs` 85–92. Returns (new cell, result). -/
def softModify {α : Type} (cell : α) (f : α → α) : α × α :=
  let prev := cell
  let next := f prev
  (next, prev)

/-- `Atomic::try_modify`, `src/sync/soft_atomic.rs` 97–107. Returns (new cell, result). -/
def softTryModify {α : Type} (cell : α) (f : α → Option α) : α × Except α α :=
  let prev := cell
  match f prev with
  | some next => (next, .ok prev)
  | none => (cell, .error prev)

/-! ### Compare-exchange loops -/

/-- Execution contexts (threads, interrupt handlers). -/
abbrev Tid := Nat

/-- Where a context is inside the macro expansion. -/
inductive Pc (α : Type) where
  /-- not executing a read-modify-write -/
  | idle
  /-- about to load (`src/atomic_macros.rs` 83, 97; `src/reg/atomic.rs` 99, 115, 139) -/
  | start (f : α → Option α)
  /-- about to `compare_exchange_weak(old, new)` (`src/atomic_macros.rs` 36, 59;
  `src/reg/atomic.rs` 103, 119, 143) -/
  | loop (f : α → Option α) (old new : α)

/-- The shared cell and the program counters. -/
structure State (α : Type) where
  mem : α
  pc : Tid → Pc α

/-- Observable history events. -/
inductive Event (α : Type) where
  /-- context `t` invoked a read-modify-write with closure `f` -/
  | inv (t : Tid) (f : α → Option α)
  /-- the call returned `res` -/
  | ret (t : Tid) (f : α → Option α) (res : Except α α)

/-- Scheduler choices. -/
inductive Act (α : Type) where
  /-- `load_try_modify_atomic!(cell, |old| f)`; `load_modify_atomic!` is the
  special case of an always-`some` closure. Ignored if the context is busy. -/
  | call (t : Tid) (f : α → Option α)
  /-- `modify_atomic!(cell, |old| g)` with the caller's current value of `old`
  (`src/atomic_macros.rs` 28–47): no initial load. -/
  | callFrom (t : Tid) (g : α → α) (old : α)
  /-- let context `t` perform its next access; `spurious` makes a weak
  compare-exchange fail although the values agree. -/
  | step (t : Tid) (spurious : Bool)
  /-- a single-instruction read-modify-write or store (`swap_atomic!`,
  `store_atomic!`, `fetch_or_atomic!`, `fetch_and_atomic!`,
  `src/atomic_macros.rs` 14–25, 103–140) -/
  | rmw (t : Tid) (g : α → α)

/-- After the value `old` has been read: evaluate the closure; `none` leaves the
loop with `Err(old)` (`src/atomic_macros.rs` 57–71). -/
def afterRead {α : Type} (s : State α) (t : Tid) (f : α → Option α) (old : α) :
    State α × List (Event α) :=
  match f old with
  | some new => ({ s with pc := fun u => if u = t then .loop f old new else s.pc u }, [])
  | none => ({ s with pc := fun u => if u = t then .idle else s.pc u }, [.ret t f (.error old)])

/-- One step of one context. -/
def step {α : Type} [DecidableEq α] (s : State α) : Act α → State α × List (Event α)
  | .call t f =>
    match s.pc t with
    | .idle => ({ s with pc := fun u => if u = t then .start f else s.pc u }, [.inv t f])
    | _ => (s, [])
  | .callFrom t g old =>
    match s.pc t with
    | .idle =>
      ({ s with pc := fun u => if u = t then .loop (fun x => some (g x)) old (g old) else s.pc u },
        [.inv t (fun x => some (g x))])
    | _ => (s, [])
  | .step t spurious =>
    match s.pc t with
    | .idle => (s, [])
    | .start f => afterRead s t f s.mem
    | .loop f old new =>
      if s.mem = old ∧ spurious = false then
        -- Ok(state) => break
        ({ mem := new, pc := fun u => if u = t then .idle else s.pc u }, [.ret t f (.ok old)])
      else
        -- Err(state) => old = state
        afterRead s t f s.mem
  | .rmw t g =>
    match s.pc t with
    | .idle => ({ s with mem := g s.mem },
        [.inv t (fun x => some (g x)), .ret t (fun x => some (g x)) (.ok s.mem)])
    | _ => (s, [])

/-- A schedule, collecting the history. -/
def run {α : Type} [DecidableEq α] (s : State α) : List (Act α) → State α × List (Event α)
  | [] => (s, [])
  | a :: as =>
    let (s', e) := step s a
    let (s'', es) := run s' as
    (s'', e ++ es)

/-- All contexts idle, cell holding `m`. -/
def init {α : Type} (m : α) : State α := { mem := m, pc := fun _ => .idle }

/-! ### Registers -/

/-- Closure of a register `modify` (`src/reg/atomic.rs` 101–103, 117–119,
141–143): a chain of field operations on the loaded bits. A panicking closure
aborts the call; it is the `none` of `applyAll`. -/
def regClosure {n : Nat} (ops : List (Bitfield.FieldOp n)) : BitVec n → Option (BitVec n) :=
  fun old => Bitfield.applyAll old ops

/-- `RwRegSoftAtomic::modify`, `src/reg/soft_atomic.rs` 92–99 (and 102–111,
121–135): load, closure, store with interrupts disabled. Returns the new memory. -/
def softRegModify {n : Nat} (mem : BitVec n) (ops : List (Bitfield.FieldOp n)) :
    Option (BitVec n) :=
  Bitfield.applyAll mem ops

end Verif.Atomic
