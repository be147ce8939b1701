import Verif.Heap.ConcModel
import Verif.Order.Machine
/-!
# The heap pool with the memory orderings of the source

`ConcModel.lean` (the build with feature `atomics`) as a machine with memory orderings (`Verif.Order.Machine`). Which contexts
call `allocate` is a parameter. The owner of a block reads and writes it, passes it on to another context, or deallocates it.

* A compare-exchange that succeeds is a read-modify-write with the second ordering of the macro, one that fails a load with the
  first (`src/atomic_macros.rs` 81–101); it may return an old value. Whether it fails is the scheduler's choice (a call
  `choose`), except that it cannot succeed if the value has changed.
* Reading and writing of a block is not atomic. A block is one location: the link is in its first word, and which part the owner
  accesses is left open.
* How a block is passed on is not part of the pool. The model has a flag for each block, which is written with release and read
  with acquire semantics, as a channel or a mutex does.
-/
namespace Verif.Heap.Conc.Order

open Verif.Heap.Conc
open Verif.Order (Ord Acc Machine)

/-- The orderings. -/
structure Ords where
  deRead : Bool
  deCas : Ord
  afRead : Bool
  afCas : Ord
  auRead : Bool
  auCas : Ord
deriving DecidableEq

/-- `pool.rs` 76 (`Acquire`, `AcqRel`), 84 (`Acquire`, `AcqRel`), 92 (`Relaxed`, `Relaxed`). -/
def ords : Ords :=
  { deRead := true, deCas := ⟨true, true⟩, afRead := true, afCas := ⟨true, true⟩, auRead := false, auCas := ⟨false, false⟩ }

/-- Who has a block. A context that deallocates a block has it until it is on the free list. -/
inductive Owner where
  | pool | ctx (t : Nat) | sent
deriving DecidableEq

/-- What a context is about to do with a block that it has, or wants to have. -/
inductive Task where
  | none | read (p : Nat) | write (p v : Nat) | give (p : Nat) | take (p : Nat)
deriving DecidableEq

/-- The pool, the owners, what the contexts do outside of the pool, and the choices of the scheduler. -/
structure HState where
  base : State
  own : Nat → Owner
  task : Nat → Task
  flag : Nat → Bool

/-- Calls; `work` starts something outside of the pool. -/
inductive Op where
  | alloc (t : Nat) | dealloc (t p : Nat) | work (t : Nat) (w : Task) | choose (t : Nat) (b : Bool)

/-- The locations: `free`, `uninit`, the blocks, and the flags by which blocks are passed on. -/
def blk (p : Nat) : Nat := 2 * p + 2
def flg (p : Nat) : Nat := 2 * p + 3

/-- A compare-exchange on `l` that expects `old` and finds `cur`. -/
def cas (flag : Bool) (l cur old : Nat) (rd : Bool) (o : Ord) : Option Acc :=
  if flag then some (.load l rd) else if cur = old then some (.rmw l o) else none

/-- The next access in the pool. -/
def accOf (o : Ords) (flag : Bool) (s : State) : Pc → Option Acc
  | .idle => none
  | .afLoad => some (.load 0 o.afRead)
  | .afRead old => some (.other (blk old) .read)
  | .afCas old _ => cas flag 0 s.free old o.afRead o.afCas
  | .auLoad => some (.load 1 o.auRead)
  | .auCas old => cas flag 1 s.uninit old o.auRead o.auCas
  | .deLoad _ => some (.load 0 o.deRead)
  | .deWrite p _ => some (.other (blk p) .write)
  | .deCas _ old => cas flag 0 s.free old o.deRead o.deCas

/-- The next access outside of it. -/
def accTask : Task → Option Acc
  | .none => none
  | .read p => some (.other (blk p) .read)
  | .write p _ => some (.other (blk p) .write)
  | .give p => some (.rmw (flg p) ⟨false, true⟩)
  | .take p => some (.rmw (flg p) ⟨true, false⟩)

/-- The owners after the next access in the pool. -/
def ownStep (s : State) (flag : Bool) (own : Nat → Owner) (t : Nat) : Nat → Owner :=
  match s.pc t with
  | .afCas old _ => if s.free = old ∧ flag = false then fun p => if p = old then .ctx t else own p else own
  | .auCas old => if s.uninit = old ∧ flag = false then fun p => if p = old then .ctx t else own p else own
  | .deCas q old => if s.free = old ∧ flag = false then fun p => if p = q then .pool else own p else own
  | _ => own

/-- The next access outside of the pool. `take` finds the block or does not. -/
def taskStep (s : HState) (t : Nat) : Task → HState
  | .none => s
  | .read _ => { s with task := fun u => if u = t then .none else s.task u }
  | .write p v =>
    { s with base := stepHw s.base (.write p v), task := fun u => if u = t then .none else s.task u }
  | .give p =>
    { s with own := fun q => if q = p then .sent else s.own q, task := fun u => if u = t then .none else s.task u }
  | .take p =>
    { s with own := fun q => if q = p ∧ s.own p = .sent then .ctx t else s.own q,
             task := fun u => if u = t then .none else s.task u }

/-- A context can start this: it has the block. -/
def Task.fits (own : Nat → Owner) (t : Nat) : Task → Prop
  | .none | .take _ => True
  | .read p | .write p _ | .give p => own p = .ctx t

instance (own : Nat → Owner) (t : Nat) (w : Task) : Decidable (w.fits own t) := by
  cases w <;> unfold Task.fits <;> infer_instance

/-- A pool; contexts with `may` call `allocate`. -/
def machine (address size count : Nat) (link : Nat → Nat) (may : Nat → Bool) (o : Ords) : Machine HState Nat Op where
  init := { base := init address size count link, own := fun _ => .pool, task := fun _ => .none, flag := fun _ => false }
  word s l := if l = 0 then s.base.free else if l = 1 then s.base.uninit else 0
  setWord s l v :=
    if l = 0 then { s with base := { s.base with free := v } }
    else if l = 1 then { s with base := { s.base with uninit := v } } else s
  call s
    | .alloc t => if may t = true ∧ s.task t = .none then { s with base := stepHw s.base (.alloc t) } else s
    | .dealloc t p => if s.task t = .none ∧ s.own p = .ctx t then { s with base := stepHw s.base (.dealloc t p) } else s
    | .work t w =>
      if s.base.pc t = .idle ∧ s.task t = .none ∧ w.fits s.own t then
        { s with task := fun u => if u = t then w else s.task u }
      else s
    | .choose t b => { s with flag := fun u => if u = t then b else s.flag u }
  acc t s := if s.task t = .none then accOf o (s.flag t) s.base (s.base.pc t) else accTask (s.task t)
  step t s :=
    if s.task t = .none then
      some { s with base := stepHw s.base (.step t (s.flag t)), own := ownStep s.base (s.flag t) s.own t }
    else some (taskStep s t (s.task t))

end Verif.Heap.Conc.Order
