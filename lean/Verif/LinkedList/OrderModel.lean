import Verif.LinkedList.ConcModel
import Verif.Order.Machine
/-!
# The linked list with the memory orderings of the source

`ConcModel.lean` (the build with feature `atomics`) as a machine with memory orderings (`Verif.Order.Machine`). Any number of
contexts push; context `r` alone removes (with several, `pop` uses released nodes: C17).

* A compare-exchange that succeeds is a read-modify-write with the second ordering of the macro, one that fails a load with the
  first (`src/atomic_macros.rs` 39–44, 61–66); it may return an old value. Whether it fails is the scheduler's choice (a call
  `choose`), except that it cannot succeed if the value has changed.
* Reading and writing of a node is not atomic; its release is a write. The filter may write to the node.
* The allocator does not reuse addresses: that the accesses to two objects with the same address are ordered is its duty.
-/
namespace Verif.LinkedList.Conc.Order

open Verif.LinkedList.Conc
open Verif.Order (Ord Acc Machine)

/-- The orderings. -/
structure Ords where
  pushRead : Bool
  pushCas : Ord
  popRead : Bool
  popCas : Ord
  drain : Bool
  cutRead : Bool
  cutCas : Ord
deriving DecidableEq

/-- `linked_list.rs` 147 (`Relaxed`, `Release`), 204 (`Acquire`, `Acquire`), 312 (`Acquire`), 451 (`Relaxed`, `Relaxed`). -/
def ords : Ords :=
  { pushRead := false, pushCas := ⟨false, true⟩, popRead := true, popCas := ⟨true, false⟩, drain := true, cutRead := false,
    cutCas := ⟨false, false⟩ }

/-- The list, the choices of the scheduler and of the filter, and the addresses that are not used (`next` and above). -/
structure LState (α : Type) where
  base : State α
  flag : Nat → Bool
  next : Nat

/-- Calls: `push` (the allocator returns address `a`), `pop` and `drain_filter`; `choose` sets the flag of a context. -/
inductive Op (α : Type) where
  | push (t a : Nat) (v : α) | pop | drain | choose (t : Nat) (b : Bool)

/-- A compare-exchange that expects `old` and finds `head`. -/
def cas (flag : Bool) (head old : Nat) (rd : Bool) (o : Ord) : Option Acc :=
  if flag then some (.load 0 rd) else if head = old then some (.rmw 0 o) else none

/-- The next access of a context that is at `pc`. The head of the list is location 0, a node is the location with its address. -/
def accOf (o : Ords) (flag : Bool) (head : Nat) : Pc → Option Acc
  | .idle => none
  | .pushLoad _ => some (.load 0 o.pushRead)
  | .pushWrite n _ => some (.other n .write)
  | .pushCas _ old => cas flag head old o.pushRead o.pushCas
  | .popLoad => some (.load 0 o.popRead)
  | .popRead old => some (.other old .read)
  | .popCas old _ => cas flag head old o.popRead o.popCas
  | .popFree p => some (.other p .write)
  | .drLoad => some (.load 0 o.drain)
  | .drNext _ curr => some (.other curr .read)
  | .drFilter _ curr _ => some (.other curr .write)
  | .cutLoad _ _ => some (.load 0 o.cutRead)
  | .cutCas curr _ => cas flag head curr o.cutRead o.cutCas
  | .cutWalk prev _ _ => some (.other prev .read)
  | .cutWrite prev _ _ => some (.other prev .write)
  | .drFree _ curr _ => some (.other curr .write)

/-- The list; `pop` and `drain_filter` are called by context `r`. -/
def machine (α : Type) (r : Nat) (o : Ords) : Machine (LState α) Nat (Op α) where
  init := { base := init α, flag := fun _ => false, next := 1 }
  word s l := if l = 0 then s.base.head else 0
  setWord s l v := if l = 0 then { s with base := { s.base with head := v } } else s
  call s
    | .push t a v =>
      if s.base.pc t = .idle ∧ s.next ≤ a then
        { s with base := (s.base.put a (some (0, v))).goto t (.pushLoad a), next := a + 1 }
      else s
    | .pop => if s.base.pc r = .idle then { s with base := s.base.goto r .popLoad } else s
    | .drain => if s.base.pc r = .idle then { s with base := s.base.goto r .drLoad } else s
    | .choose t b => { s with flag := fun u => if u = t then b else s.flag u }
  acc t s := accOf o (s.flag t) s.base.head (s.base.pc t)
  step t s := (step true s.base (.step t (s.flag t))).map fun x => { s with base := x.1 }

end Verif.LinkedList.Conc.Order
