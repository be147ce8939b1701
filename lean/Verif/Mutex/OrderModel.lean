import Verif.Mutex.Model
import Verif.Order.Machine
/-!
# The mutex with the memory orderings of the source

`Model.lean` as a machine with memory orderings (`Verif.Order.Machine`), for any number of clients. In addition

* a client that has a guard may access the protected data;
* the initialisation of a node before it is pushed, and its destruction, are accesses of their own: to the flag (which is
  an atomic object, but constructed and released without atomic accesses) and to the waker;
* the load of `taken` in `Waiter::drop` is an access.

Simplifications: loads of the list head read the last value (an older one is a list without the nodes pushed since; the result is
that of an earlier load); the links of the nodes are not accesses here, see C78; steps of the model without access to shared memory
read a location that nobody writes. The destructor of a node that was taken does not touch the waker.
-/
namespace Verif.Mutex.Order

open Verif.Order (Ord Acc Machine)

/-- The orderings. -/
structure Ords where
  /-- `try_lock` -/
  lock : Ord
  /-- `unlock` -/
  unlock : Bool
  /-- `Waiter::take` -/
  take : Ord
  /-- `Waiter::is_taken` -/
  test : Bool
  /-- `Waiter::drop` -/
  drop : Bool
  /-- `push_raw` -/
  push : Ord
  /-- `drain_filter_raw` -/
  drain : Bool
  /-- `iter_raw` -/
  iter : Bool
deriving DecidableEq

/-- `mutex.rs` 122, 171, 221, 229, 241; `linked_list.rs` 147, 312, 247. -/
def ords : Ords :=
  { lock := ⟨true, false⟩, unlock := true, take := ⟨true, false⟩, test := false, drop := true, push := ⟨false, true⟩, drain := true,
    iter := true }

/-- Locations: `locked`, the data, the list head, nothing, and for every node its flag and its waker. -/
def lockLoc : Nat := 0
@[inherit_doc lockLoc] def dataLoc : Nat := 1
@[inherit_doc lockLoc] def headLoc : Nat := 2
@[inherit_doc lockLoc] def noLoc : Nat := 3
@[inherit_doc lockLoc] def tk (n : Nat) : Nat := 4 + 2 * n
@[inherit_doc lockLoc] def wk (n : Nat) : Nat := 5 + 2 * n

/-- The mutex; the clients that are about to access the data; how far they are with creating or destroying a node, the node
they create, the node of which the waker's memory is still to be released; the clients that created the nodes. -/
structure OState where
  base : State
  use : Nat → Bool
  sub : Nat → Nat
  tag : Nat → Nat
  rel : Nat → Option Nat
  maker : Nat → Nat

/-- Calls. -/
inductive OOp where
  | op (p : Nat) (o : Op)
  /-- use the guard: `deref`, `deref_mut` (`mutex.rs` 282–295) -/
  | access (p : Nat)

def oinit : OState :=
  { base := init, use := fun _ => false, sub := fun _ => 0, tag := fun _ => 0, rel := fun _ => none, maker := fun _ => 0 }

/-- The atomic flag of a location. -/
def word (s : OState) (l : Nat) : Bool :=
  if l = lockLoc then s.base.locked else if 4 ≤ l ∧ l % 2 = 0 then (s.base.node ((l - 4) / 2)).taken else false

def setWord (s : OState) (l : Nat) (v : Bool) : OState :=
  if l = lockLoc then { s with base := { s.base with locked := v } }
  else if 4 ≤ l ∧ l % 2 = 0 then
    { s with base := s.base.setN ((l - 4) / 2) { s.base.node ((l - 4) / 2) with taken := v } }
  else s

def ocall (s : OState) : OOp → OState
  | .op p o => if s.use p then s else { s with base := call s.base p o }
  | .access p =>
    if (s.base.client p).pc = .idle ∧ 0 < (s.base.client p).guards then { s with use := upd s.use p true } else s

/-- The next access of client `p` at `pc`. -/
def accPc (o : Ords) (s : OState) (p : Nat) : Pc → Option Acc
  | .idle => none
  | .tl | .p1 _ | .p2 | .dTry => some (.rmw lockLoc o.lock)
  | .p1take n | .dTake n | .ulScan (n :: _) => some (.rmw (tk n) o.take)
  | .pchk _ n | .ulDrain (n :: _) => some (.load (tk n) o.test)
  | .ppush _ =>
    if s.sub p = 0 then some (.other (tk s.base.next) .write)
    else if s.sub p = 1 then some (.other (wk (s.tag p)) .write)
    else some (.rmw headLoc o.push)
  | .ulLoad => some (.rmw headLoc ⟨o.drain, false⟩)
  | .ulHead => some (.rmw headLoc ⟨o.iter, false⟩)
  | .ulDrain [] | .ulScan [] | .ulWake _ _ => some (.other noLoc .read)
  | .ulCut n _ => if s.sub p = 0 then some (.load (tk n) o.drop) else some (.other (tk n) .write)
  | .ulRead n | .p1read n | .dRead n => some (.other (wk n) .read)
  | .ulStore _ => some (.store lockLoc o.unlock)

def acc (o : Ords) (p : Nat) (s : OState) : Option Acc :=
  if s.use p then some (.other dataLoc .write)
  else
    match s.rel p with
    | some n => some (.other (wk n) .write)
    | none => accPc o s p (s.base.client p).pc

/-- Do it. The node gets its address when its creation starts. -/
def ostep (p : Nat) (s : OState) : Option OState :=
  if s.use p then some { s with use := upd s.use p false }
  else
    match s.rel p with
    | some _ => some { s with rel := upd s.rel p none }
    | none =>
      match (s.base.client p).pc with
      | .ppush _ =>
        if s.sub p = 0 then
          some { s with
            base := { s.base with next := s.base.next + 1 }, sub := upd s.sub p 1, tag := upd s.tag p s.base.next,
            maker := upd s.maker s.base.next p }
        else if s.sub p = 1 then some { s with sub := upd s.sub p 2 }
        else
          (pstep { s.base with next := s.tag p } p).map fun b =>
            { s with base := { b with next := s.base.next }, sub := upd s.sub p 0 }
      | .ulCut n _ =>
        if s.sub p = 0 then (if (s.base.node n).freed then none else some { s with sub := upd s.sub p 1 })
        else (pstep s.base p).map fun b => { s with base := b, sub := upd s.sub p 0, rel := upd s.rel p (some n) }
      | _ => (pstep s.base p).map fun b => { s with base := b }

def machine (o : Ords) : Machine OState Bool OOp where
  init := oinit
  word := word
  setWord := setWord
  call := ocall
  acc := acc o
  step := ostep

end Verif.Mutex.Order
