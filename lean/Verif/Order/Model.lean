/-!
# Happens-before: the memory model of Rust (C++20, [intro.races])

A trace is the list of the memory accesses of all threads, oldest first. The order of the trace is the
program order for accesses of one thread, and the modification order for writes to one atomic object.
Whether one access *happens before* another does not depend on the order in the trace otherwise, only on
program order and on the orderings that the code asks for.

Simplifications: no consume ordering, no fences, no sequentially consistent accesses (the code has none); a
plain atomic store comes last in the modification order of its object.
-/
namespace Verif.Order

/-- What an access does. -/
inductive Kind where
  /-- non-atomic -/
  | read | write
  /-- atomic read-modify-write, with acquire and release semantics or not -/
  | rmw (acq rel : Bool)
  | store (rel : Bool)
  /-- `src`: which write in the modification order is read, 0 is the initial value -/
  | load (acq : Bool) (src : Nat)
  /-- releases the object with all locations -/
  | free
deriving DecidableEq, Repr

structure Ev where
  tid : Nat
  loc : Nat
  kind : Kind
deriving DecidableEq, Repr

def Kind.atomic : Kind → Bool
  | .rmw .. | .store _ | .load .. => true
  | _ => false

/-- An atomic write to `l`. -/
def Ev.writes (e : Ev) (l : Nat) : Bool := e.loc = l && match e.kind with
  | .rmw .. | .store _ => true
  | _ => false

def Ev.isStore (e : Ev) (l : Nat) : Bool := e.loc = l && match e.kind with
  | .store _ => true
  | _ => false

/-- Release write. -/
def Ev.rel (e : Ev) : Bool := match e.kind with
  | .rmw _ r | .store r => r
  | _ => false

/-- Acquire read. -/
def Ev.acq (e : Ev) : Bool := match e.kind with
  | .rmw a _ | .load a _ => a
  | _ => false

/-- The number of writes to `l`; the last one has this number in the modification order. -/
def cnt (tr : List Ev) (l : Nat) : Nat := tr.countP (·.writes l)

/-- The write that an atomic read after `tr` reads. A read-modify-write reads the last one. -/
def src (tr : List Ev) (e : Ev) : Nat := match e.kind with
  | .load _ k => k
  | _ => cnt tr e.loc

/-- Access `i` is a release write to `l`, and write number `k` of `l` is in its release sequence: it is this write,
or a later one with only read-modify-writes in between. -/
def Carries (tr : List Ev) (l k i : Nat) : Prop :=
  (∃ e, tr[i]? = some e ∧ e.writes l = true ∧ e.rel = true) ∧ cnt (tr.take i) l < k ∧
  ∀ m e, i < m → tr[m]? = some e → e.isStore l = true → k ≤ cnt (tr.take m) l

/-- Program order, or *synchronizes with*. -/
def Edge (tr : List Ev) (i j : Nat) : Prop :=
  ∃ f, tr[j]? = some f ∧ ((∃ e, (tr.take j)[i]? = some e ∧ e.tid = f.tid) ∨
    (f.acq = true ∧ Carries (tr.take j) f.loc (src (tr.take j) f) i))

/-- *Happens before*. -/
inductive Hb (tr : List Ev) : Nat → Nat → Prop where
  | one {i j : Nat} : Edge tr i j → Hb tr i j
  | more {i j k : Nat} : Hb tr i j → Edge tr j k → Hb tr i k

/-- Accesses of two threads that must be ordered: both access the location (releasing the object counts for all),
not both only read, not both are atomic. -/
def Conflict (e f : Ev) : Prop :=
  e.tid ≠ f.tid ∧ (e.kind = .free ∨ f.kind = .free ∨
    (e.loc = f.loc ∧ ¬ (e.kind = .read ∧ f.kind = .read) ∧ ¬ (e.kind.atomic = true ∧ f.kind.atomic = true)))

/-- A data race: conflicting accesses that are not ordered. -/
def Race (tr : List Ev) (i j : Nat) : Prop :=
  i < j ∧ ∃ e f, tr[i]? = some e ∧ tr[j]? = some f ∧ Conflict e f ∧ ¬ Hb tr i j

end Verif.Order
