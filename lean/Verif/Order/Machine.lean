import Verif.Order.Model
/-!
# Machines with memory orderings

A model with one memory access per step (`Verif.Oneshot.Model` and others) together with the trace of its accesses.
Each step tells what it accesses and with which ordering; loads may read old values of atomic objects. Which one is the
scheduler's choice, among those not older than what the thread has read from or written to this object. (The memory model
also excludes values that were overwritten before something that happens before the load; leaving this out only adds
schedules.)
-/
namespace Verif.Order

/-- Acquire, release. -/
structure Ord where
  acq : Bool
  rel : Bool
deriving DecidableEq, Repr

/-- The memory access of a step. -/
inductive Acc where
  | rmw (loc : Nat) (o : Ord)
  | load (loc : Nat) (acq : Bool)
  | store (loc : Nat) (rel : Bool)
  /-- not atomic -/
  | other (loc : Nat) (k : Kind)
deriving DecidableEq, Repr

/-- States `S`, values `W` of the atomic objects, calls `A`. -/
structure Machine (S W A : Type) where
  init : S
  /-- the atomic objects -/
  word : S → Nat → W
  setWord : S → Nat → W → S
  /-- make a call; no access -/
  call : S → A → S
  /-- the next access of a thread -/
  acc : Nat → S → Option Acc
  /-- do it; `none` is undefined behaviour -/
  step : Nat → S → Option S

variable {S W A : Type}

/-- The state, the values of the atomic objects in modification order, how much of them the threads have seen, and the trace. -/
structure PState (S W : Type) where
  s : S
  hist : Nat → List W
  seen : Nat → Nat → Nat
  tr : List Ev

/-- Replace the value at `i`. -/
def upd {β : Type} (f : Nat → β) (i : Nat) (x : β) : Nat → β := fun j => if j = i then x else f j

def Machine.pinit (M : Machine S W A) : PState S W :=
  { s := M.init, hist := fun l => [M.word M.init l], seen := fun _ _ => 0, tr := [] }

/-- Scheduler choices; a load reads value `k`. -/
inductive PAct (A : Type) where
  | call (a : A) | step (t k : Nat)
deriving DecidableEq

/-- The next access of thread `t`. -/
def Machine.go (M : Machine S W A) (p : PState S W) (t k : Nat) : Option Acc → Option (PState S W)
  | none => some p
  | some (.load l acq) =>
    if p.seen t l ≤ k then
      match (p.hist l)[k]? with
      | none => some p
      | some v =>
        match M.step t (M.setWord p.s l v) with
        | none => none
        | some s' =>
          some { p with
            s := M.setWord s' l (M.word p.s l)
            seen := upd p.seen t (upd (p.seen t) l k)
            tr := p.tr ++ [⟨t, l, .load acq k⟩] }
    else some p
  | some (.rmw l o) =>
    match M.step t p.s with
    | none => none
    | some s' =>
      some
        { s := s'
          hist := upd p.hist l (p.hist l ++ [M.word s' l])
          seen := upd p.seen t (upd (p.seen t) l (p.hist l).length)
          tr := p.tr ++ [⟨t, l, .rmw o.acq o.rel⟩] }
  | some (.store l rel) =>
    match M.step t p.s with
    | none => none
    | some s' =>
      some
        { s := s'
          hist := upd p.hist l (p.hist l ++ [M.word s' l])
          seen := upd p.seen t (upd (p.seen t) l (p.hist l).length)
          tr := p.tr ++ [⟨t, l, .store rel⟩] }
  | some (.other l k) =>
    match M.step t p.s with
    | none => none
    | some s' => some { p with s := s', tr := p.tr ++ [⟨t, l, k⟩] }

def Machine.pstep (M : Machine S W A) (p : PState S W) : PAct A → Option (PState S W)
  | .call a => some { p with s := M.call p.s a }
  | .step t k => M.go p t k (M.acc t p.s)

/-- A schedule. -/
def Machine.prun (M : Machine S W A) (p : PState S W) : List (PAct A) → Option (PState S W)
  | [] => some p
  | a :: as =>
    match M.pstep p a with
    | none => none
    | some p' => M.prun p' as

/-- The state that a schedule leads to, and its trace. -/
def Machine.Reaches (M : Machine S W A) (as : List (PAct A)) (s : S) (tr : List Ev) : Prop :=
  ∃ p, M.prun M.pinit as = some p ∧ p.s = s ∧ p.tr = tr

/-- The traces. -/
def Machine.Trace (M : Machine S W A) (tr : List Ev) : Prop := ∃ as p, M.prun M.pinit as = some p ∧ p.tr = tr

end Verif.Order
