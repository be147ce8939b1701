import Verif.LinkedList.Model
/-!
# Specification: a stack
-/
namespace Verif.LinkedList

/-- Operations on one list; `extend` is a series of `push`. -/
inductive Op (σ α : Type) where
  | push (v : α)
  | pop
  | isEmpty
  | iter
  | drain (f : Filter σ α) (st : σ)
  /-- iterate over `k` elements by value, then drop the iterator; a new empty
  list replaces the old one -/
  | intoIter (k : Nat)
  | drop

/-- Results. -/
inductive Out (σ α : Type) where
  | unit
  | val (v : Option α)
  | bool (b : Bool)
  | vals (vs : List α)
  | drained (vs : List α) (st : σ)

/-- The list under test. -/
def step {σ α : Type} (m : Mem α) : Op σ α → Option (Out σ α × Mem α)
  | .push v => (push m v).map fun m => (.unit, m)
  | .pop => (pop m).map fun (v, m) => (.val v, m)
  | .isEmpty => some (.bool (isEmpty m), m)
  | .iter => (iter m).map fun vs => (.vals vs, m)
  | .drain f st => (drain f st m).map fun (vs, st, m) => (.drained vs st, m)
  | .intoIter k => (intoIter k m).map fun (vs, m) => (.vals vs, m)
  | .drop => (dropList m).map fun m => (.unit, m)

/-- A sequence of operations; `none` = undefined behaviour. -/
def run {σ α : Type} (m : Mem α) : List (Op σ α) → Option (List (Out σ α) × Mem α)
  | [] => some ([], m)
  | op :: ops =>
    match step m op with
    | none => none
    | some (o, m) =>
      match run m ops with
      | none => none
      | some (os, m) => some (o :: os, m)

/-- Elements selected by a filter from top to bottom, elements left, final state
of the closure. -/
def split {σ α : Type} (f : Filter σ α) : σ → List α → List α × List α × σ
  | st, [] => ([], [], st)
  | st, v :: l =>
    let (b, v', st) := f st v
    let (taken, kept, st) := split f st l
    if b then (v' :: taken, kept, st) else (taken, v' :: kept, st)

/-- The same operation on a stack, top first. -/
def specStep {σ α : Type} (l : List α) : Op σ α → Out σ α × List α
  | .push v => (.unit, v :: l)
  | .pop => (.val l.head?, l.tail)
  | .isEmpty => (.bool l.isEmpty, l)
  | .iter => (.vals l, l)
  | .drain f st => let (taken, kept, st) := split f st l; (.drained taken st, kept)
  | .intoIter k => (.vals (l.take k), [])
  | .drop => (.unit, [])

/-- The same sequence on a stack. -/
def specRun {σ α : Type} (l : List α) : List (Op σ α) → List (Out σ α) × List α
  | [] => ([], l)
  | op :: ops =>
    let (o, l) := specStep l op
    let (os, l) := specRun l ops
    (o :: os, l)

/-- `as` are the addresses of the nodes from `p` on, and their values are `l`. -/
def Chain {α : Type} (node : Nat → Option (Nat × α)) : Nat → List Nat → List α → Prop
  | p, [], [] => p = 0
  | p, a :: as, v :: l => p = a ∧ a ≠ 0 ∧ ∃ next, node a = some (next, v) ∧ Chain node next as l
  | _, _, _ => False

end Verif.LinkedList
