import Verif.LinkedList.ConcModel
/-!
# Specification of the concurrent list: an abstract list object

A log is *accepted* when the events, taken one after another, are operations of
an abstract list.
-/
namespace Verif.LinkedList.Conc

/-- The abstract list. While a drain is active the list is
`front ++ kept ++ todo`: pushed since the drain started, visited and not
selected, not visited yet. -/
structure Spec (α : Type) where
  front : List α
  active : Bool
  kept : List α
  todo : List α
  /-- selected, not yet yielded -/
  cutting : Option α
  /-- popped, not yet returned, by context -/
  taken : Tid → Option α

/-- Empty. -/
def Spec.init (α : Type) : Spec α :=
  { front := [], active := false, kept := [], todo := [], cutting := none, taken := fun _ => none }

/-- The contents, top first. -/
def Spec.contents {α : Type} (sp : Spec α) : List α := sp.front ++ sp.kept ++ sp.todo

/-- One event; `none` = not allowed. -/
def Spec.step {α : Type} [DecidableEq α] (sp : Spec α) : Event α → Option (Spec α)
  | .pushed v => some { sp with front := v :: sp.front }
  | .popped t v =>
    if sp.active = false ∧ sp.front.head? = some v ∧ sp.taken t = none then
      some { sp with front := sp.front.tail, taken := fun u => if u = t then some v else sp.taken u }
    else none
  | .popRet t v =>
    if sp.taken t = some v then
      some { sp with taken := fun u => if u = t then none else sp.taken u }
    else none
  | .popEmpty t => if sp.contents = [] ∧ sp.taken t = none then some sp else none
  | .drainStart =>
    if sp.active = false then
      some { sp with active := true, front := [], kept := [], todo := sp.contents }
    else none
  | .visit v b =>
    if sp.active = true ∧ sp.cutting = none ∧ sp.todo.head? = some v then
      if b then some { sp with todo := sp.todo.tail, cutting := some v }
      else some { sp with todo := sp.todo.tail, kept := sp.kept ++ [v] }
    else none
  | .yield v => if sp.cutting = some v then some { sp with cutting := none } else none
  | .drainEnd =>
    if sp.active = true ∧ sp.cutting = none ∧ sp.todo = [] then
      some { sp with active := false, front := sp.front ++ sp.kept, kept := [] }
    else none

/-- A log. -/
def Spec.run {α : Type} [DecidableEq α] (sp : Spec α) : List (Event α) → Option (Spec α)
  | [] => some sp
  | e :: es =>
    match sp.step e with
    | none => none
    | some sp' => Spec.run sp' es

/-- The memory holds the elements `l` in this order. -/
def Holds {α : Type} (node : Nat → Option (Nat × α)) : Nat → List (Nat × α) → Prop
  | p, [] => p = 0
  | p, (a, v) :: l => p = a ∧ a ≠ 0 ∧ ∃ next, node a = some (next, v) ∧ Holds node next l

/-- The context is inside a drain (after its first load). -/
def Draining : Pc → Bool
  | .drNext _ _ | .drFilter _ _ _ | .cutLoad _ _ | .cutCas _ _ | .cutWalk _ _ _ | .cutWrite _ _ _
  | .drFree _ _ _ => true
  | _ => false

/-- The context is inside a pop that has not taken effect. -/
def Popping : Pc → Bool
  | .popLoad | .popRead _ | .popCas _ _ => true
  | _ => false

/-- The context is inside a pop and has read the head. -/
def PopMid : Pc → Bool
  | .popRead _ | .popCas _ _ => true
  | _ => false

/-- Drains do not overlap with each other or with pops; pops do not overlap with
each other between reading the head and the compare-exchange. Pushes are not
restricted. -/
structure Apart {α : Type} (s : State α) : Prop where
  drains : ∀ t u, Draining (s.pc t) → Draining (s.pc u) ∨ s.pc u = .drLoad → t = u
  drainPop : ∀ t u, Draining (s.pc t) → ¬ Popping (s.pc u)
  pops : ∀ t u, PopMid (s.pc t) → PopMid (s.pc u) → t = u

/-- Every state of the schedule satisfies `P`. -/
def Always {α : Type} (hw : Bool) (P : State α → Prop) (s : State α) : List (Act α) → Prop
  | [] => P s
  | a :: as => P s ∧ ∀ s' e, step hw s a = some (s', e) → Always hw P s' as

/-! ### Reading a log -/

/-- Elements pushed, in order. -/
def pushes {α : Type} : List (Event α) → List α
  | [] => []
  | .pushed v :: es => v :: pushes es
  | _ :: es => pushes es

/-- Elements visited by the filter, in order. -/
def visits {α : Type} : List (Event α) → List (α × Bool)
  | [] => []
  | .visit v b :: es => (v, b) :: visits es
  | _ :: es => visits es

/-- Elements yielded by drains, in order. -/
def yields {α : Type} : List (Event α) → List α
  | [] => []
  | .yield v :: es => v :: yields es
  | _ :: es => yields es

/-- Elements taken by pops with the context, in order. -/
def takenBy {α : Type} : List (Event α) → List (Tid × α)
  | [] => []
  | .popped t v :: es => (t, v) :: takenBy es
  | _ :: es => takenBy es

/-- Elements returned by pops with the context, in order. -/
def returnedBy {α : Type} : List (Event α) → List (Tid × α)
  | [] => []
  | .popRet t v :: es => (t, v) :: returnedBy es
  | _ :: es => returnedBy es

/-- Elements returned by pops, in order. -/
def returned {α : Type} : List (Event α) → List α
  | [] => []
  | .popRet _ v :: es => v :: returned es
  | _ :: es => returned es

/-- Elements for which the filter returned true, in order. -/
def selected {α : Type} (es : List (Event α)) : List α := ((visits es).filter (·.2)).map (·.1)

/-- Elements for which the filter returned false, in order. -/
def unselected {α : Type} (es : List (Event α)) : List α := ((visits es).filter (!·.2)).map (·.1)

/-- No context is inside an operation. -/
def Quiet {α : Type} (s : State α) : Prop := ∀ t, s.pc t = .idle

/-- The list in memory is exactly `l`: the chain from the head holds it, and there
is no other node in memory. -/
def Memory {α : Type} (s : State α) (l : List α) : Prop :=
  ∃ L : List (Nat × α), L.map Prod.snd = l ∧ Holds s.node s.head L ∧ (L.map Prod.fst).Nodup ∧
    ∀ a, s.node a ≠ none ↔ a ∈ L.map Prod.fst

/-- The schedule contains no drains. -/
def NoDrain {α : Type} : List (Act α) → Prop
  | [] => True
  | .drain _ :: _ => False
  | _ :: as => NoDrain as

/-- The next access is safe: a context releases a node only when no other context is about to
read the link of this node, and a node is published only when no other context is about to
compare-exchange with its address as the old head. -/
def Safe {α : Type} (s : State α) : Act α → Prop
  | .step t b =>
    match s.pc t with
    | .popFree p => ∀ u, s.pc u ≠ .popRead p
    | .pushCas n old => s.head = old → b = false → ∀ u next, s.pc u ≠ .popCas n next
    | _ => True
  | _ => True

/-- A schedule of safe accesses, in the build with atomics. -/
def AlwaysSafe {α : Type} (s : State α) : List (Act α) → Prop
  | [] => True
  | a :: as => Safe s a ∧ ∀ s' e, step true s a = some (s', e) → AlwaysSafe s' as

/-- Pops do not overlap between reading the head and the compare-exchange. -/
def PopsApart {α : Type} (s : State α) : Prop := ∀ t u, PopMid (s.pc t) → PopMid (s.pc u) → t = u

end Verif.LinkedList.Conc
