/-!
# Sequential model of the linked list: `src/sync/linked_list.rs`

Nodes live in a heap that maps addresses to nodes; address 0 is null. Reading,
writing or releasing an address without a node is undefined behaviour and is
`none` in the model, as is a loop that runs out of fuel (`fresh`, the number of
nodes ever allocated, plus one). `Box::new` takes a new address each time. The
concurrent model in `ConcModel.lean` lets the allocator reuse addresses.
-/
namespace Verif.LinkedList

/-- The list head (`LinkedList`, 16–18) and the node heap (`Node`, 21–26:
`next` and `value`). -/
structure Mem (α : Type) where
  head : Nat
  node : Nat → Option (Nat × α)
  fresh : Nat

/-- `LinkedList::new`, 78–80. -/
def Mem.new (α : Type) : Mem α := { head := 0, node := fun _ => none, fresh := 1 }

/-- Write a node (allocated or to be allocated). -/
def Mem.put {α : Type} (m : Mem α) (a : Nat) (n : Option (Nat × α)) : Mem α :=
  { m with node := fun x => if x = a then n else m.node x }

/-- `(*a).next = next`. -/
def Mem.setNext {α : Type} (m : Mem α) (a next : Nat) : Option (Mem α) :=
  match m.node a with
  | some (_, v) => some (m.put a (some (next, v)))
  | none => none

/-- `Box::from_raw(a).value`: the node is released, its value moves out. -/
def Mem.free {α : Type} (m : Mem α) (a : Nat) : Option (α × Mem α) :=
  match m.node a with
  | some (_, v) => some (v, m.put a none)
  | none => none

/-- `Box::into_raw(Box::new(Node::from(v)))`, 121 and 487–492. -/
def Mem.alloc {α : Type} (m : Mem α) (v : α) : Nat × Mem α :=
  (m.fresh, { m.put m.fresh (some (0, v)) with fresh := m.fresh + 1 })

/-- `is_empty`, 99–101. -/
def isEmpty {α : Type} (m : Mem α) : Bool := m.head == 0

/-- `push_raw`, 146–151. -/
def pushRaw {α : Type} (m : Mem α) (n : Nat) : Option (Mem α) :=
  match m.setNext n m.head with
  | some m => some { m with head := n }
  | none => none

/-- `push`, 120–122. -/
def push {α : Type} (m : Mem α) (v : α) : Option (Mem α) :=
  let (a, m) := m.alloc v
  pushRaw m a

/-- `pop_raw`, 203–208. -/
def popRaw {α : Type} (m : Mem α) : Option (Option Nat × Mem α) :=
  if m.head = 0 then some (none, m)
  else
    match m.node m.head with
    | some (next, _) => some (some m.head, { m with head := next })
    | none => none

/-- `pop`, 173–175. -/
def pop {α : Type} (m : Mem α) : Option (Option α × Mem α) :=
  match popRaw m with
  | none => none
  | some (none, m) => some (none, m)
  | some (some a, m) =>
    match m.free a with
    | some (v, m) => some (some v, m)
    | none => none

/-- `IntoIter::next`, 366–375. -/
def intoIterNext {α : Type} (m : Mem α) : Option (Option α × Mem α) :=
  let curr := m.head
  if curr = 0 then some (none, m)
  else
    match m.node curr with
    | none => none
    | some (next, _) =>
      match { m with head := next }.free curr with
      | some (v, m) => some (some v, m)
      | none => none

/-- `LinkedList::drop`, 319–326, the loop. The list itself is gone afterwards. -/
def dropLoop {α : Type} : Nat → Mem α → Nat → Option (Mem α)
  | 0, _, _ => none
  | fuel + 1, m, curr =>
    if curr = 0 then some { m with head := 0 }
    else
      match m.node curr with
      | none => none
      | some (next, _) =>
        match m.free curr with
        | none => none
        | some (_, m) => dropLoop fuel m next

/-- `LinkedList::drop`, 319–326. -/
def dropList {α : Type} (m : Mem α) : Option (Mem α) := dropLoop (m.fresh + 1) m m.head

/-- Calls `IntoIter::next` up to `k` times, then drops the iterator and with it
the list. -/
def intoIter {α : Type} : Nat → Mem α → Option (List α × Mem α)
  | 0, m =>
    match dropList m with
    | none => none
    | some m => some ([], m)
  | k + 1, m =>
    match intoIterNext m with
    | none => none
    | some (none, m) =>
      match dropList m with
      | none => none
      | some m => some ([], m)
    | some (some v, m) =>
      match intoIter k m with
      | none => none
      | some (vs, m) => some (v :: vs, m)

/-- `IterRaw::next` / `IterMut::next` run to the end, 383–385 and 393–401. -/
def iterLoop {α : Type} (m : Mem α) : Nat → Nat → Option (List α)
  | 0, _ => none
  | fuel + 1, curr =>
    if curr = 0 then some []
    else
      match m.node curr with
      | none => none
      | some (next, v) =>
        match iterLoop m fuel next with
        | none => none
        | some vs => some (v :: vs)

/-- `iter_mut` / `iter_raw`, 234–248. -/
def iter {α : Type} (m : Mem α) : Option (List α) := iterLoop m (m.fresh + 1) m.head

/-- The walk in `cut_out`, 455–457. -/
def cutWalk {α : Type} (m : Mem α) (curr : Nat) : Nat → Nat → Option Nat
  | 0, _ => none
  | fuel + 1, prev =>
    match m.node prev with
    | none => none
    | some (next, _) => if next = curr then some prev else cutWalk m curr fuel next

/-- `DrainFilterRaw::cut_out`, 449–460: the new `prev` and the memory. -/
def cutOut {α : Type} (m : Mem α) (prev curr next : Nat) : Option (Nat × Mem α) :=
  if prev = 0 then
    if m.head = curr then some (0, { m with head := next })
    else
      match cutWalk m curr (m.fresh + 1) m.head with
      | none => none
      | some prev =>
        match m.setNext prev next with
        | none => none
        | some m => some (prev, m)
  else
    match m.setNext prev next with
    | none => none
    | some m => some (prev, m)

/-- A filter closure `FnMut(&mut T) -> bool` with its captured state. -/
abbrev Filter (σ α : Type) := σ → α → Bool × α × σ

/-- `drain_filter` run to the end (`DrainFilterRaw::next`, 469–482;
`DrainFilter::next`, 423–425; `DrainFilter::drop`, 434–436, which runs whatever
the caller did not). Returns the yielded values, the closure state, the memory. -/
def drainLoop {σ α : Type} (f : Filter σ α) : Nat → Mem α → Nat → Nat → σ →
    Option (List α × σ × Mem α)
  | 0, _, _, _, _ => none
  | fuel + 1, m, prev, curr, st =>
    if curr = 0 then some ([], st, m)
    else
      match m.node curr with
      | none => none
      | some (next, v) =>
        let (b, v', st) := f st v
        let m := m.put curr (some (next, v'))
        if b then
          match cutOut m prev curr next with
          | none => none
          | some (prev, m) =>
            match m.free curr with
            | none => none
            | some (v, m) =>
              match drainLoop f fuel m prev next st with
              | none => none
              | some (vs, st, m) => some (v :: vs, st, m)
        else drainLoop f fuel m curr next st

/-- `drain_filter`, 277–292 and 302–315. -/
def drain {σ α : Type} (f : Filter σ α) (st : σ) (m : Mem α) : Option (List α × σ × Mem α) :=
  drainLoop f (m.fresh + 1) m 0 m.head st

end Verif.LinkedList
