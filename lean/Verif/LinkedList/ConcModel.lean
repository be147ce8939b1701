/-!
# Concurrent model of the linked list: `src/sync/linked_list.rs`

Any number of contexts, one memory access per step. `hw = true` is the build
with feature `atomics` (load and `compare_exchange_weak` loops,
`src/atomic_macros.rs` 81–101); with `hw = false` each read-modify-write macro
with its closure is one critical section (`src/sync/soft_atomic.rs` 85–107). The
allocator may reuse the address of a released node. Accessing an address without
a node is undefined behaviour (`none`). Sequential consistency.

The model has `push`, `pop` and `drain_filter` as used by `DrainFilter` (423–425)
and by fiber chains (`src/fib/chain.rs` 146–149), where every yielded node is
released right away. `Chain::add` is `push`, `Chain::drain` (`Thread::resume`,
`src/thr/mod.rs` 147–149) is `drain` with the fiber's `advance` as the filter. A
filter that itself pushes is a context that pushes while the drain is at its
filter step.
-/
namespace Verif.LinkedList.Conc

/-- Execution contexts. -/
abbrev Tid := Nat

/-- Where a context is. Line numbers of `src/sync/linked_list.rs`. -/
inductive Pc where
  | idle
  /-- `push_raw`: about to load the head (147) -/
  | pushLoad (n : Nat)
  /-- `push_raw`: about to write the link (148) -/
  | pushWrite (n old : Nat)
  /-- `push_raw`: about to compare-exchange the head (147) -/
  | pushCas (n old : Nat)
  /-- `pop_raw`: about to load the head (204) -/
  | popLoad
  /-- `pop_raw`: about to read the link (205) -/
  | popRead (old : Nat)
  /-- `pop_raw`: about to compare-exchange the head (204) -/
  | popCas (old next : Nat)
  /-- `pop`: about to move the value out and release the node (174) -/
  | popFree (p : Nat)
  /-- `drain_filter_raw`: about to load the head (312) -/
  | drLoad
  /-- `DrainFilterRaw::next`: about to read the link (471) -/
  | drNext (prev curr : Nat)
  /-- `DrainFilterRaw::next`: about to call the filter (472) -/
  | drFilter (prev curr next : Nat)
  /-- `cut_out` with null `prev`: about to load the head (451) -/
  | cutLoad (curr next : Nat)
  /-- `cut_out` with null `prev`: about to compare-exchange the head (451) -/
  | cutCas (curr next : Nat)
  /-- `cut_out`: about to read the link of `prev` (455) -/
  | cutWalk (prev curr next : Nat)
  /-- `cut_out`: about to write the link of `prev` (459) -/
  | cutWrite (prev curr next : Nat)
  /-- about to release the yielded node (424; `src/fib/chain.rs` 148) -/
  | drFree (prev curr next : Nat)
deriving DecidableEq, Repr

/-- List head, node heap, contexts. -/
structure State (α : Type) where
  head : Nat
  node : Nat → Option (Nat × α)
  pc : Tid → Pc

/-- Empty list. -/
def init (α : Type) : State α := { head := 0, node := fun _ => none, pc := fun _ => .idle }

/-- Observable events. -/
inductive Event (α : Type) where
  /-- an element became visible -/
  | pushed (v : α)
  /-- `pop` of context `t` took the top element -/
  | popped (t : Tid) (v : α)
  /-- `pop` of context `t` returned the element -/
  | popRet (t : Tid) (v : α)
  /-- `pop` returned `None` -/
  | popEmpty (t : Tid)
  | drainStart
  /-- the filter was called and returned `b` -/
  | visit (v : α) (b : Bool)
  /-- the element was yielded and its node released -/
  | yield (v : α)
  | drainEnd
deriving DecidableEq, Repr

/-- Scheduler choices. -/
inductive Act (α : Type) where
  /-- context `t` calls `push(v)`, the allocator returns address `a` -/
  | push (t : Tid) (a : Nat) (v : α)
  | pop (t : Tid)
  | drain (t : Tid)
  /-- next access of context `t`; `b` is the result of the filter, or makes a
  weak compare-exchange fail -/
  | step (t : Tid) (b : Bool)

/-- Result of a step; `none` = undefined behaviour. -/
abbrev Res (α : Type) := Option (State α × List (Event α))

/-- Move context `t` to `pc`. -/
def State.goto {α : Type} (s : State α) (t : Tid) (pc : Pc) : State α :=
  { s with pc := fun u => if u = t then pc else s.pc u }

/-- Write a node. -/
def State.put {α : Type} (s : State α) (a : Nat) (n : Option (Nat × α)) : State α :=
  { s with node := fun x => if x = a then n else s.node x }

/-- Closure of `pop_raw` (205): null leaves with `Err`. -/
def popAfter {α : Type} (s : State α) (t : Tid) (curr : Nat) : State α × List (Event α) :=
  if curr = 0 then (s.goto t .idle, [.popEmpty t]) else (s.goto t (.popRead curr), [])

/-- Loop condition of `DrainFilterRaw::next` (470). -/
def drTest {α : Type} (s : State α) (t : Tid) (prev curr : Nat) : State α × List (Event α) :=
  if curr = 0 then (s.goto t .idle, [.drainEnd]) else (s.goto t (.drNext prev curr), [])

/-- Closure of `cut_out` (452): a head other than `curr` leaves with `Err`. -/
def cutAfter {α : Type} (s : State α) (t : Tid) (head curr next : Nat) : State α :=
  if head = curr then s.goto t (.cutCas curr next) else s.goto t (.cutWalk head curr next)

/-- One step. -/
def step {α : Type} (hw : Bool) (s : State α) : Act α → Res α
  | .push t a v =>
    if s.pc t = .idle ∧ a ≠ 0 ∧ (s.node a).isNone then
      some ((s.put a (some (0, v))).goto t (.pushLoad a), [])
    else some (s, [])
  | .pop t => if s.pc t = .idle then some (s.goto t .popLoad, []) else some (s, [])
  | .drain t => if s.pc t = .idle then some (s.goto t .drLoad, []) else some (s, [])
  | .step t b =>
    match s.pc t with
    | .idle => some (s, [])
    | .pushLoad n =>
      if hw then some (s.goto t (.pushWrite n s.head), [])
      else
        match s.node n with
        | none => none
        | some (_, v) =>
          some ({ (s.put n (some (s.head, v))).goto t .idle with head := n }, [.pushed v])
    | .pushWrite n old =>
      match s.node n with
      | none => none
      | some (_, v) => some ((s.put n (some (old, v))).goto t (.pushCas n old), [])
    | .pushCas n old =>
      if s.head = old ∧ b = false then
        match s.node n with
        | none => none      -- (only to name the value in the event)
        | some (_, v) => some ({ s.goto t .idle with head := n }, [.pushed v])
      else some (s.goto t (.pushWrite n s.head), [])
    | .popLoad =>
      if hw then some (popAfter s t s.head)
      else if s.head = 0 then some (s.goto t .idle, [.popEmpty t])
      else
        match s.node s.head with
        | none => none
        | some (next, v) => some ({ s.goto t (.popFree s.head) with head := next }, [.popped t v])
    | .popRead old =>
      match s.node old with
      | none => none
      | some (next, _) => some (s.goto t (.popCas old next), [])
    | .popCas old next =>
      if s.head = old ∧ b = false then
        match s.node old with
        | none => none      -- (only to name the value in the event)
        | some (_, v) => some ({ s.goto t (.popFree old) with head := next }, [.popped t v])
      else some (popAfter s t s.head)
    | .popFree p =>
      match s.node p with
      | none => none
      | some (_, v) => some ((s.put p none).goto t .idle, [.popRet t v])
    | .drLoad =>
      let (s', e) := drTest s t 0 s.head
      some (s', .drainStart :: e)
    | .drNext prev curr =>
      match s.node curr with
      | none => none
      | some (next, _) => some (s.goto t (.drFilter prev curr next), [])
    | .drFilter prev curr next =>
      match s.node curr with
      | none => none
      | some (_, v) =>
        if b then
          if prev = 0 then some (s.goto t (.cutLoad curr next), [.visit v true])
          else some (s.goto t (.cutWrite prev curr next), [.visit v true])
        else
          let (s', e) := drTest s t curr next
          some (s', .visit v false :: e)
    | .cutLoad curr next =>
      if hw then some (cutAfter s t s.head curr next, [])
      else if s.head = curr then some ({ s.goto t (.drFree 0 curr next) with head := next }, [])
      else some (s.goto t (.cutWalk s.head curr next), [])
    | .cutCas curr next =>
      if s.head = curr ∧ b = false then
        some ({ s.goto t (.drFree 0 curr next) with head := next }, [])
      else some (cutAfter s t s.head curr next, [])
    | .cutWalk prev curr next =>
      match s.node prev with
      | none => none
      | some (nx, _) =>
        if nx = curr then some (s.goto t (.cutWrite prev curr next), [])
        else some (s.goto t (.cutWalk nx curr next), [])
    | .cutWrite prev curr next =>
      match s.node prev with
      | none => none
      | some (_, v) => some ((s.put prev (some (next, v))).goto t (.drFree prev curr next), [])
    | .drFree prev curr next =>
      match s.node curr with
      | none => none
      | some (_, v) =>
        let (s', e) := drTest (s.put curr none) t prev next
        some (s', .yield v :: e)

/-- A schedule: final state and event log. -/
def run {α : Type} (hw : Bool) (s : State α) : List (Act α) → Res α
  | [] => some (s, [])
  | a :: as =>
    match step hw s a with
    | none => none
    | some (s', e) =>
      match run hw s' as with
      | none => none
      | some (s'', es) => some (s'', e ++ es)

end Verif.LinkedList.Conc
