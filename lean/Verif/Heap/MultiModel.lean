import Verif.Heap.ConcModel
import Verif.Heap.Spec
/-!
# Concurrent model of the whole heap: `src/heap/mod.rs`

Any number of contexts call `allocate` and `deallocate` of the same heap; one memory access per step. Each pool is the
concurrent pool of `ConcModel.lean`; here the loop over the pools and the look-up of the pool are added. The look-ups read only
the sizes and edges, which are constant, and are part of the step that starts the call.

`grow`, `grow_zeroed` and `shrink` (127–176) are an `allocate`, copies within blocks that the caller owns, and a `deallocate`; a
context makes these calls one after the other. Layouts of size 0 do not use the pools (91–93, 116–118): nothing happens.
-/
namespace Verif.Heap.Multi

open Verif.Heap (Pool regions poolRangeByLayout poolByPtr)

/-- Execution contexts. -/
abbrev Tid := Nat

/-- With feature `atomics`, and without. -/
inductive Build where
  | hw | soft
deriving DecidableEq

/-- One step of a pool. -/
def poolStep : Build → Conc.State → Conc.Act → Conc.State
  | .hw => Conc.stepHw
  | .soft => Conc.stepSoft

/-- Where a context is in a call: in the loop of `allocate` (94–99) for a request of `size` bytes at pool `i`, or in
`deallocate` (119–121) at pool `i`. -/
inductive Pc where
  | idle
  | alloc (size i : Nat)
  | dealloc (i : Nat)
deriving DecidableEq

/-- Results of `allocate`: a block, with its address and length, or `AllocError`. -/
inductive Event where
  | got (t : Tid) (size ptr len : Nat)
  | failed (t : Tid) (size : Nat)
deriving DecidableEq

/-- The heap, the contexts and the results so far (ghost), last one first. -/
structure State where
  base : Nat
  n : Nat
  pool : Nat → Conc.State
  pc : Tid → Pc
  log : List Event

/-- The heap that `heap!` declares (`macros/src/heap.rs` 133–137), the pools one after the other from `base` on. `link` is what the
memory contains. -/
def init (base : Nat) (cfg : List (Nat × Nat)) (link : Nat → Nat) : State where
  base := base
  n := cfg.length
  pool := fun i =>
    match (regions base cfg)[i]? with
    | some r => Conc.init r.start r.size r.count link
    | none => Conc.init 0 0 0 link
  pc := fun _ => .idle
  log := []

/-- The pools as the look-ups see them. -/
def State.table (s : State) : List Pool :=
  (List.range s.n).map fun i => ⟨(s.pool i).size, (s.pool i).edge, (s.pool i).free, (s.pool i).uninit⟩

/-- Replace pool `i`. -/
def State.setPool (s : State) (i : Nat) (p : Conc.State) : State := { s with pool := fun j => if j = i then p else s.pool j }

/-- Move context `t`. -/
def State.goto (s : State) (t : Tid) (pc : Pc) : State := { s with pc := fun u => if u = t then pc else s.pc u }

/-- Scheduler choices. -/
inductive Act where
  /-- context `t` calls `allocate` -/
  | alloc (t : Tid) (size : Nat)
  /-- context `t` calls `deallocate` for a block -/
  | dealloc (t : Tid) (ptr size : Nat)
  /-- context `t` makes its next access -/
  | step (t : Tid) (spurious : Bool)
  /-- the owner of a block writes its first word -/
  | write (ptr v : Nat)
deriving DecidableEq

/-- The loop of `allocate` comes to pool `i` (94–100): `Pool::allocate` of that pool is called, or there is no such pool. -/
def enter (b : Build) (s : State) (t : Tid) (size i : Nat) : State :=
  if i < s.n then (s.setPool i (poolStep b (s.pool i) (.alloc t))).goto t (.alloc size i)
  else { s.goto t .idle with log := .failed t size :: s.log }

/-- One step. A call of `deallocate` for something that nobody holds is not made (safety requirement, 112). -/
def step (b : Build) (s : State) : Act → State
  | .alloc t size =>
    if s.pc t = .idle ∧ size ≠ 0 then enter b s t size (poolRangeByLayout s.table size) else s
  | .dealloc t ptr size =>
    match poolByPtr s.table s.base ptr with
    | none => s
    | some i =>
      if s.pc t = .idle ∧ size ≠ 0 ∧ ptr ∈ (s.pool i).held then
        (s.setPool i (poolStep b (s.pool i) (.dealloc t ptr))).goto t (.dealloc i)
      else s
  | .step t spurious =>
    match s.pc t with
    | .idle => s
    | .alloc size i =>
      let p := s.pool i
      let p' := poolStep b p (.step t spurious)
      let s' := s.setPool i p'
      if p'.pc t = .idle then
        if p'.held.length = p.held.length then enter b s' t size (i + 1)
        else { s'.goto t .idle with log := .got t size (p'.held.headD 0) p.size :: s.log }
      else s'
    | .dealloc i =>
      let p' := poolStep b (s.pool i) (.step t spurious)
      if p'.pc t = .idle then (s.setPool i p').goto t .idle else s.setPool i p'
  | .write ptr v =>
    match poolByPtr s.table s.base ptr with
    | none => s
    | some i => s.setPool i (poolStep b (s.pool i) (.write ptr v))

/-- A schedule. -/
def run (b : Build) (s : State) (as : List Act) : State := as.foldl (step b) s

end Verif.Heap.Multi
