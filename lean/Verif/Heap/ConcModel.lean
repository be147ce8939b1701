/-!
# Concurrent model of one heap pool: `src/heap/pool.rs`

One pool, any number of contexts, one memory access per step. The memory of the
pool is represented by the pointer stored at the start of each block
(`link : address → address`), the only part the pool uses; that a stored pointer
is read back and touches no other block is `Verif.Heap.readWord_writeWord` and
`writeWord_frame`, for blocks of at least pointer size. Memory orderings are not
modelled (sequential consistency).

`stepHw` is the build with feature `atomics`: the macros of
`src/atomic_macros.rs` 81–101 are a load followed by a `compare_exchange_weak`
loop. `stepSoft` is the build without it: every macro is one critical section
(`src/sync/soft_atomic.rs` 85–107).
-/
namespace Verif.Heap.Conc

/-- Execution contexts. -/
abbrev Tid := Nat

/-- Where a context is inside `allocate` or `deallocate`. -/
inductive Pc where
  | idle
  /-- `allocate_free`: about to load `free` (84) -/
  | afLoad
  /-- `allocate_free`: about to read the link of the loaded block (86) -/
  | afRead (old : Nat)
  /-- `allocate_free`: about to compare-exchange `free` (84) -/
  | afCas (old next : Nat)
  /-- `allocate_uninit`: about to load `uninit` (92) -/
  | auLoad
  /-- `allocate_uninit`: about to compare-exchange `uninit` (92) -/
  | auCas (old : Nat)
  /-- `deallocate`: about to load `free` (76) -/
  | deLoad (p : Nat)
  /-- `deallocate`: about to write the link of the block (78) -/
  | deWrite (p old : Nat)
  /-- `deallocate`: about to compare-exchange `free` (76) -/
  | deCas (p old : Nat)
deriving DecidableEq, Repr

/-- The pool (`src/heap/pool.rs` 20–29), the links, the contexts, and the
addresses of the blocks that are currently handed out (one entry per owner). -/
structure State where
  size : Nat
  edge : Nat
  free : Nat
  uninit : Nat
  link : Nat → Nat
  pc : Tid → Pc
  held : List Nat

/-- `Pool::new`, `src/heap/pool.rs` 37–44. -/
def init (address size count : Nat) (link : Nat → Nat) : State where
  size := size
  edge := address + size * count
  free := 0
  uninit := address
  link := link
  pc := fun _ => .idle
  held := []

/-- Scheduler choices. -/
inductive Act where
  /-- context `t` calls `allocate` -/
  | alloc (t : Tid)
  /-- context `t` gives up a held block and calls `deallocate` -/
  | dealloc (t : Tid) (p : Nat)
  /-- context `t` performs its next access; `spurious` makes a weak
  compare-exchange fail although the values agree -/
  | step (t : Tid) (spurious : Bool)
  /-- an owner writes into its block -/
  | write (p v : Nat)
deriving DecidableEq, Repr

/-- Move context `t` to `pc`. -/
def State.goto (s : State) (t : Tid) (pc : Pc) : State :=
  { s with pc := fun u => if u = t then pc else s.pc u }

/-- `allocate_free` after reading `free` (84–88): null leaves with `Err`, and
`allocate` goes on with `allocate_uninit` (60–62). -/
def afAfter (s : State) (t : Tid) (old : Nat) : State :=
  if old = 0 then s.goto t .auLoad else s.goto t (.afRead old)

/-- `allocate_uninit` after reading `uninit` (92–95): the edge leaves with `Err`,
so `allocate` returns `None`. -/
def auAfter (s : State) (t : Tid) (old : Nat) : State :=
  if old = s.edge then s.goto t .idle else s.goto t (.auCas old)

/-- Calls, common to both builds. -/
def call (s : State) : Act → State
  | .alloc t => if s.pc t = .idle then s.goto t .afLoad else s
  | .dealloc t p =>
    if s.pc t = .idle ∧ p ∈ s.held then { s.goto t (.deLoad p) with held := s.held.erase p } else s
  | .write p v =>
    if p ∈ s.held then { s with link := fun x => if x = p then v else s.link x } else s
  | .step _ _ => s

/-- One step of the lock-free build. -/
def stepHw (s : State) : Act → State
  | .step t spurious =>
    match s.pc t with
    | .idle => s
    | .afLoad => afAfter s t s.free
    | .afRead old => s.goto t (.afCas old (s.link old))
    | .afCas old next =>
      if s.free = old ∧ spurious = false then
        { s.goto t .idle with free := next, held := old :: s.held }
      else afAfter s t s.free
    | .auLoad => auAfter s t s.uninit
    | .auCas old =>
      if s.uninit = old ∧ spurious = false then
        { s.goto t .idle with uninit := old + s.size, held := old :: s.held }
      else auAfter s t s.uninit
    | .deLoad p => s.goto t (.deWrite p s.free)
    | .deWrite p old =>
      { s.goto t (.deCas p old) with link := fun x => if x = p then old else s.link x }
    | .deCas p old =>
      if s.free = old ∧ spurious = false then { s.goto t .idle with free := p }
      else s.goto t (.deWrite p s.free)
  | a => call s a

/-- One step of the build without `atomics`: each read-modify-write including
its closure is one critical section. -/
def stepSoft (s : State) : Act → State
  | .step t _ =>
    match s.pc t with
    | .afLoad =>
      if s.free = 0 then s.goto t .auLoad
      else { s.goto t .idle with free := s.link s.free, held := s.free :: s.held }
    | .auLoad =>
      if s.uninit = s.edge then s.goto t .idle
      else { s.goto t .idle with uninit := s.uninit + s.size, held := s.uninit :: s.held }
    | .deLoad p =>
      { s.goto t .idle with free := p, link := fun x => if x = p then s.free else s.link x }
    | _ => s
  | a => call s a

/-! ### Specification vocabulary -/

/-- A schedule. -/
def run (step : State → Act → State) (s : State) (as : List Act) : State := as.foldl step s

/-- No block has two owners. -/
def Exclusive (s : State) : Prop := s.held.Nodup

/-- Context `t` is between reading `free` and its compare-exchange inside
`allocate_free`. -/
def InPop (s : State) (t : Tid) : Prop :=
  match s.pc t with
  | .afRead _ | .afCas _ _ => True
  | _ => False

instance (s : State) (t : Tid) : Decidable (InPop s t) := by
  unfold InPop; split <;> infer_instance

/-- A schedule in which the `allocate_free` sections of two contexts never
overlap. -/
def PopsApart (s : State) : List Act → Prop
  | [] => ∀ t u, InPop s t → InPop s u → t = u
  | a :: as => (∀ t u, InPop s t → InPop s u → t = u) ∧ PopsApart (stepHw s a) as

/-- This step puts a block back on the free list. -/
def returns (s : State) : Act → Option Nat
  | .step t spurious =>
    match s.pc t with
    | .deCas p old => if s.free = old ∧ spurious = false then some p else none
    | _ => none
  | _ => none

/-- A schedule in which no block comes back to the free list while a context that has loaded
it as the head, and has read its link, is about to compare-exchange. -/
def NoReturn (s : State) : List Act → Prop
  | [] => True
  | a :: as => (∀ p, returns s a = some p → ∀ t next, s.pc t ≠ .afCas p next) ∧ NoReturn (stepHw s a) as

/-- `l` is the list of blocks linked from `p` on. -/
def Linked (link : Nat → Nat) : Nat → List Nat → Prop
  | p, [] => p = 0
  | p, a :: l => p = a ∧ a ≠ 0 ∧ Linked link (link a) l

/-- No block is lost: every block of the pool is unused so far, held, or on the
free list (when no call is in progress), and on one of them only. -/
def NoLeak (address : Nat) (s : State) : Prop :=
  ∃ fl, Linked s.link s.free fl ∧ (s.held ++ fl).Nodup ∧
    ∀ j, address + s.size * j < s.edge →
      s.uninit ≤ address + s.size * j ∨ address + s.size * j ∈ s.held ++ fl

end Verif.Heap.Conc
