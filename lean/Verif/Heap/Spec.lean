import Verif.Heap.Model
/-!
# Client view of the heap

The client keeps a list of the blocks it holds. A history is any list of
requests; a request that would break the `Allocator` contract (releasing
something not held, a layout that does not fit, writing outside its own
blocks) is not performed, so every list of requests is a legal history.
-/
namespace Verif.Heap

/-- A block the client holds: address and length as returned, size as requested. -/
structure Block where
  ptr : Nat
  len : Nat
  req : Nat
deriving Repr, DecidableEq

/-- Requests. `i` selects one of the held blocks. -/
inductive Op where
  | alloc (layout : Layout)
  | allocZeroed (layout : Layout)
  | dealloc (i : Nat) (layout : Layout)
  | grow (i : Nat) (old new : Layout)
  | growZeroed (i : Nat) (old new : Layout)
  | shrink (i : Nat) (old new : Layout)
  /-- the client writes one byte into one of its blocks -/
  | write (addr : Nat) (v : UInt8)
deriving Repr, DecidableEq

/-- Heap and client. -/
structure Sys where
  heap : Heap
  live : List Block

/-- The layout fits the block (documentation of `core::alloc::Allocator`,
"memory fitting"). -/
def Block.fits (b : Block) (l : Layout) : Bool := decide (b.req ≤ l.size ∧ l.size ≤ b.len)

/-- The client gives up block `i` and holds the new one instead. -/
def replaceBlock (live : List Block) (i : Nat) (ptr len req : Nat) : List Block :=
  ⟨ptr, len, req⟩ :: live.eraseIdx i

/-- Outcome of a reallocation for the client. -/
def afterRealloc (s : Sys) (i req : Nat) : ReallocResult → Option Sys
  | none => none
  | some (h, none) => some { s with heap := h }
  | some (h, some (p, len)) => some { heap := h, live := replaceBlock s.live i p len req }

/-- One request; `none` = undefined behaviour inside the heap. -/
def step (s : Sys) : Op → Option Sys
  | .alloc l =>
    match allocate s.heap l with
    | (h, some (p, len)) => some { heap := h, live := ⟨p, len, l.size⟩ :: s.live }
    | (h, none) => some { s with heap := h }
  | .allocZeroed l =>
    match allocateZeroed s.heap l with
    | (h, some (p, len)) => some { heap := h, live := ⟨p, len, l.size⟩ :: s.live }
    | (h, none) => some { s with heap := h }
  | .dealloc i l =>
    match s.live[i]? with
    | some b =>
      if b.fits l then some { heap := deallocate s.heap b.ptr l, live := s.live.eraseIdx i }
      else some s
    | none => some s
  | .grow i old new =>
    match s.live[i]? with
    | some b =>
      if b.fits old ∧ old.size ≤ new.size then
        afterRealloc s i new.size (grow s.heap b.ptr old new)
      else some s
    | none => some s
  | .growZeroed i old new =>
    match s.live[i]? with
    | some b =>
      if b.fits old ∧ old.size ≤ new.size then
        afterRealloc s i new.size (growZeroed s.heap b.ptr old new)
      else some s
    | none => some s
  | .shrink i old new =>
    match s.live[i]? with
    | some b =>
      if b.fits old ∧ new.size ≤ old.size then
        afterRealloc s i new.size (shrink s.heap b.ptr old new)
      else some s
    | none => some s
  | .write a v =>
    if s.live.any (fun b => decide (b.ptr ≤ a ∧ a < b.ptr + b.len)) then
      some { s with heap := { s.heap with mem := fun x => if x = a then v else s.heap.mem x } }
    else some s

/-- A history. -/
def run (s : Sys) : List Op → Option Sys
  | [] => some s
  | op :: ops =>
    match step s op with
    | none => none
    | some s' => run s' ops

/-- A pool as configured: first address, block size, number of blocks. -/
structure Region where
  start : Nat
  size : Nat
  count : Nat
deriving Repr, DecidableEq

/-- Address of block `j`. -/
def Region.block (r : Region) (j : Nat) : Nat := r.start + r.size * j

/-- End of the pool. -/
def Region.stop (r : Region) : Nat := r.start + r.size * r.count

/-- The configured pools, laid out one after another. -/
def regions : Nat → List (Nat × Nat) → List Region
  | _, [] => []
  | a, (size, count) :: rest => ⟨a, size, count⟩ :: regions (a + size * count) rest

/-- End of the heap. -/
def heapEnd (base : Nat) (cfg : List (Nat × Nat)) : Nat :=
  base + (cfg.map fun c => c.1 * c.2).sum

/-- A legal configuration: pools in increasing block size order, every block
can hold a pointer, the heap does not contain address 0 and fits the address
space. -/
structure Legal (W base : Nat) (cfg : List (Nat × Nat)) : Prop where
  wpos : 0 < W
  basePos : 0 < base
  sorted : cfg.Pairwise (fun a b => a.1 ≤ b.1)
  word : ∀ c ∈ cfg, W ≤ c.1
  space : heapEnd base cfg ≤ 256 ^ W

/-- Initial system. -/
def start (W base : Nat) (cfg : List (Nat × Nat)) (mem : Mem) : Sys :=
  { heap := Heap.new W base cfg mem, live := [] }

/-- The system is reached by some history from a legal configuration. -/
def Reachable (W base : Nat) (cfg : List (Nat × Nat)) (s : Sys) : Prop :=
  ∃ mem ops, run (start W base cfg mem) ops = some s

/-- Every block of the pool is held by the client. -/
def Exhausted (live : List Block) (r : Region) : Prop :=
  ∀ j < r.count, ∃ b ∈ live, b.len ≠ 0 ∧ b.ptr = r.block j

end Verif.Heap
