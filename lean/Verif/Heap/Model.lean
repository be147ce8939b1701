/-!
# Model of the heap: `src/heap/pool.rs` and `src/heap/mod.rs`

Memory is a function from byte addresses to bytes; pointers are `Nat`
addresses, null is 0. `W` is the size of a pointer in bytes (4 on the targets,
8 on the host). Pointers are stored little-endian.

One call is one step here: the read-modify-write macros are justified as single
steps by `C55` (and by critical sections in the build without `atomics`). The
concurrent behaviour of the lock-free build is in `Verif.Heap.Concurrent`.
-/
namespace Verif.Heap

/-- Byte memory. -/
abbrev Mem := Nat → UInt8

/-- `ptr.cast::<*mut u8>().write(v)` of a `W`-byte pointer
(`src/heap/pool.rs` 78). -/
def writeWord (m : Mem) (a : Nat) : Nat → Nat → Mem
  | 0, _ => m
  | W + 1, v => writeWord (fun x => if x = a then UInt8.ofNat (v % 256) else m x) (a + 1) W (v / 256)

/-- `(curr as *const *mut u8).read()` of a `W`-byte pointer
(`src/heap/pool.rs` 86). -/
def readWord (m : Mem) (a : Nat) : Nat → Nat
  | 0 => 0
  | W + 1 => (m a).toNat + 256 * readWord m (a + 1) W

/-- `write_bytes(0, len)`, `src/heap/mod.rs` 108. -/
def zeroBytes (m : Mem) (a len : Nat) : Mem := fun x => if a ≤ x ∧ x < a + len then 0 else m x

/-- `ptr::copy_nonoverlapping(src, dst, n)`; `none` = undefined behaviour
because the ranges overlap. -/
def copyNonoverlapping (m : Mem) (src dst n : Nat) : Option Mem :=
  if n = 0 ∨ src + n ≤ dst ∨ dst + n ≤ src then
    some (fun x => if dst ≤ x ∧ x < dst + n then m (src + (x - dst)) else m x)
  else none

/-- `Pool`, `src/heap/pool.rs` 20–29. -/
structure Pool where
  size : Nat
  edge : Nat
  free : Nat
  uninit : Nat
deriving Repr, DecidableEq

/-- `Pool::new`, `src/heap/pool.rs` 37–44. -/
def Pool.new (address size count : Nat) : Pool :=
  { size, edge := address + size * count, free := 0, uninit := address }

/-- `Pool::allocate_free`, `src/heap/pool.rs` 83–89: the new pool and the block. -/
def Pool.allocateFree (W : Nat) (m : Mem) (p : Pool) : Option (Pool × Nat) :=
  if p.free = 0 then none else some ({ p with free := readWord m p.free W }, p.free)

/-- `Pool::allocate_uninit`, `src/heap/pool.rs` 91–96. -/
def Pool.allocateUninit (p : Pool) : Option (Pool × Nat) :=
  if p.uninit = p.edge then none else some ({ p with uninit := p.uninit + p.size }, p.uninit)

/-- `Pool::allocate`, `src/heap/pool.rs` 60–64. -/
def Pool.allocate (W : Nat) (m : Mem) (p : Pool) : Option (Pool × Nat) :=
  match p.allocateFree W m with
  | some r => some r
  | none => p.allocateUninit

/-- `Pool::deallocate`, `src/heap/pool.rs` 75–81. -/
def Pool.deallocate (W : Nat) (m : Mem) (p : Pool) (ptr : Nat) : Pool × Mem :=
  ({ p with free := ptr }, writeWord m ptr W p.free)

/-- `binary_search`, `src/heap/pool.rs` 109–121, the loop with its two cursors.
(`get_unchecked` out of range would be undefined behaviour; the model then stops.) -/
def binarySearchLoop (pools : List Pool) (f : Pool → Bool) (left right : Nat) : Nat :=
  if _h : right > left then
    let middle := left + (right - left) / 2
    match pools[middle]? with
    | none => left
    | some pool =>
      if f pool then binarySearchLoop pools f left middle
      else binarySearchLoop pools f (middle + 1) right
  else left
termination_by right - left
decreasing_by all_goals omega

/-- `binary_search`, `src/heap/pool.rs` 109–121. -/
def binarySearch (pools : List Pool) (f : Pool → Bool) : Nat :=
  binarySearchLoop pools f 0 pools.length

/-- `pool_range_by_layout`, `src/heap/pool.rs` 99–102: the start of the range
(the end is the number of pools). -/
def poolRangeByLayout (pools : List Pool) (size : Nat) : Nat :=
  binarySearch pools (fun pool => decide (size ≤ pool.size))

/-- `pool_by_ptr`, `src/heap/pool.rs` 104–107. -/
def poolByPtr (pools : List Pool) (base ptr : Nat) : Option Nat :=
  let index := binarySearch pools (fun pool => decide (ptr < pool.edge))
  if index < pools.length ∧ (index > 0 ∨ ptr ≥ base) then some index else none

/-- The heap: the metadata generated by `heap!` (`macros/src/heap.rs` 133–137)
and the memory. -/
structure Heap where
  W : Nat
  base : Nat
  pools : List Pool
  mem : Mem

/-- `core::alloc::Layout`. -/
structure Layout where
  size : Nat
  align : Nat
deriving Repr, DecidableEq

/-- The loop of `allocate`, `src/heap/mod.rs` 94–99, over pool indices. -/
def allocateLoop (h : Heap) : List Nat → Heap × Option (Nat × Nat)
  | [] => (h, none)
  | i :: is =>
    match h.pools[i]? with
    | none => (h, none)      -- unreachable: indices come from the range
    | some pool =>
      match pool.allocate h.W h.mem with
      | some (pool', ptr) => ({ h with pools := h.pools.set i pool' }, some (ptr, pool.size))
      | none => allocateLoop h is

/-- `allocate`, `src/heap/mod.rs` 90–101: `none` = `AllocError`, otherwise
address and length of the returned slice. -/
def allocate (h : Heap) (layout : Layout) : Heap × Option (Nat × Nat) :=
  if layout.size = 0 then (h, some (layout.align, 0))
  else
    let first := poolRangeByLayout h.pools layout.size
    allocateLoop h (List.range' first (h.pools.length - first))

/-- `allocate_zeroed`, `src/heap/mod.rs` 106–110. -/
def allocateZeroed (h : Heap) (layout : Layout) : Heap × Option (Nat × Nat) :=
  match allocate h layout with
  | (h', some (ptr, len)) => ({ h' with mem := zeroBytes h'.mem ptr len }, some (ptr, len))
  | (h', none) => (h', none)

/-- `deallocate`, `src/heap/mod.rs` 115–122. -/
def deallocate (h : Heap) (ptr : Nat) (layout : Layout) : Heap :=
  if layout.size = 0 then h
  else
    match poolByPtr h.pools h.base ptr with
    | none => h
    | some i =>
      match h.pools[i]? with
      | none => h
      | some pool =>
        let (pool', mem') := pool.deallocate h.W h.mem ptr
        { h with pools := h.pools.set i pool', mem := mem' }

/-- Common part of `grow`, `grow_zeroed`, `shrink` after the allocation
(`src/heap/mod.rs` 136–138, 154–156, 172–174). `none` = undefined behaviour. -/
def moveBlock (h : Heap) (ptr : Nat) (old : Layout) (n newPtr : Nat) : Option Heap :=
  match copyNonoverlapping h.mem ptr newPtr n with
  | none => none
  | some m => some (deallocate { h with mem := m } ptr old)

/-- Result of a reallocation: `none` = undefined behaviour. -/
abbrev ReallocResult := Option (Heap × Option (Nat × Nat))

/-- `grow`, `src/heap/mod.rs` 127–140. -/
def grow (h : Heap) (ptr : Nat) (old new : Layout) : ReallocResult :=
  match allocate h new with
  | (h', none) => some (h', none)
  | (h', some (newPtr, len)) =>
    (moveBlock h' ptr old old.size newPtr).map (fun h'' => (h'', some (newPtr, len)))

/-- `grow_zeroed`, `src/heap/mod.rs` 145–158. -/
def growZeroed (h : Heap) (ptr : Nat) (old new : Layout) : ReallocResult :=
  match allocateZeroed h new with
  | (h', none) => some (h', none)
  | (h', some (newPtr, len)) =>
    (moveBlock h' ptr old old.size newPtr).map (fun h'' => (h'', some (newPtr, len)))

/-- `shrink`, `src/heap/mod.rs` 163–176. -/
def shrink (h : Heap) (ptr : Nat) (old new : Layout) : ReallocResult :=
  match allocate h new with
  | (h', none) => some (h', none)
  | (h', some (newPtr, len)) =>
    (moveBlock h' ptr old new.size newPtr).map (fun h'' => (h'', some (newPtr, len)))

/-- The heap tables `drone-ld` writes for `pools = [{block, count}, …]`:
contiguous pools from `base` on (`src/heap/mod.rs` 18–30; the repository's
tests build their tables the same way, 213–227, 271–285). -/
def Heap.new (W base : Nat) (cfg : List (Nat × Nat)) (mem : Mem) : Heap :=
  let rec pools : Nat → List (Nat × Nat) → List Pool
    | _, [] => []
    | a, (size, count) :: rest => Pool.new a size count :: pools (a + size * count) rest
  { W, base, pools := pools base cfg, mem }

end Verif.Heap
