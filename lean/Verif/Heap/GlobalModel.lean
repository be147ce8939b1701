import Verif.Heap.Trace
/-!
# Model of the heap as the global allocator and of its start-up

`GlobalAlloc` generated by `heap!` (`macros/src/heap.rs` 313–333) with the provided methods
of `core::alloc::GlobalAlloc` it does not override (`alloc_zeroed`, `realloc`), and the
function `init` (`macros/src/heap.rs` 172–186).
-/
namespace Verif.Heap

/-- `GlobalAlloc::alloc`, `macros/src/heap.rs` 317–321; 0 = null. -/
def galloc (h : Heap) (layout : Layout) : Heap × Nat :=
  match allocate h layout with
  | (h', some (ptr, _)) => (h', ptr)
  | (h', none) => (h', 0)

/-- `GlobalAlloc::dealloc`, `macros/src/heap.rs` 324–330. -/
def gdealloc (h : Heap) (ptr : Nat) (layout : Layout) : Heap := deallocate h ptr layout

/-- `GlobalAlloc::alloc_zeroed` as provided by `core`: `alloc`, then `write_bytes(ptr, 0,
layout.size())` if the pointer is not null. -/
def gallocZeroed (h : Heap) (layout : Layout) : Heap × Nat :=
  match galloc h layout with
  | (h', ptr) => (if ptr = 0 then h' else { h' with mem := zeroBytes h'.mem ptr layout.size }, ptr)

/-- `GlobalAlloc::realloc` as provided by `core`: `alloc` with the new size and the old
alignment; if the pointer is not null, copy the smaller of the two sizes and `dealloc`.
`none` = undefined behaviour (overlapping copy). -/
def grealloc (h : Heap) (ptr : Nat) (layout : Layout) (newSize : Nat) : Option (Heap × Nat) :=
  match galloc h ⟨newSize, layout.align⟩ with
  | (h', newPtr) =>
    if newPtr = 0 then some (h', 0)
    else
      match copyNonoverlapping h'.mem ptr newPtr (min layout.size newSize) with
      | none => none
      | some m => some (gdealloc { h' with mem := m } ptr layout, newPtr)

/-! ### A program that uses the global allocator -/

/-- An object of the program: its address and the layout it was allocated with. -/
structure GBlock where
  ptr : Nat
  layout : Layout
deriving DecidableEq

/-- What the program does. `i` selects one of its objects. -/
inductive GOp where
  | alloc (layout : Layout)
  | allocZeroed (layout : Layout)
  | dealloc (i : Nat)
  | realloc (i newSize : Nat)
  /-- write byte `off` of the object -/
  | write (i off : Nat) (v : UInt8)
deriving DecidableEq

structure GSys where
  heap : Heap
  live : List GBlock

/-- One operation, and whether it was done: `false` for a null pointer. What the contract of
`GlobalAlloc` forbids (layouts of size zero, objects the program does not have, writes outside
of an object) is not done. `none` = undefined behaviour inside of the allocator. -/
def gstep (s : GSys) : GOp → Option (GSys × Bool)
  | .alloc l =>
    if l.size = 0 then some (s, false)
    else
      match galloc s.heap l with
      | (h, ptr) => some (if ptr = 0 then ({ s with heap := h }, false) else (⟨h, ⟨ptr, l⟩ :: s.live⟩, true))
  | .allocZeroed l =>
    if l.size = 0 then some (s, false)
    else
      match gallocZeroed s.heap l with
      | (h, ptr) => some (if ptr = 0 then ({ s with heap := h }, false) else (⟨h, ⟨ptr, l⟩ :: s.live⟩, true))
  | .dealloc i =>
    match s.live[i]? with
    | none => some (s, false)
    | some b => some (⟨gdealloc s.heap b.ptr b.layout, s.live.eraseIdx i⟩, true)
  | .realloc i n =>
    match s.live[i]? with
    | none => some (s, false)
    | some b =>
      if n = 0 then some (s, false)
      else
        match grealloc s.heap b.ptr b.layout n with
        | none => none
        | some (h, ptr) =>
          some (if ptr = 0 then ({ s with heap := h }, false)
            else (⟨h, ⟨ptr, n, b.layout.align⟩ :: s.live.eraseIdx i⟩, true))
  | .write i off v =>
    match s.live[i]? with
    | none => some (s, false)
    | some b =>
      if off < b.layout.size then
        some ({ s with heap := { s.heap with mem := fun x => if x = b.ptr + off then v else s.heap.mem x } }, true)
      else some (s, false)

/-- A program run: the final state and the outcomes of the operations in order. -/
def grun (s : GSys) : List GOp → Option (GSys × List Bool)
  | [] => some (s, [])
  | op :: ops =>
    match gstep s op with
    | none => none
    | some (s', ok) =>
      match grun s' ops with
      | none => none
      | some (s'', oks) => some (s'', ok :: oks)

/-- Before the first operation. -/
def gstart (W base : Nat) (cfg : List (Nat × Nat)) (mem : Mem) : GSys := ⟨Heap.new W base cfg mem, []⟩

/-- Messages of an operation with outcome `ok` when a trace stream is configured: `alloc` and
`dealloc` go through the traced methods of `Allocator` (`macros/src/heap.rs` 317–330 call
209–221, 236–249). -/
def gmessages (W : Nat) (s : GSys) (ok : Bool) : GOp → List (List UInt8)
  | .alloc l => if l.size = 0 then [] else [traceAllocate W l]
  | .allocZeroed l => if l.size = 0 then [] else [traceAllocate W l]
  | .dealloc i =>
    match s.live[i]? with
    | none => []
    | some b => [traceDeallocate W b.layout]
  | .realloc i n =>
    match s.live[i]? with
    | none => []
    | some b =>
      if n = 0 then []
      else traceAllocate W ⟨n, b.layout.align⟩ :: (if ok then [traceDeallocate W b.layout] else [])
  | .write _ _ _ => []

/-- Messages of a run. -/
def gmessagesRun (W : Nat) (s : GSys) : List GOp → List (List UInt8)
  | [] => []
  | op :: ops =>
    match gstep s op with
    | none => []
    | some (s', ok) => gmessages W s ok op ++ gmessagesRun W s' ops

/-! ### Start-up -/

/-- `init`, `macros/src/heap.rs` 179–183: `(end - base) >> 2` elements of type `usize` (`W`
bytes each) are copied. `none` = undefined behaviour. -/
def initCopy (W : Nat) (m : Mem) (load base stop : Nat) : Option Mem :=
  copyNonoverlapping m load base (((stop - base) >>> 2) * W)

end Verif.Heap
