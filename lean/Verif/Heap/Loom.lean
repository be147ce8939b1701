import Verif.Loom.Explore
import Verif.Heap.ConcModel
/-! # The loom tests of the heap pool, on the model (`tests/loom_heap_pool.rs`) -/
namespace Verif.Heap.Conc.LoomTest

open Verif.Loom

/-- The pool and the results of the calls of the contexts: the address, or 0. -/
abbrev S := State × List (Tid × Nat)

/-- A step; a call that ends is recorded. -/
def step (s : S) (a : Act) : Option S :=
  let s' := stepHw s.1 a
  match a with
  | .step t _ =>
    if s.1.pc t ≠ .idle ∧ s'.pc t = .idle then
      some (s', (t, if s.1.held.length < s'.held.length then s'.held.headD 0 else 0) :: s.2)
    else some (s', s.2)
  | _ => some (s', s.2)

/-- Two contexts, each with one call, in all interleavings. -/
def acts (calls : List Act) (s : S) : List Act :=
  calls.zipIdx.filterMap fun (c, t) =>
    if s.2.any (·.1 = t) then none else if s.1.pc t = .idle then some c else some (.step t false)

/-- States are compared by the used part of the memory (the addresses 16, 32). -/
structure Key where
  free : Nat
  uninit : Nat
  link : List Nat
  pc : List Pc
  held : List Nat
  res : List (Nat × Nat)
deriving DecidableEq

@[inherit_doc Key] def key (s : S) : Key :=
  ⟨s.1.free, s.1.uninit, [s.1.link 16, s.1.link 32], (List.range 2).map s.1.pc, s.1.held, s.2⟩

/-- One call, run to its end; its result. -/
def seq (s : State) (a : Act) : State × Nat :=
  let r := (List.range 10).foldl (fun r _ => (step r (.step 0 false)).getD r) (stepHw s a, [])
  (r.1, (r.2.headD (0, 0)).2)

/-- `allocate`, again and again. -/
def allocs : Nat → State → List Nat
  | 0, _ => []
  | n + 1, s => let (s', p) := seq s (.alloc 0); p :: allocs n s'

/-- `make_pool` (11–18), with `SIZE` 16 at address 16. -/
def makePool (count freed : Nat) : State :=
  let s := init 16 16 count (fun _ => 0)
  let (s, ps) := (List.range freed).foldl (fun (s, ps) _ => let (s, p) := seq s (.alloc 0); (s, ps ++ [p])) (s, [])
  ps.foldl (fun s p => (seq s (.dealloc 0 p)).1) s

/-- After one more `allocate`. -/
def allocated (s : State) : State := (seq s (.alloc 0)).1

/-- The results of a test: the results of the two calls, then of three calls of `allocate`. -/
def outcomes (s : State) (x y : Act) : List (List Nat) × Bool × Bool :=
  match explore key step (acts [x, y]) 100 [(s, [])] with
  | (f, u, c) => ((f.map fun (s, r) =>
      let ret (t : Nat) := ((r.find? (·.1 = t)).map (·.2)).getD 9999
      ret 0 :: ret 1 :: allocs 3 s).eraseDups, u, c)

/-- The exploration is complete, and the results are exactly these. -/
def passes (x : List (List Nat) × Bool × Bool) (l : List (List Nat)) : Bool :=
  x.2.2 && x.1.all (fun r => decide (r ∈ l)) && l.all (fun r => decide (r ∈ x.1))

/-! The blocks are at 16 and 32; 0 is `None` (or the result of a `deallocate`). -/

/- `loom_allocate_allocate` (30–109). -/
#guard passes (outcomes (makePool 0 0) (.alloc 0) (.alloc 1)) [[0, 0, 0, 0, 0]]
#guard passes (outcomes (makePool 1 0) (.alloc 0) (.alloc 1)) [[16, 0, 0, 0, 0], [0, 16, 0, 0, 0]]
#guard passes (outcomes (makePool 1 1) (.alloc 0) (.alloc 1)) [[16, 0, 0, 0, 0], [0, 16, 0, 0, 0]]
#guard passes (outcomes (makePool 2 0) (.alloc 0) (.alloc 1)) [[16, 32, 0, 0, 0], [32, 16, 0, 0, 0]]
#guard passes (outcomes (makePool 2 1) (.alloc 0) (.alloc 1)) [[16, 32, 0, 0, 0], [32, 16, 0, 0, 0]]
#guard passes (outcomes (makePool 2 2) (.alloc 0) (.alloc 1)) [[16, 32, 0, 0, 0], [32, 16, 0, 0, 0]]

/- `loom_allocate_deallocate` (112–181). -/
#guard passes (outcomes (allocated (makePool 1 0)) (.dealloc 0 16) (.alloc 1)) [[0, 16, 0, 0, 0], [0, 0, 16, 0, 0]]
#guard passes (outcomes (allocated (makePool 2 0)) (.dealloc 0 16) (.alloc 1)) [[0, 16, 32, 0, 0], [0, 32, 16, 0, 0]]
#guard passes (outcomes (allocated (makePool 2 1)) (.dealloc 0 16) (.alloc 1)) [[0, 16, 32, 0, 0], [0, 32, 16, 0, 0]]

/- `loom_deallocate_deallocate` (184–205). -/
#guard passes (outcomes (allocated (allocated (makePool 2 0))) (.dealloc 0 16) (.dealloc 1 32))
  [[0, 0, 16, 32, 0], [0, 0, 32, 16, 0]]

end Verif.Heap.Conc.LoomTest
