import Verif.Loom.Explore
import Verif.LinkedList.ConcModel
/-! # The loom tests of the linked list, on the model (`tests/loom_linked_list.rs`) -/
namespace Verif.LinkedList.Conc.LoomTest

open Verif.Loom

/-- The list and the events, oldest first. -/
abbrev S := State Nat × List (Event Nat)

/-- A step, with the events recorded. -/
def step (s : S) (a : Act Nat) : Option S :=
  match Conc.step true s.1 a with
  | none => none
  | some (s', e) => some (s', s.2 ++ e)

/-- Has context `t` ended its call? -/
def ended (t : Tid) (c : Act Nat) (l : List (Event Nat)) : Bool :=
  l.any fun e => match c, e with
    | .push _ _ v, .pushed x => v = x
    | .pop _, .popRet u _ | .pop _, .popEmpty u => u = t
    | .drain _, .drainEnd => true
    | _, _ => false

/-- The filter returns `true`; the compare-exchange does not fail spuriously. -/
def flag : Pc → Bool
  | .drFilter .. => true
  | _ => false

/-- Two contexts, each with one call, in all interleavings. -/
def acts (calls : List (Act Nat)) (s : S) : List (Act Nat) :=
  calls.zipIdx.filterMap fun (c, t) =>
    match s.1.pc t with
    | .idle => if ended t c s.2 then none else some c
    | pc => some (.step t (flag pc))

/-- States are compared by the used part of the memory (the nodes 1, 2, 3). -/
structure Key where
  head : Nat
  node : List (Option (Nat × Nat))
  pc : List Pc
  log : List (Event Nat)
deriving DecidableEq

@[inherit_doc Key] def key (s : S) : Key :=
  ⟨s.1.head, (List.range 4).map s.1.node, (List.range 2).map s.1.pc, s.2⟩

/-- A sequence of calls, each run to its end. -/
def seq (s : S) : List (Act Nat) → S
  | [] => s
  | a :: l =>
    let s := (step s a).getD s
    seq ((List.range 40).foldl (fun s _ => (step s (.step 0 (flag (s.1.pc 0)))).getD s) s) l

/-- The results of `pop`, again and again. -/
def pops (s : S) : List Nat :=
  (seq (s.1, []) [.pop 0, .pop 0, .pop 0]).2.filterMap fun e => match e with
    | .popRet _ v => some v | .popEmpty _ => some 0 | _ => none

/-- The results of a test: the values popped or yielded (0: `None`) in the threads, then the results of
three more pops. -/
def outcomes (s : S) (x y : Act Nat) : List (List Nat) × Bool × Bool :=
  match explore key step (acts [x, y]) 100 [(s.1, [])] with
  | (f, u, c) => ((f.map fun s =>
      let ret (t : Nat) := s.2.filterMap fun e => match e with
        | .popRet u v => if u = t then some v else none
        | .popEmpty u => if u = t then some 0 else none
        | .yield v => if t = 0 then some v else none
        | _ => none
      ret 0 ++ ret 1 ++ pops s).eraseDups, u, c)

/-- The exploration is complete, undefined behaviour is possible or not as given, and the results are
exactly these. -/
def passes (x : List (List Nat) × Bool × Bool) (ub : Bool) (l : List (List Nat)) : Bool :=
  x.2.2 && x.2.1 == ub && x.1.all (fun r => decide (r ∈ l)) && l.all (fun r => decide (r ∈ x.1))

/-- The list with 3 before 1. -/
def two : S := seq (init Nat, []) [.push 0 1 1, .push 0 2 3]

/- `loom_push_push` (34–65). -/
#guard passes (outcomes (init Nat, []) (.push 0 1 1) (.push 1 2 3)) false [[3, 1, 0], [1, 3, 0]]

/- `loom_push_pop` (68–94). -/
#guard passes (outcomes (init Nat, []) (.push 0 1 314) (.pop 1)) false [[314, 0, 0, 0], [0, 314, 0, 0]]

/- `loom_pop_pop` (97–130). The undefined behaviour is the read of a released node
(`C17_false`), which loom does not see. -/
#guard passes (outcomes two (.pop 0) (.pop 1)) true [[1, 3, 0, 0, 0], [3, 1, 0, 0, 0]]

/- `loom_drain_filter_raw` (133–165); the model releases the nodes right away. The second result is not
allowed by the test (line 155 would panic), but possible: the value is pushed before the drain loads the
head. -/
#guard passes (outcomes two (.drain 0) (.push 1 3 5)) false [[3, 1, 5, 0, 0], [5, 3, 1, 0, 0, 0]]

/- `loom_drain_filter_raw_drop` (168–191). -/
#guard (seq two [.drain 0]).1.head = 0 && (seq (two.1, []) [.drain 0]).2.contains (.yield 1) &&
  (seq (two.1, []) [.drain 0]).2.contains (.yield 3)

end Verif.LinkedList.Conc.LoomTest
