/-!
# Exhaustive exploration of small programs

The repository has tests that run two short programs under every interleaving and list the
results that must occur (`tests/loom_*.rs`; `statemap_check_exhaustive` in
`tests/loom_helpers/mod.rs` 117–126 fails if a listed result does not occur, `statemap_put` 73–87
if another one does). Here the same programs are run on the models, to compare the models with the
code. These are tests of the models, not proofs of properties.
-/
namespace Verif.Loom

/-- A program of one context: calls, each continued by its result; `join` waits for the other
context; `ret n` ends with the result `n`. -/
inductive Prog (Op Ev : Type) where
  | ret (n : Nat)
  | call (op : Op) (k : Ev → Prog Op Ev)
  | join (k : Prog Op Ev)
  /-- a call with two results: the second one -/
  | more (k : Ev → Prog Op Ev)

/-- What the program does next, given the results of its calls so far. -/
inductive Req (Op : Type) where
  | op (o : Op)
  | join
  | fin (n : Nat)

/-- The request of the program after the given results; `joined`: the other context has ended. -/
def Prog.next {Op Ev : Type} (joined : Bool) : Prog Op Ev → List Ev → Req Op
  | .ret n, _ => .fin n
  | .call o _, [] => .op o
  | .call _ k, e :: es => (k e).next joined es
  | .join k, es => if joined then k.next joined es else .join
  | .more _, [] => .join
  | .more k, e :: es => (k e).next joined es

/-- The result of the program. -/
def Prog.result {Op Ev : Type} : Prog Op Ev → List Ev → Option Nat
  | .ret n, _ => some n
  | .call _ _, [] => none
  | .call _ k, e :: es => (k e).result es
  | .join k, es => k.result es
  | .more _, [] => none
  | .more k, e :: es => (k e).result es

/-- Add a state if no state with the same key is there. -/
def insert {S K : Type} [DecidableEq K] (key : S → K) (s : S) (l : List S) : List S :=
  if l.any (fun x => decide (key x = key s)) then l else s :: l

/-- One level of the exploration: successors of all states, the final states, and whether
undefined behaviour is possible. -/
def level {S A K : Type} [DecidableEq K] (key : S → K) (step : S → A → Option S) (acts : S → List A) :
    List S → List S × List S × Bool
  | [] => ([], [], false)
  | s :: l =>
    match level key step acts l with
    | (next, fin, ub) =>
      match acts s with
      | [] => (next, insert key s fin, ub)
      | as => as.foldl (fun x a => match step s a with
          | none => (x.1, x.2.1, true)
          | some s' => (insert key s' x.1, x.2.1, x.2.2)) (next, fin, ub)

/-- All final states reachable in at most `fuel` steps, whether undefined behaviour is possible,
and whether the exploration is complete. -/
def explore {S A K : Type} [DecidableEq K] (key : S → K) (step : S → A → Option S) (acts : S → List A) :
    Nat → List S → List S × Bool × Bool
  | _, [] => ([], false, true)
  | 0, _ => ([], false, false)
  | n + 1, l =>
    match level key step acts l with
    | (next, fin, ub) =>
      match explore key step acts n next with
      | (fin', ub', c) => (fin ++ fin', ub || ub', c)

/-- `statemap!` (`tests/loom_helpers/mod.rs` 39–54): keys and their counter values, as pairs. -/
def statemap (m : List (Nat × List Nat)) : List (Nat × Nat) := m.flatMap fun (k, vs) => vs.map (k, ·)

/-- The results `[key, counters…]` are exactly those of the state map for counter `i`. -/
def matchesMap (rows : List (List Nat)) (i : Nat) (m : List (Nat × List Nat)) : Bool :=
  let found := rows.map fun r => (r.headD 0, r.getD i 0)
  found.all (fun x => decide (x ∈ statemap m)) && (statemap m).all (fun x => decide (x ∈ found))

/-- What a test found: the exploration is complete, undefined behaviour is possible or not as given,
and for each listed counter the results are exactly those of the state map. -/
def passes (x : List (List Nat) × Bool × Bool) (ub : Bool) (maps : List (Nat × List (Nat × List Nat))) : Bool :=
  x.2.2 && x.2.1 == ub && maps.all fun (i, m) => matchesMap x.1 i m

end Verif.Loom
