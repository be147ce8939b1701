/-!
# Model of static tokens: `src/token.rs`, `macros/src/static_tokens.rs`,
`macros/src/simple_tokens.rs`, `macros/src/simple_token.rs`

Programs as sequences of operations on values, each value owned by one context. The type checker
decides which operations are possible; an operation that is not possible does nothing.

Simplifications: a token is the list of leaf tokens in it (a leaf of `static_tokens!` is the number
of its static, a `simple_token!` is a leaf that is never used); a group is taken apart at any position
and values are put together in any order, which covers nested groups and structs of the
user. Statics hold one number.
-/
namespace Verif.Token

/-- What a value is. -/
inductive Kind where
  /-- a token; with `lent` its `get` reference is in use (`src/token.rs` 208–209) -/
  | tok (leaves : List Nat) (lent : Bool)
  /-- `&'static mut` from `into_static` (`src/token.rs` 211–212) -/
  | ref (s : Nat)
  /-- moved out or dropped -/
  | gone
deriving DecidableEq, Repr

/-- A value and its owner. -/
structure Cell where
  ctx : Nat
  kind : Kind
deriving DecidableEq, Repr

/-- Values so far, and the statics. -/
structure State where
  cells : List Cell
  mem : Nat → Int

/-- An access to a static. -/
structure Event where
  ctx : Nat
  s : Nat
  /-- the value read or written -/
  val : Int
  write : Bool
deriving DecidableEq, Repr

/-- Operations; `i` is the number of a value. -/
inductive Op where
  /-- unsafe `Token::take` of a token with these leaves in context `ctx` (static_tokens.rs 94–100,
  simple_tokens.rs 71–77) -/
  | take (ctx : Nat) (leaves : List Nat)
  /-- move the fields from position `k` out of a group (fields are `pub`, static_tokens.rs 77–80) -/
  | split (i k : Nat)
  /-- put two tokens into one struct -/
  | join (i j : Nat)
  /-- pass a value to another context, which needs `Send` -/
  | move (i ctx : Nat)
  /-- `get`: the token stays borrowed until `endGet` (static_tokens.rs 65–68) -/
  | get (i : Nat)
  | endGet (i : Nat)
  /-- `into_static` (static_tokens.rs 70–73) -/
  | intoStatic (i : Nat)
  /-- read through the reference -/
  | read (i : Nat)
  /-- write through the reference -/
  | write (i : Nat) (v : Int)
  | drop (i : Nat)
deriving DecidableEq, Repr

/-- The static the value is a usable reference to. -/
def Kind.refers : Kind → Option Nat
  | .tok [s] true => some s
  | .ref s => some s
  | _ => none

/-- Is the value `Send`? `send s` tells whether the type of static `s` is. The token struct has
one field of type `()` (static_tokens.rs 49), so it is `Send` by itself; the trait demands it
(src/token.rs 179, 204). A mutable reference is `Send` if its target is. A borrowed token cannot be
moved. -/
def Kind.movable (send : Nat → Bool) : Kind → Bool
  | .tok _ lent => !lent
  | .ref s => send s
  | .gone => false

/-- Replace a value. -/
def State.put (s : State) (i : Nat) (c : Cell) : State := { s with cells := s.cells.set i c }

/-- Add a value. -/
def State.add (s : State) (c : Cell) : State := { s with cells := s.cells ++ [c] }

/-- One operation. -/
def step (send : Nat → Bool) (s : State) : Op → State × List Event
  | .take c ls => (s.add ⟨c, .tok ls false⟩, [])
  | .split i k =>
    match s.cells[i]? with
    | some ⟨c, .tok ls false⟩ => ((s.put i ⟨c, .tok (ls.take k) false⟩).add ⟨c, .tok (ls.drop k) false⟩, [])
    | _ => (s, [])
  | .join i j =>
    match s.cells[i]?, s.cells[j]? with
    | some ⟨c, .tok ls false⟩, some ⟨c', .tok ls' false⟩ =>
      if i ≠ j ∧ c = c' then
        ((s.put i ⟨c, .tok (ls ++ ls') false⟩).put j ⟨c, .gone⟩, [])
      else (s, [])
    | _, _ => (s, [])
  | .move i c =>
    match s.cells[i]? with
    | some ⟨_, k⟩ => if k.movable send then (s.put i ⟨c, k⟩, []) else (s, [])
    | _ => (s, [])
  | .get i =>
    match s.cells[i]? with
    | some ⟨c, .tok [x] false⟩ => (s.put i ⟨c, .tok [x] true⟩, [])
    | _ => (s, [])
  | .endGet i =>
    match s.cells[i]? with
    | some ⟨c, .tok ls true⟩ => (s.put i ⟨c, .tok ls false⟩, [])
    | _ => (s, [])
  | .intoStatic i =>
    match s.cells[i]? with
    | some ⟨c, .tok [x] false⟩ => (s.put i ⟨c, .ref x⟩, [])
    | _ => (s, [])
  | .read i =>
    match s.cells[i]? with
    | some ⟨c, k⟩ =>
      match k.refers with
      | some x => (s, [⟨c, x, s.mem x, false⟩])
      | none => (s, [])
    | none => (s, [])
  | .write i v =>
    match s.cells[i]? with
    | some ⟨c, k⟩ =>
      match k.refers with
      | some x => ({ s with mem := fun y => if y = x then v else s.mem y }, [⟨c, x, v, true⟩])
      | none => (s, [])
    | none => (s, [])
  | .drop i =>
    match s.cells[i]? with
    | some ⟨c, .tok _ false⟩ => (s.put i ⟨c, .gone⟩, [])
    | some ⟨c, .ref _⟩ => (s.put i ⟨c, .gone⟩, [])
    | _ => (s, [])

/-- A program. -/
def run (send : Nat → Bool) (s : State) : List Op → State × List Event
  | [] => (s, [])
  | op :: ops =>
    let (s', e) := step send s op
    let (s'', es) := run send s' ops
    (s'', e ++ es)

/-- Before the first `take`. -/
def init (mem : Nat → Int) : State := ⟨[], mem⟩

end Verif.Token
