/-! # Inventories (`src/inventory.rs`)

All values of the module are zero-sized, and its only behaviour is what the type checker
admits. The model is therefore the set of type-correct programs over one item type `T`: a
state says which values the program owns and which borrows are live, and a step is `none`
when the borrow checker or the type-level counter rejects the call.

Tokens carry no reference to the inventory they came from (`Token<T>(PhantomData<T>)`, line
238), so the model keeps one number of owned tokens for the whole type. -/
namespace Verif.Inventory

/-- What has become of an `Inventory` value. -/
inductive Life where
  | owned      -- the program owns the inventory
  | freed      -- consumed by `free`
  | dropped    -- dropped by the program
  deriving DecidableEq

/-- An `Inventory<T, C>` (line 217). `active` is the state of the item stored in it;
`refs` counts the live references returned by `inventory_token`, `guard` is the live `Guard`
together with the references returned by `Guard::inventory_token`. -/
structure Inv where
  count : Nat
  active : Bool
  refs : Nat
  guard : Option Nat
  life : Life
  deriving DecidableEq

/-- The inventories of type `T` created so far, the tokens the program owns, and the
number of tokens it has dropped. -/
structure State where
  invs : List Inv
  tokens : Nat
  lost : Nat

/-- No inventory exists. -/
def init : State := ⟨[], 0, 0⟩

/-- The inventory may be moved or borrowed mutably: it is owned and no borrow of it lives. -/
def Inv.exclusive (v : Inv) : Prop := v.life = .owned ∧ v.refs = 0 ∧ v.guard = none

instance (v : Inv) : Decidable v.exclusive := inferInstanceAs (Decidable (_ ∧ _ ∧ _))

/-- Calls of a program. -/
inductive Op where
  | new (active : Bool)      -- `Inventory::new`, with an item in the given state
  | setup (i : Nat)          -- the program puts the item into its active state
  | share (i k : Nat)        -- `share1`…`share8`
  | merge (i k : Nat)        -- `merge1`…`merge8`
  | dropToken                -- a token goes out of scope
  | revive                   -- `unsafe Token::new()`
  | borrow (i : Nat)         -- `inventory_token`
  | unborrow (i : Nat)       -- the end of that borrow
  | guard (i : Nat)          -- `Inventory::guard`
  | guardBorrow (i : Nat)    -- `Guard::inventory_token`
  | guardUnborrow (i : Nat)  -- the end of that borrow
  | dropGuard (i : Nat)      -- drop of the guard
  | teardown (i : Nat)       -- `Inventory::teardown`
  | free (i : Nat)           -- `Inventory::free`
  | drop (i : Nat)           -- drop of the inventory
  | swap (i j : Nat)         -- `mem::swap(&mut *a, &mut *b)` through `DerefMut`
  deriving DecidableEq

/-- Replace inventory `i` if the condition holds. -/
def State.upd (s : State) (i : Nat) (c : Inv → Prop) [DecidablePred c] (f : Inv → Inv) : Option State :=
  match s.invs[i]? with
  | none => none
  | some v => if c v then some { s with invs := s.invs.set i (f v) } else none

/-- One type-correct call; `none` if the call does not type-check. -/
def step (s : State) : Op → Option State
  -- 252: `Inventory<T, U0>`
  | .new a => some { s with invs := s.invs ++ [⟨0, a, 0, none, .owned⟩] }
  -- methods of the item are reachable through `DerefMut` (359–364) whatever the counter
  | .setup i => s.upd i Inv.exclusive fun v => { v with active := true }
  -- 302–311: consumes the inventory, the counter grows by `k`, `k` tokens are created
  | .share i k =>
    if 1 ≤ k ∧ k ≤ 8 then
      (s.upd i Inv.exclusive fun v => { v with count := v.count + k }).map
        fun s => { s with tokens := s.tokens + k }
    else none
  -- 317–324: consumes the inventory and `k` tokens; `C: Sub<Uk>` holds only for `k ≤ C`
  | .merge i k =>
    if 1 ≤ k ∧ k ≤ 8 ∧ k ≤ s.tokens then
      (s.upd i (fun v => v.exclusive ∧ k ≤ v.count) fun v => { v with count := v.count - k }).map
        fun s => { s with tokens := s.tokens - k }
    else none
  | .dropToken => if 1 ≤ s.tokens then some { s with tokens := s.tokens - 1, lost := s.lost + 1 } else none
  -- 374: unsafe; the documented use is to restore a token that was dropped
  | .revive => if 1 ≤ s.lost then some { s with tokens := s.tokens + 1, lost := s.lost - 1 } else none
  -- 287–289: for every counter `C`, `&self`
  | .borrow i => s.upd i (fun v => v.life = .owned ∧ v.guard = none) fun v => { v with refs := v.refs + 1 }
  | .unborrow i => s.upd i (fun v => 1 ≤ v.refs) fun v => { v with refs := v.refs - 1 }
  -- 267–273: `U0` only, `&mut`
  | .guard i => s.upd i (fun v => v.exclusive ∧ v.count = 0) fun v => { v with guard := some 0 }
  -- 383–385
  | .guardBorrow i => s.upd i (fun v => v.guard ≠ none) fun v => { v with guard := v.guard.map (· + 1) }
  | .guardUnborrow i =>
    s.upd i (fun v => 1 ≤ v.guard.getD 0) fun v => { v with guard := v.guard.map (· - 1) }
  -- 404–409: calls `Item::teardown`
  | .dropGuard i => s.upd i (fun v => v.guard = some 0) fun v => { v with guard := none, active := false }
  -- 277–279: `U0` only, `&mut`; calls `Item::teardown`
  | .teardown i => s.upd i (fun v => v.exclusive ∧ v.count = 0) fun v => { v with active := false }
  -- 258–260: `U0` only, by value
  | .free i => s.upd i (fun v => v.exclusive ∧ v.count = 0) fun v => { v with life := .freed }
  | .drop i => s.upd i Inv.exclusive fun v => { v with life := .dropped }
  -- 359–364: both items are `&mut T`
  | .swap i j =>
    match s.invs[i]?, s.invs[j]? with
    | some v, some w =>
      if i ≠ j ∧ v.exclusive ∧ w.exclusive then
        some { s with invs := (s.invs.set i { v with active := w.active }).set j { w with active := v.active } }
      else none
    | _, _ => none

def run (s : State) : List Op → Option State
  | [] => some s
  | o :: os => (step s o).bind fun s' => run s' os

end Verif.Inventory
