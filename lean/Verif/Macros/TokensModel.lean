import Verif.CfgCond.Spec
/-! # Register token indexes (`macros/src/reg_tokens.rs`, `macros/src/reg_tokens_inner.rs`)

`reg::tokens!` produces a chain of `macro_rules!` macros; the application calls the last one
and gets a structure with one field per register token. Names are those after the snake-case
conversion (external crate `heck`). Documentation attributes are dropped. Not modelled: the
modules with re-exports, the order of the fields. -/
namespace Verif.Macros
open CfgCond (Pred evalAll)

variable {K : Type}

/-- `Reg` (27–31): `cfg` attributes, name, `!` mark. -/
structure RegDecl (K : Type) where
  cfgs : List (Pred K)
  name : String
  skip : Bool

/-- `Block` (19–25): `cfg` attributes, name, registers. -/
structure Block (K : Type) where
  cfgs : List (Pred K)
  name : String
  regs : List (RegDecl K)

/-- One invocation of `reg::tokens!` (`Input`, 9–17) in crate `krate`; `use macro` names the
previous one. -/
structure Layer (K : Type) where
  krate : Nat
  blocks : List (Block K)

/-- The type of a register token: crate, block, register. -/
structure Path where
  krate : Nat
  block : String
  reg : String
deriving DecidableEq

/-- A definition passed to `reg::tokens_inner!` (186–191; `Def` in `reg_tokens_inner.rs`
15–19). -/
structure Def (K : Type) where
  cfgs : List (Pred K)
  ident : String
  path : Path

/-- A `macro_rules!` name: the layer, and the number of the conditional block for the helper
macros `__{}_cfg_{}` (120). -/
abbrev MName := Nat × Option Nat

/-- A `macro_rules!` definition written by `make_macro` (156–245). -/
structure MacroDef (K : Type) where
  krate : Nat
  attrs : List (Pred K)
  name : MName
  prev : Option MName
  defs : List (Def K)

/-- `reg_long` (178). -/
def longName (b : Block K) (r : RegDecl K) : String := b.name ++ "_" ++ r.name

/-- The definitions collected by `make_macro` for one block (167–193). The `cfg` attributes of
the block are left out (`block_attrs_non_cfg`, 173–174), those of the register are kept. -/
def blockDefs (krate : Nat) (b : Block K) : List (Def K) :=
  (b.regs.filter fun r => !r.skip).map fun r => ⟨r.cfgs, longName b r, krate, b.name, r.name⟩

/-- `negate_cfg_attrs` (247–256): `not(all(all(p1), all(p2), ..))`. -/
def negateCfgs (cfgs : List (Pred K)) : Pred K := .not (.all (cfgs.map fun p => .all [p]))

/-- The loop over the conditional blocks (118–143): two helper macros per block. The table of
macros has the newest definition first. -/
def condMacros (krate id : Nat) : Nat → Option MName → List (MacroDef K) → List (Block K) →
    List (MacroDef K) × Option MName
  | _, prev, tbl, [] => (tbl, prev)
  | i, prev, tbl, b :: bs =>
    condMacros krate id (i + 1) (some (id, some i))
      (⟨krate, b.cfgs, (id, some i), prev, blockDefs krate b⟩ ::
        ⟨krate, [negateCfgs b.cfgs], (id, some i), prev, []⟩ :: tbl) bs

/-- `proc_macro` (103–154). -/
def layerMacros (id : Nat) (prev : Option MName) (tbl : List (MacroDef K)) (l : Layer K) :
    List (MacroDef K) :=
  let c := condMacros l.krate id 0 prev tbl (l.blocks.filter fun b => !b.cfgs.isEmpty)
  ⟨l.krate, [], (id, none), c.2,
    (l.blocks.filter fun b => b.cfgs.isEmpty).flatMap (blockDefs l.krate)⟩ :: c.1

/-- All macros of a chain of layers, the newest layer first. -/
def macroTable : List (Layer K) → List (MacroDef K)
  | [] => []
  | l :: older =>
    layerMacros older.length (if older.isEmpty then none else some (older.length - 1, none))
      (macroTable older) l

/-- Expansion of a macro call (204–242): the own definitions are put in front of those
received and everything is passed to the previous macro, or to `tokens_inner!` if there is
none. A definition exists if its `cfg` attributes hold in its crate; a name refers to the
latest definition; `none`: no such macro. -/
def expand (σ : Nat → K → Bool) : List (MacroDef K) → MName → List (Def K) → Option (List (Def K))
  | [], _, _ => none
  | m :: tbl, n, acc =>
    if evalAll (σ m.krate) m.attrs && m.name = n then
      match m.prev with
      | none => some (m.defs ++ acc)
      | some p => expand σ tbl p (m.defs ++ acc)
    else expand σ tbl n acc

/-- `BTreeMap::insert` (`reg_tokens_inner.rs` 70, 75). -/
def mapInsert (m : List (String × Def K)) (d : Def K) : List (String × Def K) :=
  match m with
  | [] => [(d.ident, d)]
  | e :: m => if e.1 = d.ident then (d.ident, d) :: m else e :: mapInsert m d

/-- `tokens_inner!` (`reg_tokens_inner.rs` 64–99): the fields of the index. -/
def indexFields (defs : List (Def K)) (undefs : List String) : List (Def K) :=
  ((undefs.foldl (fun m u => m.filter fun e => e.1 ≠ u) (defs.foldl mapInsert [])).map (·.2))

/-- The index obtained in crate `app` by calling the newest macro of the chain, as pairs of
field name and token type. Attributes that are left on the fields are evaluated there. -/
def index (σ : Nat → K → Bool) (app : Nat) (layers : List (Layer K)) (undefs : List String) :
    Option (List (String × Path)) :=
  (expand σ (macroTable layers) (layers.length - 1, none) []).map fun defs =>
    ((indexFields defs undefs).filter fun d => evalAll (σ app) d.cfgs).map fun d => (d.ident, d.path)

end Verif.Macros
