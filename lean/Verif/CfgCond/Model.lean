/-! # Conditional compilation clauses (`macros-core/src/cfg_cond.rs`)

A literal `key = "value"` is an element of a type `K` with decidable equality (`(Ident,
LitStr)` pairs in the code). A configuration says which literals are set. -/
namespace Verif.CfgCond

variable {K T : Type}

/-- `CfgCond` (10–14): a list of clauses, each a list of literals. -/
structure Cond (K : Type) where
  clauses : List (List K)
  inverse : Bool

/-- `parse` (16–50): the literals of `#[cfg(any(..))]` or `#[cfg(..)]`, none without an
attribute. The syntax is in `Gram.Model`. -/
def parse (lits : List K) : Cond K := ⟨if lits.isEmpty then [] else [lits], false⟩

/-- `add_clause` (58–62). `none`: an assertion fails. -/
def Cond.addClause (c r : Cond K) : Option (Cond K) :=
  if c.inverse || r.inverse then none else some { c with clauses := c.clauses ++ r.clauses }

/-- `cfg` predicates (Rust reference). -/
inductive Pred (K : Type) where
  | lit (k : K)
  | all (ps : List (Pred K))
  | any (ps : List (Pred K))
  | not (p : Pred K)

/-- `attrs` (65–80): the list of `#[cfg(..)]` attributes produced. -/
def Cond.attrs (c : Cond K) : List (Pred K) :=
  if c.clauses.isEmpty then []
  else if c.inverse then [.not (.any (c.clauses.map fun cl => .all (cl.map .lit)))]
  else c.clauses.map fun cl => .any (cl.map .lit)

/-- `to_dnf` (83–99). `none`: an assertion fails or the function panics. -/
def Cond.toDnf (c : Cond K) : Option (List (List K)) :=
  if c.inverse then none
  else match c.clauses with
    | [] => some []
    | [[]] => some []
    | [[], []] => some []
    | [x] => some (x.map fun k => [k])
    | [x, []] => some (x.map fun k => [k])
    | [[], x] => some (x.map fun k => [k])
    | [x, y] => some (x.flatMap fun a => y.map fun b => [a, b])
    | _ => none

/-- `map.entry(cond).or_default().push(item)` (119); the map as a list of entries. -/
def insert [DecidableEq K] (m : List (List K × List T)) (c : List K) (t : T) : List (List K × List T) :=
  match m with
  | [] => [(c, [t])]
  | (c', ts) :: m => if c' = c then (c', ts ++ [t]) :: m else (c', ts) :: insert m c t

/-- The first loop of `transpose` (111–122): the map and the default items. -/
def collect [DecidableEq K] : List (Cond K × T) → List (List K × List T) → List T →
    Option (List (List K × List T) × List T)
  | [], m, d => some (m, d)
  | (c, t) :: items, m, d =>
    match c.toDnf with
    | none => none
    | some [] => collect items m (d ++ [t])
    | some dnf => collect items (dnf.foldl (fun m c => insert m c t) m) d

/-- The second part of `transpose` (123–132), for the map entries in iteration order. -/
def emit (m : List (List K × List T)) (d : List T) : List (Cond K × List T) :=
  let result := m.map fun e => (⟨[e.1], false⟩, e.2 ++ d)
  result ++ [(⟨result.flatMap (fun r => r.1.clauses), true⟩, d)]

/-- `transpose` (110–133). A `HashMap` iterates in an arbitrary order: `ord`. -/
def transpose [DecidableEq K] (ord : List (List K × List T) → List (List K × List T)) (items : List (Cond K × T)) :
    Option (List (Cond K × List T)) :=
  (collect items [] []).map fun md => emit (ord md.1) md.2

end Verif.CfgCond
