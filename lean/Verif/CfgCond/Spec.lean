import Verif.CfgCond.Model
/-! # What is claimed about conditional compilation clauses -/
namespace Verif.CfgCond

variable {K T : Type}

mutual
/-- Meaning of a `cfg` predicate in a configuration. -/
def Pred.eval (σ : K → Bool) : Pred K → Bool
  | .lit k => σ k
  | .all ps => evalAll σ ps
  | .any ps => evalAny σ ps
  | .not p => !p.eval σ

def evalAll (σ : K → Bool) : List (Pred K) → Bool
  | [] => true
  | p :: ps => p.eval σ && evalAll σ ps

def evalAny (σ : K → Bool) : List (Pred K) → Bool
  | [] => false
  | p :: ps => p.eval σ || evalAny σ ps
end

/-- An item with the attributes of `c` is compiled. -/
def Cond.active (σ : K → Bool) (c : Cond K) : Bool := evalAll σ c.attrs

/-- The condition the clauses stand for: every clause has a literal that is set. -/
def Cond.meant (σ : K → Bool) (c : Cond K) : Bool := c.clauses.all fun cl => cl.any σ

/-- A condition made by `parse` and `add_clause`: no empty clause. -/
def Cond.Wf (c : Cond K) : Prop := c.inverse = false ∧ ∀ cl ∈ c.clauses, cl ≠ []

/-- At most one clause, without repeated literals. -/
def Cond.Simple (c : Cond K) : Prop := c.Wf ∧ c.clauses.length ≤ 1 ∧ ∀ cl ∈ c.clauses, cl.Nodup

/-- The literal occurs in the condition of some item. -/
def Used (items : List (Cond K × T)) (k : K) : Prop := ∃ c t, (c, t) ∈ items ∧ ∃ cl ∈ c.clauses, k ∈ cl

/-- The variants compiled. -/
def chosen (σ : K → Bool) (res : List (Cond K × List T)) : List (List T) :=
  (res.filter fun r => r.1.active σ).map (·.2)

/-- The items whose condition holds. -/
def wanted (σ : K → Bool) (items : List (Cond K × T)) : List T :=
  (items.filter fun i => i.1.meant σ).map (·.2)

end Verif.CfgCond
