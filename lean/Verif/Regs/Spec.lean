import Verif.Regs.Model
/-! # What is claimed about register tokens -/
namespace Verif.Regs

variable {α : Type}

/-- The content after the updates in `log` (newest first) have been made one after the
other, each on the content the one before left. -/
def replay (m : α) : List (α → α) → α
  | [] => m
  | g :: log => g (replay m log)

/-- Field names of a variant are distinct (a structure has no two fields of one name). -/
def Distinct (fam : Family) : Prop := ∀ v, (fam v).Nodup

/-- Every variant has a field. -/
def HasFields (fam : Family) : Prop := ∀ v, fam v ≠ []

/-- A context can call the unsynchronized operations of the register. -/
def CanUnsync (fam : Family) (s : State α) (c : Nat) : Prop :=
  ∃ v, ∀ f ∈ parts fam v, (c, ⟨.u, v, f⟩) ∈ s.toks

/-- A context can access the register at all. -/
def CanAccess (s : State α) (d : Nat) : Prop := ∃ t, (d, t) ∈ s.toks ∨ (d, t) ∈ s.bors

end Verif.Regs
