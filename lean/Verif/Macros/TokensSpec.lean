import Verif.Macros.TokensModel
/-! # What is claimed about register token indexes -/
namespace Verif.Macros
open CfgCond (Pred evalAll)

variable {K : Type}

/-- The register tokens a chain of layers offers: those listed without `!` in a block whose
conditions hold in the crate of the layer and whose own conditions hold there. Older layers
come first; within a layer the blocks with conditions come first. -/
def offered (σ : Nat → K → Bool) : List (Layer K) → List (String × Path)
  | [] => []
  | l :: older =>
    offered σ older ++
      ((l.blocks.filter fun b => !b.cfgs.isEmpty) ++ l.blocks.filter fun b => b.cfgs.isEmpty).flatMap
        fun b => if evalAll (σ l.krate) b.cfgs then
          (b.regs.filter fun r => !r.skip && evalAll (σ l.krate) r.cfgs).map
            fun r => (b.name ++ "_" ++ r.name, ⟨l.krate, b.name, r.name⟩)
        else []

/-- Those not excluded by the application. -/
def wanted (σ : Nat → K → Bool) (layers : List (Layer K)) (undefs : List String) :
    List (String × Path) :=
  (offered σ layers).filter fun e => e.1 ∉ undefs

/-- No `cfg` attribute on a single register. -/
def PlainRegs (layers : List (Layer K)) : Prop :=
  ∀ l ∈ layers, ∀ b ∈ l.blocks, ∀ r ∈ b.regs, r.cfgs = []

end Verif.Macros
