import Verif.Soft.Spec
/-! # Histories in which `row_next` does not go on (C41, C42) -/
namespace Verif.Soft

/-- When a scheduler loop has served its level, no lower level that it could go on with is
announced. -/
def Quiet (s : State) (a : Act) : Prop :=
  a = .step → ∀ r rest, s.stack = .row r .next :: rest → ∀ i, r.prev ≤ i → i + 1 < r.priority → (s.mem 0).getLsbD i = false

/-- The same, and the level just served is not announced again either. -/
def Calm (s : State) (a : Act) : Prop :=
  a = .step → ∀ r rest, s.stack = .row r .next :: rest → ∀ i, r.prev ≤ i → i + 1 ≤ r.priority → (s.mem 0).getLsbD i = false

end Verif.Soft
