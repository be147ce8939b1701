import Verif.Order.Machine
/-! # Vocabulary for races in channels -/
namespace Verif.Order

/-- Race `i`, `j` is one with the release of the object. -/
def WithFree (tr : List Ev) (j : Nat) : Prop := ∃ f, tr[j]? = some f ∧ f.kind = .free

/-- Access `i` comes after all updates of the state word that its thread does before `j`. -/
def LateRace (tr : List Ev) (i j : Nat) : Prop :=
  ∃ e, tr[i]? = some e ∧ ∀ (m : Nat) (e' : Ev), i ≤ m → m < j → tr[m]? = some e' → e'.tid = e.tid → e'.kind.atomic = false

end Verif.Order
