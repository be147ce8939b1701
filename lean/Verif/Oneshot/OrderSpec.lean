import Verif.Oneshot.OrderModel
/-! # Vocabulary for the orderings of the oneshot channel -/
namespace Verif.Oneshot

open Verif.Order

/-- Race `i`, `j` is one with the release of the object. -/
def WithFree (tr : List Ev) (j : Nat) : Prop := ∃ f, tr[j]? = some f ∧ f.kind = .free

/-- The orderings that the two wakers and the data need: an update that announces a cell releases, one after which a cell of
the other end is accessed acquires. -/
structure Enough (o : Ords) : Prop where
  send : o.send = ⟨true, true⟩
  pollCanceled : o.pollCanceled.rel = true
  sDrop : o.sDrop.acq = true
  close : o.close.acq = true
  tryRecv : o.tryRecv.acq = true
  poll : o.poll.acq = true
  poll2 : o.poll2 = ⟨true, true⟩
  rDrop : o.rDrop.acq = true

/-- Giving up an end releases. -/
structure DropsRelease (o : Ords) : Prop where
  sDrop : o.sDrop.rel = true
  rDrop : o.rDrop.rel = true

/-- Access `i` comes after all updates of the state word that its thread does before `j`. -/
def LateRace (tr : List Ev) (i j : Nat) : Prop :=
  ∃ e, tr[i]? = some e ∧ ∀ (m : Nat) (e' : Ev), i ≤ m → m < j → tr[m]? = some e' → e'.tid = e.tid → e'.kind.atomic = false

end Verif.Oneshot
