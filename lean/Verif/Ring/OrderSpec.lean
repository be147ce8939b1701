import Verif.Ring.OrderModel
import Verif.Ring.Spec
import Verif.Order.Spec
/-! # Vocabulary for the orderings of the ring channel -/
namespace Verif.Ring

/-- The orderings that the two wakers and the error need: an update that announces a cell releases, one after which a cell of
the other end is accessed acquires. -/
structure Enough (o : Ords) : Prop where
  push : o.push.acq = true
  err : o.err = ⟨true, true⟩
  wait : ∀ κ, (o.wait κ).rel = true
  sDrop : o.sDrop.acq = true
  close : o.close.acq = true
  tryNext : o.tryNext.acq = true
  poll : o.poll.acq = true
  poll2 : o.poll2 = ⟨true, true⟩
  rDrop : o.rDrop.acq = true

/-- Giving up an end releases. -/
structure DropsRelease (o : Ords) : Prop where
  sDrop : o.sDrop.rel = true
  rDrop : o.rDrop.rel = true

/-- The sender is not about to write to a slot that the receiver has claimed and not yet read. -/
def calm {k : Nat} {τ ε : Type} (cap : Nat) (s : State k τ ε) : Bool :=
  match s.spc with
  | .wrWrite _ i => !(s.rpc.slots cap).contains i
  | _ => true

/-- Access `i` is the receiver's reading of a slot, access `j` the sender's next use of it. -/
def Reuse (tr : List Order.Ev) (i j : Nat) : Prop :=
  ∃ l, 4 ≤ l ∧ tr[i]? = some ⟨1, l, .read⟩ ∧ tr[j]? = some ⟨0, l, .write⟩

end Verif.Ring
