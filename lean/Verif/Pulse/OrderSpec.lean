import Verif.Pulse.OrderModel
import Verif.Order.Spec
/-! # Vocabulary for the orderings of the pulse channel -/
namespace Verif.Pulse

/-- The orderings that the two wakers and the error need: an update that announces a cell releases, one after which a cell of
the other end is accessed acquires. -/
structure Enough (o : Ords) : Prop where
  send : o.send.acq = true
  sat : o.sat.acq = true
  err : o.err = ⟨true, true⟩
  pollCanceled : o.pollCanceled.rel = true
  sDrop : o.sDrop.acq = true
  close : o.close.acq = true
  tryNext : o.tryNext.acq = true
  poll : o.poll.acq = true
  poll2 : o.poll2 = ⟨true, true⟩
  rDrop : o.rDrop.acq = true

/-- Giving up an end releases. -/
structure DropsRelease (o : Ords) : Prop where
  sDrop : o.sDrop.rel = true
  rDrop : o.rDrop.rel = true

end Verif.Pulse
