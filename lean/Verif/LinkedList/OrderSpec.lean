import Verif.LinkedList.OrderModel
/-! # Vocabulary for the orderings of the linked list -/
namespace Verif.LinkedList.Conc.Order

/-- The orderings that the list needs: publishing a node releases, and every access that finds a node acquires. -/
structure Enough (o : Ords) : Prop where
  pushCas : o.pushCas.rel = true
  popRead : o.popRead = true
  drain : o.drain = true
  cutRead : o.cutRead = true

/-- `cut_out` accesses a node. -/
def InCut : Pc → Prop
  | .cutWalk .. | .cutWrite .. => True
  | _ => False

/-- The addresses that the allocator returns. -/
def addrs {α : Type} : List (Act α) → List Nat
  | [] => []
  | .push _ a _ :: as => a :: addrs as
  | _ :: as => addrs as

end Verif.LinkedList.Conc.Order
