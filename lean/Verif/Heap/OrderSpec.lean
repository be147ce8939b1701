import Verif.Heap.OrderModel
/-! # Vocabulary for the orderings of the heap pool -/
namespace Verif.Heap.Conc.Order

/-- The orderings that a pool needs: `deallocate` releases, and the loads of `free` in `allocate` acquire. -/
structure Enough (o : Ords) : Prop where
  deCas : o.deCas.rel = true
  afRead : o.afRead = true

end Verif.Heap.Conc.Order
