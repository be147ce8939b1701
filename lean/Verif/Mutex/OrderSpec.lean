import Verif.Mutex.OrderModel
/-! # Vocabulary for the orderings of the mutex -/
namespace Verif.Mutex.Order

open Verif.Order

/-- What the protected data needs. -/
structure DataOrds (o : Ords) : Prop where
  lock : o.lock.acq = true
  unlock : o.unlock = true

/-- What the nodes need in addition: pushing a node releases, finding one acquires. -/
structure Enough (o : Ords) : Prop extends DataOrds o where
  push : o.push.rel = true
  drain : o.drain = true
  iter : o.iter = true

/-- Access `j` releases the memory of a node, and access `i` is made by the client that created the node, after that. -/
def NodeRace (tr : List Ev) (i j : Nat) : Prop :=
  ∃ (n p q : Nat) (l : Nat) (k : Kind) (m : Nat), (l = tk n ∨ l = wk n) ∧ m < i ∧ p ≠ q ∧ tr[m]? = some ⟨p, tk n, .write⟩ ∧
    tr[i]? = some ⟨p, l, k⟩ ∧ k ≠ .write ∧ tr[j]? = some ⟨q, l, .write⟩

end Verif.Mutex.Order
