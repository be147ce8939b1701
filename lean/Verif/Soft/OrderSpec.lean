import Verif.Soft.OrderModel
/-! # What is claimed about the software threads with memory orderings -/
namespace Verif.Soft.Order

open Verif.Order

/-- No load reads a value that was overwritten by a write that happens before the load (C++20 [intro.races], write-read coherence). -/
def Coherent (tr : List Ev) : Prop :=
  ∀ (j : Nat) (f : Ev) (a : Bool) (k : Nat), tr[j]? = some f → f.kind = .load a k →
    ∀ (i : Nat) (e : Ev), tr[i]? = some e → e.writes f.loc = true → k < cnt (tr.take (i + 1)) f.loc → ¬ Hb tr i j

/-- If the scheduler has taken a level from the header (`taken`), then it finds the requests for this level that were in the header: when it
loads the cell, their bits are set, unless they were cleared before. -/
def Found (taken : SState → Nat → Bool) (count : Nat) (prio : Nat → Nat) (o : Ords) : Prop :=
  ∀ as k s tr s' tr', (machine count prio o).Reaches as s tr → (machine count prio o).Reaches (as ++ [.step 0 k]) s' tr' → Coherent tr' →
    tr' ≠ tr → s.task = none → ∀ r thr rest, s.base.stack = .row r (.load thr) :: rest →
    ∀ t u p, s.said t = some (u, p) → taken s t = true → s.gone t = false → cellIdx count u p = r.ptr →
      ∃ cell, s'.base.stack = .row r (.bits thr cell 1) :: rest ∧ cell &&& pendingBit u ≠ 0

/-- No request gets lost: if the core is idle, then the bit of each request was cleared, or its level is still in the header, where the next call
of `preempt` finds it. -/
def Served (count : Nat) (prio : Nat → Nat) (o : Ords) : Prop :=
  ∀ as s tr, (machine count prio o).Reaches as s tr → Coherent tr → s.base.stack = [] →
    ∀ t u p, s.said t = some (u, p) → s.due t = true → s.gone t = true ∨ (s.base.mem 0).getLsbD p = true

end Verif.Soft.Order
