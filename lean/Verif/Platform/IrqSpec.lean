import Verif.Platform.IrqModel
/-! # What is claimed about critical sections -/
namespace Verif.Platform.Irq

/-- Interrupts are disabled whenever a handle is alive, after every prefix of the calls. -/
def Protected (off c : BitVec 32) (ops : List Op) : Prop :=
  ∀ pre s, pre <+: ops → run off (init c) pre = some s → s.live ≠ [] → s.cpu = off

/-- The oldest handle alive is dropped only when it is the only one (`live` lists the handles
alive, oldest first; `n` numbers the next). -/
def OuterLast : List Nat → Nat → List Op → Prop
  | _, _, [] => True
  | live, n, .pause :: ops => OuterLast (live ++ [n]) (n + 1) ops
  | live, n, .drop i :: ops => (live.head? = some i → live = [i]) ∧ OuterLast (live.filter (· ≠ i)) n ops

/-- Handles are dropped in the reverse order of their creation, as scopes do. -/
def Lifo : List Nat → Nat → List Op → Prop
  | _, _, [] => True
  | live, n, .pause :: ops => Lifo (live ++ [n]) (n + 1) ops
  | live, n, .drop i :: ops => live.getLast? = some i ∧ Lifo (live.filter (· ≠ i)) n ops

end Verif.Platform.Irq
