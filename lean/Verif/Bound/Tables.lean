import Verif.Bound.Channels
import Verif.Bound.Others
/-! # Bounded calls: the numbers

An update of the state word by a macro of `src/atomic_macros.rs` costs `u` accesses: a load and a
compare-exchange, `u = 2`, with feature `atomics`; one critical section, `u = 1`, without it. -/
namespace Verif.Bound

namespace Oneshot
open Verif.Oneshot

/-- `src/sync/spsc/oneshot/sender.rs`: `send` 47–60, `poll_canceled` 82–91, `is_canceled` 118,
drop 147–156. -/
def sBudget {α : Type} (u : Nat) : SOp α → Nat
  | .send _ => u + 4
  | .pollCanceled _ => u + 3
  | .isCanceled => 1
  | .drop => u + 2

/-- `src/sync/spsc/oneshot/receiver.rs`: `close` 38–40, `try_recv` 58–61, `poll` 92–107,
`is_terminated` 121, drop 130–144. -/
def rBudget (u : Nat) : ROp → Nat
  | .close => u + 1
  | .tryRecv => u + 1
  | .poll _ => 2 * u + 3
  | .isTerminated => 1
  | .drop => u + 3

/-- The channel seen from the sender, with compare-exchange loops. -/
abbrev sLoops (α : Type) := loops (Cas.machine α) .sStep sOwn fun s => !s.spc.resting
/-- The channel seen from the receiver, with compare-exchange loops. -/
abbrev rLoops (α : Type) := loops (Cas.machine α) .rStep rOwn fun s => !s.rpc.resting
/-- The channel seen from the sender, with critical sections. -/
abbrev sSections (α : Type) := sections (step (α := α)) sOwn fun s => !s.spc.resting
/-- The channel seen from the receiver, with critical sections. -/
abbrev rSections (α : Type) := sections (step (α := α)) rOwn fun s => !s.rpc.resting

end Oneshot

namespace Pulse
open Verif.Pulse

/-- `src/sync/spsc/pulse/sender.rs`: `send` 59–69, `saturating_send` 88–95, `send_err` 114–127,
`poll_canceled` 149–158, `is_canceled` 185, drop 214–223. -/
def sBudget {n : Nat} {ε : Type} (u : Nat) : SOp n ε → Nat
  | .send _ => u + 1
  | .sat _ => u + 1
  | .sendErr _ => u + 4
  | .pollCanceled _ => u + 3
  | .isCanceled => 1
  | .drop => u + 2

/-- `src/sync/spsc/pulse/receiver.rs`: `close` 45–47, `try_next` 68–78, `poll_next` 109–141,
`is_terminated` 155, drop 166–180. -/
def rBudget (u : Nat) : ROp → Nat
  | .close => u + 1
  | .tryNext => 2 * u
  | .pollNext _ => 3 * u + 2
  | .isTerminated => 1
  | .drop => u + 3

/-- The channel seen from the sender, with compare-exchange loops. -/
abbrev sLoops (n : Nat) (ε : Type) := loops (Cas.machine n ε) .sStep sOwn fun s => !s.spc.resting
/-- The channel seen from the receiver, with compare-exchange loops. -/
abbrev rLoops (n : Nat) (ε : Type) := loops (Cas.machine n ε) .rStep rOwn fun s => !s.rpc.resting
/-- The channel seen from the sender, with critical sections. -/
abbrev sSections (n : Nat) (ε : Type) := sections (step (n := n) (ε := ε)) sOwn fun s => !s.spc.resting
/-- The channel seen from the receiver, with critical sections. -/
abbrev rSections (n : Nat) (ε : Type) := sections (step (n := n) (ε := ε)) rOwn fun s => !s.rpc.resting

end Pulse

namespace Ring
open Verif.Ring

/-- `src/sync/spsc/ring/sender.rs`: `try_send` 50–63, `send_overwrite` 88–113, `send_err`
132–145, the polls 192–208, 227–243, 257–270, `is_canceled` 158, drop 284–293. -/
def sBudget {τ ε : Type} (u : Nat) : SOp τ ε → Nat
  | .trySend _ => u + 3
  | .sendOverwrite _ => 2 * u + 4
  | .sendErr _ => u + 4
  | .poll _ _ => u + 3
  | .isCanceled => 1
  | .drop => u + 2

/-- `src/sync/spsc/ring/receiver.rs`: `close` 45–47, `try_next` 66–74, 101–106, `poll_next`
136–163, 101–106, `is_terminated` 177, drop 188–208. -/
def rBudget (cap u : Nat) : ROp → Nat
  | .close => u + 1
  | .tryNext => 2 * u + 2
  | .pollNext _ => 3 * u + 3
  | .isTerminated => 1
  | .drop => u + cap + 3

/-- The channel seen from the sender, with compare-exchange loops. -/
abbrev sLoops (k : Nat) (τ ε : Type) (cap : Nat) := loops (Cas.machine k τ ε cap) .sStep sOwn fun s => !s.spc.resting
/-- The channel seen from the receiver, with compare-exchange loops. -/
abbrev rLoops (k : Nat) (τ ε : Type) (cap : Nat) := loops (Cas.machine k τ ε cap) .rStep rOwn fun s => !s.rpc.resting
/-- The channel seen from the sender, with critical sections. -/
abbrev sSections (k : Nat) (τ ε : Type) (cap : Nat) :=
  sections (step (k := k) (τ := τ) (ε := ε) cap) sOwn fun s => !s.spc.resting
/-- The channel seen from the receiver, with critical sections. -/
abbrev rSections (k : Nat) (τ ε : Type) (cap : Nat) :=
  sections (step (k := k) (τ := τ) (ε := ε) cap) rOwn fun s => !s.rpc.resting

end Ring

namespace Mutex
open Verif.Mutex

/-- `src/sync/mutex.rs`: `try_lock` 122, `poll` 183–199, drop of the future 208–214, `unlock`
162–173; `l` is the number of nodes in the list. -/
def budget (l : Nat) : Op → Nat
  | .tryLock => 1
  | .lock => 0
  | .poll _ => 6
  | .dropFut => 2 * l + 8
  | .unlock => 2 * l + 6

end Mutex

/-- The bound cannot be lowered: after `n - 1` accesses, none of them excused, the call still
has not returned. -/
def Prog.Tight {S A : Type} (P : Prog S A) (s : S) (n : Nat) : Prop :=
  ∃ as s', P.run s as = some s' ∧ P.excuses s as = 0 ∧ P.accesses s as + 1 = n ∧ P.busy s' = true

end Verif.Bound
