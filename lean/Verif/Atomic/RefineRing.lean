import Verif.Atomic.Refine
import Verif.Ring.Model
/-! # The ring channel with compare-exchange loops

The updates of `src/sync/spsc/ring/sender.rs` and `receiver.rs`, each with its closure and
what follows, for `Verif.Atomic.Refine`. -/
namespace Verif.Ring.Cas
open Verif.Spsc Verif.Ring Verif.Atomic.Refine

variable {k : Nat} {τ ε : Type}

/-- The closures in `sender.rs`: 57, 91–93, 107, 133–135, 205, 240, 267, 284. -/
def sClosure (cap : Nat) : SPc k τ ε → Option (Word k → Word k)
  | .owClaim _ => some fun st => claimIfFull cap st
  | .wrRmw _ _ => some fun st => addLength st
  | .errRmw => some fun st => st ||| (if has st (CLOSED k) then 0#(2 * k + 6) else ERR k) ||| HALF k
  | .pRmw κ _ _ => some fun st => setKind κ st
  | .drRmw => some fun st => st ||| HALF k
  | _ => none

/-- The closures in `receiver.rs`: 45, 66–68, 101, 136–138, 151–153, 188–190. -/
def rClosure (cap : Nat) : RPc k → Option (Word k → Word k)
  | .clRmw => some fun st => st ||| CLOSED k
  | .tnRmw => some fun st => take cap st
  | .tvRmw _ wake err => some fun st =>
      st ||| (if wake then READY k ||| FLUSH k else 0#(2 * k + 6)) ||| (if err then ERR k else 0#(2 * k + 6))
  | .pnRmw _ => some fun st => take cap st
  | .pnRmw2 _ => some fun st => take cap st ||| RX k
  | .drRmw => some fun st => clearLen st ||| CLOSED k ||| HALF k
  | _ => none

/-- What the sender does with the value `st` that an update gave back, up to its next access. -/
def sAfter (cap : Nat) (s : State k τ ε) (st : Word k) : Option (State k τ ε) :=
  match s.spc with
  | .owClaim v =>
    if !has st (CLOSED k) && len st == cap then some (owMid cap (s.emit .claimTx) st v)
    else some (owMid cap s st v)
  | .wrRmw v i =>
    if has st (CLOSED k) then some { s with spc := .wrBack v i }
    else if has st (RX k) then some ({ s with spc := .wakeRef }.emit (.push v))
    else some ({ s with spc := .idle }.emit (.push v))
  | .errRmw => if has st (RX k) then some { s with spc := .errWaker st } else some (errTail s st)
  | .pRmw κ w wr =>
    if has st (CLOSED k) then
      if wr then some { s with spc := .pUndo κ } else some ({ s with spc := .idle }.emit (closedResult κ))
    else if pollReady cap κ st then some ({ s with spc := .idle }.emit (.pollOk κ))
    else some ({ s with spc := .idle }.emit (.pollPending κ w))
  | .drRmw =>
    let s := s.emit .sDropped
    if has st (RX k) then some { s with spc := .drWaker st }
    else if has st (HALF k) then some { s with spc := .drFree }
    else some { s with spc := .gone }
  | _ => none

/-- What the receiver does with the value that an update gave back, up to its next access. -/
def rAfter (cap : Nat) (s : State k τ ε) (st : Word k) : Option (State k τ ε) :=
  match s.rpc with
  | .clRmw =>
    let s := s.emit .closed
    if !has st (CLOSED k) && hasWaker st then some { s with rpc := .clWaker st }
    else some { s with rpc := .idle }
  | .tnRmw =>
    if 0 < len st then some (takeValue cap (s.emit .claimRx) st)
    else if has st (ERR k) then some { s with rpc := .rdErr }
    else if has st (HALF k) || has st (CLOSED k) then some ({ s with rpc := .idle }.emit .ended)
    else some ({ s with rpc := .idle }.emit .empty)
  | .tvRmw i wake _ =>
    if wake && !has st (HALF k) then some { s with rpc := .tvWake i } else some { s with rpc := .tvRead i }
  | .pnRmw w =>
    if 0 < len st then some (takeValue cap (s.emit .claimRx) st)
    else if has st (ERR k) then some { s with rpc := .rdErr }
    else if has st (HALF k) || has st (CLOSED k) then some ({ s with rpc := .idle }.emit .ended)
    else if has st (RX k) then some ({ s with rpc := .idle }.emit (.pending w))
    else some { s with rpc := .pnWrite w }
  | .pnRmw2 w =>
    if has st (HALF k) then
      if 0 < len st then some ({ s with rpc := .pnUndo st }.emit .claimRx)
      else some { s with rpc := .pnUndo st }
    else if 0 < len st then some (takeValue cap (s.emit .claimRx) st)
    else some ({ s with rpc := .idle }.emit (.pending w))
  | .drRmw => some (dropLoop ((s.emit .closed).emit .claimAll) st 0)
  | _ => none

/-- The channel; context 0 is the sender, context 1 the receiver. -/
def machine (k : Nat) (τ ε : Type) (cap : Nat) : Machine (State k τ ε) (Ring.Act τ ε) (Word k) where
  step := Ring.step cap
  ctx _ a := match a with | .sCall _ | .sStep => 0 | .rCall _ | .rStep => 1
  update s a :=
    match a with
    | .sStep => (sClosure cap s.spc).map fun g w => some (g w)
    | .rStep => (rClosure cap s.rpc).map fun g w => some (g w)
    | _ => none
  live s _ := !s.freed
  cell s _ := s.st
  store s _ w := { s with st := w }
  after s a st :=
    match a with
    | .sStep => sAfter cap s st
    | .rStep => rAfter cap s st
    | _ => none
  declined _ _ _ := none

theorem lawful (k : Nat) (τ ε : Type) (cap : Nat) : (machine k τ ε cap).Lawful := by
  intro s a f hf
  obtain ⟨st, buf, err, rxw, txw, freed, spc, rpc, log⟩ := s
  cases a with
  | sCall op => cases hf
  | rCall op => cases hf
  | sStep =>
    cases spc <;> first | (cases hf; done) | (cases hf; cases freed <;> rfl)
  | rStep =>
    cases rpc <;> first | (cases hf; done) | (cases hf; cases freed <;> rfl)

theorem machine_run (k : Nat) (τ ε : Type) (cap : Nat) (as : List (Ring.Act τ ε)) (s : State k τ ε) :
    (machine k τ ε cap).run s as = Ring.run cap s as :=
  run_eq (Ring.run cap) (fun _ => rfl) (fun s a as => by
    show (match Ring.step cap s a with | none => none | some s' => _) = (Ring.step cap s a).bind _
    cases Ring.step cap s a <;> rfl) as s

end Verif.Ring.Cas
