import Verif.Atomic.Refine
import Verif.Pulse.Model
/-! # The pulse channel with compare-exchange loops

The updates of `src/sync/spsc/pulse/sender.rs` and `receiver.rs`, each with its closure and
what follows, for `Verif.Atomic.Refine`. -/
namespace Verif.Pulse.Cas
open Verif.Spsc Verif.Pulse Verif.Atomic.Refine

variable {n : Nat} {ε : Type}

/-- The closures in `sender.rs`: 59–61, 88–90, 115–117, 156, 214. -/
def sClosure : SPc n ε → Option (Word n → Word n)
  | .sendRmw p => some fun st => addWord st (p <<< 5)
  | .satRmw p => some fun st => satWord st (satArg p)
  | .errRmw => some fun st => st ||| (if has st (CLOSED n) then 0#(n + 6) else ERR n) ||| HALF n
  | .pcRmw _ => some fun st => st ||| TX n
  | .drRmw => some fun st => st ||| HALF n
  | _ => none

/-- The closures in `receiver.rs`: 45, 68–69, 73, 109–110, 114, 126–128, 135, 166–168. -/
def rClosure : RPc n → Option (Word n → Word n)
  | .clRmw => some fun st => st ||| CLOSED n
  | .tnRmw => some fun st => takeWord st
  | .reErr => some fun st => st ||| ERR n
  | .pnRmw _ => some fun st => takeWord st
  | .pnRmw2 _ => some fun st => takeWord st ||| RX n
  | .drRmw => some fun st => st ||| CLOSED n ||| HALF n
  | _ => none

/-- What the sender does with the value `st` that an update gave back, up to its next access. -/
def sAfter (s : State n ε) (st : Word n) : Option (State n ε) :=
  match s.spc with
  | .sendRmw p => some (sendTail s st p)
  | .satRmw p => some (satTail s st p)
  | .errRmw => if has st (RX n) then some { s with spc := .errWaker st } else some (errTail s st)
  | .pcRmw w =>
    if has st (CLOSED n) then some { s with spc := .pcUndo }
    else some ({ s with spc := .idle }.emit (.cancelPending w))
  | .drRmw =>
    let s := s.emit .sDropped
    if has st (RX n) then some { s with spc := .drWaker st }
    else if has st (HALF n) then some { s with spc := .drFree }
    else some { s with spc := .gone }
  | _ => none

/-- What the receiver does with the value that an update gave back, up to its next access. -/
def rAfter (s : State n ε) (st : Word n) : Option (State n ε) :=
  match s.rpc with
  | .clRmw =>
    let s := s.emit .closed
    if !has st (CLOSED n) && has st (TX n) then some { s with rpc := .clWaker st }
    else some { s with rpc := .idle }
  | .tnRmw =>
    if cnt st ≠ 0 then some (gotCount s st)
    else if has st (ERR n) then some { s with rpc := .rdErr }
    else if has st (HALF n) || has st (CLOSED n) then some ({ s with rpc := .idle }.emit .ended)
    else some ({ s with rpc := .idle }.emit .empty)
  | .reErr => some { s with rpc := .idle }
  | .pnRmw w =>
    if cnt st ≠ 0 then some (gotCount s st)
    else if has st (ERR n) then some { s with rpc := .rdErr }
    else if has st (HALF n) || has st (CLOSED n) then some ({ s with rpc := .idle }.emit .ended)
    else if has st (RX n) then some ({ s with rpc := .idle }.emit (.pending w))
    else some { s with rpc := .pnWrite w }
  | .pnRmw2 w =>
    if has st (HALF n) then
      if cnt st ≠ 0 then some ({ s with rpc := .pnUndo st }.emit (.recv (cnt st)))
      else some { s with rpc := .pnUndo st }
    else if cnt st ≠ 0 then some (gotCount s st)
    else some ({ s with rpc := .idle }.emit (.pending w))
  | .drRmw =>
    let s := s.emit .closed
    if has st (ERR n) then some { s with rpc := .drErr st } else some (dropTail s st)
  | _ => none

/-- The channel; context 0 is the sender, context 1 the receiver. -/
def machine (n : Nat) (ε : Type) : Machine (State n ε) (Pulse.Act n ε) (Word n) where
  step := Pulse.step
  ctx _ a := match a with | .sCall _ | .sStep => 0 | .rCall _ | .rStep => 1
  update s a :=
    match a with
    | .sStep => (sClosure s.spc).map fun g w => some (g w)
    | .rStep => (rClosure s.rpc).map fun g w => some (g w)
    | _ => none
  live s _ := !s.freed
  cell s _ := s.st
  store s _ w := { s with st := w }
  after s a st :=
    match a with
    | .sStep => sAfter s st
    | .rStep => rAfter s st
    | _ => none
  declined _ _ _ := none

theorem lawful (n : Nat) (ε : Type) : (machine n ε).Lawful := by
  intro s a f hf
  obtain ⟨st, err, rxw, txw, freed, spc, rpc, log⟩ := s
  cases a with
  | sCall op => cases hf
  | rCall op => cases hf
  | sStep =>
    cases spc <;> first | (cases hf; done) | (cases hf; cases freed <;> rfl)
  | rStep =>
    cases rpc <;> first | (cases hf; done) | (cases hf; cases freed <;> rfl)

theorem machine_run (n : Nat) (ε : Type) (as : List (Pulse.Act n ε)) (s : State n ε) :
    (machine n ε).run s as = Pulse.run s as :=
  run_eq Pulse.run (fun _ => rfl) (fun s a as => by
    show (match Pulse.step s a with | none => none | some s' => _) = (Pulse.step s a).bind _
    cases Pulse.step s a <;> rfl) as s

end Verif.Pulse.Cas
