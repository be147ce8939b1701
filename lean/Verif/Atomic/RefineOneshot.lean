import Verif.Atomic.Refine
import Verif.Oneshot.Model
/-! # The oneshot channel with compare-exchange loops

The updates of `src/sync/spsc/oneshot/sender.rs` and `receiver.rs`, each with its closure and
what follows, for `Verif.Atomic.Refine`. -/
namespace Verif.Oneshot.Cas
open Verif.Spsc Verif.Oneshot Verif.Atomic.Refine

variable {α : Type}

/-- The closures in `sender.rs`: 48–50, 89, 147. -/
def sClosure : SPc α → Option (BitVec 8 → BitVec 8)
  | .sendRmw => some fun st => st ||| (if has st CLOSED then 0#8 else DATA) ||| HALF
  | .pcRmw _ => some fun st => st ||| TX
  | .drRmw => some fun st => st ||| HALF
  | _ => none

/-- The closures in `receiver.rs`: 38, 59, 93, 102–103, 130–132. -/
def rClosure : RPc → Option (BitVec 8 → BitVec 8)
  | .clRmw => some fun st => st ||| CLOSED
  | .trRmw => some fun st => st &&& ~~~DATA
  | .poRmw _ => some fun st => st &&& ~~~DATA
  | .poRmw2 _ => some fun st => st &&& ~~~DATA ||| RX
  | .drRmw => some fun st => st ||| CLOSED ||| HALF
  | _ => none

/-- What the sender does with the value `st` that an update gave back, up to its next access:
`sender.rs` 51–64, 90–97, 148–157. -/
def sAfter (s : State α) (st : BitVec 8) : Option (State α) :=
  match s.spc with
  | .sendRmw => if has st RX then some { s with spc := .sendWaker st } else some (sendTail s st)
  | .pcRmw w =>
    if has st CLOSED then some { s with spc := .pcUndo }
    else some ({ s with spc := .idle }.emit (.cancelPending w))
  | .drRmw =>
    let s := s.emit .sDropped
    if has st RX then some { s with spc := .drWaker st }
    else if has st HALF then some { s with spc := .drFree }
    else some { s with spc := .gone }
  | _ => none

/-- What the receiver does with the value that an update gave back, up to its next access:
`receiver.rs` 39–46, 60–68, 94–100, 104–112, 133–145. -/
def rAfter (s : State α) (st : BitVec 8) : Option (State α) :=
  match s.rpc with
  | .clRmw =>
    let s := s.emit .closed
    if !has st CLOSED && has st TX then some { s with rpc := .clWaker st } else some { s with rpc := .idle }
  | .trRmw =>
    if has st DATA then some { s with rpc := .read }
    else if has st HALF || has st CLOSED then some ({ s with rpc := .idle }.emit .recvCanceled)
    else some ({ s with rpc := .idle }.emit .recvNone)
  | .poRmw w =>
    if has st DATA then some { s with rpc := .read }
    else if has st HALF || has st CLOSED then some ({ s with rpc := .idle }.emit .recvCanceled)
    else if has st RX then some ({ s with rpc := .idle }.emit (.pending w))
    else some { s with rpc := .poWrite w }
  | .poRmw2 w =>
    if has st HALF then some { s with rpc := .poUndo st }
    else some ({ s with rpc := .idle }.emit (.pending w))
  | .drRmw =>
    let s := s.emit .closed
    if has st DATA then some { s with rpc := .drData st } else some (dropTail s st)
  | _ => none

/-- The channel; context 0 is the sender, context 1 the receiver. -/
def machine (α : Type) : Machine (State α) (Oneshot.Act α) (BitVec 8) where
  step := Oneshot.step
  ctx _ a := match a with | .sCall _ | .sStep => 0 | .rCall _ | .rStep => 1
  update s a :=
    match a with
    | .sStep => (sClosure s.spc).map fun g w => some (g w)
    | .rStep => (rClosure s.rpc).map fun g w => some (g w)
    | _ => none
  live s _ := !s.freed
  cell s _ := s.st
  store s _ w := { s with st := w }
  after s a st :=
    match a with
    | .sStep => sAfter s st
    | .rStep => rAfter s st
    | _ => none
  declined _ _ _ := none

theorem lawful (α : Type) : (machine α).Lawful := by
  intro s a f hf
  obtain ⟨st, data, rxw, txw, freed, spc, rpc, log⟩ := s
  cases a with
  | sCall op => cases hf
  | rCall op => cases hf
  | sStep =>
    cases spc <;> first | (cases hf; done) | (cases hf; cases freed <;> rfl)
  | rStep =>
    cases rpc <;> first | (cases hf; done) | (cases hf; cases freed <;> rfl)

theorem machine_run (α : Type) (as : List (Oneshot.Act α)) (s : State α) : (machine α).run s as = Oneshot.run s as :=
  run_eq Oneshot.run (fun _ => rfl) (fun s a as => by
    show (match Oneshot.step s a with | none => none | some s' => _) = (Oneshot.step s a).bind _
    cases Oneshot.step s a <;> rfl) as s

end Verif.Oneshot.Cas
