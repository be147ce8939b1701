import Verif.Stream.Spec
/-!
# The print macros: `src/stream/macros.rs`, `src/stream/mod.rs` 74–132, 187–193

`print!`, `println!`, `eprint!`, `eprintln!` and `dbg!` executed by any number of contexts,
on top of the model of the stream runtime (`Verif.Stream`).

Text is given as bytes (UTF-8; the bytes of `{` and `}` occur in no other character). The
format strings of `core::fmt` (not in `/repo`) are modelled by `format`: `{{`, `}}`, `{}`,
`{:spec}`, `{name}` and `{name:spec}`; arguments are given as the text they are formatted to,
their formatting does not fail. How `core::fmt::write` cuts the text into `write_str` calls is
left open.
-/
namespace Verif.Print
open Verif.Stream

abbrev Bytes := List UInt8

/-- `{` -/
def LB : UInt8 := 0x7B
/-- `}` -/
def RB : UInt8 := 0x7D
/-- `:` -/
def COLON : UInt8 := 0x3A
/-- newline -/
def NL : UInt8 := 0x0A

/-! ### Contract of `format_args!` -/

/-- Where the reader of a format string is. -/
inductive Mode where
  | text
  /-- after a `{` -/
  | opened
  /-- after a `}` -/
  | closing
  /-- inside a placeholder, with what was read so far -/
  | inside (acc : Bytes)

/-- The text of `format!(s, args…)`. `cap`: variables that can be captured by name. `none`:
rejected at compile time. -/
def format (cap : Bytes → Option Bytes) : Mode → Bytes → List Bytes → Option Bytes
  | .text, [], [] => some []
  | .text, [], _ :: _ => none
  | .text, b :: s, as =>
    if b = LB then format cap .opened s as
    else if b = RB then format cap .closing s as
    else (format cap .text s as).map (b :: ·)
  | .opened, [], _ => none
  | .opened, b :: s, as =>
    if b = LB then (format cap .text s as).map (LB :: ·)
    else if b = RB then
      match as with
      | [] => none
      | a :: as => (format cap .text s as).map (a ++ ·)
    else format cap (.inside [b]) s as
  | .closing, [], _ => none
  | .closing, b :: s, as => if b = RB then (format cap .text s as).map (RB :: ·) else none
  | .inside _, [], _ => none
  | .inside acc, b :: s, as =>
    if b = RB then
      if acc.takeWhile (· ≠ COLON) = [] then
        match as with
        | [] => none
        | a :: as => (format cap .text s as).map (a ++ ·)
      else
        match cap (acc.takeWhile (· ≠ COLON)) with
        | none => none
        | some v => (format cap .text s as).map (v ++ ·)
    else if b = LB then none
    else format cap (.inside (acc ++ [b])) s as

/-- Nothing can be captured: the format string comes out of `concat!`. -/
def noCapture : Bytes → Option Bytes := fun _ => none

/-! ### The macros -/

/-- An invocation of a macro. `err`: `eprint!`, `eprintln!` instead of `print!`, `println!`;
`cap`: the variables in scope. -/
inductive Call where
  /-- `print!(s)` -/
  | print (err : Bool) (s : Bytes) (cap : Bytes → Option Bytes)
  /-- `print!(s, args…)` -/
  | printArgs (err : Bool) (s : Bytes) (cap : Bytes → Option Bytes) (args : List Bytes)
  /-- `println!()` -/
  | newline (err : Bool)
  /-- `println!(s)` -/
  | println (err : Bool) (s : Bytes) (cap : Bytes → Option Bytes)
  /-- `println!(s, args…)` -/
  | printlnArgs (err : Bool) (s : Bytes) (cap : Bytes → Option Bytes) (args : List Bytes)

/-- What a macro expands to: a stream number, and a call of `write_str` or of `write_fmt` with
the text its arguments stand for. -/
inductive Code where
  | str (stream : UInt8) (s : Bytes)
  | fmt (stream : UInt8) (s : Bytes)

/-- `STDOUT_STREAM`, `STDERR_STREAM` of the crate `drone_stream`, as documented at
`macros.rs` 1 and 69. -/
def streamOf (err : Bool) : UInt8 := if err then 1 else 0

/-- `print!`, `eprint!` with one expression (`macros.rs` 28–32, 86–90). -/
def print1 (err : Bool) (s : Bytes) : Code := .str (streamOf err) s

/-- `print!`, `eprint!` with any other arguments (`macros.rs` 33–41, 91–99). -/
def printN (err : Bool) (cap : Bytes → Option Bytes) (s : Bytes) (args : List Bytes) : Option Code :=
  (format cap .text s args).map fun t => .fmt (streamOf err) t

/-- Expansion of the macros (`macros.rs` 26–42, 61–73, 84–100, 118–130). `none`: does not
compile. With `concat!` (67, 70, 124, 127) variables cannot be captured. -/
def expand : Call → Option Code
  | .print err s _ => some (print1 err s)
  | .printArgs err s cap args => printN err cap s args
  | .newline err => some (print1 err [NL])
  | .println err s _ => some (print1 err (s ++ [NL]))
  | .printlnArgs err s _ args => printN err noCapture (s ++ [NL]) args

/-- `dbg!(val)` (`macros.rs` 158–182): `file:line` and the source text and the formatted value of
the expression. -/
def dbg (file line src val : Bytes) : Call :=
  -- "[{}:{}] {} = {:#?}"
  .printlnArgs true
    ([0x5B, LB, RB, COLON, LB, RB, 0x5D, 0x20, LB, RB, 0x20, 0x3D, 0x20, LB, COLON, 0x23, 0x3F, RB]) noCapture
    [file, line, src, val]

def Code.stream : Code → UInt8
  | .str n _ => n
  | .fmt n _ => n

def Code.text : Code → Bytes
  | .str _ s => s
  | .fmt _ s => s

/-- The calls of `Stream::write_str`: one for `write_str` (`mod.rs` 105–107); for `write_fmt`
(130–132) `core::fmt::write` cuts the text as it likes. -/
def Code.cut (c : Code) (pieces : List Bytes) : Bool :=
  match c with
  | .str _ s => decide (pieces = [s])
  | .fmt _ s => decide (pieces.flatten = s)

/-- `write_bytes` (`runtime.rs` 28–37) with a bound on the number of turns of the loop; with the
length as bound it is `Stream.writeBytes` (`pieces_eq`). -/
def turns : Nat → Bytes → List Bytes
  | 0, _ => []
  | k + 1, b =>
    if b.length > defaultTransactionLength then
      b.take defaultTransactionLength :: turns k (b.drop defaultTransactionLength)
    else if b.length > 0 then [b] else []

/-- The transactions of a list of `write_str` calls (`mod.rs` 187–193, 161–165). -/
def frames (stream : UInt8) (pieces : List Bytes) : List Frame :=
  (pieces.flatMap fun b => turns b.length b).map fun p => (stream, p)

/-! ### Contexts -/

structure State where
  /-- the runtime, its buffer and the transaction in progress -/
  s : Stream.State
  /-- `enable_mask` of the global runtime -/
  mask : BitVec 32
  /-- the transactions that a context still has to make -/
  todo : Nat → List Frame
  /-- the context of the transaction in progress -/
  owner : Nat

inductive Event where
  /-- a context executed a macro -/
  | called (t : Nat) (stream : UInt8) (text : Bytes)
  /-- the probe changed the enabled streams -/
  | enabled (mask : BitVec 32)
  /-- an event of the stream -/
  | stream (e : Stream.Event)
deriving DecidableEq, Repr

inductive Act where
  /-- context `t` executes a macro, whose text is cut into `pieces` -/
  | call (t : Nat) (c : Call) (pieces : List Bytes)
  /-- next access of context `t` -/
  | go (t : Nat)
  /-- the probe looks at the buffer -/
  | probe
  /-- the probe writes the mask -/
  | enable (mask : BitVec 32)

def setTodo (f : Nat → List Frame) (t : Nat) (l : List Frame) : Nat → List Frame :=
  fun u => if u = t then l else f u

/-- One step. -/
def step (x : State) : Act → State × List Event
  | .call t c pieces =>
    match x.todo t, expand c with
    | [], some code =>
      if code.cut pieces then
        -- `is_enabled` (`macros.rs` 29, 34, 87, 92)
        ((if isEnabled x.mask code.stream.toNat = some true then
            { x with todo := setTodo x.todo t (frames code.stream pieces) }
          else x),
         [.called t code.stream code.text])
      else (x, [])
    | _, _ => (x, [])
  | .go t =>
    match x.s.writer with
    | none =>
      match x.todo t with
      | [] => (x, [])
      | (n, p) :: _ =>
        -- an attempt (`runtime.rs` 45–57)
        let (s', es) := Stream.step x.s (.begin n p)
        ({ x with s := s', owner := t }, es.map .stream)
    | some wr =>
      if x.owner = t then
        let (s', es) := Stream.step x.s .wstep
        ({ x with s := s'
                  -- `complete`: on to the next transaction (`runtime.rs` 58–60)
                  todo := if wr.plan.stores = [] ∧ wr.plan.result then setTodo x.todo t (x.todo t).tail else x.todo },
          es.map .stream)
      else (x, [])          -- interrupts are disabled
  | .probe =>
    let (s', es) := Stream.step x.s .consume
    ({ x with s := s' }, es.map .stream)
  | .enable m => ({ x with mask := m }, [.enabled m])

/-- A schedule, collecting the events. -/
def run (x : State) : List Act → State × List Event
  | [] => (x, [])
  | a :: as =>
    let (x', e) := step x a
    let (x'', es) := run x' as
    (x'', e ++ es)

/-- After `stream::init`: no stream is enabled (`mod.rs` 66–69). -/
def init (size : Nat) (buf : Mem) : State :=
  { s := Stream.init size buf, mask := 0, todo := fun _ => [], owner := 0 }

end Verif.Print
