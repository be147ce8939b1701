import Verif.Print.Model
/-!
# Specification vocabulary for the print macros
-/
namespace Verif.Print
open Verif.Stream

/-- The text that a context is to print to a stream: that of the macros executed while the
stream is enabled. -/
def printed (t : Nat) (n : UInt8) : BitVec 32 → List Event → Bytes
  | _, [] => []
  | m, .called u k text :: es =>
    if u = t ∧ k = n ∧ m.getLsbD n.toNat = true then text ++ printed t n m es else printed t n m es
  | _, .enabled m :: es => printed t n m es
  | m, .stream _ :: es => printed t n m es

/-- Events of the stream. -/
def streamEvents : List Event → List Stream.Event
  | [] => []
  | .stream e :: es => e :: streamEvents es
  | _ :: es => streamEvents es

/-- The bytes of a stream. -/
def bytesOf (n : UInt8) (fs : List Frame) : Bytes := (fs.filter fun f => f.1 = n).flatMap (·.2)

/-- Transactions with the contexts that made them. -/
abbrev Tagged := List (Nat × Frame)

/-- The transactions of one context. -/
def ofCtx (t : Nat) (L : Tagged) : List Frame := (L.filter fun f => f.1 = t).map (·.2)

/-- What a macro is to print: `format!` of its arguments, with a newline for `println!`. -/
def wanted : Call → Option Bytes
  | .print _ s cap => format cap .text s []
  | .printArgs _ s cap args => format cap .text s args
  | .newline _ => some [NL]
  | .println _ s cap => (format cap .text s []).map (· ++ [NL])
  | .printlnArgs _ s cap args => (format cap .text s args).map (· ++ [NL])

/-- The string that is the only argument of a macro. -/
def Call.single : Call → Option Bytes
  | .print _ s _ => some s
  | .println _ s _ => some s
  | _ => none

end Verif.Print
