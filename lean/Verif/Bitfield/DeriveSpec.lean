import Verif.Bitfield.DeriveModel
import Verif.Bitfield.Spec
/-!
# What `#[derive(Bitfield)]` is to provide

The documentation (`src/bitfield/mod.rs` 28–49) describes a record of independent fields.
-/
namespace Verif.Bitfield.Derive

/-- Uses of a field. -/
inductive Use (n : Nat) where
  | get
  | set
  | clear
  | toggle
  | putBit (b : Bool)
  | put (v : BitVec n)

/-- How to write it. -/
def Use.callName {n : Nat} (name : String) : Use n → String
  | .get => name
  | .set => "set_" ++ name
  | .clear => "clear_" ++ name
  | .toggle => "toggle_" ++ name
  | .putBit _ => "write_" ++ name
  | .put _ => "write_" ++ name

def Use.arg {n : Nat} : Use n → Arg n
  | .putBit b => .bit b
  | .put v => .bits v
  | _ => .none

/-- Uses that are documented for a field. -/
def Use.allowed {n : Nat} (f : Field) : Use n → Prop
  | .get => f.mode ≠ .write
  | .put _ => f.mode ≠ .read ∧ f.bits ≠ 1
  | _ => f.mode ≠ .read ∧ f.bits = 1

/-- New value of the field. -/
def Use.effect {n : Nat} (width cur : Nat) : Use n → Nat
  | .get => cur
  | .set => 1
  | .clear => 0
  | .toggle => 1 - cur
  | .putBit b => b.toNat
  | .put v => v.toNat % 2 ^ width

/-- The number a returned value stands for. -/
def Out.num {n : Nat} : Out n → Option Nat
  | .self => none
  | .bit b => some b.toNat
  | .bits v => some v.toNat

/-- What a use returns. -/
def Use.result {n : Nat} (cur : Nat) : Use n → Option Nat
  | .get => some cur
  | _ => none

/-- A record: the value of every field. -/
abbrev Record := Nat → Nat

/-- The record held in a word. -/
def recordOf {n : Nat} (fs : List Field) (x : BitVec n) : Record :=
  fun i => match fs[i]? with
  | none => 0
  | some f => fieldVal x f.offset f.bits

/-- A sequence of uses of a record. -/
def useRecord {n : Nat} (fs : List Field) (r : Record) : List (Nat × Use n) → Record × List (Option Nat)
  | [] => (r, [])
  | (i, u) :: us =>
    let w := match fs[i]? with | none => 0 | some f => f.bits
    let (r', os) := useRecord fs (fun j => if j = i then u.effect w (r i) else r j) us
    (r', u.result (r i) :: os)

/-- The same sequence of method calls of the derived type; `none` if a call is rejected or
panics. -/
def useWord {n : Nat} (fs : List Field) (x : BitVec n) : List (Nat × Use n) → Option (BitVec n × List (Option Nat))
  | [] => some (x, [])
  | (i, u) :: us =>
    match fs[i]? with
    | none => none
    | some f =>
      match call fs x (u.callName f.name) u.arg with
      | .ok y o =>
        match useWord fs y us with
        | none => none
        | some (z, os) => some (z, o.num :: os)
      | _ => none

/-- Two fields that lead to two methods of one name. -/
def Clash (f g : Field) : Prop :=
  f.name = g.name ∧ (f.mode.isRead ∧ g.mode.isRead ∨ f.mode.isWrite ∧ g.mode.isWrite) ∨
  f.mode.isRead ∧ g.mode.isWrite ∧ (f.name = "write_" ++ g.name ∨ g.bits = 1 ∧
    (f.name = "set_" ++ g.name ∨ f.name = "clear_" ++ g.name ∨ f.name = "toggle_" ++ g.name)) ∨
  g.mode.isRead ∧ f.mode.isWrite ∧ (g.name = "write_" ++ f.name ∨ f.bits = 1 ∧
    (g.name = "set_" ++ f.name ∨ g.name = "clear_" ++ f.name ∨ g.name = "toggle_" ++ f.name))

end Verif.Bitfield.Derive
