import Verif.Regs.MarkerModel
import Verif.Regs.DefSpec
/-!
# What the marker traits are to mean

The names of the marker traits are made of a tag (`U`, `S`, `C`), the access of a field, the access of a register, and the width of
a field.
-/
namespace Verif.Regs.Marker
open Verif.Regs.Def (Access Variant Field)

/-- `URwReg` and so on. -/
def regMarker : Tag → Access → Tr
  | .urt, .rw => .uRwReg
  | .urt, .ro => .uRoReg
  | .urt, .wo => .uWoReg
  | .srt, .rw => .sRwReg
  | .srt, .ro => .sRoReg
  | .srt, .wo => .sWoReg
  | .crt, .rw => .cRwReg
  | .crt, .ro => .cRoReg
  | .crt, .wo => .cWoReg

/-- `URwRwRegFieldBit` and so on: tag, access of the field, access of the register, width. -/
def fieldMarker (t : Tag) (fa ra : Access) (w : Width) : Option Tr :=
  match t, fa, ra with
  | .urt, .rw, .rw => some (.uRwRw w)
  | .urt, .wo, .rw => some (.uWoRw w)
  | .urt, .wo, .wo => some (.uWoWo w)
  | .urt, .ro, .rw => some (.uRoRw w)
  | .urt, .ro, .ro => some (.uRoRo w)
  | .srt, .rw, .rw => some (.sRwRw w)
  | .srt, .wo, .rw => some (.sWoRw w)
  | .srt, .wo, .wo => some (.sWoWo w)
  | .srt, .ro, .rw => some (.sRoRw w)
  | .srt, .ro, .ro => some (.sRoRo w)
  | .crt, .rw, .rw => some (.cRwRw w)
  | .crt, .wo, .rw => some (.cWoRw w)
  | .crt, .wo, .wo => some (.cWoWo w)
  | .crt, .ro, .rw => some (.cRoRw w)
  | .crt, .ro, .ro => some (.cRoRo w)
  | _, _, _ => none

/-- The field is declared with this access (src/reg/mod.rs 281–284). -/
def FieldAccess {C : Type} (f : Field C) (b : Access) : Prop := f.traits = b.fieldTraits ∨ f.traits = b.fieldTraits ++ [.forceBits]

def widthOf {C : Type} (f : Field C) : Width := if f.width = 1 ∧ .forceBits ∉ f.traits then .bit else .bits

/-- Updates in one step are available for the integer of the register. -/
def Updatable {C : Type} (atomics : Bool) (v : Variant C) : Prop := atomics = true → v.size = 8 ∨ v.size = 16 ∨ v.size = 32

/-- The traits with the operations of a register: `load`, `store`, `modify`. -/
inductive Operation where
  | load | store | modify
deriving DecidableEq

def Operation.trait (t : Tag) : Operation → Tr
  | .load => .rReg t
  | .store => if t = .urt then .wRegUnsync else .wRegAtomic t
  | .modify => if t = .urt then .rwRegUnsync else .rwRegAtomic t

/-- Those that a register with this access has. -/
def Operation.allowed (a : Access) : Operation → Prop
  | .load => a ≠ .wo
  | .store => a ≠ .ro
  | .modify => a = .rw

/-- The traits with the operations of a field: read the field from a loaded value; change it in a value; and write it to the
register, starting with the reset value in a write-only register, with the current value otherwise. -/
inductive FieldOp where
  | read | change | write
deriving DecidableEq

def FieldOp.trait (t : Tag) (ra : Access) (w : Width) : FieldOp → Tr
  | .read => .rrW t w
  | .change => .wwW t w
  | .write => if ra = .wo then .woWoW t w else .wRwW t w

/-- Fields of unsynchronized tokens are written to a readable register through the register token. -/
def FieldOp.allowed (t : Tag) (fa ra : Access) : FieldOp → Prop
  | .read => fa ≠ .wo
  | .change => fa ≠ .ro
  | .write => fa ≠ .ro ∧ (ra = .wo ∨ t ≠ .urt)

end Verif.Regs.Marker
