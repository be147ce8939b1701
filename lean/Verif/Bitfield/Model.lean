/-!
# Model of `src/bitfield/mod.rs` and the value-level part of `src/reg/field.rs`

A register word is a `BitVec n` (`Self::Bits`, an unsigned integer of `n` bits).
Offsets and widths have type `Self::Bits` in the source; here they are `Nat`
(simplification: every `Nat` used is the value of such an integer).

Shifts by at least the word width are an arithmetic overflow panic in Rust
(debug profile); a panic is the value `none`.
-/

namespace Verif.Bitfield

/-- `x << k` on an `n`-bit integer; `none` = shift-overflow panic.
(`Bits: Shl`, used in `src/bitfield/mod.rs` 150, 156.) -/
def shl {n : Nat} (x : BitVec n) (k : Nat) : Option (BitVec n) :=
  if k < n then some (x <<< k) else none

/-- `x >> k` on an `n`-bit integer; `none` = shift-overflow panic.
(`src/bitfield/mod.rs` 136.) -/
def shr {n : Nat} (x : BitVec n) (k : Nat) : Option (BitVec n) :=
  if k < n then some (x >>> k) else none

/-- `x - y`; `none` = subtraction-overflow panic. (`src/bitfield/mod.rs` 164.) -/
def sub {n : Nat} (x y : BitVec n) : Option (BitVec n) :=
  if y.toNat ≤ x.toNat then some (x - y) else none

/-- `maybe_bit_at`, `src/bitfield/mod.rs` 155–157. -/
def maybeBitAt (n : Nat) (bit : Bool) (offset : Nat) : Option (BitVec n) :=
  shl (BitVec.ofNat n bit.toNat) offset

/-- `bit_at`, `src/bitfield/mod.rs` 159–161. -/
def bitAt (n : Nat) (offset : Nat) : Option (BitVec n) :=
  maybeBitAt n true offset

/-- `bit_mask`, `src/bitfield/mod.rs` 163–165. -/
def bitMask (n : Nat) (width : Nat) : Option (BitVec n) := do
  sub (← bitAt n width) (BitVec.ofNat n 1)

/-- `Bitfield::read_bit`, `src/bitfield/mod.rs` 82–84;
`RRRegFieldBit::read`, `src/reg/field.rs` 286–290. -/
def readBit {n : Nat} (bits : BitVec n) (offset : Nat) : Option Bool := do
  return (bits &&& (← bitAt n offset)) != 0#n

/-- `Bitfield::set_bit`, `src/bitfield/mod.rs` 92–94;
`WWRegFieldBit::set`, `src/reg/field.rs` 305–309. -/
def setBit {n : Nat} (bits : BitVec n) (offset : Nat) : Option (BitVec n) := do
  return bits ||| (← bitAt n offset)

/-- `Bitfield::clear_bit`, `src/bitfield/mod.rs` 102–104;
`WWRegFieldBit::clear`, `src/reg/field.rs` 312–316. -/
def clearBit {n : Nat} (bits : BitVec n) (offset : Nat) : Option (BitVec n) := do
  return bits &&& ~~~(← bitAt n offset)

/-- `Bitfield::toggle_bit`, `src/bitfield/mod.rs` 112–114;
`WWRegFieldBit::toggle`, `src/reg/field.rs` 319–325. -/
def toggleBit {n : Nat} (bits : BitVec n) (offset : Nat) : Option (BitVec n) := do
  return bits ^^^ (← bitAt n offset)

/-- `Bitfield::write_bit`, `src/bitfield/mod.rs` 122–124;
`WWRegFieldBit::write`, `src/reg/field.rs` 328–335. -/
def writeBit {n : Nat} (bits : BitVec n) (offset : Nat) (bit : Bool) : Option (BitVec n) := do
  return bits &&& ~~~(← bitAt n offset) ||| (← maybeBitAt n bit offset)

/-- `Bitfield::read_bits`, `src/bitfield/mod.rs` 132–138;
`RRRegFieldBits::read`, `src/reg/field.rs` 380–390. -/
def readBits {n : Nat} (bits : BitVec n) (offset width : Nat) : Option (BitVec n) :=
  if width = n then some bits
  else do return (← shr bits offset) &&& (← bitMask n width)

/-- `Bitfield::write_bits`, `src/bitfield/mod.rs` 146–152;
`WWRegFieldBits::write`, `src/reg/field.rs` 405–417. -/
def writeBits {n : Nat} (bits : BitVec n) (offset width : Nat) (val : BitVec n) :
    Option (BitVec n) :=
  if width = n then some val
  else do
    let mask ← bitMask n width
    return bits &&& ~~~(← shl mask offset) ||| (← shl (val &&& mask) offset)

/-! ### Registers: memory word plus field operations -/

/-- One field operation on a held register value (`Hold` methods and
`WWRegField*`, `src/reg/field.rs` 298–336 and 398–418). -/
inductive FieldOp (n : Nat) where
  /-- `WWRegFieldBit::set` -/
  | set (offset : Nat)
  /-- `WWRegFieldBit::clear` -/
  | clear (offset : Nat)
  /-- `WWRegFieldBit::toggle` -/
  | toggle (offset : Nat)
  /-- `WWRegFieldBit::write` -/
  | writeBit (offset : Nat) (bit : Bool)
  /-- `WWRegFieldBits::write` -/
  | writeBits (offset width : Nat) (val : BitVec n)
deriving Repr, DecidableEq

/-- Dispatch of a field operation to the `Bitfield` method it calls
(`src/reg/field.rs` 305–335, 405–417). -/
def FieldOp.apply {n : Nat} (x : BitVec n) : FieldOp n → Option (BitVec n)
  | .set o => setBit x o
  | .clear o => clearBit x o
  | .toggle o => toggleBit x o
  | .writeBit o b => Bitfield.writeBit x o b
  | .writeBits o w v => Bitfield.writeBits x o w v

/-- A chain of field operations on one value, as in
`reg.modify(|r| r.set_a().write_b(1))`: each builder method of the hold is
applied in order (`src/reg/mod.rs` 770–790). -/
def applyAll {n : Nat} : BitVec n → List (FieldOp n) → Option (BitVec n)
  | x, [] => some x
  | x, op :: ops => do applyAll (← op.apply x) ops

/-- `RwRegUnsync::modify`, `src/reg/mod.rs` 770–782: load the register memory,
run the closure (a chain of field operations), store the result. The argument
and result are the contents of the register memory. -/
def modify {n : Nat} (mem : BitVec n) (ops : List (FieldOp n)) : Option (BitVec n) :=
  applyAll mem ops

/-- `WRegUnsync::store`, `src/reg/mod.rs` 686–697 (and `WoWRegField::store`,
`src/reg/field.rs` 269–276): run the closure on the *reset* value and store the
result; the previous memory contents are not used. -/
def store {n : Nat} (reset _mem : BitVec n) (ops : List (FieldOp n)) : Option (BitVec n) :=
  applyAll reset ops

end Verif.Bitfield
