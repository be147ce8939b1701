import Verif.Bitfield.Model
/-!
# Model of `#[derive(Bitfield)]`: `macros/src/bitfield.rs`

The macro as a function from the parsed attribute to the list of methods. Simplifications: field
names are identifiers that are no keywords; `#offset as #bits` keeps the number (an offset that
does not fit into the integer is rejected by the compiler).
-/
namespace Verif.Bitfield.Derive

/-- `Mode`, 25–29. -/
inductive Mode where
  | read | readWrite | write
deriving DecidableEq, Repr

/-- `Mode::is_read`, 83–88. -/
def Mode.isRead : Mode → Bool
  | .read | .readWrite => true
  | .write => false

/-- `Mode::is_write`, 90–95. -/
def Mode.isWrite : Mode → Bool
  | .read => false
  | .readWrite | .write => true

/-- `Field`, 17–23. -/
structure Field where
  name : String
  mode : Mode
  offset : Nat
  width : Option Nat
deriving DecidableEq, Repr

/-- The width, 1 if omitted (136). -/
def Field.bits (f : Field) : Nat := f.width.getD 1

/-- The body of a generated method: the method of `Bitfield` that it calls. -/
inductive Body where
  | readBit (offset : Nat)
  | setBit (offset : Nat)
  | clearBit (offset : Nat)
  | toggleBit (offset : Nat)
  | writeBit (offset : Nat)
  | readBits (offset width : Nat)
  | writeBits (offset width : Nat)
deriving DecidableEq, Repr

/-- The methods for one field (142–241). -/
def methods (f : Field) : List (String × Body) :=
  if f.bits = 1 then
    -- 144–153
    (if f.mode.isRead then [(f.name, .readBit f.offset)] else []) ++
    -- 155–199
    (if f.mode.isWrite then
      [("set_" ++ f.name, .setBit f.offset), ("clear_" ++ f.name, .clearBit f.offset),
       ("toggle_" ++ f.name, .toggleBit f.offset), ("write_" ++ f.name, .writeBit f.offset)] else [])
  else
    -- 202–216
    (if f.mode.isRead then [(f.name, .readBits f.offset f.bits)] else []) ++
    -- 217–234
    (if f.mode.isWrite then [("write_" ++ f.name, .writeBits f.offset f.bits)] else [])

/-- The inherent `impl` (260–262). -/
def accessors (fs : List Field) : List (String × Body) := fs.flatMap methods

/-- Two methods of one name in an `impl` are rejected by the compiler. -/
def compiles (fs : List Field) : Prop := ((accessors fs).map (·.1)).Nodup

instance (fs : List Field) : Decidable (compiles fs) := by unfold compiles; infer_instance

/-- Argument of a call. -/
inductive Arg (n : Nat) where
  | none
  | bit (b : Bool)
  | bits (v : BitVec n)

/-- What a method returns. -/
inductive Out (n : Nat) where
  | self
  | bit (b : Bool)
  | bits (v : BitVec n)
deriving DecidableEq, Repr

/-- What becomes of a call. -/
inductive Result (n : Nat) where
  /-- does not compile -/
  | rejected
  | panic
  | ok (word : BitVec n) (out : Out n)
deriving DecidableEq, Repr

/-- A method that returns `&mut Self`. -/
def ret {n : Nat} : Option (BitVec n) → Result n
  | none => .panic
  | some y => .ok y .self

/-- Executes a method body on the word of the struct. -/
def Body.exec {n : Nat} (x : BitVec n) : Body → Arg n → Result n
  | .readBit o, .none =>
    match Bitfield.readBit x o with
    | none => .panic
    | some b => .ok x (.bit b)
  | .setBit o, .none => ret (Bitfield.setBit x o)
  | .clearBit o, .none => ret (Bitfield.clearBit x o)
  | .toggleBit o, .none => ret (Bitfield.toggleBit x o)
  | .writeBit o, .bit b => ret (Bitfield.writeBit x o b)
  | .readBits o w, .none =>
    match Bitfield.readBits x o w with
    | none => .panic
    | some v => .ok x (.bits v)
  | .writeBits o w, .bits v => ret (Bitfield.writeBits x o w v)
  | _, _ => .rejected

/-- A method call `value.name(arg)`. -/
def call {n : Nat} (fs : List Field) (x : BitVec n) (name : String) (arg : Arg n) : Result n :=
  match (accessors fs).find? (fun m => m.1 = name) with
  | none => .rejected
  | some m => m.2.exec x arg

end Verif.Bitfield.Derive
