import Verif.Bitfield.DeriveModel
import Verif.Macros.KeywordModel
/-!
# Model of `reg!`: `macros/src/reg.rs`, and of the register operations it leads to

The macro as a function from the parsed input to the items it emits, the compiler as a predicate on
these items, and the operations of `src/reg/mod.rs`, `src/reg/field.rs`, `src/reg/atomic.rs` and
`src/reg/soft_atomic.rs` on the word in memory.

Simplifications: `C` is the type of configurations, an attribute list is a function `C → Bool`; the
conversions of the crate `heck` are arbitrary functions; visibilities and documentation are omitted;
type names are no keywords; the traits in a declaration are the eight of the crate (`WoWoRegField` and
others that are implemented for all types cannot be listed); the register is memory: it holds what
was written; an update is one step (C04, C55), which 64-bit registers do not have in the build with
`atomics`; the token has the tag that the operation asks for.
-/
namespace Verif.Regs.Def
open Verif.Bitfield.Derive (Body Arg Out Result)
variable {C : Type}

/-- Traits of a register (src/reg/mod.rs 523–573). -/
inductive RTrait where
  | rReg | wReg | roReg | woReg
deriving DecidableEq, Repr

/-- Traits of a field (src/reg/field.rs 84–124), and the word `ForceBits` (reg.rs 176–183). -/
inductive FTrait where
  | rr | ww | roR | woW | forceBits
deriving DecidableEq, Repr

def RTrait.name : RTrait → String
  | .rReg => "RReg"
  | .wReg => "WReg"
  | .roReg => "RoReg"
  | .woReg => "WoReg"

def FTrait.name : FTrait → String
  | .rr => "RRRegField"
  | .ww => "WWRegField"
  | .roR => "RoRRegField"
  | .woW => "WoWRegField"
  | .forceBits => "ForceBits"

/-- `Field`, 27–33. -/
structure Field (C : Type) where
  ident : String
  on : C → Bool
  offset : Nat
  width : Nat
  traits : List FTrait

/-- `Variant`, 15–25. -/
structure Variant (C : Type) where
  block : String
  ident : String
  on : C → Bool
  address : Nat
  size : Nat
  reset : Nat
  traits : List RTrait
  fields : List (Field C)

/-- `to_snake_case` and `to_upper_camel_case`. -/
structure Names where
  snake : String → String
  camel : String → String

/-- `field_snk`, 184. -/
def Field.snk (nm : Names) (f : Field C) : String := nm.snake f.ident

/-- `field_cml`, 185–189. -/
def Field.cml (nm : Names) (f : Field C) : String :=
  if nm.camel f.ident = "Val" then "Val_" else nm.camel f.ident

/-- `field_ident`, 190. -/
def Field.name (nm : Names) (f : Field C) : String := Verif.Macros.unkeywordize (f.snk nm)

/-- The traits that are left, 176–183. -/
def Field.impls (f : Field C) : List FTrait := f.traits.filter (· ≠ .forceBits)

/-- The condition in 232. -/
def Field.isBit (f : Field C) : Bool := f.width = 1 && !f.traits.contains .forceBits

/-- What is implemented for a type. -/
inductive Tr where
  | token | reg | regHold | regField | bit | bits
  | r (t : RTrait)
  | f (t : FTrait)
deriving DecidableEq, Repr

inductive Item (C : Type) where
  /-- `use`: a name in the namespace of types -/
  | use (name : String)
  /-- fields: name, type if it is one of the module, condition -/
  | struct (name : String) (on : C → Bool) (fields : List (String × Option String × (C → Bool)))
  | impl (trait : Tr) (type : String)
  /-- struct literal -/
  | ctor (type : String) (fields : List String)
  /-- method of `Hold`; it uses field `field` of `Reg`, of type `type`, which has to implement `needs` -/
  | method (name : String) (on : C → Bool) (body : Body) (field type : String) (needs : List Tr)

def always : C → Bool := fun _ => true

/-- The methods of `Hold` for a field (240–346). They carry the attributes of the field. -/
def holdMethods (nm : Names) (f : Field C) : List (Item C) :=
  if f.isBit then
    (if f.impls.contains .rr then
      [.method (f.name nm) f.on (.readBit f.offset) (f.name nm) (f.cml nm) [.bit, .f .rr]] else []) ++
    (if f.impls.contains .ww then
      [.method ("set_" ++ f.snk nm) f.on (.setBit f.offset) (f.name nm) (f.cml nm) [.bit, .f .ww],
       .method ("clear_" ++ f.snk nm) f.on (.clearBit f.offset) (f.name nm) (f.cml nm) [.bit, .f .ww],
       .method ("toggle_" ++ f.snk nm) f.on (.toggleBit f.offset) (f.name nm) (f.cml nm) [.bit, .f .ww],
       .method ("write_" ++ f.snk nm) f.on (.writeBit f.offset) (f.name nm) (f.cml nm) [.bit, .f .ww]] else [])
  else
    (if f.impls.contains .rr then
      [.method (f.name nm) f.on (.readBits f.offset f.width) (f.name nm) (f.cml nm) [.bits, .f .rr]] else []) ++
    (if f.impls.contains .ww then
      [.method ("write_" ++ f.snk nm) f.on (.writeBits f.offset f.width) (f.name nm) (f.cml nm) [.bits, .f .ww]] else [])

/-- The items for a field (199–347). The implementations carry no attributes. -/
def fieldItems (nm : Names) (f : Field C) : List (Item C) :=
  [.struct (f.cml nm) f.on [], .impl .token (f.cml nm), .impl .regField (f.cml nm)] ++
  f.impls.map (fun t => .impl (.f t) (f.cml nm)) ++
  [.impl (if f.isBit then .bit else .bits) (f.cml nm)] ++
  holdMethods nm f

/-- `imports` (171, 191, 361–366): a set. -/
def imports (v : Variant C) : List String :=
  (v.traits.map RTrait.name ++ v.fields.flatMap fun f => f.impls.map FTrait.name).eraseDups

/-- `Variant::generate` (168–441): the items of the module. -/
def moduleItems (nm : Names) (v : Variant C) : List (Item C) :=
  (imports v).map .use ++ [.use "Bitfield", .struct "Val" always [],
    -- 192–195, 349–353, 382–384
    .struct "Reg" always (if v.fields.isEmpty then [("_marker", none, always)]
      else v.fields.map fun f => (f.name nm, some (f.cml nm), f.on)),
    .impl .token "Reg",
    -- 196–198, 354, 389
    .ctor "Reg" (if v.fields.isEmpty then ["_marker"] else v.fields.map fun f => f.name nm),
    .impl .reg "Reg", .struct "Hold" always [], .impl .regHold "Hold"] ++
  v.fields.flatMap (fieldItems nm) ++
  -- 356–360
  v.traits.map (fun t => .impl (.r t) "Reg")

/-- `reg_full`, 443–449. -/
def Variant.full (nm : Names) (v : Variant C) : String := nm.snake v.block ++ "_" ++ nm.snake v.ident

/-! ### The compiler -/

/-- The compiled structs with the compiled fields. -/
def structs (c : C) (items : List (Item C)) : List (String × List (String × Option String)) :=
  items.filterMap fun
    | .struct name on fields => if on c then some (name, (fields.filter (·.2.2 c)).map fun f => (f.1, f.2.1)) else none
    | _ => none

def uses (items : List (Item C)) : List String :=
  items.filterMap fun
    | .use name => some name
    | _ => none

def implsOf (items : List (Item C)) : List (Tr × String) :=
  items.filterMap fun
    | .impl t ty => some (t, ty)
    | _ => none

/-- The compiled methods of `Hold`. -/
def methods (c : C) (items : List (Item C)) : List (String × Body) :=
  items.filterMap fun
    | .method name on body _ _ _ => if on c then some (name, body) else none
    | _ => none

/-- The supertraits and the conditions of a trait, for a type of the module (src/reg/mod.rs 392, 523–573,
src/reg/field.rs 18, 77–124). -/
def Tr.requires (ty : String) : Tr → List (Tr × String)
  | .r .rReg | .r .wReg => [(.reg, ty)]
  | .r .roReg => [(.r .rReg, ty)]
  | .r .woReg => [(.r .wReg, ty)]
  | .regField => [(.token, ty)]
  | .bit | .bits => [(.regField, ty)]
  | .f .rr => [(.regField, ty), (.r .rReg, "Reg")]
  | .f .ww => [(.regField, ty), (.r .wReg, "Reg")]
  | .f .roR => [(.f .rr, ty), (.r .rReg, "Reg")]
  | .f .woW => [(.f .ww, ty), (.r .wReg, "Reg")]
  | .reg => [(.token, ty)]
  | .f .forceBits | .token | .regHold => []

/-- Is an item accepted? -/
def Item.ok (c : C) (ss : List (String × List (String × Option String))) (is : List (Tr × String)) : Item C → Prop
  | .use _ => True
  | .struct _ on fields => on c = true → ((fields.filter (·.2.2 c)).map (·.1)).Nodup ∧
      ∀ f ∈ fields, f.2.2 c = true → ∀ t, f.2.1 = some t → t ∈ ss.map (·.1)
  | .impl t ty => ty ∈ ss.map (·.1) ∧ ∀ q ∈ t.requires ty, q ∈ is
  | .ctor ty fields => ∃ fs, (ty, fs) ∈ ss ∧ fields.Nodup ∧ ∀ x, x ∈ fields ↔ x ∈ fs.map (·.1)
  | .method _ on _ field ty needs => on c = true →
      (∃ fs, ("Reg", fs) ∈ ss ∧ (field, some ty) ∈ fs) ∧ ∀ t ∈ needs, (t, ty) ∈ is

/-- The compiler accepts the items of a module: names of imports and types are distinct, a trait is implemented
once for a type, `Hold` has no two methods of one name, and every item is accepted. -/
def accepts (c : C) (items : List (Item C)) : Prop :=
  (uses items ++ (structs c items).map (·.1)).Nodup ∧ (implsOf items).Nodup ∧ ((methods c items).map (·.1)).Nodup ∧
  ∀ it ∈ items, it.ok c (structs c items) (implsOf items)

/-- The integer type `u{size}` exists and has the trait `Bits` (169, src/bitfield/bits.rs 52–56), and the reset
value is one of its literals. -/
def literals (v : Variant C) : Prop := v.size ∈ [8, 16, 32, 64, 128] ∧ v.reset < 2 ^ v.size

/-- The conversions between variants (459–493): from module, to module. They carry no attributes. -/
def conversions (nm : Names) (vs : List (Variant C)) : List (String × String) :=
  vs.zipIdx.flatMap fun (s, i) => (vs.zipIdx.filter fun (_, j) => i ≠ j).map fun (d, _) => (s.full nm, d.full nm)

/-- The compiler accepts the result of `reg!` (452–498). A conversion is a method `into_{to}` of `Reg` in the module
`from`. -/
def acceptsReg (nm : Names) (c : C) (vs : List (Variant C)) : Prop :=
  ((vs.filter (·.on c)).map (·.full nm)).Nodup ∧
  (∀ v ∈ vs, v.on c = true → literals v ∧ accepts c (moduleItems nm v)) ∧
  ((conversions nm vs).map fun p => (p.1, "into_" ++ p.2)).Nodup ∧
  ∀ p ∈ conversions nm vs, p.1 ∈ (vs.filter (·.on c)).map (·.full nm) ∧ p.2 ∈ (vs.filter (·.on c)).map (·.full nm)

/-! ### Operations -/

/-- A call of a method of a `Hold` that holds the value `x`. -/
def holdCall {n : Nat} (nm : Names) (c : C) (v : Variant C) (x : BitVec n) (name : String) (arg : Arg n) : Result n :=
  match (methods c (moduleItems nm v)).find? (fun m => m.1 = name) with
  | none => .rejected
  | some m => m.2.exec x arg

/-- A closure: calls of methods of `Hold`, each may depend on what the former ones returned. -/
inductive Prog (n : Nat) where
  | done
  | call (name : String) (arg : Arg n) (next : Out n → Prog n)

/-- Runs a closure on a `Hold` with the value `x`; the value afterwards and what was returned. `none` if a call is
rejected or panics. -/
def runHold {n : Nat} (nm : Names) (c : C) (v : Variant C) : BitVec n → Prog n → Option (BitVec n × List (Out n))
  | x, .done => some (x, [])
  | x, .call name arg next =>
    match holdCall nm c v x name arg with
    | .ok y o =>
      match runHold nm c v y (next o) with
      | none => none
      | some (z, os) => some (z, o :: os)
    | _ => none

/-- Operations of a register token, and of the token of field `i`. -/
inductive Op (n : Nat) where
  /-- `load()`, then calls of the `Hold` -/
  | load (p : Prog n)
  | store (p : Prog n)
  | modify (p : Prog n)
  | reset
  | storeBits (x : BitVec n)
  /-- `read_bit()`, `read_bits()` -/
  | fieldRead (i : Nat)
  /-- `set_bit()`, `clear_bit()`, `toggle_bit()`, `write_bit(b)` -/
  | fieldSet (i : Nat) | fieldClear (i : Nat) | fieldToggle (i : Nat) | fieldWriteBit (i : Nat) (b : Bool)
  /-- `write_bits(x)` -/
  | fieldWriteBits (i : Nat) (x : BitVec n)

/-- The value that a field token updates before it is stored. Two traits have methods of the same names: those for
write-only registers start with the reset value (src/reg/field.rs 247–277, 338–371, 420–431), those for
registers that can be read start with the current value (src/reg/atomic.rs 127–198, src/reg/soft_atomic.rs
114–185). If both apply, the call is ambiguous and rejected. -/
def base {n : Nat} (v : Variant C) (f : Field C) (mem : BitVec n) : Option (BitVec n) :=
  match f.impls.contains .woW && v.traits.contains .woReg,
    f.impls.contains .ww && v.traits.contains .rReg && v.traits.contains .wReg with
  | true, false => some (BitVec.ofNat n v.reset)
  | false, true => some mem
  | _, _ => none

/-- A field token updates the register with `body`, which is a method for fields of one bit or for others. -/
def fieldUpdate {n : Nat} (v : Variant C) (mem : BitVec n) (i : Nat) (bit : Bool) (body : Field C → Body) (arg : Arg n) :
    Option (BitVec n × List (Out n)) :=
  match v.fields[i]? with
  | none => none
  | some f =>
    if f.isBit = bit then
      match base v f mem with
      | none => none
      | some x =>
        match (body f).exec x arg with
        | .ok y _ => some (y, [])
        | _ => none
    else none

/-- Performs an operation on the register; the word afterwards and what was returned. `none` if it is rejected or
panics. -/
def exec {n : Nat} (nm : Names) (c : C) (v : Variant C) (mem : BitVec n) : Op n → Option (BitVec n × List (Out n))
  -- src/reg/mod.rs 529–547
  | .load p =>
    if v.traits.contains .rReg then (runHold nm c v mem p).map fun r => (mem, r.2) else none
  -- src/reg/mod.rs 687–696, 732–737, 699–707, 740–748
  | .store p => if v.traits.contains .wReg then runHold nm c v (BitVec.ofNat n v.reset) p else none
  -- src/reg/mod.rs 770–791, src/reg/atomic.rs 95–125, src/reg/soft_atomic.rs 92–112
  | .modify p => if v.traits.contains .rReg && v.traits.contains .wReg then runHold nm c v mem p else none
  -- src/reg/mod.rs 719–721, 760–762
  | .reset => if v.traits.contains .wReg then some (BitVec.ofNat n v.reset, []) else none
  -- src/reg/mod.rs 714–716, 755–757
  | .storeBits x => if v.traits.contains .wReg then some (x, []) else none
  -- src/reg/field.rs 84–98, 279–296, 373–396
  | .fieldRead i =>
    match v.fields[i]? with
    | none => none
    | some f =>
      if f.impls.contains .rr then
        match (if f.isBit then Body.readBit f.offset else Body.readBits f.offset f.width).exec mem .none with
        | .ok _ o => some (mem, [o])
        | _ => none
      else none
  -- src/reg/field.rs 298–371
  | .fieldSet i => fieldUpdate v mem i true (fun f => .setBit f.offset) .none
  | .fieldClear i => fieldUpdate v mem i true (fun f => .clearBit f.offset) .none
  | .fieldToggle i => fieldUpdate v mem i true (fun f => .toggleBit f.offset) .none
  | .fieldWriteBit i b => fieldUpdate v mem i true (fun f => .writeBit f.offset) (.bit b)
  -- src/reg/field.rs 398–431
  | .fieldWriteBits i x => fieldUpdate v mem i false (fun f => .writeBits f.offset f.width) (.bits x)

/-- A sequence of operations. -/
def execAll {n : Nat} (nm : Names) (c : C) (v : Variant C) : BitVec n → List (Op n) → Option (BitVec n × List (List (Out n)))
  | mem, [] => some (mem, [])
  | mem, op :: ops =>
    match exec nm c v mem op with
    | none => none
    | some (mem, o) =>
      match execAll nm c v mem ops with
      | none => none
      | some (mem, os) => some (mem, o :: os)

end Verif.Regs.Def
