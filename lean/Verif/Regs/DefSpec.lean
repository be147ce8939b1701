import Verif.Regs.DefModel
import Verif.Bitfield.DeriveSpec
/-!
# What `reg!` is to provide

The documentation (src/reg/mod.rs 1–378) describes a register as a record of fields: `store` starts with the
reset values, `modify` with the current ones, and a field changes only if it is named.
-/
namespace Verif.Regs.Def
open Verif.Bitfield (fieldVal InRange Disjoint)
open Verif.Bitfield.Derive (Use Out Arg Record)
variable {C : Type}

/-- The method of `Hold` for a use of a field. -/
def useName {n : Nat} (nm : Names) (f : Field C) : Use n → String
  | .get => f.name nm
  | .set => "set_" ++ f.snk nm
  | .clear => "clear_" ++ f.snk nm
  | .toggle => "toggle_" ++ f.snk nm
  | .putBit _ => "write_" ++ f.snk nm
  | .put _ => "write_" ++ f.snk nm

/-- A field can be read, written. -/
def Field.reads (f : Field C) : Prop := .rr ∈ f.traits
def Field.writes (f : Field C) : Prop := .ww ∈ f.traits

/-- The field has the methods of a bit. -/
def Field.single (f : Field C) : Prop := f.width = 1 ∧ .forceBits ∉ f.traits

/-- The uses of a field. -/
def allowed {n : Nat} (f : Field C) : Use n → Prop
  | .get => f.reads
  | .put _ => f.writes ∧ ¬ f.single
  | _ => f.writes ∧ f.single

/-- A closure on the record: uses of fields, each may depend on what the former ones returned. -/
inductive Plan (n : Nat) where
  | done
  | use (i : Nat) (u : Use n) (next : Option Nat → Plan n)

/-- Runs a closure on a record. -/
def runPlan {n : Nat} (width : Nat → Nat) : Record → Plan n → Record × List (Option Nat)
  | r, .done => (r, [])
  | r, .use i u next =>
    let (r', os) := runPlan width (fun j => if j = i then u.effect (width i) (r i) else r j) (next (u.result (r i)))
    (r', u.result (r i) :: os)

/-- The closure uses only fields that exist, as they may be used. -/
def Plan.Allowed {n : Nat} (v : Variant C) : Plan n → Prop
  | .done => True
  | .use i u next => (∃ f, v.fields[i]? = some f ∧ allowed f u) ∧ ∀ o, (next o).Allowed v

/-- How the closure is written. -/
def Plan.prog {n : Nat} (nm : Names) (v : Variant C) : Plan n → Prog n
  | .done => .done
  | .use i u next =>
    match v.fields[i]? with
    | none => .done
    | some f => .call (useName nm f u) u.arg fun o => (next o.num).prog nm v

/-- A register: the numbers in its fields, and the bits outside of the fields. -/
structure Content where
  fields : Record
  rest : Nat → Bool

/-- The bit belongs to no field. -/
def Outside (v : Variant C) (k : Nat) : Prop := ∀ f ∈ v.fields, k < f.offset ∨ f.offset + f.width ≤ k

instance (v : Variant C) (k : Nat) : Decidable (Outside v k) := by unfold Outside; infer_instance

/-- The content of a word. -/
def contentOf {n : Nat} (v : Variant C) (x : BitVec n) : Content :=
  { fields := fun i => match v.fields[i]? with
      | none => 0
      | some f => fieldVal x f.offset f.width,
    rest := fun k => if Outside v k then x.getLsbD k else false }

/-- The operations on a register, as documented. -/
inductive ROp (n : Nat) where
  | load (p : Plan n)
  | store (p : Plan n)
  | modify (p : Plan n)
  | reset
  | storeBits (x : BitVec n)
  | field (i : Nat) (u : Use n)

def Variant.width (v : Variant C) (i : Nat) : Nat := match v.fields[i]? with
  | none => 0
  | some f => f.width

/-- Read-only, read-write or write-only (src/reg/mod.rs 281–284). -/
inductive Access where
  | ro | rw | wo
deriving DecidableEq

def Access.traits : Access → List RTrait
  | .ro => [.rReg, .roReg]
  | .rw => [.rReg, .wReg]
  | .wo => [.wReg, .woReg]

def Access.fieldTraits : Access → List FTrait
  | .ro => [.rr, .roR]
  | .rw => [.rr, .ww]
  | .wo => [.ww, .woW]

/-- What an operation does. -/
def specStep {n : Nat} (v : Variant C) (a : Access) (s : Content) : ROp n → Content × List (Option Nat)
  | .load p => (s, (runPlan v.width s.fields p).2)
  | .store p =>
    let z := contentOf v (BitVec.ofNat n v.reset)
    ({ z with fields := (runPlan v.width z.fields p).1 }, (runPlan v.width z.fields p).2)
  | .modify p => ({ s with fields := (runPlan v.width s.fields p).1 }, (runPlan v.width s.fields p).2)
  | .reset => (contentOf v (BitVec.ofNat n v.reset), [])
  | .storeBits x => (contentOf v x, [])
  | .field i u =>
    match u with
    | .get => (s, [some (s.fields i)])
    | u =>
      let z := if a = .wo then contentOf v (BitVec.ofNat n v.reset) else s
      ({ z with fields := fun j => if j = i then u.effect (v.width i) (z.fields i) else z.fields j }, [])

def specAll {n : Nat} (v : Variant C) (a : Access) : Content → List (ROp n) → Content × List (List (Option Nat))
  | s, [] => (s, [])
  | s, op :: ops =>
    let r := specStep v a s op
    let q := specAll v a r.1 ops
    (q.1, r.2 :: q.2)

/-- The operations of a register. -/
def ROp.Allowed {n : Nat} (v : Variant C) (a : Access) : ROp n → Prop
  | .load p => a ≠ .wo ∧ p.Allowed v
  | .store p => a ≠ .ro ∧ p.Allowed v
  | .modify p => a = .rw ∧ p.Allowed v
  | .reset => a ≠ .ro
  | .storeBits _ => a ≠ .ro
  | .field i u => ∃ f, v.fields[i]? = some f ∧ allowed f u

/-- How the operation is written. -/
def ROp.op {n : Nat} (nm : Names) (v : Variant C) : ROp n → Op n
  | .load p => .load (p.prog nm v)
  | .store p => .store (p.prog nm v)
  | .modify p => .modify (p.prog nm v)
  | .reset => .reset
  | .storeBits x => .storeBits x
  | .field i u =>
    match u with
    | .get => .fieldRead i
    | .set => .fieldSet i
    | .clear => .fieldClear i
    | .toggle => .fieldToggle i
    | .putBit b => .fieldWriteBit i b
    | .put x => .fieldWriteBits i x

/-- A declaration as in the documentation: the register is read-only, read-write or write-only; its fields have the
traits of one of the three kinds that are possible in it. -/
structure Documented (v : Variant C) (a : Access) : Prop where
  traits : v.traits = a.traits
  fields : ∀ f ∈ v.fields, ∃ b : Access, (f.traits = b.fieldTraits ∨ f.traits = b.fieldTraits ++ [.forceBits]) ∧
    (a = .rw ∨ b = a)

/-- The fields lie within the integer and share no bits. -/
structure Layout (v : Variant C) : Prop where
  range : ∀ f ∈ v.fields, InRange v.size (f.offset, f.width)
  disjoint : v.fields.Pairwise fun f g => Disjoint (f.offset, f.width) (g.offset, g.width)

/-! ### Compilation -/

/-- The names of the writing methods. -/
def writers (nm : Names) (f : Field C) : List String :=
  ["write_" ++ f.snk nm] ++
  (if f.width = 1 ∧ .forceBits ∉ f.traits then ["set_" ++ f.snk nm, "clear_" ++ f.snk nm, "toggle_" ++ f.snk nm] else [])

/-- The type name of a field: its name in camel case, with `_` if that is `Val`. -/
def typeName (nm : Names) (f : Field C) : String :=
  if nm.camel f.ident = "Val" then "Val_" else nm.camel f.ident

/-- What a declaration has to satisfy to compile. -/
structure LegalVariant (nm : Names) (c : C) (v : Variant C) : Prop where
  /-- no field is disabled -/
  on : ∀ f ∈ v.fields, f.on c = true
  /-- the type names of the fields -/
  types : (v.fields.map (typeName nm)).Nodup
  reserved : ∀ f ∈ v.fields, typeName nm f ∉ ["Bitfield", "Val", "Reg", "Hold"]
  imported : ∀ f ∈ v.fields, (∀ t ∈ v.traits, typeName nm f ≠ t.name) ∧
    ∀ g ∈ v.fields, ∀ t ∈ g.traits, t ≠ .forceBits → typeName nm f ≠ t.name
  /-- the field names -/
  names : (v.fields.map (·.name nm)).Nodup
  methods : ∀ f ∈ v.fields, ∀ g ∈ v.fields, f.reads → g.writes → f.name nm ∉ writers nm g
  /-- the traits -/
  once : v.traits.Nodup ∧ ∀ f ∈ v.fields, (f.traits.filter (· ≠ .forceBits)).Nodup
  super : (.roReg ∈ v.traits → .rReg ∈ v.traits) ∧ (.woReg ∈ v.traits → .wReg ∈ v.traits)
  fsuper : ∀ f ∈ v.fields, (.rr ∈ f.traits → .rReg ∈ v.traits) ∧ (.ww ∈ f.traits → .wReg ∈ v.traits) ∧
    (.roR ∈ f.traits → .rr ∈ f.traits) ∧ (.woW ∈ f.traits → .ww ∈ f.traits)

/-- What a call of `reg!` has to satisfy to compile. -/
structure Legal (nm : Names) (c : C) (vs : List (Variant C)) : Prop where
  names : ((vs.filter (·.on c)).map (·.full nm)).Nodup
  each : ∀ v ∈ vs, v.on c = true → literals v ∧ LegalVariant nm c v
  /-- with two or more variants, none is disabled -/
  on : 2 ≤ vs.length → ∀ v ∈ vs, v.on c = true

end Verif.Regs.Def
