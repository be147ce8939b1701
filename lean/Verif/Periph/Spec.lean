import Verif.CfgCond.PropsLemmas
import Verif.Periph.Model
/-! # What is claimed about peripherals -/
namespace Verif.Periph

open CfgCond (Cond Key)

variable {K : Type}

/-- Two lists of the same length, related element by element. -/
inductive All2 {α β : Type} (R : α → β → Prop) : List α → List β → Prop
  | nil : All2 R [] []
  | cons {a b l m} : R a b → All2 R l m → All2 R (a :: l) (b :: m)

/-! ## A mapping that follows the documentation (`src/periph.rs`)

The same blocks, registers, variants and fields as in the generic peripheral, with the same
conditions and in the same order; only what is optional may be absent; what is optional and
present is marked `Option`, what is shared is marked `Shared`. -/

structure ConfField (p : PField K) (m : MField K) : Prop where
  feat : m.feat = p.feat
  ident : m.ident = p.ident
  absent : m.path = none → p.opt = true
  mark : m.opt = (p.opt && m.path.isSome)

structure ConfVar (p : PVar K) (m : MVar K) : Prop where
  ident : m.ident = p.ident
  absent : m.path = none → p.opt = true ∧ m.shared = false ∧ m.opt = false ∧ m.fields = []
  present : m.path ≠ none → m.shared = p.shared ∧ m.opt = p.opt ∧ All2 ConfField p.fields m.fields

structure ConfReg (p : PReg K) (m : MReg K) : Prop where
  feat : m.feat = p.feat
  ident : m.ident = p.ident
  vars : All2 ConfVar p.vars m.vars

structure ConfBlock (p : PBlock K) (m : MBlock K) : Prop where
  ident : m.ident = p.ident
  regs : All2 ConfReg p.regs m.regs

def Conf (ps : List (PBlock K)) (ms : List (MBlock K)) : Prop := All2 ConfBlock ps ms

/-- The variants of a register are all present or all absent. -/
def AllOrNone (ms : List (MBlock K)) : Prop :=
  ∀ b ∈ ms, ∀ r ∈ b.regs, (∀ v ∈ r.vars, v.path ≠ none) ∨ (∀ v ∈ r.vars, v.path = none)

/-- All conditions are results of `parse`. -/
def Parsed (ps : List (PBlock K)) : Prop :=
  ∀ b ∈ ps, ∀ r ∈ b.regs, (∃ l, r.feat = CfgCond.parse l) ∧
    ∀ v ∈ r.vars, ∀ f ∈ v.fields, ∃ l, f.feat = CfgCond.parse l

/-- No register, variant or field is listed twice. -/
def Distinct (ps : List (PBlock K)) : Prop :=
  (ps.map (·.ident)).Nodup ∧ ∀ b ∈ ps, (b.regs.map (·.ident)).Nodup ∧
    ∀ r ∈ b.regs, (r.vars.map (·.ident)).Nodup ∧ ∀ v ∈ r.vars, (v.fields.map (·.ident)).Nodup

/-- The configuration selects at most one of the conjunctions in the conditions of the items,
and satisfies none of them in part. This is what `transpose` needs, see C56. -/
def Clear {T : Type} (σ : K → Bool) (items : List (Cond K × T)) : Prop :=
  (∀ c t, (c, t) ∈ items → (c.toDnf.getD []).Nodup) ∧
  (∀ x y, Key items x → Key items y → x.any σ = true → y.any σ = true → x = y) ∧
  (∀ x, Key items x → x.any σ = true → x.all σ = true)

/-! ## The generated code is accepted -/

/-- The trait is compiled. -/
def Decl.on (σ : K → Bool) (d : Decl K) : Bool := d.conds.all fun c => c.active σ

/-- The implementation is compiled. -/
def Impl.on (σ : K → Bool) (i : Impl K) : Bool := i.cond.active σ

/-- The trait is implemented. -/
def Has (σ : K → Bool) (impls : List (Impl K)) (t : Tr) : Prop := ∃ i ∈ impls, i.on σ = true ∧ i.tr = t

/-- The trait is implemented, with the associated type. -/
def HasTy (σ : K → Bool) (impls : List (Impl K)) (t : Tr) (ty : Ty) : Prop :=
  ∃ i ∈ impls, i.on σ = true ∧ i.tr = t ∧ i.ty = some ty

/-- The trait that has the associated type. -/
def FTy.tr : FTy → Tr
  | .reg e => .reg e
  | .regOpt e => .regOpt e
  | .fld e f => .fld e f
  | .fldOpt e f => .fldOpt e f

/-- The implementation `i` is accepted: exactly one compiled trait has its name, everything
that trait needs is implemented, and the two associated types that must agree do. -/
def Accepted (σ : K → Bool) (decls : List (Decl K)) (impls : List (Impl K)) (i : Impl K) : Prop :=
  ∃ d, decls.filter (fun d => d.on σ && decide (d.tr = i.tr)) = [d] ∧ (∀ n ∈ d.needs, Has σ impls n) ∧
    ∀ a b, d.same = some (a, b) → ∃ ty, HasTy σ impls a ty ∧ HasTy σ impls b ty

/-- The fields of a struct that are compiled. -/
def compiled {T : Type} (σ : K → Bool) (fs : List (Cond K × T)) : List T :=
  (fs.filter fun f => f.1.active σ).map (·.2)

end Verif.Periph
