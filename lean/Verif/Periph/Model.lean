import Verif.CfgCond.Model
import Verif.Macros.KeywordModel
/-! # Peripherals (`macros/src/periph.rs`, `periph_map.rs`, `periph_singular.rs`)

What the three macros generate: the struct of a peripheral, the traits a mapping has to
implement, the implementations, and the macro that moves register tokens into the struct.

Simplifications. Identifiers are given in snake case (the case conversions of the `heck`
crate are not modelled). A generated name is the list of the parts that `format_ident!` puts
together, so two names made of different parts are different here (they may be equal in the
code, for example `a_b` + `c` and `a` + `b_c`). The three tags `Urt`, `Srt`, `Crt` are
treated by the same code three times; here it is once. The marker traits of registers and
fields (`RwReg`, …) and the register size are left out, they are passed on unchanged. -/
namespace Verif.Periph

open CfgCond (Cond)

variable {K : Type}

/-! ## Input of `periph!` -/

/-- `Field` (periph.rs 35–39). `opt`: `Option` is among the traits (217–224). -/
structure PField (K : Type) where
  feat : Cond K
  ident : String
  opt : Bool

/-- `Variant` (periph.rs 28–33). `shared`, `opt`: `Shared`, `Option` are among the traits
(172–182). -/
structure PVar (K : Type) where
  ident : Option String
  shared : Bool
  opt : Bool
  fields : List (PField K)

/-- `Reg` (periph.rs 22–26). -/
structure PReg (K : Type) where
  feat : Cond K
  ident : String
  vars : List (PVar K)

/-- `Block` (periph.rs 17–20). -/
structure PBlock (K : Type) where
  ident : String
  regs : List (PReg K)

/-! ## Input of `periph::map!` -/

/-- `Field` (periph_map.rs 47–52). `path`: the name of the field of the register; `none`: the
peripheral does not have the field. -/
structure MField (K : Type) where
  feat : Cond K
  ident : String
  path : Option String
  opt : Bool

/-- `Variant` (periph_map.rs 38–45). `path`: the name of the register, `none` if absent;
`src`: the register whose token is converted (`variant` in the code). -/
structure MVar (K : Type) where
  ident : Option String
  path : Option String
  src : Option (String × String)
  shared : Bool
  opt : Bool
  fields : List (MField K)

/-- `Reg` (periph_map.rs 31–35). -/
structure MReg (K : Type) where
  feat : Cond K
  ident : String
  vars : List (MVar K)

/-- `Block` (periph_map.rs 25–29). `path`: the name of the block of registers if it is not
`ident`. -/
structure MBlock (K : Type) where
  ident : String
  path : Option String
  regs : List (MReg K)

/-! ## Generated names -/

/-- The parts of `{block}{var}`, which is `{block}{reg}` or `{block}{reg}{variant}` (periph.rs
139–149, periph_map.rs 217–227). -/
structure Ent where
  block : String
  reg : String
  var : Option String
  deriving DecidableEq, Repr

/-- Traits, with the format of their names (periph.rs 151–153, 206–208). `hal` stands for the
traits `U{}`, `S{}`, `C{}` (155–157) that the tokens implement. -/
inductive Tr where
  | periph
  | reg (e : Ent)
  | regOpt (e : Ent)
  | regExt (e : Ent)
  | fld (e : Ent) (f : String)
  | fldOpt (e : Ent) (f : String)
  | fldExt (e : Ent) (f : String)
  deriving DecidableEq, Repr

/-- Names of fields of the peripheral struct: `{block}_{var}` (periph.rs 150) and
`{block}_{var}_{field}` (204–205). -/
inductive SName where
  | reg (e : Ent)
  | fld (e : Ent) (f : String)
  deriving DecidableEq, Repr

/-- Types of fields of the peripheral struct: associated types of the mapping, `T::S{}{}` or
`T::S{}{}Opt`. -/
inductive FTy where
  | reg (e : Ent)
  | regOpt (e : Ent)
  | fld (e : Ent) (f : String)
  | fldOpt (e : Ent) (f : String)
  deriving DecidableEq, Repr

/-- Token types: `()`, `root::block::reg::Reg<Srt>`, `root::block::reg::Field<Srt>`. -/
inductive Ty where
  | unit
  | reg (block reg : String)
  | fld (block reg field : String)
  deriving DecidableEq, Repr

/-- Expressions in the generated macro: `()`, `$reg.block_reg`, `$reg.block_reg.field` and
`$reg.block_reg.into_block_reg()`. -/
inductive Expr where
  | unit
  | reg (block reg : String)
  | fld (block reg field : String)
  | conv (fromBlock fromReg block reg : String)
  deriving DecidableEq, Repr

/-- `features` of a field: `CfgCond::default()` with the clauses of the register and of the
field (periph.rs 225–227, periph_map.rs 306–308). The assertions of `add_clause` hold because
`parse` does not set `inverse`, see `both_eq`. -/
def both (r f : Cond K) : Cond K := ⟨r.clauses ++ f.clauses, false⟩

/-- A generated trait: the conditions of its attributes, its name, the traits an
implementation needs (supertraits, `where` clauses, bounds on the parameter, which is `Self`),
and two traits whose associated types must agree. -/
structure Decl (K : Type) where
  conds : List (Cond K)
  tr : Tr
  needs : List Tr
  same : Option (Tr × Tr) := none

/-- A generated `impl`: condition, trait, associated type. -/
structure Impl (K : Type) where
  cond : Cond K
  tr : Tr
  ty : Option Ty

/-! ## `periph!` -/

/-- One turn of the three nested loops (periph.rs 133–138). -/
structure PSlot (K : Type) where
  block : String
  feat : Cond K
  reg : String
  vars : List (PVar K)
  i : Nat
  var : PVar K

def PSlot.ent (s : PSlot K) : Ent := ⟨s.block, s.reg, s.var.ident⟩

/-- The three nested loops (periph.rs 133–138). -/
def pslots (bs : List (PBlock K)) : List (PSlot K) :=
  bs.flatMap fun b => b.regs.flatMap fun r => r.vars.zipIdx.map fun v => ⟨b.ident, r.feat, r.ident, r.vars, v.2, v.1⟩

/-- No `parse_error!` (periph.rs 183–191) and no panic of `unwrap` (473–475, 609–611). -/
def PSlot.ok (s : PSlot K) : Bool :=
  !(s.var.shared && s.var.opt) && !(decide (1 < s.vars.length) && s.var.shared) &&
  (!s.var.opt || s.vars.all (·.opt)) &&
  (s.var.shared || s.vars.zipIdx.all fun v => v.2 == s.i || v.1.ident.isSome)

/-- `reg_bounds` (periph.rs 258, 298, 405, 419). -/
def PSlot.bounds (s : PSlot K) : List (Cond K × Tr) :=
  s.var.fields.map fun f => (both s.feat f.feat, if f.opt then .fldOpt s.ent f.ident else .fld s.ent f.ident)

/-- The traits for a field (periph.rs 253–296, 299–369, 404–437). -/
def PSlot.fieldDecls (s : PSlot K) (f : PField K) : List (Decl K) :=
  let c := [both s.feat f.feat]
  let e := s.ent
  let n := f.ident
  if f.opt then
    if s.var.shared then
      [⟨c, .fldOpt e n, [], none⟩,
       ⟨c, .fldExt e n, [.reg e], none⟩,
       ⟨c, .fld e n, [.periph, .reg e, .fldExt e n, .fldOpt e n], some (.fldOpt e n, .fldExt e n)⟩]
    else if s.var.opt then
      [⟨c, .fldOpt e n, [.reg e, .regExt e], none⟩,
       ⟨c, .fldExt e n, [.reg e, .regExt e], none⟩,
       ⟨c, .fld e n, [.reg e, .fldExt e n, .fldOpt e n], some (.fldOpt e n, .fldExt e n)⟩]
    else
      [⟨c, .fldOpt e n, [.periph, .reg e], none⟩,
       ⟨c, .fldExt e n, [.periph, .reg e], none⟩,
       ⟨c, .fld e n, [.periph, .reg e, .fldExt e n, .fldOpt e n], some (.fldOpt e n, .fldExt e n)⟩]
  else if s.var.shared then [⟨c, .fld e n, [.reg e], none⟩]
  else if s.var.opt then [⟨c, .fld e n, [.reg e, .regExt e], none⟩]
  else [⟨c, .fld e n, [.periph, .reg e], none⟩]

/-- `transpose`; `none` (a panic) as an empty list, excluded in `pgen` and `mgen`. -/
def variants {T : Type} [DecidableEq K] (ord : List (List K × List T) → List (List K × List T))
    (items : List (Cond K × T)) : List (Cond K × List T) := (CfgCond.transpose ord items).getD []

/-- The traits for a register (periph.rs 492–515, 579–597; 599–626; 657–680). -/
def PSlot.regDecls [DecidableEq K] (ord : List (List K × List Tr) → List (List K × List Tr)) (s : PSlot K) :
    List (Decl K) :=
  let e := s.ent
  if s.var.opt then
    [⟨[s.feat], .regOpt e, [], none⟩, ⟨[s.feat], .regExt e, [.reg e], none⟩] ++
    (variants ord s.bounds).map fun v =>
      ⟨[s.feat, v.1], .reg e, [.periph, .regExt e, .regOpt e] ++ v.2, some (.regOpt e, .regExt e)⟩
  else if s.var.shared then [⟨[s.feat], .reg e, [], none⟩]
  else [⟨[s.feat], .reg e, [.periph], none⟩]

/-- The contribution to `periph_bounds` (periph.rs 468, 599, 630–631). -/
def PSlot.periphBounds (s : PSlot K) : List (Cond K × Tr) :=
  if s.var.opt then [(s.feat, .regOpt s.ent)]
  else if s.var.shared then s.bounds
  else (s.feat, .reg s.ent) :: s.bounds

/-- The contribution to `periph_fields` (periph.rs 259–263, 406–410, 499–505, 632–638). -/
def PSlot.structFields (s : PSlot K) : List (Cond K × SName × FTy) :=
  if s.var.shared then
    s.var.fields.map fun f => (both s.feat f.feat, .fld s.ent f.ident,
      if f.opt then .fldOpt s.ent f.ident else .fld s.ent f.ident)
  else if s.i = 0 then [(s.feat, .reg s.ent, if s.var.opt then .regOpt s.ent else .reg s.ent)]
  else []

/-- What `periph!` generates. -/
structure PGen (K : Type) where
  decls : List (Decl K)
  fields : List (Cond K × SName × FTy)

/-- `proc_macro` of periph.rs (115–832). `none`: an error or a panic. -/
def pgen [DecidableEq K] (ord : List (List K × List Tr) → List (List K × List Tr)) (bs : List (PBlock K)) :
    Option (PGen K) :=
  let ss := pslots bs
  if ss.all PSlot.ok && ss.all (fun s => !s.var.opt || (CfgCond.transpose ord s.bounds).isSome) &&
      (CfgCond.transpose ord (ss.flatMap PSlot.periphBounds)).isSome then
    some {
      decls :=
        (ss.flatMap fun s => s.var.fields.flatMap s.fieldDecls ++ s.regDecls ord) ++
        (variants ord (ss.flatMap PSlot.periphBounds)).map fun v => ⟨[v.1], .periph, v.2, none⟩
      fields := ss.flatMap PSlot.structFields }
  else none

/-! ## `periph::map!` -/

/-- One turn of the three nested loops (periph_map.rs 205–215). `path`: `block_path` (208). -/
structure MSlot (K : Type) where
  block : String
  path : String
  feat : Cond K
  reg : String
  vars : List (MVar K)
  i : Nat
  var : MVar K

def MSlot.ent (s : MSlot K) : Ent := ⟨s.block, s.reg, s.var.ident⟩

/-- The three nested loops (periph_map.rs 205–215). -/
def mslots (bs : List (MBlock K)) : List (MSlot K) :=
  bs.flatMap fun b => b.regs.flatMap fun r => r.vars.zipIdx.map fun v =>
    ⟨b.ident, b.path.getD b.ident, r.feat, r.ident, r.vars, v.2, v.1⟩

/-- No `parse_error!` (periph_map.rs 253–270) and no panic of `unwrap` (545–551). -/
def MSlot.ok (s : MSlot K) : Bool :=
  !(s.var.shared && s.var.opt) && !(decide (1 < s.vars.length) && s.var.shared) &&
  (!s.var.opt || s.vars.all fun v => v.path.isNone || v.opt) &&
  (s.var.path.isNone || s.var.shared ||
    s.vars.zipIdx.all fun v => v.2 == s.i || (v.1.ident.isSome && v.1.path.isSome))

/-- `reg_root::Reg` (periph_map.rs 271). -/
def MSlot.regTy (s : MSlot K) : Ty := .reg s.path (s.var.path.getD "")

/-- The implementations for a field (periph_map.rs 311–330, 354–384, 390–419). -/
def MSlot.fieldImpls (s : MSlot K) (f : MField K) : List (Impl K) :=
  let c := both s.feat f.feat
  match f.path with
  | none => [⟨c, .fldOpt s.ent f.ident, some .unit⟩]
  | some p =>
    let t := Ty.fld s.path (s.var.path.getD "") p
    if f.opt then
      [⟨c, .fldOpt s.ent f.ident, some t⟩, ⟨c, .fldExt s.ent f.ident, some t⟩, ⟨c, .fld s.ent f.ident, none⟩]
    else [⟨c, .fld s.ent f.ident, some t⟩]

/-- The implementations for a register (periph_map.rs 466–474; 478–489; 491–525). -/
def MSlot.regImpls (s : MSlot K) : List (Impl K) :=
  if s.var.path.isNone then [⟨s.feat, .regOpt s.ent, some .unit⟩]
  else if s.var.shared then
    if s.var.fields.any (·.path.isSome) then [⟨s.feat, .reg s.ent, some s.regTy⟩] else []
  else if s.var.opt then
    [⟨s.feat, .regOpt s.ent, some s.regTy⟩, ⟨s.feat, .regExt s.ent, some s.regTy⟩, ⟨s.feat, .reg s.ent, none⟩]
  else [⟨s.feat, .reg s.ent, some s.regTy⟩]

/-- The contribution to `macro_tokens` (periph_map.rs 320, 386–388, 475–477, 638–655). -/
def MSlot.items (s : MSlot K) : List (Cond K × SName × Expr) :=
  (if s.var.shared then
    s.var.fields.map fun f => (both s.feat f.feat, .fld s.ent f.ident,
      match f.path with
      | none => .unit
      | some p => .fld s.path (s.var.path.getD "") p)
   else []) ++
  (if !s.var.shared && s.i == 0 then
    [(s.feat, .reg s.ent,
      if s.var.path.isNone then .unit
      else match s.var.src with
        | none => .reg s.path (s.var.path.getD "")
        | some (b, r) => .conv b r s.path (s.var.path.getD ""))]
   else [])

/-- What `periph::map!` generates: the implementations (the one of the peripheral trait is
first, 681–683) and the variants of the macro (660–676), each with a list of `field: value`. -/
structure MGen (K : Type) where
  impls : List (Impl K)
  macros : List (Cond K × List (SName × Expr))

/-- `proc_macro` of periph_map.rs (186–688). `none`: an error or a panic. -/
def mgen [DecidableEq K]
    (ord : List (List K × List (SName × Expr)) → List (List K × List (SName × Expr))) (bs : List (MBlock K)) :
    Option (MGen K) :=
  let ss := mslots bs
  if ss.all MSlot.ok && (CfgCond.transpose ord (ss.flatMap MSlot.items)).isSome then
    some {
      impls := ⟨⟨[], false⟩, .periph, none⟩ :: ss.flatMap fun s => s.var.fields.flatMap s.fieldImpls ++ s.regImpls
      macros := variants ord (ss.flatMap MSlot.items) }
  else none

/-! ## The registers -/

/-- The type of an expression in the macro, where `$reg` is the index of all register tokens
(`reg_tokens.rs`, `reg.rs`): a field `{block}_{reg}` of type `block::reg::Reg<Srt>`, with its
fields, and the methods `into_{block}_{reg}` (reg.rs 471–491). -/
def Expr.ty : Expr → Ty
  | .unit => .unit
  | .reg b r => .reg b r
  | .fld b r f => .fld b r f
  | .conv _ _ b r => .reg b r

/-! ## `periph::singular!` -/

/-- `Field` (periph_singular.rs 30–33). -/
structure GField (K : Type) where
  feat : Cond K
  ident : String

/-- `Reg` (periph_singular.rs 24–28). -/
structure GReg (K : Type) where
  feat : Cond K
  ident : String
  fields : List (GField K)

/-- `Block` (periph_singular.rs 19–22). -/
structure GBlock (K : Type) where
  ident : String
  regs : List (GReg K)

/-- `periph_tokens` (periph_singular.rs 143–149, 163–169). -/
def gfields (bs : List (GBlock K)) : List (Cond K × SName × Ty) :=
  bs.flatMap fun b => b.regs.flatMap fun r =>
    if r.fields.isEmpty then [(r.feat, .reg ⟨b.ident, r.ident, none⟩, .reg b.ident r.ident)]
    else r.fields.map fun f =>
      (both r.feat f.feat, .fld ⟨b.ident, r.ident, none⟩ f.ident, .fld b.ident r.ident f.ident)

/-- `macro_tokens` (periph_singular.rs 150–151, 170–173). -/
def gitems (bs : List (GBlock K)) : List (Cond K × SName × Expr) :=
  bs.flatMap fun b => b.regs.flatMap fun r =>
    if r.fields.isEmpty then [(r.feat, .reg ⟨b.ident, r.ident, none⟩, .reg b.ident r.ident)]
    else r.fields.map fun f =>
      (both r.feat f.feat, .fld ⟨b.ident, r.ident, none⟩ f.ident, .fld b.ident r.ident f.ident)

/-- `proc_macro` of periph_singular.rs (121–203): the struct and the variants of the macro. -/
def ggen [DecidableEq K]
    (ord : List (List K × List (SName × Expr)) → List (List K × List (SName × Expr))) (bs : List (GBlock K)) :
    Option (List (Cond K × SName × Ty) × List (Cond K × List (SName × Expr))) :=
  (CfgCond.transpose ord (gitems bs)).map fun v => (gfields bs, v)

/-! ## Fields of a register mapping -/

/-- Names of struct fields: given by the user or `_marker`. -/
inductive FName where
  | name (s : String)
  | marker
  deriving DecidableEq, Repr

/-- The fields of `U{}{}Fields` (periph.rs 370–386, 438–450, 537–570), compiled in `σ` (the
attributes are those of the field alone). Only for registers that are not shared. -/
def mapFields (on : Cond K → Bool) (fs : List (PField K)) : List FName :=
  if fs.isEmpty then [.marker] else (fs.filter fun f => on f.feat).map fun f => .name (Macros.unkeywordize f.ident)

/-- The fields of the register struct (reg.rs 350–356). -/
def regFields (fs : List String) : List FName :=
  if fs.isEmpty then [.marker] else fs.map fun f => .name (Macros.unkeywordize f)

/-- `fields_tokens` with the marker (periph_map.rs 346–349, 440–443, 450–462): the name of the
field, and the variable bound to it (`none`: the pattern `()`, or no binding). -/
def fieldsTokens (on : Cond K → Bool) (fs : List (MField K)) : List (FName × Option FName) :=
  ((fs.filter fun f => on f.feat).map fun f =>
    (.name (Macros.unkeywordize f.ident), f.path.map fun p => .name (Macros.unkeywordize p))) ++
  if fs.any (·.path.isSome) then [] else [(.marker, none)]

/-- `reg_fields_tokens` with the marker (periph_map.rs 444–447, 450–462). -/
def regFieldsTokens (on : Cond K → Bool) (fs : List (MField K)) : List FName :=
  if fs.any (·.path.isSome) then
    (fs.filter fun f => on f.feat).filterMap fun f => f.path.map fun p => .name (Macros.unkeywordize p)
  else [.marker]

/-- A struct value: its fields in order. `V`: tokens; `none`: `()` or a marker. -/
abbrev Rec (V : Type) := List (FName × Option V)

/-- The value of a variable. -/
def lookup {V : Type} (env : List (FName × Option V)) (n : FName) : Option (Option V) :=
  (env.find? fun b => b.1 = n).map (·.2)

/-- The pattern names each field of the struct exactly once, and the variables are distinct. -/
def patOk (pat : List FName) (vars : List FName) (fields : List FName) : Bool :=
  pat.all (· ∈ fields) && fields.all (· ∈ pat) && decide pat.Nodup && decide vars.Nodup

/-- `from_fields` (periph_map.rs 567–572) for a struct of fields `ufs` and a register struct of
fields `rfs`. `none`: the code is rejected by the compiler. -/
def fromFields {V : Type} (toks : List (FName × Option FName)) (rtoks : List FName) (ufs rfs : List FName)
    (m : Rec V) : Option (Rec V) :=
  let env := toks.filterMap fun t => t.2.map fun v => (v, (lookup m t.1).getD none)
  if patOk (toks.map (·.1)) (toks.filterMap (·.2)) ufs && patOk rtoks [] rfs &&
      rtoks.all (fun r => r = .marker || (lookup env r).isSome) then
    some (rfs.map fun r => (r, (lookup env r).getD none))
  else none

/-- `into_fields` (periph_map.rs 573–579). -/
def intoFields {V : Type} (toks : List (FName × Option FName)) (rtoks : List FName) (ufs rfs : List FName)
    (r : Rec V) : Option (Rec V) :=
  let env := rtoks.filterMap fun v => (lookup r v).map fun x => (v, x)
  if patOk rtoks rtoks rfs && patOk (toks.map (·.1)) [] ufs &&
      toks.all (fun t => match t.2 with | none => true | some v => (lookup env v).isSome) then
    some (ufs.map fun u => (u, match toks.find? (fun t => t.1 = u) with
      | some (_, some v) => (lookup env v).getD none
      | _ => none))
  else none

/-- The accessor of a field (periph_map.rs 331–345, 420–439): the field of the register it
refers to, `none` for `&()`. -/
def accessor (f : MField K) : Option FName := f.path.map fun p => .name (Macros.unkeywordize p)

/-! ## Conversion of variants -/

/-- The method called by `into_{variant}` (periph_map.rs 554–556): `into_{}_{}` of the block and
the register, both passed through `unkeywordize`. -/
def calledConv (block reg : String) : String :=
  "into_" ++ Macros.unkeywordize block ++ "_" ++ Macros.unkeywordize reg

/-- The method called in the macro for a converted token (periph_map.rs 645–647). -/
def macroConv (block reg : String) : String := "into_" ++ block ++ "_" ++ reg

/-- The method defined by `reg!` (reg.rs 471–475). -/
def definedConv (block reg : String) : String := "into_" ++ block ++ "_" ++ reg

end Verif.Periph
