import Verif.Gram.Model
import Verif.CfgCond.Spec
/-!
# How the inputs of the register macros are written

For each kind of declaration, the texts that stand for it.
-/
namespace Verif.Gram
open Verif.CfgCond

/-- Texts one after the other. -/
def Cat {α : Type} (R : α → List Tok → Prop) : List α → List Tok → Prop
  | [], ts => ts = []
  | a :: l, ts => ∃ f r, ts = f ++ r ∧ R a f ∧ Cat R l r

/-- Texts with separators between them, and possibly one at the end. -/
def Sep {α : Type} (sep : String) (R : α → List Tok → Prop) : List α → List Tok → Prop
  | [], ts => ts = []
  | [a], ts => R a ts ∨ ∃ f, R a f ∧ ts = f ++ [.punct sep]
  | a :: b :: l, ts => ∃ f r, ts = f ++ .punct sep :: r ∧ R a f ∧ Sep sep R (b :: l) r

def attrTokens (as : List (List Tok)) : List Tok := as.flatMap fun b => [.punct "#", .bracket b]

def visTokens : Option String → List Tok
  | none => []
  | some v => [.vis v]

def idents (l : List String) : List Tok := l.map .ident

/-! ## Conditions -/

def litTokens (k : Lit) : List Tok := [.ident k.1, .punct "=", .str k.2]

/-- `#[cfg(…)]`. -/
def cfgTokens (b : List Tok) : List Tok := [.punct "#", .bracket [.ident "cfg", .paren b]]

/-- The predicate written in an attribute, or no attribute. `any` is no key of a literal. -/
inductive CfgText : Option (Pred Lit) → List Tok → Prop
  | none : CfgText none []
  | lit (k : Lit) : k.1 ≠ "any" → CfgText (some (.lit k)) (cfgTokens (litTokens k))
  | any (l : List Lit) (b : List Tok) : Sep "," (fun k ts => ts = litTokens k) l b →
      CfgText (some (.any (l.map .lit))) (cfgTokens [.ident "any", .paren b])

/-- What is written is compiled. -/
def included (σ : Lit → Bool) : Option (Pred Lit) → Bool
  | none => true
  | some p => p.eval σ

/-- The condition that the macros take from an attribute: the literals of the predicate. -/
inductive CondText : Cond Lit → List Tok → Prop
  | none : CondText ⟨[], false⟩ []
  | lit (k : Lit) : k.1 ≠ "any" → CondText ⟨[[k]], false⟩ (cfgTokens (litTokens k))
  | any (l : List Lit) (b : List Tok) : Sep "," (fun k ts => ts = litTokens k) l b →
      CondText ⟨if l = [] then [] else [l], false⟩ (cfgTokens [.ident "any", .paren b])

/-! ## `periph::singular!` -/

/-- `#[cfg(…)] name;`. -/
def GFieldText (x : GField) (ts : List Tok) : Prop := ∃ c, CondText x.feat c ∧ ts = c ++ [.ident x.ident, .punct ";"]

/-- `#[cfg(…)] name;` or `#[cfg(…)] name { fields }`. -/
def GRegText (x : GReg) (ts : List Tok) : Prop := ∃ c, CondText x.feat c ∧
  (x.fields = [] ∧ ts = c ++ [.ident x.ident, .punct ";"] ∨ ∃ b, Cat GFieldText x.fields b ∧ ts = c ++ [.ident x.ident, .brace b])

def GBlockText (x : GBlock) (ts : List Tok) : Prop := ∃ b, Cat GRegText x.regs b ∧ ts = [.ident x.ident, .brace b]

/-- `crate;` or `crate path;`. -/
def crateTokens : Option String → List Tok
  | none => [.punct "crate", .punct ";"]
  | some p => [.punct "crate", .path p, .punct ";"]

/-- `pub macro name; pub struct name;` with attributes. -/
def headTokens (as : List (List Tok)) (m : String) (as' : List (List Tok)) (s : String) : List Tok :=
  attrTokens as ++ [.vis "pub", .punct "macro", .ident m, .punct ";"] ++ attrTokens as' ++ [.vis "pub", .punct "struct", .ident s, .punct ";"]

def SingularText (x : GInput) (ts : List Tok) : Prop := "periph_".toList <+: x.macroIdent.toList ∧ ∃ b, Cat GBlockText x.blocks b ∧
  ts = headTokens x.macroAttrs x.macroIdent x.structAttrs x.structIdent ++ [.path x.root, .punct ";"] ++ crateTokens x.macroRoot ++ b

/-! ## `periph!` -/

/-- `#[cfg(…)] name { traits }`. -/
def PFieldText (x : PField) (ts : List Tok) : Prop := ∃ c, CondText x.feat c ∧ ts = c ++ [.ident x.ident, .brace (idents x.traits)]

def atTokens : Option String → List Tok
  | none => []
  | some i => [.punct "@", .ident i]

/-- `@name size traits; fields`. -/
def PVarText (x : PVar) (ts : List Tok) : Prop := x.size < 256 ∧ ∃ b, Cat PFieldText x.fields b ∧
  ts = atTokens x.ident ++ .int x.size :: idents x.traits ++ .punct ";" :: b

/-- One variant without a name, or any positive number with names. -/
def PRegText (x : PReg) (ts : List Tok) : Prop := ∃ c b, CondText x.feat c ∧ x.vars ≠ [] ∧ (x.vars.length = 1 ∨ ∀ v ∈ x.vars, v.ident.isSome) ∧
  Cat PVarText x.vars b ∧ ts = c ++ [.ident x.ident, .brace b]

def PBlockText (x : PBlock) (ts : List Tok) : Prop := ∃ b, Cat PRegText x.regs b ∧ ts = [.ident x.ident, .brace b]

def PeriphText (x : PInput) (ts : List Tok) : Prop := ∃ b, Cat PBlockText x.blocks b ∧
  ts = attrTokens x.traitAttrs ++ [.vis "pub", .punct "trait", .ident x.traitIdent, .brace (x.items.map .item)] ++ attrTokens x.structAttrs ++
    [.vis "pub", .punct "struct", .ident x.structIdent, .punct ";"] ++ b

/-! ## `periph::map!` -/

/-- `#[cfg(…)] name {}` or `#[cfg(…)] name { path traits }`. -/
def MFieldText (x : MField) (ts : List Tok) : Prop := ∃ c, CondText x.feat c ∧
  match x.path with
  | none => x.traits = [] ∧ ts = c ++ [.ident x.ident, .brace []]
  | some p => ts = c ++ [.ident x.ident, .brace (.ident p :: idents x.traits)]

def srcTokens : Option (String × String) → List Tok
  | none => []
  | some (a, b) => [.paren [.ident a, .ident b]]

/-- `@name` or `@name path (block reg) traits; fields`. -/
def MVarText (x : MVar) (ts : List Tok) : Prop :=
  match x.path with
  | none => x.src = none ∧ x.traits = [] ∧ x.fields = [] ∧ ts = atTokens x.ident
  | some p => ∃ b, Cat MFieldText x.fields b ∧ ts = atTokens x.ident ++ .ident p :: srcTokens x.src ++ idents x.traits ++ .punct ";" :: b

/-- An empty group stands for one variant without anything. -/
def MRegText (x : MReg) (ts : List Tok) : Prop := ∃ c b, CondText x.feat c ∧ x.vars ≠ [] ∧ (x.vars.length = 1 ∨ ∀ v ∈ x.vars, v.ident.isSome) ∧
  Cat MVarText x.vars b ∧ ts = c ++ [.ident x.ident, .brace b]

def pathTokens : Option String → List Tok
  | none => []
  | some p => [.ident p, .punct ";"]

def MBlockText (x : MBlock) (ts : List Tok) : Prop := ∃ b, Cat MRegText x.regs b ∧ ts = [.ident x.ident, .brace (pathTokens x.path ++ b)]

def MapText (x : MInput) (ts : List Tok) : Prop := "periph_".toList <+: x.macroIdent.toList ∧ ∃ b, Cat MBlockText x.blocks b ∧
  ts = headTokens x.macroAttrs x.macroIdent x.structAttrs x.structIdent ++
    [.punct "impl", .ident x.traitIdent, .punct "for", .ident x.structIdent, .brace (x.items.map .item), .path x.root, .punct ";"] ++
    crateTokens x.macroRoot ++ b

/-! ## `reg::tokens!` -/

def skipTokens : Bool → List Tok
  | true => [.punct "!"]
  | false => []

def tRegTokens (x : TReg) : List Tok := attrTokens x.attrs ++ skipTokens x.skip ++ [.ident x.ident, .punct ";"]

def tBlockTokens (x : TBlock) : List Tok :=
  attrTokens x.attrs ++ visTokens x.vis ++ .punct "mod" :: skipTokens x.skip ++ [.ident x.ident, .brace (x.regs.flatMap tRegTokens)]

def useTokens : Option String → List Tok
  | none => []
  | some p => [.punct "use", .punct "macro", .path p, .punct ";"]

/-- There is one text for each declaration. -/
def tInputTokens (x : TInput) : List Tok :=
  attrTokens x.attrs ++ visTokens x.vis ++ [.punct "macro", .ident x.next, .punct ";"] ++ useTokens x.prev ++ [.path x.root, .punct ";"] ++
    crateTokens x.macroRoot ++ x.blocks.flatMap tBlockTokens

/-! ## `reg!` -/

def keyTokens (k : String) : List Tok := [.ident k, .punct "=>"]

def FEntryText : FEntry → List Tok → Prop
  | .offset n, ts => ts = keyTokens "offset" ++ [.int n]
  | .width n, ts => ts = keyTokens "width" ++ [.int n]
  | .traits l, ts => ts = keyTokens "traits" ++ [.brace (idents l)]

/-- `name => { offset => 0; width => 1; traits => { … } }`, in any order, `traits` any number of times. -/
def RFieldText (x : RField) (ts : List Tok) : Prop := ∃ es b, Sep ";" FEntryText es b ∧ es.filterMap FEntry.offset? = [x.offset] ∧
  es.filterMap FEntry.width? = [x.width] ∧ es.flatMap FEntry.traits? = x.traits ∧ ts = attrTokens x.attrs ++ keyTokens x.ident ++ [.brace b]

def REntryText : REntry → List Tok → Prop
  | .address n, ts => ts = keyTokens "address" ++ [.int n]
  | .size n, ts => n < 256 ∧ ts = keyTokens "size" ++ [.int n]
  | .reset n, ts => ts = keyTokens "reset" ++ [.int n]
  | .traits l, ts => ts = keyTokens "traits" ++ [.brace (idents l)]
  | .fields l, ts => ∃ b, Sep ";" RFieldText l b ∧ ts = keyTokens "fields" ++ [.brace b]

def RVarText (x : RVar) (ts : List Tok) : Prop := ∃ es b, Sep ";" REntryText es b ∧ es.filterMap REntry.address? = [x.address] ∧
  es.filterMap REntry.size? = [x.size] ∧ es.filterMap REntry.reset? = [x.reset] ∧ es.flatMap REntry.traits? = x.traits ∧
  es.flatMap REntry.fields? = x.fields ∧ ts = attrTokens x.attrs ++ visTokens x.vis ++ .ident x.block :: keyTokens x.ident ++ [.brace b]

/-! ## Tokens -/

def sHead (as : List (List Tok)) (v : Option String) (i : String) : List Tok := attrTokens as ++ visTokens v ++ [.punct "struct", .ident i]

def SimpleTokenText (x : SToken) (ts : List Tok) : Prop := ts = sHead x.attrs x.vis x.ident ∨ ts = sHead x.attrs x.vis x.ident ++ [.punct ";"]

/-- `struct Name { ATokens, BToken }`: the names without the suffix. -/
def SimpleTokensText (x : STokens) (ts : List Tok) : Prop :=
  ∃ b, Sep "," (fun n t => t = [.ident (n ++ "Token")]) x.tokens b ∧ ts = sHead x.attrs x.vis x.ident ++ [.brace b]

def stTokens (x : StToken) : List Tok := attrTokens x.attrs ++ [.ident x.ident, .punct ":", .ty x.ty]

def StaticTokensText (x : StTokens) (ts : List Tok) : Prop :=
  ∃ b, Sep "," (fun n t => t = stTokens n) x.tokens b ∧ ts = sHead x.attrs x.vis x.ident ++ [.brace b]

end Verif.Gram
