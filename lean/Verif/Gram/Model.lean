import Verif.CfgCond.Model
/-!
# Inputs of the register macros

The `Parse` implementations of `reg!`, `reg::tokens!`, `periph!`, `periph::map!`, `periph::singular!`,
`token::simple_token!`, `token::simple_tokens!` and `token::static_tokens!`, and of `CfgCond`, as functions on lists of tokens.

Simplifications: paths, types, items of traits and impls, and visibilities are one token each; the content of an attribute other than the condition of
`CfgCond` is not looked at. Groups are trees; `syn` rejects tokens that are left over in a group, and behind the whole input.
`none` is an error of `syn`. Literals are numbers and strings without suffixes.
-/
namespace Verif.Gram
open Verif.CfgCond

/-- Tokens. Keywords are among the punctuation, except for `pub`, which is a visibility. -/
inductive Tok where
  | ident (s : String)
  | int (n : Nat)
  | str (s : String)
  | path (s : String)
  | ty (s : String)
  | item (s : String)
  | vis (s : String)
  | punct (s : String)
  | brace (ts : List Tok)
  | bracket (ts : List Tok)
  | paren (ts : List Tok)

/-- `ParseStream` with the tokens that are left. -/
abbrev P (α : Type) := StateT (List Tok) Option α

/-! ## `syn` -/

def ident : P String
  | .ident s :: ts => some (s, ts)
  | _ => none

def int : P Nat
  | .int n :: ts => some (n, ts)
  | _ => none

def str : P String
  | .str s :: ts => some (s, ts)
  | _ => none

def path : P String
  | .path s :: ts => some (s, ts)
  | _ => none

def ty : P String
  | .ty s :: ts => some (s, ts)
  | _ => none

def item : P String
  | .item s :: ts => some (s, ts)
  | _ => none

/-- `input.parse::<Token![…]>()`. -/
def punct (p : String) : P Unit
  | .punct s :: ts => if s = p then some ((), ts) else none
  | _ => none

/-- `input.parse::<Token![pub]>()`. -/
def pub : P Unit
  | .vis s :: ts => if s = "pub" then some ((), ts) else none
  | _ => none

/-- `input.parse::<Visibility>()`. -/
def vis : P (Option String)
  | .vis s :: ts => some (some s, ts)
  | ts => some (none, ts)

/-- `input.peek(Token![…])`. -/
def peek (p : String) : List Tok → Bool
  | .punct s :: _ => s = p
  | _ => false

/-- `input.peek2(Token![…])`. -/
def peek2 (p : String) : List Tok → Bool
  | _ :: ts => peek p ts
  | [] => false

/-- `if input.peek(…) { … } else { … }`. -/
def ifP {α : Type} (c : List Tok → Bool) (p q : P α) : P α := fun ts => if c ts then p ts else q ts

/-- `input.parse::<Option<Token![…]>>()?.is_some()`. -/
def opt (p : String) : P Bool := ifP (peek p) (do punct p; return true) (return false)

/-- The content is used up. -/
def whole {α : Type} (p : P α) (ts : List Tok) : Option α :=
  match p ts with
  | some (a, []) => some a
  | _ => none

/-- `braced!`. -/
def braced {α : Type} (p : P α) : P α
  | .brace b :: ts => (whole p b).map fun a => (a, ts)
  | _ => none

/-- `bracketed!`. -/
def bracketed {α : Type} (p : P α) : P α
  | .bracket b :: ts => (whole p b).map fun a => (a, ts)
  | _ => none

/-- `parenthesized!`. -/
def parens {α : Type} (p : P α) : P α
  | .paren b :: ts => (whole p b).map fun a => (a, ts)
  | _ => none

/-- `while !stop { v.push(p) }`; every turn takes a token, so that the number of tokens bounds the number of turns. -/
def loop {α : Type} (stop : List Tok → Bool) (p : P α) : Nat → P (List α)
  | 0, ts => if stop ts then some ([], ts) else none
  | n + 1, ts =>
    if stop ts then some ([], ts)
    else
      match p ts with
      | none => none
      | some (a, ts) => (loop stop p n ts).map fun x => (a :: x.1, x.2)

def whileNot {α : Type} (stop : List Tok → Bool) (p : P α) : P (List α) := fun ts => loop stop p ts.length ts

/-- `while !input.is_empty() { … }`. -/
def many {α : Type} (p : P α) : P (List α) := whileNot List.isEmpty p

/-- `while !input.is_empty() { v.push(p); if !input.is_empty() { separator } }`, also `Punctuated::parse_terminated`. -/
def sepLoop {α : Type} (sep : String) (p : P α) : Nat → P (List α)
  | _, [] => some ([], [])
  | 0, _ :: _ => none
  | n + 1, ts =>
    match p ts with
    | none => none
    | some (a, []) => some ([a], [])
    | some (a, t :: ts) =>
      match punct sep (t :: ts) with
      | none => none
      | some (_, ts) => (sepLoop sep p n ts).map fun x => (a :: x.1, x.2)

def separated {α : Type} (sep : String) (p : P α) : P (List α) := fun ts => sepLoop sep p ts.length ts

/-- `Attribute::parse_outer`: the contents of the attributes. -/
def attrs : P (List (List Tok))
  | .punct "#" :: .bracket b :: ts => (attrs ts).map fun x => (b :: x.1, x.2)
  | .punct "#" :: _ => none
  | ts => some ([], ts)

/-- `parse_ident!` (macros-core/src/macros.rs 15–22). -/
def parseIdent (s : String) : P Unit := do
  let i ← ident
  if i = s then return () else failure

/-! ## `CfgCond` (macros-core/src/cfg_cond.rs 16–50) -/

abbrev Lit := String × String

/-- 30–32, 36–37. -/
def lit : P Lit := do
  let k ← ident
  punct "="
  return (k, ← str)

/-- 27–34: a literal, and the comma if there is one; without a comma, the loop ends. -/
def anyLoop : Nat → P (List Lit)
  | _, [] => some ([], [])
  | 0, _ :: _ => none
  | n + 1, ts =>
    match lit ts with
    | none => none
    | some (k, ts) =>
      if peek "," ts then
        match punct "," ts with
        | none => none
        | some (_, ts) => (anyLoop n ts).map fun x => (k :: x.1, x.2)
      else some ([k], ts)

/-- 22–41: the content of `cfg(…)`. -/
def cfgBody : P (List Lit) := do
  let i ← ident
  if i = "any" then parens fun ts => anyLoop ts.length ts
  else
    punct "="
    return [(i, ← str)]

/-- `CfgCond::parse` (17–49). -/
def cfgCond : P (Cond Lit) := do
  let lits ← ifP (peek "#") (do punct "#"; bracketed (do parseIdent "cfg"; parens cfgBody)) (return [])
  return CfgCond.parse lits

/-! ## `periph::singular!` (macros/src/periph_singular.rs) -/

/-- 31–34, 111–118. -/
structure GField where
  feat : Cond Lit
  ident : String

def gField : P GField := do
  let feat ← cfgCond
  let i ← ident
  punct ";"
  return ⟨feat, i⟩

/-- 25–29, 93–109. -/
structure GReg where
  feat : Cond Lit
  ident : String
  fields : List GField

def gReg : P GReg := do
  let feat ← cfgCond
  let i ← ident
  let fs ← ifP (peek ";") (do punct ";"; return []) (braced (many gField))
  return ⟨feat, i, fs⟩

/-- 20–23, 80–91. -/
structure GBlock where
  ident : String
  regs : List GReg

def gBlock : P GBlock := do
  let i ← ident
  let rs ← braced (many gReg)
  return ⟨i, rs⟩

/-- `crate path;` or `crate;` (57–66; periph_map.rs 80–89, reg_tokens.rs 52–60). -/
def cratePath : P (Option String) := do
  punct "crate"
  ifP (peek ";") (do punct ";"; return none) (do let p ← path; punct ";"; return some p)

/-- `input.parse::<Ident>()` with the prefix `periph_` (41–46; periph_map.rs 58–63). -/
def macroIdent : P String := do
  let i ← ident
  if "periph_".toList.isPrefixOf i.toList then return i else failure

/-- 10–18, 36–78. -/
structure GInput where
  macroAttrs : List (List Tok)
  macroIdent : String
  structAttrs : List (List Tok)
  structIdent : String
  root : String
  macroRoot : Option String
  blocks : List GBlock

def singular : P GInput := do
  let as ← attrs
  pub
  punct "macro"
  let m ← macroIdent
  punct ";"
  let as' ← attrs
  pub
  punct "struct"
  let s ← ident
  punct ";"
  let root ← path
  punct ";"
  let mr ← cratePath
  let bs ← many gBlock
  return ⟨as, m, as', s, root, mr, bs⟩

/-! ## `periph!` (macros/src/periph.rs) -/

/-- 35–39, 114–126. -/
structure PField where
  feat : Cond Lit
  ident : String
  traits : List String

def pField : P PField := do
  let feat ← cfgCond
  let i ← ident
  let ts ← braced (many ident)
  return ⟨feat, i, ts⟩

/-- 28–33. -/
structure PVar where
  ident : Option String
  size : Nat
  traits : List String
  fields : List PField

/-- `@name` (98–99; periph_map.rs 148–149). -/
def varIdent : P (Option String) := do
  if ← opt "@" then return some (← ident) else return none

/-- `LitInt::base10_parse::<u8>` (100; reg.rs 72). -/
def u8 : P Nat := do
  let n ← int
  if n < 256 then return n else failure

/-- The end of a variant (107; periph_map.rs 154). -/
def varEnd (i : Option String) (ts : List Tok) : Bool := ts.isEmpty || (i.isSome && peek "@" ts)

/-- 96–112. -/
def pVar : P PVar := do
  let i ← varIdent
  let n ← u8
  let ts ← whileNot (peek ";") ident
  punct ";"
  let fs ← whileNot (varEnd i) pField
  return ⟨i, n, ts, fs⟩

/-- 22–26, 79–94. -/
structure PReg where
  feat : Cond Lit
  ident : String
  vars : List PVar

/-- At least one variant (85–91). -/
def pReg : P PReg := do
  let feat ← cfgCond
  let i ← ident
  let vs ← braced (do let v ← pVar; let vs ← many pVar; return v :: vs)
  return ⟨feat, i, vs⟩

/-- 17–20, 66–77. -/
structure PBlock where
  ident : String
  regs : List PReg

def pBlock : P PBlock := do
  let i ← ident
  let rs ← braced (many pReg)
  return ⟨i, rs⟩

/-- 8–15, 41–64. -/
structure PInput where
  traitAttrs : List (List Tok)
  traitIdent : String
  items : List String
  structAttrs : List (List Tok)
  structIdent : String
  blocks : List PBlock

def periph : P PInput := do
  let as ← attrs
  pub
  punct "trait"
  let t ← ident
  let items ← braced (many item)
  let as' ← attrs
  pub
  punct "struct"
  let s ← ident
  punct ";"
  let bs ← many pBlock
  return ⟨as, t, items, as', s, bs⟩

/-! ## `periph::map!` (macros/src/periph_map.rs) -/

/-- 46–51. -/
structure MField where
  feat : Cond Lit
  ident : String
  path : Option String
  traits : List String

/-- 174–192. -/
def mField : P MField := do
  let feat ← cfgCond
  let i ← ident
  let (p, ts) ← braced (ifP List.isEmpty (return (none, [])) (do let p ← ident; let ts ← many ident; return (some p, ts)))
  return ⟨feat, i, p, ts⟩

/-- 37–44. -/
structure MVar where
  ident : Option String
  path : Option String
  src : Option (String × String)
  traits : List String
  fields : List MField

/-- Next is a group in parentheses. -/
def peekParen : List Tok → Bool
  | .paren _ :: _ => true
  | _ => false

/-- 146–172. `is_end` in the code says that it is not the end. -/
def mVar : P MVar := do
  let i ← varIdent
  ifP (varEnd i) (return ⟨i, none, none, [], []⟩) (do
    let p ← ident
    let src ← ifP peekParen (parens (do let a ← ident; let b ← ident; return some (a, b))) (return none)
    let ts ← whileNot (peek ";") ident
    punct ";"
    let fs ← whileNot (varEnd i) mField
    return ⟨i, some p, src, ts, fs⟩)

/-- 31–35, 129–144. -/
structure MReg where
  feat : Cond Lit
  ident : String
  vars : List MVar

def mReg : P MReg := do
  let feat ← cfgCond
  let i ← ident
  let vs ← braced (many mVar)
  return ⟨feat, i, if vs.isEmpty then [⟨none, none, none, [], []⟩] else vs⟩

/-- 25–29, 109–127. -/
structure MBlock where
  ident : String
  path : Option String
  regs : List MReg

def mBlock : P MBlock := do
  let i ← ident
  let (p, rs) ← braced (do
    let p ← ifP (peek2 ";") (do let p ← ident; punct ";"; return some p) (return none)
    let rs ← many mReg
    return (p, rs))
  return ⟨i, p, rs⟩

/-- 13–23, 53–107. -/
structure MInput where
  macroAttrs : List (List Tok)
  macroIdent : String
  structAttrs : List (List Tok)
  structIdent : String
  traitIdent : String
  items : List String
  root : String
  macroRoot : Option String
  blocks : List MBlock

def map : P MInput := do
  let as ← attrs
  pub
  punct "macro"
  let m ← macroIdent
  punct ";"
  let as' ← attrs
  pub
  punct "struct"
  let s ← ident
  punct ";"
  punct "impl"
  let t ← ident
  punct "for"
  parseIdent s
  let items ← braced (many item)
  let root ← path
  punct ";"
  let mr ← cratePath
  let bs ← many mBlock
  return ⟨as, m, as', s, t, items, root, mr, bs⟩

/-! ## `reg::tokens!` (macros/src/reg_tokens.rs) -/

/-- 27–31, 93–101. -/
structure TReg where
  attrs : List (List Tok)
  ident : String
  skip : Bool

def tReg : P TReg := do
  let as ← attrs
  let skip ← opt "!"
  let i ← ident
  punct ";"
  return ⟨as, i, skip⟩

/-- 19–25, 76–91. -/
structure TBlock where
  attrs : List (List Tok)
  vis : Option String
  ident : String
  skip : Bool
  regs : List TReg

def tBlock : P TBlock := do
  let as ← attrs
  let v ← vis
  punct "mod"
  let skip ← opt "!"
  let i ← ident
  let rs ← braced (many tReg)
  return ⟨as, v, i, skip, rs⟩

/-- 9–17, 33–74. -/
structure TInput where
  prev : Option String
  attrs : List (List Tok)
  vis : Option String
  next : String
  root : String
  macroRoot : Option String
  blocks : List TBlock

def tokens : P TInput := do
  let as ← attrs
  let v ← vis
  punct "macro"
  let next ← ident
  punct ";"
  let prev ← ifP (peek "use") (do punct "use"; punct "macro"; let p ← path; punct ";"; return some p) (return none)
  let root ← path
  punct ";"
  let mr ← cratePath
  let bs ← many tBlock
  return ⟨prev, as, v, next, root, mr, bs⟩

/-! ## `reg!` (macros/src/reg.rs) -/

/-- `parse_traits` (449–457). -/
def traits : P (List String) := braced (many ident)

/-- What a key of a field is set to. -/
inductive FEntry where
  | offset (n : Nat)
  | width (n : Nat)
  | traits (l : List String)

/-- 26–32. -/
structure RField where
  attrs : List (List Tok)
  ident : String
  offset : Nat
  width : Nat
  traits : List String

/-- 132–151: one key and its value. -/
def fEntry : P FEntry := do
  let k ← ident
  punct "=>"
  if k = "offset" then return .offset (← int)
  else if k = "width" then return .width (← int)
  else if k = "traits" then return .traits (← traits)
  else failure

def FEntry.offset? : FEntry → Option Nat
  | .offset n => some n
  | _ => none

def FEntry.width? : FEntry → Option Nat
  | .width n => some n
  | _ => none

def FEntry.traits? : FEntry → List String
  | .traits l => l
  | _ => []

/-- The value of a key that has to be there once. -/
def once {α : Type} : List α → Option α
  | [a] => some a
  | _ => none

/-- 122–163. The errors for repeated keys are raised at the end here. -/
def rField : P RField := do
  let as ← attrs
  let i ← ident
  punct "=>"
  let es ← braced (separated ";" fEntry)
  match once (es.filterMap FEntry.offset?), once (es.filterMap FEntry.width?) with
  | some o, some w => return ⟨as, i, o, w, es.flatMap FEntry.traits?⟩
  | _, _ => failure

/-- What a key of a register is set to. -/
inductive REntry where
  | address (n : Nat)
  | size (n : Nat)
  | reset (n : Nat)
  | traits (l : List String)
  | fields (l : List RField)

/-- 61–88: one key and its value; `Field::parse_list` (107–119). -/
def rEntry : P REntry := do
  let k ← ident
  punct "=>"
  if k = "address" then return .address (← int)
  else if k = "size" then return .size (← u8)
  else if k = "reset" then return .reset (← int)
  else if k = "traits" then return .traits (← traits)
  else if k = "fields" then return .fields (← braced (separated ";" rField))
  else failure

def REntry.address? : REntry → Option Nat
  | .address n => some n
  | _ => none

def REntry.size? : REntry → Option Nat
  | .size n => some n
  | _ => none

def REntry.reset? : REntry → Option Nat
  | .reset n => some n
  | _ => none

def REntry.traits? : REntry → List String
  | .traits l => l
  | _ => []

def REntry.fields? : REntry → List RField
  | .fields l => l
  | _ => []

/-- 14–24. -/
structure RVar where
  attrs : List (List Tok)
  vis : Option String
  block : String
  ident : String
  address : Nat
  size : Nat
  reset : Nat
  traits : List String
  fields : List RField

/-- 47–104. The errors for repeated keys are raised at the end here. -/
def rVar : P RVar := do
  let as ← attrs
  let v ← vis
  let b ← ident
  let i ← ident
  punct "=>"
  let es ← braced (separated ";" rEntry)
  match once (es.filterMap REntry.address?), once (es.filterMap REntry.size?), once (es.filterMap REntry.reset?) with
  | some a, some s, some r => return ⟨as, v, b, i, a, s, r, es.flatMap REntry.traits?, es.flatMap REntry.fields?⟩
  | _, _, _ => failure

/-- `Input::parse` (34–45). -/
def reg : P (List RVar) := separated ";" rVar

/-! ## Tokens (macros/src/simple_token.rs, simple_tokens.rs, static_tokens.rs) -/

/-- simple_token.rs 7–11, 13–22. -/
structure SToken where
  attrs : List (List Tok)
  vis : Option String
  ident : String
deriving Inhabited

def simpleToken : P SToken := do
  let as ← attrs
  let v ← vis
  punct "struct"
  let i ← ident
  let _ ← opt ";"
  return ⟨as, v, i⟩

/-- simple_tokens.rs 36–46: the name without the suffix `Token`. -/
def sToken : P String := do
  let n ← ident
  let l := n.toList
  if "Token".toList.isSuffixOf l then return String.ofList (l.take (l.length - "Token".length)) else failure

/-- simple_tokens.rs 10–15, 21–34. -/
structure STokens where
  attrs : List (List Tok)
  vis : Option String
  ident : String
  tokens : List String

def simpleTokens : P STokens := do
  let as ← attrs
  let v ← vis
  punct "struct"
  let i ← ident
  let ts ← braced (separated "," sToken)
  return ⟨as, v, i, ts⟩

/-- static_tokens.rs 15–19, 35–43. -/
structure StToken where
  attrs : List (List Tok)
  ident : String
  ty : String

def stToken : P StToken := do
  let as ← attrs
  let i ← ident
  punct ":"
  let t ← ty
  return ⟨as, i, t⟩

/-- static_tokens.rs 8–13, 21–33. -/
structure StTokens where
  attrs : List (List Tok)
  vis : Option String
  ident : String
  tokens : List StToken

def staticTokens : P StTokens := do
  let as ← attrs
  let v ← vis
  punct "struct"
  let i ← ident
  let ts ← braced (separated "," stToken)
  return ⟨as, v, i, ts⟩

/-- `parse_macro_input!`: the whole input. -/
def parse {α : Type} (p : P α) (ts : List Tok) : Option α := whole p ts

end Verif.Gram
