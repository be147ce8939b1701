/-! # Register tokens used from several contexts

`src/reg/mod.rs`, `src/reg/field.rs`, `src/reg/atomic.rs`, `src/reg/soft_atomic.rs`,
`src/reg/tag.rs`, and the token types generated by `macros/src/reg.rs`. One memory-mapped
register, which may have several variants at the same address. A register token is the
structure of its field tokens (`macros/src/reg.rs` 380–384), so a program state is a
collection of field tokens, each held by a context; a whole register token is there if one
context holds all fields with the same tag. Operations are the type-correct ones: a consumed
or moved token must be held and not borrowed, `&mut` methods need all fields unborrowed.

Simplifications: the read or write access a register or field has (`RReg`, `WReg`, …) is not
tracked, so more operations are possible than in the code; the content is a value of type
`α`; an atomic update is one step (C04, C55); a context does nothing else during a call. -/
namespace Verif.Regs

/-- `Urt`, `Srt`, `Crt` (`src/reg/tag.rs` 34–59). -/
inductive Tag where
  | u | s | c
deriving DecidableEq

/-- A field token of variant `var` (`macros/src/reg.rs` 199–212). -/
structure Tok where
  tag : Tag
  var : Nat
  fld : Nat
deriving DecidableEq

/-- The fields of each variant. -/
abbrev Family := Nat → List Nat

/-- The fields of the token structure: a register without fields gets a public `_marker` of
type `PhantomData` (`macros/src/reg.rs` 349–355), here field 0. -/
def parts (fam : Family) (v : Nat) : List Nat := if fam v = [] then [0] else fam v

/-- An unsynchronized update in progress: the value loaded, and the closure. -/
structure Pend (α : Type) where
  ctx : Nat
  var : Nat
  old : α
  g : α → α

structure State (α : Type) where
  mem : α
  /-- tokens owned by contexts -/
  toks : List (Nat × Tok)
  /-- tokens lent to contexts by shared reference -/
  bors : List (Nat × Tok)
  pend : List (Pend α)
  /-- ghost: the closures of the finished updates, newest first -/
  log : List (α → α)

inductive Act (α : Type) where
  /-- move a token to another context -/
  | give (c d : Nat) (t : Tok)
  /-- lend a token, `&`; the borrow may be passed on by the borrower. `as_sync`
  (`src/reg/mod.rs` 457–464, `src/reg/field.rs` 66–73) is a borrow too: it lets the borrower call
  the same methods on the reference -/
  | lend (c d : Nat) (t : Tok)
  /-- a borrow ends -/
  | unlend (d : Nat) (t : Tok)
  /-- drop a token -/
  | drop (c : Nat) (t : Tok)
  /-- `Reg::into_unsync`, `into_sync`, `into_copy` -/
  | convert (c v : Nat) (src dst : Tag)
  /-- `RegField::into_copy` -/
  | fieldCopy (c : Nat) (t : Tok)
  /-- copy a `Crt` token -/
  | copy (c : Nat) (t : Tok)
  /-- `into_{variant}` -/
  | variant (c v w : Nat) (tag : Tag)
  /-- write the `_marker` of a register without fields: `Reg { _marker: PhantomData }` -/
  | forge (c v : Nat) (tag : Tag)
  /-- `WRegUnsync::store`, `reset`, … -/
  | storeUnsync (c v : Nat) (x : α)
  /-- `RwRegUnsync::modify`, up to the load -/
  | modifyBegin (c v : Nat) (g : α → α)
  /-- `RwRegUnsync::modify`, the store -/
  | modifyEnd (c : Nat)
  /-- `RwRegAtomic::modify`, `WRegAtomic::store`, `WRwRegFieldAtomic::modify`, … -/
  | atomic (c : Nat) (t : Tok) (g : α → α)
  /-- `WoWoRegField::store`, … -/
  | fieldStore (c : Nat) (t : Tok) (x : α)

variable {α : Type}

/-- The context is not inside a call. -/
def State.idle (s : State α) (c : Nat) : Bool := s.pend.all fun p => p.ctx ≠ c

/-- The context owns the token and nobody borrows it. Copies of a `Crt` token are not told
apart: another copy may be borrowed, so the second condition is left out. -/
def State.free (s : State α) (c : Nat) (t : Tok) : Bool :=
  decide ((c, t) ∈ s.toks) && (t.tag = .c || s.bors.all fun b => b.2 ≠ t)

/-- The tokens of a whole register token. -/
def wholeToks (fam : Family) (c v : Nat) (tag : Tag) : List (Nat × Tok) :=
  (parts fam v).map fun f => (c, ⟨tag, v, f⟩)

/-- The context owns a whole register token and no part of it is borrowed. -/
def State.whole (fam : Family) (s : State α) (c v : Nat) (tag : Tag) : Bool :=
  (parts fam v).all fun f => s.free c ⟨tag, v, f⟩

/-- The context owns or borrows the token. -/
def State.uses (s : State α) (c : Nat) (t : Tok) : Bool :=
  decide ((c, t) ∈ s.toks) || decide ((c, t) ∈ s.bors)

/-- Remove the tokens, each once. -/
def removeAll (l : List (Nat × Tok)) (ts : List (Nat × Tok)) : List (Nat × Tok) :=
  ts.foldl (fun l t => l.erase t) l

/-- One action; an action the type system or the context does not allow is ignored. -/
def step (fam : Family) (s : State α) : Act α → State α
  | .give c d t =>
    if s.idle c && s.free c t then { s with toks := (d, t) :: s.toks.erase (c, t) } else s
  | .lend c d t =>
    if s.idle c && s.uses c t then { s with bors := (d, t) :: s.bors } else s
  | .unlend d t => if s.idle d then { s with bors := s.bors.erase (d, t) } else s
  | .drop c t =>
    if s.idle c && s.free c t then { s with toks := s.toks.erase (c, t) } else s
  -- `src/reg/mod.rs` 434–455: `into_unsync` and `into_sync` need `T: RegOwned`
  | .convert c v src dst =>
    if s.idle c && s.whole fam c v src && (src ≠ .c || dst = .c) then
      { s with toks := wholeToks fam c v dst ++ removeAll s.toks (wholeToks fam c v src) }
    else s
  -- `src/reg/field.rs` 57–64 (`T: RegAtomic`)
  | .fieldCopy c t =>
    if s.idle c && s.free c t && t.tag ≠ .u then
      { s with toks := (c, { t with tag := .c }) :: s.toks.erase (c, t) }
    else s
  -- `#[derive(Clone, Copy)]`, `macros/src/reg.rs` 201, 381: only `Crt` is `Copy`
  | .copy c t =>
    if s.idle c && s.uses c t && t.tag = .c then { s with toks := (c, t) :: s.toks } else s
  -- `macros/src/reg.rs` 459–493
  | .variant c v w tag =>
    if s.idle c && s.whole fam c v tag then
      { s with toks := wholeToks fam c w tag ++ removeAll s.toks (wholeToks fam c v tag) }
    else s
  -- `macros/src/reg.rs` 349–355: the field is public
  | .forge c v tag =>
    if s.idle c && fam v = [] then { s with toks := (c, ⟨tag, v, 0⟩) :: s.toks } else s
  -- `src/reg/mod.rs` 682–722 (`&mut self`)
  | .storeUnsync c v x =>
    if s.idle c && s.whole fam c v .u then { s with mem := x, log := (fun _ => x) :: s.log } else s
  -- `src/reg/mod.rs` 765–791 (`&mut self`)
  | .modifyBegin c v g =>
    if s.idle c && s.whole fam c v .u then { s with pend := ⟨c, v, s.mem, g⟩ :: s.pend } else s
  | .modifyEnd c =>
    match s.pend.find? (fun p => p.ctx = c) with
    | some p =>
      { s with mem := p.g p.old, log := p.g :: s.log, pend := s.pend.filter fun q => q.ctx ≠ c }
    | none => s
  -- `src/reg/atomic.rs` 88–198, `src/reg/soft_atomic.rs` 86–185, `src/reg/mod.rs` 724–763
  | .atomic c t g =>
    if s.idle c && s.uses c t && t.tag ≠ .u then { s with mem := g s.mem, log := g :: s.log } else s
  -- `src/reg/field.rs` 247–276 (any tag, `&self`)
  | .fieldStore c t x =>
    if s.idle c && s.uses c t then { s with mem := x, log := (fun _ => x) :: s.log } else s

def run (fam : Family) (s : State α) (acts : List (Act α)) : State α := acts.foldl (step fam) s

/-- The start: the index gives context 0 the synchronized tokens of the variants `vs`
(`macros/src/reg_tokens_inner.rs` 70–78). -/
def init (fam : Family) (m : α) (vs : List Nat) : State α :=
  { mem := m, toks := vs.flatMap fun v => wholeToks fam 0 v .s, bors := [], pend := [], log := [] }

end Verif.Regs
