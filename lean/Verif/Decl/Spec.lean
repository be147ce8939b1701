import Verif.Decl.Model
/-! # How declarations are written -/
namespace Verif.Decl

/-- Elements with semicolons between them; the last one may have a semicolon too. -/
def Listing : List (List Tok) → List Tok → Prop
  | [], ts => ts = []
  | [x], ts => ts = x ∨ ts = x ++ [.semi]
  | x :: y :: l, ts => ∃ r, ts = x ++ .semi :: r ∧ Listing (y :: l) r

/-- `#[attr] pub name`. -/
def nameTokens (h : Head) : List Tok := (match h.vis with | none => [] | some v => [.vis v]) ++ [.ident h.ident]

def threadTokens (h : Head) : List Tok := h.attrs.map .attr ++ nameTokens h

/-- `#[attr] pub name: Type = init`. -/
def fieldTokens (f : Field) : List Tok := threadTokens ⟨f.attrs, f.vis, f.ident⟩ ++ [.colon, .ty f.ty, .eq, .expr f.init]

/-- `#[attr] key => value`. -/
def Spells (k : String) : Val → List Tok → Prop
  | .name s, ts => ts = [.ident k, .arrow, .ident s]
  | .int n, ts => ts = [.ident k, .arrow, .int n]
  | .bool b, ts => ts = [.ident k, .arrow, .bool b]
  | .path r, ts => ts = [.ident k, .arrow, .path r]
  | .head h, ts => ts = h.attrs.map .attr ++ [.ident k, .arrow] ++ nameTokens h
  | .block h fs, ts => ∃ b, Listing (fs.map fieldTokens) b ∧ ts = h.attrs.map .attr ++ [.ident k, .arrow] ++ nameTokens h ++ [.brace b]
  | .rawBlock h b, ts => ts = h.attrs.map .attr ++ [.ident k, .arrow] ++ nameTokens h ++ [.brace b]
  | .threads l, ts => ∃ b, Listing (l.map threadTokens) b ∧ ts = [.ident k, .arrow, .brace b]
  | .rawThreads b, ts => ts = [.ident k, .arrow, .brace b]

/-- The elements `l` spell the entries. -/
def SpellsAll : List (String × Val) → List (List Tok) → Prop
  | [], l => l = []
  | e :: es, l => ∃ x l', l = x :: l' ∧ Spells e.1 e.2 x ∧ SpellsAll es l'

/-- The entries in any order. -/
def Written (es : List (String × Val)) (ts : List Tok) : Prop := ∃ es' l, es'.Perm es ∧ SpellsAll es' l ∧ Listing l ts

def Heap.entries (i : Heap) : List (String × Val) :=
  [("layout", .name i.layout), ("metadata", .head i.metadata), ("instance", .head i.inst)] ++
    match i.trace with | none => [] | some n => [("enable_trace_stream", .int n)]

/-- `global => false` may be left out. -/
def Stream.entries (i : Stream) (explicit : Bool) : List (String × Val) :=
  [("layout", .name i.layout), ("metadata", .head i.metadata), ("instance", .head i.inst)] ++
    if i.global || explicit then [("global", .bool i.global)] else []

def optional (k : String) : Option String → List (String × Val)
  | none => []
  | some r => [(k, .path r)]

def Pool.entries (i : Pool) : List (String × Val) :=
  [("thread", .block i.thr.1 i.thr.2), ("local", .block i.local_.1 i.local_.2), ("index", .head i.index), ("threads", .threads i.threads)] ++
    optional "resume" i.resume

def Soft.entries (i : Soft) : List (String × Val) :=
  [("thread", .rawBlock i.thr.1 i.thr.2), ("local", .rawBlock i.local_.1 i.local_.2), ("index", .head i.index), ("threads", .rawThreads i.threads)] ++
    optional "resume" i.resume ++ optional "set_pending" i.setPending

/-- The pool that a `thr::soft!` declaration stands for: its fields, after a field for the priority. -/
structure Forwards (s : Soft) (p : Pool) : Prop where
  thr : p.thr.1 = s.thr.1
  fields : ∃ fs, p.thr.2 = ⟨[], none, "priority", "::drone_core::thr::PriorityState", "::drone_core::thr::PriorityState::new(0)"⟩ :: fs ∧
    Listing (fs.map fieldTokens) s.thr.2
  local_ : p.local_.1 = s.local_.1 ∧ Listing (p.local_.2.map fieldTokens) s.local_.2
  index : p.index = s.index
  threads : Listing (p.threads.map threadTokens) s.threads
  resume : p.resume = s.resume

end Verif.Decl
