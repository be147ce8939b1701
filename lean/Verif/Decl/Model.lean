/-!
# Model of the parsers of `heap!`, `stream!`, `thr::pool!` and `thr::soft!`

`macros/src/heap.rs`, `macros/src/stream.rs`, `macros/src/thr_pool.rs`, `macros/src/thr_soft.rs`: the functions `parse`, and what
`thr::soft!` passes on to `thr::pool!`.

Simplifications: an attribute, a visibility, a type, an expression, a path (with what `syn` parses for them) is one token; a missing
visibility is no token. An error is `none`. The four functions `Input::parse` have the same form; they are one function here,
with a table of keys. Loops have fuel, the number of tokens, which is enough because each round consumes tokens.
-/
namespace Verif.Decl

inductive Tok where
  | attr (s : String) | vis (s : String) | ident (s : String)
  | arrow | semi | colon | eq
  | int (n : Nat) | bool (b : Bool) | ty (s : String) | expr (s : String) | path (s : String)
  | brace (ts : List Tok)

/-- A parser: a value and the remaining tokens. -/
abbrev P (α : Type) := List Tok → Option (α × List Tok)

/-- `Metadata`, `Instance` (heap.rs 18–28, stream.rs 16–26), `Index` (thr_pool.rs 40–44), `Thread` (50–54), and what `Thr` and `Local`
start with. -/
structure Head where
  attrs : List String
  vis : Option String
  ident : String
deriving DecidableEq

/-- `Field` (thr_pool.rs 32–38). -/
structure Field where
  attrs : List String
  vis : Option String
  ident : String
  ty : String
  init : String
deriving DecidableEq

/-- The values of keys. -/
inductive Val where
  | name (s : String) | head (h : Head) | int (n : Nat) | bool (b : Bool) | path (s : String)
  /-- `Thr`, `Local` (thr_pool.rs 18–30), `Threads` (46–48) -/
  | block (h : Head) (fields : List Field) | threads (ts : List Head)
  /-- the same in thr_soft.rs (16–38) -/
  | rawBlock (h : Head) (ts : List Tok) | rawThreads (ts : List Tok)

/-- `Attribute::parse_outer`. -/
def attrs : List Tok → List String × List Tok
  | .attr a :: ts => (a :: (attrs ts).1, (attrs ts).2)
  | ts => ([], ts)

/-- `Visibility::parse`. -/
def vis : List Tok → Option String × List Tok
  | .vis v :: ts => (some v, ts)
  | ts => (none, ts)

def ident : P String
  | .ident s :: ts => some (s, ts)
  | _ => none

def int : P Nat
  | .int n :: ts => some (n, ts)
  | _ => none

def bool : P Bool
  | .bool b :: ts => some (b, ts)
  | _ => none

def ty : P String
  | .ty s :: ts => some (s, ts)
  | _ => none

def expr : P String
  | .expr s :: ts => some (s, ts)
  | _ => none

def path : P String
  | .path s :: ts => some (s, ts)
  | _ => none

def arrow : P Unit
  | .arrow :: ts => some ((), ts)
  | _ => none

def semi : P Unit
  | .semi :: ts => some ((), ts)
  | _ => none

def colon : P Unit
  | .colon :: ts => some ((), ts)
  | _ => none

def eq : P Unit
  | .eq :: ts => some ((), ts)
  | _ => none

/-- `braced!`; the content has to be consumed. -/
def braced {α : Type} (p : List Tok → Option α) : P α
  | .brace b :: ts => (p b).map fun a => (a, ts)
  | _ => none

/-- `Metadata::parse`, `Instance::parse`, `Index::parse` (heap.rs 80–94, stream.rs 78–92, thr_pool.rs 161–167, thr_soft.rs 128–134). -/
def head (as : List String) : P Head := fun ts =>
  let (v, ts) := vis ts
  match ident ts with
  | none => none
  | some (i, ts) => some (⟨as, v, i⟩, ts)

/-- `Field::parse` (thr_pool.rs 148–159). -/
def field : P Field := fun ts =>
  let (as, ts) := attrs ts
  match head as ts with
  | none => none
  | some (h, ts) =>
    match colon ts with
    | none => none
    | some (_, ts) =>
      match ty ts with
      | none => none
      | some (t, ts) =>
        match eq ts with
        | none => none
        | some (_, ts) =>
          match expr ts with
          | none => none
          | some (e, ts) => some (⟨h.attrs, h.vis, h.ident, t, e⟩, ts)

/-- A thread in `Threads::parse` (thr_pool.rs 175–178). -/
def thread : P Head := fun ts => head (attrs ts).1 (attrs ts).2

/-- The loops of `Thr::parse` (thr_pool.rs 121–126), `Local::parse` (138–143) and `Threads::parse` (174–182). -/
def many {α : Type} (p : P α) : Nat → List Tok → Option (List α)
  | _, [] => some []
  | 0, _ :: _ => none
  | n + 1, ts =>
    match p ts with
    | none => none
    | some (a, []) => some [a]
    | some (a, t :: ts) =>
      match semi (t :: ts) with
      | none => none
      | some (_, ts) => (many p n ts).map (a :: ·)

/-- `Thr::parse`, `Local::parse` (thr_pool.rs 114–146). -/
def block (as : List String) : P Val := fun ts =>
  match head as ts with
  | none => none
  | some (h, ts) => (braced (fun b => many field b.length b) ts).map fun x => (.block h x.1, x.2)

/-- `Thr::parse`, `Local::parse` (thr_soft.rs 106–126). -/
def rawBlock (as : List String) : P Val := fun ts =>
  match head as ts with
  | none => none
  | some (h, ts) => (braced some ts).map fun x => (.rawBlock h x.1, x.2)

/-- `Threads::parse` (thr_pool.rs 169–185). -/
def threads : P Val := fun ts => (braced (fun b => many thread b.length b) ts).map fun x => (.threads x.1, x.2)

/-- `Threads::parse` (thr_soft.rs 136–143). -/
def rawThreads : P Val := fun ts => (braced some ts).map fun x => (.rawThreads x.1, x.2)

/-- A key: whether it may have attributes, and the parser of its value, which gets the attributes. -/
structure Key where
  name : String
  attrs : Bool
  parse : List String → P Val

def plain {α : Type} (f : α → Val) (p : P α) : List String → P Val := fun _ ts => (p ts).map fun x => (f x.1, x.2)

def heads : List String → P Val := fun as ts => (head as ts).map fun x => (.head x.1, x.2)

/-- heap.rs 40–66. -/
def heapKeys : List Key :=
  [⟨"layout", false, plain .name ident⟩, ⟨"metadata", true, heads⟩, ⟨"instance", true, heads⟩, ⟨"enable_trace_stream", false, plain .int int⟩]

/-- stream.rs 38–64. -/
def streamKeys : List Key :=
  [⟨"layout", false, plain .name ident⟩, ⟨"metadata", true, heads⟩, ⟨"instance", true, heads⟩, ⟨"global", false, plain .bool bool⟩]

/-- thr_pool.rs 67–99. -/
def poolKeys : List Key :=
  [⟨"thread", true, block⟩, ⟨"local", true, block⟩, ⟨"index", true, heads⟩, ⟨"threads", false, fun _ => threads⟩,
    ⟨"resume", false, plain .path path⟩]

/-- thr_soft.rs 52–90. -/
def softKeys : List Key :=
  [⟨"thread", true, rawBlock⟩, ⟨"local", true, rawBlock⟩, ⟨"index", true, heads⟩, ⟨"threads", false, fun _ => rawThreads⟩,
    ⟨"resume", false, plain .path path⟩, ⟨"set_pending", false, plain .path path⟩]

/-- One round of the loop of `Input::parse` without the semicolon: heap.rs 37–66, stream.rs 35–64, thr_pool.rs 64–99, thr_soft.rs
49–90. -/
def entry (ks : List Key) (found : List (String × Val)) : P (String × Val) := fun ts =>
  let (as, ts) := attrs ts
  match ident ts with
  | none => none
  | some (i, ts) =>
    match arrow ts with
    | none => none
    | some (_, ts) =>
      match ks.find? fun k => (k.attrs || as.isEmpty) && k.name == i with
      | none => none
      | some k => if (found.lookup i).isSome then none else (k.parse as ts).map fun x => ((i, x.1), x.2)

/-- The loop: heap.rs 36–70, stream.rs 34–68, thr_pool.rs 63–103, thr_soft.rs 48–94. -/
def keys (ks : List Key) : Nat → List (String × Val) → List Tok → Option (List (String × Val))
  | _, found, [] => some found
  | 0, _, _ :: _ => none
  | n + 1, found, ts =>
    match entry ks found ts with
    | none => none
    | some (e, []) => some (found ++ [e])
    | some (e, t :: ts) =>
      match semi (t :: ts) with
      | none => none
      | some (_, ts) => keys ks n (found ++ [e]) ts

/-- `Input` (heap.rs 11–16). -/
structure Heap where
  layout : String
  metadata : Head
  inst : Head
  trace : Option Nat
deriving DecidableEq

/-- `Input` (stream.rs 9–14). -/
structure Stream where
  layout : String
  metadata : Head
  inst : Head
  global : Bool
deriving DecidableEq

/-- `Input` (thr_pool.rs 10–16). -/
structure Pool where
  thr : Head × List Field
  local_ : Head × List Field
  index : Head
  threads : List Head
  resume : Option String
deriving DecidableEq

/-- `Input` (thr_soft.rs 7–14). -/
structure Soft where
  thr : Head × List Tok
  local_ : Head × List Tok
  index : Head
  threads : List Tok
  resume : Option String
  setPending : Option String

/-- `Input::parse` (heap.rs 30–78). -/
def heap (ts : List Tok) : Option Heap :=
  match keys heapKeys ts.length [] ts with
  | none => none
  | some f =>
    match f.lookup "layout", f.lookup "metadata", f.lookup "instance", f.lookup "enable_trace_stream" with
    | some (.name l), some (.head m), some (.head i), none => some ⟨l, m, i, none⟩
    | some (.name l), some (.head m), some (.head i), some (.int n) => some ⟨l, m, i, some n⟩
    | _, _, _, _ => none

/-- `Input::parse` (stream.rs 28–76). -/
def stream (ts : List Tok) : Option Stream :=
  match keys streamKeys ts.length [] ts with
  | none => none
  | some f =>
    match f.lookup "layout", f.lookup "metadata", f.lookup "instance", f.lookup "global" with
    | some (.name l), some (.head m), some (.head i), none => some ⟨l, m, i, false⟩
    | some (.name l), some (.head m), some (.head i), some (.bool b) => some ⟨l, m, i, b⟩
    | _, _, _, _ => none

/-- `Input::parse` (thr_pool.rs 56–112). -/
def pool (ts : List Tok) : Option Pool :=
  match keys poolKeys ts.length [] ts with
  | none => none
  | some f =>
    match f.lookup "thread", f.lookup "local", f.lookup "index", f.lookup "threads", f.lookup "resume" with
    | some (.block t fs), some (.block l gs), some (.head i), some (.threads ths), none => some ⟨(t, fs), (l, gs), i, ths, none⟩
    | some (.block t fs), some (.block l gs), some (.head i), some (.threads ths), some (.path r) => some ⟨(t, fs), (l, gs), i, ths, some r⟩
    | _, _, _, _, _ => none

/-- An optional path; `none` if the value is something else. -/
def optPath : Option Val → Option (Option String)
  | none => some none
  | some (.path r) => some (some r)
  | _ => none

/-- `Input::parse` (thr_soft.rs 40–104). -/
def soft (ts : List Tok) : Option Soft :=
  match keys softKeys ts.length [] ts with
  | none => none
  | some f =>
    match f.lookup "thread", f.lookup "local", f.lookup "index", f.lookup "threads", optPath (f.lookup "resume"), optPath (f.lookup "set_pending") with
    | some (.rawBlock t fs), some (.rawBlock l gs), some (.head i), some (.rawThreads ths), some r, some p => some ⟨(t, fs), (l, gs), i, ths, r, p⟩
    | _, _, _, _, _, _ => none

/-- Attributes, key and arrow; visibility and identifier. -/
def quoteKey (as : List String) (k : String) : List Tok := as.map .attr ++ [.ident k, .arrow]

def quoteName (h : Head) : List Tok := h.vis.toList.map .vis ++ [.ident h.ident]

/-- The input of `thr::pool!` that `thr::soft!` emits: `def_pool` (thr_soft.rs 157–195). -/
def defPool (s : Soft) : List Tok :=
  quoteKey s.thr.1.attrs "thread" ++ quoteName s.thr.1 ++
    [.brace ([.ident "priority", .colon, .ty "::drone_core::thr::PriorityState", .eq, .expr "::drone_core::thr::PriorityState::new(0)", .semi] ++ s.thr.2),
      .semi] ++
  quoteKey s.local_.1.attrs "local" ++ quoteName s.local_.1 ++ [.brace s.local_.2, .semi] ++
  quoteKey s.index.attrs "index" ++ quoteName s.index ++ [.semi] ++
  [.ident "threads", .arrow, .brace s.threads, .semi] ++
  match s.resume with
  | none => []
  | some r => [.ident "resume", .arrow, .path r, .semi]

end Verif.Decl
