import Verif.Decl.Forward
/-! # C83: the declaration macros read exactly what is written -/
namespace Verif.Decl

/-- `heap!` accepts exactly the listings of its keys, each at most once and in any order, and reads the values that are written. -/
theorem C83_heap (ts : List Tok) (i : Heap) : heap ts = some i ↔ Written i.entries ts := heap_iff

/-- The same for `stream!`; `global` is off unless it is written. -/
theorem C83_stream (ts : List Tok) (i : Stream) : stream ts = some i ↔ ∃ explicit, Written (i.entries explicit) ts := stream_iff

/-- The same for `thr::pool!`, with its fields and threads. -/
theorem C83_pool (ts : List Tok) (i : Pool) : pool ts = some i ↔ Written i.entries ts := pool_iff

/-- The same for `thr::soft!`, which leaves the blocks as they are. -/
theorem C83_soft (ts : List Tok) (i : Soft) : soft ts = some i ↔ Written i.entries ts := soft_iff

/-- A text has one meaning: two readings of it have the same entries. -/
theorem C83_unambiguous (ts : List Tok) (i j : Pool) (hi : Written i.entries ts) (hj : Written j.entries ts) : i = j :=
  Option.some.inj ((pool_iff.2 hi).symm.trans (pool_iff.2 hj))

/-- The text that `thr::soft!` hands over to `thr::pool!` is accepted exactly if its blocks are listings of fields and of threads; it declares the same
thread and local types, index, threads and resume function, and the same fields after a field for the priority. -/
theorem C83_forward (s : Soft) (p : Pool) : pool (defPool s) = some p ↔ Forwards s p := forwards_iff

/-! ## Examples -/

/-- `layout => main; #[doc] metadata => pub Meta; instance => HEAP; enable_trace_stream => 31`. -/
def heapText : List Tok :=
  [.ident "layout", .arrow, .ident "main", .semi, .attr "doc", .ident "metadata", .arrow, .vis "pub", .ident "Meta", .semi,
    .ident "instance", .arrow, .ident "HEAP", .semi, .ident "enable_trace_stream", .arrow, .int 31]

example : Written (Heap.entries ⟨"main", ⟨["doc"], some "pub", "Meta"⟩, ⟨[], none, "HEAP"⟩, some 31⟩) heapText :=
  (C83_heap _ _).1 (by decide +kernel)

/-- Another order, no trace stream, a semicolon at the end. -/
example : Written (Heap.entries ⟨"main", ⟨[], none, "Meta"⟩, ⟨[], none, "HEAP"⟩, none⟩)
    [.ident "instance", .arrow, .ident "HEAP", .semi, .ident "metadata", .arrow, .ident "Meta", .semi, .ident "layout", .arrow, .ident "main", .semi] :=
  (C83_heap _ _).1 (by decide +kernel)

/-- A key twice; a missing key; attributes on `layout`; two semicolons. -/
example : heap (heapText ++ [.semi, .ident "layout", .arrow, .ident "main"]) = none ∧ heap (heapText.drop 4) = none ∧
    heap (.attr "doc" :: heapText) = none ∧ heap (heapText ++ [.semi, .semi]) = none := by decide +kernel

example : stream [.ident "layout", .arrow, .ident "main", .semi, .ident "metadata", .arrow, .ident "M", .semi, .ident "instance", .arrow, .ident "I", .semi,
    .ident "global", .arrow, .bool true] = some ⟨"main", ⟨[], none, "M"⟩, ⟨[], none, "I"⟩, true⟩ := by decide +kernel

/-- A `thr::soft!` declaration with a field and two threads. -/
def softText : List Tok :=
  [.attr "doc", .ident "thread", .arrow, .vis "pub", .ident "Thr", .brace [.ident "a", .colon, .ty "u8", .eq, .expr "0"], .semi,
    .ident "local", .arrow, .ident "Local", .brace [], .semi, .ident "index", .arrow, .ident "Thrs", .semi,
    .ident "threads", .arrow, .brace [.ident "t1", .semi, .vis "pub", .ident "t2"], .semi, .ident "set_pending", .arrow, .path "f"]

def softDecl : Soft :=
  ⟨(⟨["doc"], some "pub", "Thr"⟩, [.ident "a", .colon, .ty "u8", .eq, .expr "0"]), (⟨[], none, "Local"⟩, []), ⟨[], none, "Thrs"⟩,
    [.ident "t1", .semi, .vis "pub", .ident "t2"], none, some "f"⟩

def poolDecl : Pool :=
  ⟨(⟨["doc"], some "pub", "Thr"⟩, [⟨[], none, "priority", "::drone_core::thr::PriorityState", "::drone_core::thr::PriorityState::new(0)"⟩,
    ⟨[], none, "a", "u8", "0"⟩]), (⟨[], none, "Local"⟩, []), ⟨[], none, "Thrs"⟩, [⟨[], none, "t1"⟩, ⟨[], some "pub", "t2"⟩], none⟩

example : soft softText = some softDecl := rfl

example : Forwards softDecl poolDecl := (C83_forward _ _).1 (by decide +kernel)

example : Written poolDecl.entries (defPool softDecl) := (C83_pool _ _).1 (by decide +kernel)

/-- Blocks that are no listings make the pool macro fail, not the soft macro. -/
example : pool (defPool { softDecl with threads := [.semi] }) = none := by decide +kernel

end Verif.Decl
