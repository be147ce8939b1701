import Verif.Macros.KeywordModel
/-! # C62: names of registers, fields and blocks become usable, distinct identifiers -/
namespace Verif.Macros

/-- The words that are not identifiers in edition 2021, the edition of all crates of the
workspace (Rust reference, "Keywords": strict and reserved). -/
def reserved2021 : List String :=
  ["as", "break", "const", "continue", "crate", "else", "enum", "extern", "false", "fn", "for",
   "if", "impl", "in", "let", "loop", "match", "mod", "move", "mut", "pub", "ref", "return",
   "self", "Self", "static", "struct", "super", "trait", "true", "type", "unsafe", "use", "where",
   "while", "async", "await", "dyn",
   "abstract", "become", "box", "do", "final", "macro", "override", "priv", "typeof", "unsized",
   "virtual", "yield", "try"]

/-- The name ends in an underscore. Snake-case conversion, which precedes every call,
never produces such a name. -/
def Trailing (s : String) : Prop := ∃ t, s = t ++ "_"

/-- No reserved word has a trailing underscore. -/
theorem reserved_not_trailing {s : String} (h : s ∈ reserved2021) : ¬ Trailing s := by
  rintro ⟨t, rfl⟩
  have h2 : ∀ w ∈ reserved2021, w.toList.getLast? ≠ some '_' := by decide
  apply h2 _ h
  simp [String.toList_append]

/-- The full property fails: a register, field or block named `ASYNC`, `AWAIT`, `DYN` or
`TRY` yields a reserved word. -/
theorem C62_false : ∃ s, ¬ Trailing s ∧ unkeywordize s ∈ reserved2021 := by
  refine ⟨"async", ?_, by decide⟩
  exact reserved_not_trailing (by decide)

/-- These four are all the exceptions. -/
theorem C62_reserved_iff (s : String) :
    unkeywordize s ∈ reserved2021 ↔ s ∈ ["async", "await", "dyn", "try"] := by
  unfold unkeywordize
  by_cases h : s ∈ keywords
  · simp only [h, if_true]
    constructor
    · intro h2
      exact absurd ⟨s, rfl⟩ (reserved_not_trailing h2)
    · intro h2
      exact absurd h ((by decide : ∀ w ∈ ["async", "await", "dyn", "try"], w ∉ keywords) s h2)
  · simp only [h, if_false]
    constructor
    · intro h2
      exact (by decide : ∀ w ∈ reserved2021, w ∉ keywords → w ∈ ["async", "await", "dyn", "try"])
        s h2 h
    · intro h2
      exact (by decide : ∀ w ∈ ["async", "await", "dyn", "try"], w ∈ reserved2021) s h2

/-- Every other name becomes a usable identifier. Missing: the four words above. -/
theorem C62_partial (s : String) (h : s ∉ ["async", "await", "dyn", "try"]) :
    unkeywordize s ∉ reserved2021 := fun h2 => h ((C62_reserved_iff s).1 h2)

example : "type" ∉ ["async", "await", "dyn", "try"] ∧ unkeywordize "type" = "type_" := by decide

/-- Distinct names stay distinct, so no two fields of a register merge. -/
theorem C62_distinct {s t : String} (hs : ¬ Trailing s) (ht : ¬ Trailing t)
    (h : unkeywordize s = unkeywordize t) : s = t := by
  unfold unkeywordize at h
  by_cases h1 : s ∈ keywords <;> by_cases h2 : t ∈ keywords <;> simp only [h1, h2, if_true, if_false] at h
  · exact (String.append_left_inj "_").1 h
  · exact absurd ⟨s, h.symm⟩ ht
  · exact absurd ⟨t, h⟩ hs
  · exact h

example : ¬ Trailing "type" ∧ ¬ Trailing "enable" ∧ unkeywordize "type" ≠ unkeywordize "enable" :=
  ⟨reserved_not_trailing (by decide), by
    rintro ⟨t, h⟩
    have := congrArg (fun s => s.toList.getLast?) h
    simp [String.toList_append] at this, by decide⟩

/-- A name that is not reserved is kept as it is, apart from five words (C keywords and
former reservations) that get an underscore as well. -/
theorem C62_kept {s : String} (h : s ∉ reserved2021)
    (h2 : s ∉ ["alignof", "offsetof", "proc", "pure", "sizeof"]) : unkeywordize s = s := by
  unfold unkeywordize
  by_cases h3 : s ∈ keywords
  · exact absurd h3 fun h3 => h ((by decide : ∀ w ∈ keywords,
      w ∉ ["alignof", "offsetof", "proc", "pure", "sizeof"] → w ∈ reserved2021) s h3 h2)
  · simp [h3]

example : "enable" ∉ reserved2021 ∧ "enable" ∉ ["alignof", "offsetof", "proc", "pure", "sizeof"] := by
  decide

end Verif.Macros
