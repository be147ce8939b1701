/-! # Identifiers generated by the macros (`macros-core/src/unkeywordize.rs`) -/
namespace Verif.Macros

/-- The alternatives of the regular expression `KEYWORDS` (4–15). It is anchored at both
ends, so matching is membership. -/
def keywords : List String :=
  ["as", "break", "const", "continue", "crate", "else", "enum", "extern", "false", "fn", "for",
   "if", "impl", "in", "let", "loop", "match", "mod", "move", "mut", "pub", "ref", "return",
   "Self", "self", "static", "struct", "super", "trait", "true", "type", "unsafe", "use", "where",
   "while", "abstract", "alignof", "become", "box", "do", "final", "macro", "offsetof",
   "override", "priv", "proc", "pure", "sizeof", "typeof", "unsized", "virtual", "yield"]

/-- `unkeywordize` (19–25). -/
def unkeywordize (ident : String) : String :=
  if ident ∈ keywords then ident ++ "_" else ident

end Verif.Macros
