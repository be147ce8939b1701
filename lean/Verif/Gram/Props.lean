import Verif.Gram.Inputs2
/-! # C84: the register macros read exactly what is written -/
namespace Verif.Gram
open Verif.CfgCond

/-- The whole input. -/
theorem parse_iff {α : Type} {p : P α} {R : α → List Tok → List Tok → Prop} (h : Sem p R) (ts : List Tok) (x : α) : parse p ts = some x ↔ R x ts [] := by
  unfold parse
  rw [whole_iff h]

/-- **C84** (`periph::singular!`). -/
theorem C84_singular (ts : List Tok) (x : GInput) : parse singular ts = some x ↔ SingularText x ts := by
  rw [parse_iff sem_singular]; simp

/-- A declaration of a peripheral with a register that has a condition and a field. -/
def singularText : List Tok :=
  [.vis "pub", .punct "macro", .ident "periph_sys_tick", .punct ";", .vis "pub", .punct "struct", .ident "SysTickPeriph", .punct ";",
    .path "crate::reg", .punct ";", .punct "crate", .punct ";", .ident "STK",
    .brace [.punct "#", .bracket [.ident "cfg", .paren [.ident "chip", .punct "=", .str "a"]], .ident "CTRL", .brace [.ident "ENABLE", .punct ";"],
      .ident "LOAD", .punct ";"]]

example : (parse singular singularText).isSome = true := by decide +kernel
example : parse singular (singularText.set 2 (.ident "sys_tick")) = none := by decide +kernel

/-- **C84** (`periph!`). -/
theorem C84_periph (ts : List Tok) (x : PInput) : parse periph ts = some x ↔ PeriphText x ts := by
  rw [parse_iff sem_periph]; simp

/-- A generic peripheral with a register of two variants. -/
def periphText : List Tok :=
  [.vis "pub", .punct "trait", .ident "UartMap", .brace [], .vis "pub", .punct "struct", .ident "UartPeriph", .punct ";", .ident "UART",
    .brace [.ident "CR", .brace [.punct "@", .ident "A", .int 32, .ident "RReg", .punct ";", .ident "EN", .brace [.ident "RRRegField"],
      .punct "@", .ident "B", .int 16, .punct ";"]]]

example : (parse periph periphText).isSome = true := by decide +kernel

/-- **C84** (`periph::map!`). -/
theorem C84_map (ts : List Tok) (x : MInput) : parse map ts = some x ↔ MapText x ts := by
  rw [parse_iff sem_map]; simp

/-- A map of that peripheral. -/
def mapText : List Tok :=
  [.vis "pub", .punct "macro", .ident "periph_uart1", .punct ";", .vis "pub", .punct "struct", .ident "Uart1", .punct ";", .punct "impl",
    .ident "UartMap", .punct "for", .ident "Uart1", .brace [], .path "crate::reg", .punct ";", .punct "crate", .path "crate", .punct ";", .ident "UART",
    .brace [.ident "UART1", .punct ";", .ident "CR", .brace [.punct "@", .ident "A", .ident "CR", .paren [.ident "UART", .ident "CR"], .ident "RReg",
      .punct ";", .ident "EN", .brace [.ident "EN"], .punct "@", .ident "B"]]]

example : (parse map mapText).isSome = true := by decide +kernel
example : parse map (mapText.set 11 (.ident "Uart2")) = none := by decide +kernel

/-- **C84** (`reg::tokens!`). -/
theorem C84_tokens (ts : List Tok) (x : TInput) : parse tokens ts = some x ↔ ts = tInputTokens x := by
  rw [parse_iff sem_tokens]; simp

example : (parse tokens [.vis "pub", .punct "macro", .ident "regs", .punct ";", .punct "use", .punct "macro", .path "prev", .punct ";", .path "reg", .punct ";",
    .punct "crate", .punct ";", .punct "mod", .punct "!", .ident "FOO", .brace [.punct "!", .ident "BAR", .punct ";"]]).isSome = true := by decide +kernel

/-- **C84** (`reg!`). -/
theorem C84_reg (ts : List Tok) (l : List RVar) : parse reg ts = some l ↔ Sep ";" RVarText l ts := by
  rw [parse_iff sem_reg]; simp

/-- A register with a field. -/
def regText : List Tok :=
  [.vis "pub", .ident "FOO", .ident "BAR", .punct "=>", .brace [.ident "address", .punct "=>", .int 0xE000, .punct ";", .ident "size", .punct "=>", .int 32,
    .punct ";", .ident "reset", .punct "=>", .int 0, .punct ";", .ident "fields", .punct "=>", .brace [.ident "EN", .punct "=>",
      .brace [.ident "offset", .punct "=>", .int 0, .punct ";", .ident "width", .punct "=>", .int 1]]]]

example : (parse reg regText).isSome = true := by decide +kernel

/-- **C84** (`token::simple_token!`). -/
theorem C84_simple_token (ts : List Tok) (x : SToken) : parse simpleToken ts = some x ↔ SimpleTokenText x ts := by
  rw [parse_iff sem_simpleToken]
  constructor
  · rintro ⟨_ | _, rfl, -⟩
    · exact .inl (by simp)
    · exact .inr rfl
  · rintro (h | h)
    · exact ⟨false, by simpa using h, fun _ => rfl⟩
    · exact ⟨true, h, nofun⟩

example : (parse simpleToken [.vis "pub", .punct "struct", .ident "FooToken", .punct ";"]).isSome = true := by decide +kernel

/-- **C84** (`token::simple_tokens!`). -/
theorem C84_simple_tokens (ts : List Tok) (x : STokens) : parse simpleTokens ts = some x ↔ SimpleTokensText x ts := parse_iff sem_simpleTokens ts x

example : (parse simpleTokens [.vis "pub", .punct "struct", .ident "Tokens", .brace [.ident "FooToken", .punct ",", .ident "BarToken"]]).isSome = true := by
  decide +kernel

/-- **C84** (`token::static_tokens!`). -/
theorem C84_static_tokens (ts : List Tok) (x : StTokens) : parse staticTokens ts = some x ↔ StaticTokensText x ts := parse_iff sem_staticTokens ts x

example : (parse staticTokens [.vis "pub", .punct "struct", .ident "Tokens", .brace [.ident "FOO", .punct ":", .ty "u8", .punct ","]]).isSome = true := by
  decide +kernel

/-! ## Conditions -/

theorem evalAny_lits (σ : Lit → Bool) : ∀ l : List Lit, evalAny σ (l.map .lit) = l.any σ
  | [] => rfl
  | k :: l => by simp [evalAny, Pred.eval, evalAny_lits σ l]

/-- Each predicate that can be written gives one condition. -/
theorem cond_of_cfg {m : Option (Pred Lit)} {f : List Tok} (h : CfgText m f) : ∃ c, CondText c f := by
  cases h with
  | none => exact ⟨_, .none⟩
  | lit k hk => exact ⟨_, .lit k hk⟩
  | any l b hb => exact ⟨_, .any l b hb⟩

theorem parse_cond (f : List Tok) (c : Cond Lit) : parse cfgCond f = some c ↔ CondText c f := by
  rw [parse_iff sem_cond]
  exact ⟨fun h => h.1, fun h => ⟨h, fun _ => rfl⟩⟩

/-- **C84** (conditions, full statement): an item is compiled in the configurations in which the predicate written in its attribute holds. -/
def CondsMeant : Prop := ∀ m f c, CfgText m f → parse cfgCond f = some c → ∀ σ, c.active σ = included σ m

/-- **C84** (conditions): so it is, unless the predicate is an empty `any()`; then the item is always compiled. -/
theorem C84_cfg_partial {m : Option (Pred Lit)} {f : List Tok} (h : CfgText m f) :
    ∃ c, parse cfgCond f = some c ∧ (m ≠ some (.any []) → ∀ σ, c.active σ = included σ m) ∧ (m = some (.any []) → ∀ σ, c.active σ = true) := by
  cases h with
  | none => exact ⟨_, (parse_cond _ _).2 .none, fun _ σ => rfl, nofun⟩
  | lit k hk =>
    refine ⟨_, (parse_cond _ _).2 (.lit k hk), fun _ σ => ?_, nofun⟩
    simp [Cond.active, Cond.attrs, evalAll, evalAny, Pred.eval, included]
  | any l b hb =>
    refine ⟨_, (parse_cond _ _).2 (.any l b hb), fun hm σ => ?_, fun hm σ => ?_⟩
    · cases l with
      | nil => exact absurd rfl hm
      | cons k l => simp [Cond.active, Cond.attrs, evalAll, evalAny, Pred.eval, included, evalAny_lits]
    · cases l with
      | nil => rfl
      | cons k l => simp at hm

example : CfgText (some (.any [.lit ("feature", "a"), .lit ("chip", "b")])) (cfgTokens [.ident "any",
    .paren (litTokens ("feature", "a") ++ .punct "," :: litTokens ("chip", "b"))]) := .any [("feature", "a"), ("chip", "b")] _ ⟨_, _, rfl, rfl, .inl rfl⟩

/-- **C84** (conditions) fails: `#[cfg(any())]`, which is never compiled, is read as no condition. -/
theorem C84_false : ¬ CondsMeant := by
  intro h
  have := h _ _ ⟨[], false⟩ (.any [] [] rfl) ((parse_cond _ _).2 (.any [] [] rfl)) fun _ => false
  exact absurd this (by decide)

/-- **C84** (conditions): an attribute other than these is an error: no other `cfg` predicate, and no other attribute. -/
theorem C84_cfg_only (f : List Tok) (c : Cond Lit) (h : parse cfgCond f = some c) : ∃ m, CfgText m f := by
  cases (parse_cond _ _).1 h with
  | none => exact ⟨_, .none⟩
  | lit k hk => exact ⟨_, .lit k hk⟩
  | any l b hb => exact ⟨_, .any l b hb⟩

example : parse cfgCond (cfgTokens [.ident "not", .paren (litTokens ("chip", "b"))]) = none ∧
    (parse cfgCond (cfgTokens (litTokens ("chip", "b")))).isSome = true := by decide +kernel

end Verif.Gram
