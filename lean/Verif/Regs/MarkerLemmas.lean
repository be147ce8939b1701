import Verif.Regs.MarkerSpec
/-! # The trait solver computes -/
namespace Verif.Regs.Marker
open Verif.Regs.Def (Access Variant Field Documented RTrait FTrait)

/-- A rule only uses traits of lower rank. -/
def rank : Tr → Nat
  | .regAtomic _ | .atomicBits | .copyReg | .copyField | .rReg _ | .wReg _ | .roReg _ | .woReg _ | .field _ | .fieldW _ _
  | .rr _ | .ww _ | .roR _ | .woW _ => 0
  | .wRegUnsync | .wRegAtomic _ | .woWo _ | .rrW _ _ | .wwW _ _ | .woWoW _ _ | .rwReg _ | .wRw _ | .uRoReg | .sRoReg | .cRoReg => 1
  | .rwRegUnsync | .rwRegAtomic _ | .wRwW _ _ | .uWoReg | .sRwReg | .sWoReg | .cWoReg => 2
  | .rwRw _ _ | .woRw _ _ | .roRw _ _ | .roRo _ _ => 2
  | .uRwReg | .cRwReg => 3
  | _ => 4

theorem rule_rank {atomics : Bool} {x : Tr} {bs : List Tr} (h : rule atomics x = some bs) : ∀ b ∈ bs, rank b < rank x := by
  cases x <;> simp only [rule, Option.some.injEq, reduceCtorEq] at h <;> subst h <;> cases atomics <;>
    simp [rank]

/-- The solver as a function. -/
def solve (atomics : Bool) (facts : Tr → Bool) : Nat → Tr → Bool
  | 0, x => facts x
  | n + 1, x => facts x || match rule atomics x with
    | none => false
    | some bs => bs.all (solve atomics facts n)

theorem solve_sound {atomics : Bool} {facts : Tr → Bool} : ∀ {n : Nat} {x : Tr}, solve atomics facts n x = true → Holds atomics facts x
  | 0, x, h => .fact h
  | n + 1, x, h => by
    rw [solve, Bool.or_eq_true] at h
    rcases h with h | h
    · exact .fact h
    · split at h
      · cases h
      · rename_i bs hr
        exact .impl hr fun b hb => solve_sound (List.all_eq_true.1 h b hb)

theorem solve_mono {atomics : Bool} {facts : Tr → Bool} (n : Nat) : ∀ {x : Tr}, Holds atomics facts x → rank x ≤ n → solve atomics facts n x = true := by
  induction n with
  | zero =>
    intro x h hn
    cases h with
    | fact h => exact h
    | @impl _ bs hr hb =>
      exfalso
      have := rule_rank hr
      cases x <;> simp [rule] at hr <;> simp [rank] at hn
  | succ n ih =>
    intro x h hn
    rw [solve, Bool.or_eq_true]
    cases h with
    | fact h => exact .inl h
    | @impl _ bs hr hb =>
      right
      rw [hr]
      exact List.all_eq_true.2 fun b hb' => ih (hb b hb') (by have := rule_rank hr b hb'; omega)

theorem rank_le (x : Tr) : rank x ≤ 4 := by cases x <;> simp [rank]

theorem holds_iff {atomics : Bool} {facts : Tr → Bool} {x : Tr} : Holds atomics facts x ↔ solve atomics facts 4 x = true :=
  ⟨fun h => solve_mono 4 h (rank_le x), solve_sound⟩

/-- The facts of a declaration as in the documentation. -/
def table (a b : Access) (w : Width) (ab : Bool) (t : Tag) : Tr → Bool
  | .rReg t' => t = t' && a ≠ .wo
  | .wReg t' => t = t' && a ≠ .ro
  | .roReg t' => t = t' && a = .ro
  | .woReg t' => t = t' && a = .wo
  | .field t' => t = t'
  | .fieldW t' w' => t = t' && w = w'
  | .rr t' => t = t' && b ≠ .wo
  | .ww t' => t = t' && b ≠ .ro
  | .roR t' => t = t' && b = .ro
  | .woW t' => t = t' && b = .wo
  | .copyReg | .copyField => t = .crt
  | .atomicBits => ab
  | _ => false

theorem declared_table {C : Type} {v : Variant C} {f : Field C} {a b : Access} (hv : v.traits = a.traits) (hf : FieldAccess f b) (t : Tag) :
    declared v f t = table a b (widthOf f) (v.size = 8 || v.size = 16 || v.size = 32) t := by
  funext x
  have hi : f.impls = b.fieldTraits := by
    rcases hf with h | h <;> rw [Field.impls, h] <;> cases b <;> rfl
  cases x <;> simp only [declared, table, hv, hi] <;> try rfl
  case rReg => cases a <;> rfl
  case wReg => cases a <;> rfl
  case roReg => cases a <;> rfl
  case woReg => cases a <;> rfl
  case rr => cases b <;> rfl
  case ww => cases b <;> rfl
  case roR => cases b <;> rfl
  case woW => cases b <;> rfl
  case fieldW t' w =>
    congr 1
    unfold Field.isBit widthOf
    by_cases h1 : f.width = 1 <;> by_cases h2 : FTrait.forceBits ∈ f.traits <;> cases w <;> simp [h1, h2]

/-- The facts about the register do not depend on the field. -/
theorem declared_reg {C : Type} {v : Variant C} {f : Field C} {a : Access} (hv : v.traits = a.traits) (t : Tag) (x : Tr)
    (hx : match x with
      | .rReg _ | .wReg _ | .roReg _ | .woReg _ | .copyReg | .atomicBits => True
      | _ => False) :
    declared v f t x = table a .rw .bit (v.size = 8 || v.size = 16 || v.size = 32) t x := by
  cases x <;> simp only at hx <;> simp only [declared, table, hv] <;> cases a <;> rfl

theorem solve_reg {C : Type} {v : Variant C} {f : Field C} {a : Access} (hv : v.traits = a.traits) (atomics : Bool) (t t' : Tag) (a' : Access) :
    solve atomics (fun x => global x || declared v f t x) 4 (regMarker t' a') =
      solve atomics (fun x => global x || table a .rw .bit (v.size = 8 || v.size = 16 || v.size = 32) t x) 4 (regMarker t' a') := by
  have h1 := fun q => declared_reg (f := f) hv t (.rReg q) trivial
  have h2 := fun q => declared_reg (f := f) hv t (.wReg q) trivial
  have h3 := fun q => declared_reg (f := f) hv t (.roReg q) trivial
  have h4 := fun q => declared_reg (f := f) hv t (.woReg q) trivial
  have h5 := declared_reg (f := f) hv t .copyReg trivial
  have h6 := declared_reg (f := f) hv t .atomicBits trivial
  cases atomics <;> cases t' <;> cases a' <;>
    simp only [regMarker, solve, rule, List.all_cons, List.all_nil, List.append_nil, List.cons_append, List.nil_append, if_true, Bool.false_eq_true, if_false, h1, h2, h3, h4, h5, h6] <;>
    rfl

instance {p : Tag → Prop} [DecidablePred p] : Decidable (∀ t, p t) :=
  decidable_of_iff (p .urt ∧ p .srt ∧ p .crt) ⟨fun h t => by cases t <;> simp only [h], fun h => ⟨h _, h _, h _⟩⟩
instance {p : Access → Prop} [DecidablePred p] : Decidable (∀ t, p t) :=
  decidable_of_iff (p .ro ∧ p .rw ∧ p .wo) ⟨fun h t => by cases t <;> simp only [h], fun h => ⟨h _, h _, h _⟩⟩
instance {p : Width → Prop} [DecidablePred p] : Decidable (∀ t, p t) :=
  decidable_of_iff (p .bit ∧ p .bits) ⟨fun h t => by cases t <;> simp only [h], fun h => ⟨h _, h _⟩⟩

theorem reg_table : ∀ (atomics ab : Bool) (a a' : Access) (t t' : Tag),
    solve atomics (fun x => global x || table a .rw .bit ab t x) 4 (regMarker t' a') =
      decide (t' = t ∧ a' = a ∧ (t = .crt → a = .rw → atomics = true → ab = true)) := by decide +kernel

theorem field_table : ∀ (atomics ab : Bool) (a b : Access) (w : Width) (t t' : Tag) (fa ra : Access) (w' : Width), (a = .rw ∨ b = a) →
    (fieldMarker t' fa ra w').all (fun x => solve atomics (fun y => global y || table a b w ab t y) 4 x ==
      decide (t' = t ∧ fa = b ∧ ra = a ∧ w' = w ∧ (a = .rw → (t = .crt ∨ t = .srt ∧ b ≠ .ro) → atomics = true → ab = true))) = true := by
  decide +kernel

/-- Derivations from a bound, as a function: `n` rounds. -/
def known (atomics : Bool) (univ : List Tr) (ys : List Tr) : Nat → List Tr
  | 0 => ys
  | n + 1 =>
    let zs := known atomics univ ys n
    zs ++ zs.flatMap supers ++ univ.filter fun y => global y || match rule atomics y with
      | none => false
      | some bs => bs.all zs.contains

theorem known_sound {atomics : Bool} {univ : List Tr} {x : Tr} : ∀ {n : Nat} {y : Tr}, y ∈ known atomics univ [x] n → Known atomics x y
  | 0, y, h => by rw [known, List.mem_singleton] at h; exact h ▸ .bound
  | n + 1, y, h => by
    simp only [known, List.mem_append, List.mem_flatMap, List.mem_filter, Bool.or_eq_true] at h
    rcases h with (h | ⟨z, h, h'⟩) | ⟨-, h | h⟩
    · exact known_sound h
    · exact .super (known_sound h) h'
    · exact .glob h
    · split at h
      · cases h
      · rename_i bs hr
        exact .impl hr fun b hb => known_sound (n := n) (by simpa using List.all_eq_true.1 h b hb)

/-- A set of traits that is closed under the rules has everything that is known. -/
theorem known_closed {atomics : Bool} {x : Tr} (p : Tr → Prop) (hx : p x) (hg : ∀ y, global y = true → p y)
    (hs : ∀ y, p y → ∀ z ∈ supers y, p z) (hr : ∀ y bs, rule atomics y = some bs → (∀ b ∈ bs, p b) → p y) {y : Tr} (h : Known atomics x y) : p y := by
  induction h with
  | bound => exact hx
  | glob h => exact hg _ h
  | super _ h ih => exact hs _ ih _ h
  | impl h _ ih => exact hr _ _ h ih

end Verif.Regs.Marker
