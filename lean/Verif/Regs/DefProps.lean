import Verif.Regs.DefLemmas
/-! # C76: `reg!` gives a register whose operations act on exactly the named fields -/
namespace Verif.Regs.Def
open Verif.Bitfield (fieldVal InRange Disjoint)
open Verif.Bitfield.Derive (Use Out Record)
variable {C : Type}

/-- **C76.** A register that is declared as documented, with names that do not clash and fields that lie within the
integer and share no bits: every sequence of operations of its token, of the tokens of its fields and of the values it
gives compiles, does not panic, returns what the record of numbers returns, and leaves the register as the record is
left: `store` starts with the reset values, `modify` with the current ones, and all fields that are not named, and all
bits outside of the fields, stay. Missing: fields outside the integer, which the macro does not reject. -/
theorem C76_partial {n : Nat} (nm : Names) (c : C) (v : Variant C) (a : Access) (hv : LegalVariant nm c v)
    (hd : Documented v a) (hl : Layout v) (hn : v.size = n) (mem : BitVec n) (ops : List (ROp n))
    (ha : ∀ op ∈ ops, op.Allowed v a) :
    ∃ y os, execAll nm c v mem (ops.map (·.op nm v)) = some (y, os) ∧
      specAll v a (contentOf v mem) ops = (contentOf v y, os.map (·.map (·.num))) :=
  ops_ok hv hd hl hn ops mem ha

/-- Names for the examples. -/
def exNames : Names where
  snake s := match s with
    | "STK" => "stk"
    | "CTRL" => "ctrl"
    | "ENABLE" => "enable"
    | "MODE" => "mode"
    | "TYPE" => "type"
    | "REG" => "reg"
    | "BITFIELD" => "bitfield"
    | "TIM1" => "tim1"
    | "CCMR1_Input" => "ccmr1_input"
    | "CCMR1_Output" => "ccmr1_output"
    | "CC1S" => "cc1s"
    | s => s
  camel s := match s with
    | "STK" => "Stk"
    | "CTRL" => "Ctrl"
    | "ENABLE" => "Enable"
    | "MODE" => "Mode"
    | "TYPE" => "Type"
    | "REG" => "Reg"
    | "BITFIELD" => "Bitfield"
    | "CC1S" => "Cc1S"
    | s => s

/-- A register with a bit and two other fields, one with a keyword as name. -/
def exReg : Variant Unit :=
  { block := "STK", ident := "CTRL", on := always, address := 0xE000E010, size := 32, reset := 0x30, traits := [.rReg, .wReg],
    fields := [⟨"ENABLE", always, 0, 1, [.rr, .ww]⟩, ⟨"TYPE", always, 4, 3, [.rr, .ww]⟩,
      ⟨"MODE", always, 8, 1, [.rr, .roR, .forceBits]⟩] }

theorem exReg_legal : LegalVariant exNames () exReg :=
  ⟨by decide, by decide, by decide, by decide, by decide, by
    unfold Field.reads Field.writes; decide, by decide, by decide, by decide⟩
theorem exReg_documented : Documented exReg .rw :=
  ⟨rfl, fun f hf => by
    simp only [exReg, List.mem_cons, List.not_mem_nil, or_false] at hf
    rcases hf with rfl | rfl | rfl
    · exact ⟨.rw, .inl rfl, .inl rfl⟩
    · exact ⟨.rw, .inl rfl, .inl rfl⟩
    · exact ⟨.ro, .inr rfl, .inl rfl⟩⟩
theorem exReg_layout : Layout exReg := ⟨by decide, by decide⟩

/-- `store(|r| r.set_enable())`, `modify(|r| r.write_type(5))`, `load().r#type()`, `enable.toggle_bit()`. -/
def exOps : List (ROp 32) :=
  [.store (.use 0 .set fun _ => .done), .modify (.use 1 (.put 5) fun _ => .done), .load (.use 1 .get fun _ => .done),
   .field 0 .toggle]

example : ∀ op ∈ exOps, op.Allowed exReg .rw := by
  intro op h
  simp only [exOps, List.mem_cons, List.not_mem_nil, or_false] at h
  rcases h with rfl | rfl | rfl | rfl
  · exact ⟨by decide, ⟨_, rfl, by unfold Field.writes; decide, by decide, by decide⟩, fun _ => trivial⟩
  · exact ⟨by decide, ⟨_, rfl, by unfold Field.writes; decide, by unfold Field.single; decide⟩, fun _ => trivial⟩
  · exact ⟨by decide, ⟨_, rfl, by unfold allowed Field.reads; decide⟩, fun _ => trivial⟩
  · exact ⟨_, rfl, by unfold Field.writes; decide, by decide, by decide⟩

example : execAll exNames () exReg 0xFFFFFFFF#32 (exOps.map (·.op exNames exReg)) =
    some (0x50#32, [[.self], [.self], [.bits 5#32], []]) := by decide +kernel

/-- C76: which declarations compile. -/
theorem C76_compiles_iff (nm : Names) (c : C) (vs : List (Variant C)) : acceptsReg nm c vs ↔ Legal nm c vs :=
  acceptsReg_iff

/-- The two variants of tests/reg.rs 53–119, with one field each. -/
def tim1 : List (Variant Unit) :=
  [{ block := "TIM1", ident := "CCMR1_Input", on := always, address := 0x40010018, size := 32, reset := 0,
     traits := [.rReg, .wReg], fields := [⟨"CC1S", always, 8, 2, [.rr, .ww]⟩] },
   { block := "TIM1", ident := "CCMR1_Output", on := always, address := 0x40010018, size := 32, reset := 0,
     traits := [.rReg, .wReg], fields := [⟨"CC1S", always, 8, 2, [.rr, .ww]⟩] }]

example : Legal exNames () tim1 :=
  ⟨by decide, fun v hv _ => by
    simp only [tim1, List.mem_cons, List.not_mem_nil, or_false] at hv
    rcases hv with rfl | rfl <;>
    exact ⟨⟨by decide, by decide⟩, by decide, by decide, by decide, by decide, by decide, by
      unfold Field.reads Field.writes; decide, by decide, by decide, by decide⟩, by decide⟩
example : conversions exNames tim1 =
    [("tim1_ccmr1_input", "tim1_ccmr1_output"), ("tim1_ccmr1_output", "tim1_ccmr1_input")] := by decide

/-- C76: for a declaration with the documented sets of traits, only attributes and names matter. -/
theorem C76_documented_compiles (nm : Names) (c : C) (v : Variant C) (a : Access) (hd : Documented v a)
    (hon : ∀ f ∈ v.fields, f.on c = true) (htypes : (v.fields.map (typeName nm)).Nodup)
    (hres : ∀ f ∈ v.fields, typeName nm f ∉ ["Bitfield", "Val", "Reg", "Hold", "RReg", "WReg", "RoReg", "WoReg",
      "RRRegField", "WWRegField", "RoRRegField", "WoWRegField"])
    (hnames : (v.fields.map (·.name nm)).Nodup)
    (hmeth : ∀ f ∈ v.fields, ∀ g ∈ v.fields, f.name nm ∉ writers nm g) : accepts c (moduleItems nm v) := by
  refine accepts_iff.2 ⟨hon, htypes, fun f hf h => hres f hf ?_, fun f hf => ⟨fun t _ e => hres f hf ?_,
    fun g _ t _ hne e => hres f hf ?_⟩, hnames, fun f hf g hg _ _ => hmeth f hf g hg, ⟨?_, fun f hf => ?_⟩, ?_, fun f hf => ?_⟩
  · simp only [List.mem_cons, List.not_mem_nil, or_false] at h ⊢
    rcases h with h | h | h | h <;> simp [h]
  · rw [e]; cases t <;> decide
  · rw [e]
    cases t
    case forceBits => exact absurd rfl hne
    all_goals decide
  · rw [hd.traits]; cases a <;> decide
  · obtain ⟨b, hb | hb, -⟩ := hd.fields f hf <;> rw [hb] <;> cases b <;> decide
  · rw [hd.traits]; cases a <;> decide
  · obtain ⟨b, hb, hab⟩ := hd.fields f hf
    rw [hd.traits]
    rcases hab with rfl | rfl <;> rcases hb with hb | hb <;> rw [hb] <;>
      first
      | (cases b <;> decide)
      | (cases b <;> simp [Access.fieldTraits, Access.traits])

example : accepts () (moduleItems exNames exReg) :=
  C76_documented_compiles exNames () exReg .rw exReg_documented (by decide) (by decide) (by decide) (by decide) (by decide)

/-- The closure does not change field `j`. -/
def Plan.Keeps {n : Nat} (j : Nat) : Plan n → Prop
  | .done => True
  | .use i u next => (i ≠ j ∨ u = .get) ∧ ∀ o, (next o).Keeps j

/-- C76: `modify` leaves the fields that the closure does not change, `store` gives them their reset values. -/
theorem C76_untouched {n : Nat} (nm : Names) (c : C) (v : Variant C) (hv : LegalVariant nm c v) (hl : Layout v)
    (hn : v.size = n) (htr : .rReg ∈ v.traits ∧ .wReg ∈ v.traits) (mem : BitVec n) (p : Plan n) (ha : p.Allowed v)
    (j : Nat) (f : Field C) (hf : v.fields[j]? = some f) (hk : p.Keeps j) :
    (∃ y os, exec nm c v mem (.modify (p.prog nm v)) = some (y, os) ∧
      fieldVal y f.offset f.width = fieldVal mem f.offset f.width) ∧
    ∃ y os, exec nm c v mem (.store (p.prog nm v)) = some (y, os) ∧
      fieldVal y f.offset f.width = fieldVal (BitVec.ofNat n v.reset) f.offset f.width := by
  have keep : ∀ (p : Plan n), p.Keeps j → ∀ r, (runPlan v.width r p).1 j = r j := by
    intro p
    induction p with
    | done => intro _ r; rfl
    | use i u next ih =>
      intro hk r
      simp only [runPlan]
      rw [ih _ (hk.2 _)]
      rcases hk.1 with h | h
      · rw [if_neg (Ne.symm h)]
      · subst h
        by_cases hij : j = i
        · subst hij; rw [if_pos rfl]; rfl
        · rw [if_neg hij]
  have go : ∀ x : BitVec n, ∃ y os, runHold nm c v x (p.prog nm v) = some (y, os) ∧
      fieldVal y f.offset f.width = fieldVal x f.offset f.width := by
    intro x
    obtain ⟨y, os, h1, h2, -⟩ := run_ok hv hl hn p x ha
    refine ⟨y, os, h1, ?_⟩
    have := keep p hk (contentOf v x).fields
    rw [h2] at this
    simp only [fields_eq hf] at this
    exact this
  have e1 := List.contains_iff_mem.2 htr.1
  have e2 := List.contains_iff_mem.2 htr.2
  refine ⟨?_, ?_⟩
  · obtain ⟨y, os, h1, h2⟩ := go mem
    exact ⟨y, os, by simp only [exec, e1, e2, Bool.and_self, if_true, h1], h2⟩
  · obtain ⟨y, os, h1, h2⟩ := go (BitVec.ofNat n v.reset)
    exact ⟨y, os, by simp only [exec, e2, if_true, h1], h2⟩

example : (Plan.use 0 .set fun _ => .done : Plan 32).Keeps 1 ∧ (Plan.use 0 .set fun _ => .done : Plan 32).Allowed exReg :=
  ⟨⟨.inl (by decide), fun _ => trivial⟩, ⟨_, rfl, by unfold Field.writes; decide, by decide, by decide⟩, fun _ => trivial⟩

/-- C76 fails: a field called `REG` (or `HOLD`, or `BITFIELD`) gives two types of one name; only `VAL` is
taken care of (macros/src/reg.rs 185–189). -/
theorem C76_false_name : ∃ (v : Variant Unit), Documented v .rw ∧ Layout v ∧ (v.fields.map (·.ident)).Nodup ∧
    ¬ accepts () (moduleItems exNames v) := by
  refine ⟨{ exReg with fields := [⟨"REG", always, 0, 8, [.rr, .ww]⟩] }, ⟨rfl, fun f hf => ?_⟩, ⟨by decide, by decide⟩,
    by decide, fun h => absurd (accepts_iff.1 h).reserved (by decide)⟩
  simp only [List.mem_singleton] at hf
  subst hf
  exact ⟨.rw, .inl rfl, .inl rfl⟩

/-- C76 fails: a field with an attribute that disables it does not compile, as the attributes are repeated neither at
the implementations nor in the constructor (macros/src/reg.rs 196–239). -/
theorem C76_false_disabled : ∃ (v : Variant Bool), Documented v .rw ∧ Layout v ∧ accepts true (moduleItems exNames v) ∧
    ¬ accepts false (moduleItems exNames v) := by
  refine ⟨{ block := "STK", ident := "CTRL", on := always, address := 0, size := 32, reset := 0, traits := [.rReg, .wReg],
            fields := [⟨"ENABLE", id, 0, 1, [.rr, .ww]⟩] }, ⟨rfl, fun f hf => ?_⟩, ⟨by decide, by decide⟩,
    accepts_iff.2 ⟨by decide, by decide, by decide, by decide, by decide, by
      unfold Field.reads Field.writes; decide, by decide, by decide, by decide⟩,
    fun h => absurd (accepts_iff.1 h).on (by decide)⟩
  simp only [List.mem_singleton] at hf
  subst hf
  exact ⟨.rw, .inl rfl, .inl rfl⟩

/-- C76 fails: of several variants none can be disabled, as the conversions name all of them
(macros/src/reg.rs 459–493). -/
theorem C76_false_variant : ∃ vs : List (Variant Bool), acceptsReg exNames true vs ∧ ¬ acceptsReg exNames false vs := by
  refine ⟨[{ block := "TIM1", ident := "CCMR1_Input", on := always, address := 0x40010018, size := 32, reset := 0,
             traits := [.rReg, .wReg], fields := [] },
           { block := "TIM1", ident := "CCMR1_Output", on := id, address := 0x40010018, size := 32, reset := 0,
             traits := [.rReg, .wReg], fields := [] }],
    acceptsReg_iff.2 ⟨by decide, fun v hv _ => ?_, by decide⟩, fun h => absurd ((acceptsReg_iff.1 h).on (by decide)) (by decide)⟩
  simp only [List.mem_cons, List.not_mem_nil, or_false] at hv
  rcases hv with rfl | rfl <;>
  exact ⟨⟨by decide, by decide⟩, by decide, by decide, by decide, by decide, by decide, by
      unfold Field.reads Field.writes; decide, by decide, by decide, by decide⟩

/-- C76 fails: a field `offset => 30; width => 4` of a 32-bit register compiles, and the upper two bits of what is
written are lost. -/
theorem C76_false_range : ∃ v : Variant Unit, Documented v .rw ∧ acceptsReg exNames () [v] ∧
    execAll exNames () v 0#32 [.fieldWriteBits 0 15#32, .fieldRead 0] = some (0xC0000000#32, [[], [.bits 3#32]]) := by
  refine ⟨{ exReg with fields := [⟨"MODE", always, 30, 4, [.rr, .ww]⟩] }, ⟨rfl, fun f hf => ?_⟩,
    acceptsReg_iff.2 ⟨by decide, fun v hv _ => ?_, by decide⟩, by decide +kernel⟩
  · simp only [List.mem_singleton] at hf
    subst hf
    exact ⟨.rw, .inl rfl, .inl rfl⟩
  · simp only [List.mem_singleton] at hv
    subst hv
    exact ⟨⟨by decide, by decide⟩, by decide, by decide, by decide, by decide, by decide, by
      unfold Field.reads Field.writes; decide, by decide, by decide, by decide⟩

end Verif.Regs.Def
