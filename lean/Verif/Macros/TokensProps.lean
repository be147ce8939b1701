import Verif.Macros.TokensLemmas
/-! # C63: the register token index has every enabled register once -/
namespace Verif.Macros
open CfgCond (Pred evalAll evalAny)

variable {K : Type}

/-- Name and token type of a definition. -/
def Def.entry (d : Def K) : String × Path := (d.ident, d.path)

theorem blockDefs_entry {krate : Nat} {b : Block K} (h : ∀ r ∈ b.regs, r.cfgs = []) (σ : K → Bool) :
    (blockDefs krate b).map Def.entry =
      (b.regs.filter fun r => !r.skip && evalAll σ r.cfgs).map
        fun r => (b.name ++ "_" ++ r.name, ⟨krate, b.name, r.name⟩) := by
  have hf : b.regs.filter (fun r => !r.skip && evalAll σ r.cfgs) = b.regs.filter (fun r => !r.skip) := by
    apply List.filter_congr
    intro r hr
    rw [h r hr]
    simp [CfgCond.evalAll]
  rw [hf, blockDefs, List.map_map]
  rfl

theorem chainDefs_plain {layers : List (Layer K)} (h : PlainRegs layers) (σ : Nat → K → Bool) :
    ∀ d ∈ chainDefs σ layers, d.cfgs = [] := by
  induction layers with
  | nil => simp [chainDefs]
  | cons l older ih =>
    intro d hd
    have hb : ∀ b ∈ l.blocks, ∀ d ∈ blockDefs l.krate b, d.cfgs = [] := by
      intro b hb d hd
      simp only [blockDefs, List.mem_map, List.mem_filter] at hd
      obtain ⟨r, ⟨hr, _⟩, rfl⟩ := hd
      exact h l (List.mem_cons_self ..) b hb r hr
    simp only [chainDefs, layerDefs, condDefs, List.mem_append, List.mem_flatMap, List.mem_filter] at hd
    rcases hd with hd | ⟨b, ⟨hb1, _⟩, hd⟩ | ⟨b, ⟨hb1, _⟩, hd⟩
    · exact ih (fun l' hl => h l' (List.mem_cons_of_mem _ hl)) d hd
    · split at hd
      · exact hb b hb1 d hd
      · simp at hd
    · exact hb b hb1 d hd

theorem chainDefs_entry {layers : List (Layer K)} (h : PlainRegs layers) (σ : Nat → K → Bool) :
    (chainDefs σ layers).map Def.entry = offered σ layers := by
  induction layers with
  | nil => rfl
  | cons l older ih =>
    have h1 := h l (List.mem_cons_self ..)
    rw [chainDefs, offered, List.map_append, ih fun l' hl => h l' (List.mem_cons_of_mem _ hl),
      layerDefs, List.map_append, List.flatMap_append]
    congr 2
    · rw [condDefs, List.map_flatMap, List.flatMap_def, List.flatMap_def]
      congr 1
      apply List.map_congr_left
      intro b hb
      have hb := h1 b (List.mem_filter.1 hb).1
      split
      · exact blockDefs_entry hb _
      · rfl
    · rw [List.map_flatMap, List.flatMap_def, List.flatMap_def]
      congr 1
      apply List.map_congr_left
      intro b hb
      have hc : b.cfgs = [] := by simpa using (List.mem_filter.1 hb).2
      have hb := h1 b (List.mem_filter.1 hb).1
      rw [hc]
      exact blockDefs_entry hb _

/-- Exactly one of the two helper macros of a block exists, in every configuration. -/
theorem C63_one_macro (σ : K → Bool) (cfgs : List (Pred K)) :
    evalAll σ [negateCfgs cfgs] = !evalAll σ cfgs := negate_eval σ cfgs

/-- The call of the newest macro always expands. The names of the index are exactly those
offered and not excluded, each once, and each field has a type offered under its name, the
one listed last. -/
theorem C63_names {layers : List (Layer K)} (hp : PlainRegs layers) (hl : layers ≠ [])
    (σ : Nat → K → Bool) (app : Nat) (undefs : List String) :
    ∃ fields, index σ app layers undefs = some fields ∧ (fields.map (·.1)).Nodup ∧
      (∀ n, n ∈ fields.map (·.1) ↔ n ∈ (wanted σ layers undefs).map (·.1)) ∧
      ∀ e ∈ fields, ∃ pre post, offered σ layers = pre ++ e :: post ∧ e.1 ∉ post.map (·.1) := by
  have he := expand_chain σ layers [] hl
  rw [List.append_nil] at he
  refine ⟨_, by rw [index, he]; rfl, ?_⟩
  have hf : (indexFields (chainDefs σ layers) undefs).filter (fun d => evalAll (σ app) d.cfgs) =
      indexFields (chainDefs σ layers) undefs := by
    apply List.filter_eq_self.2
    intro d hd
    obtain ⟨⟨pre, post, h1, _⟩, _⟩ := (indexFields_mem _ _ _).1 hd
    rw [chainDefs_plain hp σ d (by rw [h1]; simp)]
    rfl
  simp only [hf]
  have hent := chainDefs_entry hp σ
  have hlast : ∀ d, IsLast (chainDefs σ layers) d →
      ∃ pre post, offered σ layers = pre ++ d.entry :: post ∧ d.entry.1 ∉ post.map (·.1) := by
    rintro d ⟨pre, post, h1, h2⟩
    refine ⟨pre.map Def.entry, post.map Def.entry, by rw [← hent, h1]; simp, ?_⟩
    simp only [List.map_map, List.mem_map, not_exists, not_and]
    intro e hme
    exact h2 e hme
  have hex : ∀ (ds : List (Def K)) (n : String), n ∈ ds.map (·.ident) →
      ∃ d, IsLast ds d ∧ d.ident = n := by
    intro ds n
    induction ds with
    | nil => simp
    | cons d ds ih =>
      intro hn
      by_cases h1 : n ∈ ds.map (·.ident)
      · obtain ⟨d', ⟨pre, post, h2, h3⟩, h4⟩ := ih h1
        exact ⟨d', ⟨d :: pre, post, by rw [h2]; rfl, h3⟩, h4⟩
      · have : n = d.ident := by
          simp only [List.map_cons, List.mem_cons] at hn
          rcases hn with hn | hn
          · exact hn
          · exact absurd hn h1
        refine ⟨d, ⟨[], ds, rfl, fun e hme h5 => h1 ?_⟩, this.symm⟩
        exact List.mem_map.2 ⟨e, hme, by rw [h5, this]⟩
  refine ⟨?_, ?_, ?_⟩
  · rw [List.map_map]
    exact indexFields_nodup _ undefs
  · intro n
    simp only [List.map_map, List.mem_map, wanted, List.mem_filter]
    constructor
    · rintro ⟨d, hd, rfl⟩
      obtain ⟨⟨pre, post, h1, _⟩, h2⟩ := (indexFields_mem _ _ _).1 hd
      refine ⟨d.entry, ⟨?_, decide_eq_true h2⟩, rfl⟩
      rw [← hent, h1]
      simp
    · rintro ⟨e, ⟨h1, h2⟩, rfl⟩
      rw [← hent] at h1
      obtain ⟨d0, hd0, rfl⟩ := List.mem_map.1 h1
      obtain ⟨d, h3, h4⟩ := hex _ d0.ident (List.mem_map.2 ⟨d0, hd0, rfl⟩)
      refine ⟨d, (indexFields_mem _ _ _).2 ⟨h3, ?_⟩, h4⟩
      rw [h4]
      exact of_decide_eq_true h2
  · intro e he
    obtain ⟨d, hd, rfl⟩ := List.mem_map.1 he
    exact hlast d ((indexFields_mem _ _ _).1 hd).1

/-- C63, for registers without `cfg` attributes of their own and without two enabled registers
of the same `block_register` name: the index has exactly the tokens of the registers that are
enabled and not excluded, each once. Missing: the two cases refuted below. -/
theorem C63_partial {layers : List (Layer K)} (hp : PlainRegs layers) (hl : layers ≠ [])
    (σ : Nat → K → Bool) (app : Nat) (undefs : List String)
    (hn : ((offered σ layers).map (·.1)).Nodup) :
    ∃ fields, index σ app layers undefs = some fields ∧ (fields.map (·.1)).Nodup ∧
      ∀ e, e ∈ fields ↔ e ∈ wanted σ layers undefs := by
  obtain ⟨fields, h1, h2, h3, h4⟩ := C63_names hp hl σ app undefs
  refine ⟨fields, h1, h2, fun e => ?_⟩
  have huniq : ∀ a ∈ offered σ layers, ∀ b ∈ offered σ layers, a.1 = b.1 → a = b := by
    generalize offered σ layers = l at hn
    induction l with
    | nil => simp
    | cons x l ih =>
      simp only [List.map_cons, List.nodup_cons] at hn
      intro a ha b hb hab
      rcases List.mem_cons.1 ha with ha | ha <;> rcases List.mem_cons.1 hb with hb | hb
      · rw [ha, hb]
      · exact absurd (List.mem_map.2 ⟨b, hb, by rw [← hab, ha]⟩) hn.1
      · exact absurd (List.mem_map.2 ⟨a, ha, by rw [hab, hb]⟩) hn.1
      · exact ih hn.2 a ha b hb hab
  have hoff : ∀ a ∈ fields, a ∈ offered σ layers := by
    intro a ha
    obtain ⟨pre, post, h5, _⟩ := h4 a ha
    rw [h5]; simp
  constructor
  · intro he
    have h5 : e.1 ∈ (wanted σ layers undefs).map (·.1) := (h3 e.1).1 (List.mem_map.2 ⟨e, he, rfl⟩)
    obtain ⟨w, hw, hwe⟩ := List.mem_map.1 h5
    rw [← huniq w (List.mem_filter.1 hw).1 e (hoff e he) hwe]
    exact hw
  · intro he
    have h5 : e.1 ∈ fields.map (·.1) := (h3 e.1).2 (List.mem_map.2 ⟨e, he, rfl⟩)
    obtain ⟨w, hw, hwe⟩ := List.mem_map.1 h5
    rw [← huniq w (hoff w hw) e (List.mem_filter.1 he).1 hwe]
    exact hw

/-- Example chain: a core crate with one register and a device crate with a conditional block, a
skipped register and a plain block. -/
def exampleLayers : List (Layer String) :=
  [⟨1, [⟨[.lit "adc"], "adc", [⟨[], "cr", false⟩, ⟨[], "dr", true⟩]⟩,
        ⟨[.lit "dac"], "dac", [⟨[], "cr", false⟩]⟩,
        ⟨[], "rcc", [⟨[], "cr", false⟩, ⟨[], "cfgr", false⟩]⟩]⟩,
   ⟨0, [⟨[], "stk", [⟨[], "ctrl", false⟩]⟩]⟩]

example : PlainRegs exampleLayers ∧ exampleLayers ≠ [] ∧
    ((offered (fun _ k => k == "adc") exampleLayers).map (·.1)).Nodup ∧
    (index (fun _ k => k == "adc") 2 exampleLayers ["rcc_cfgr"]) =
      some [("stk_ctrl", ⟨0, "stk", "ctrl"⟩), ("adc_cr", ⟨1, "adc", "cr"⟩), ("rcc_cr", ⟨1, "rcc", "cr"⟩)] := by
  refine ⟨?_, by simp [exampleLayers], by decide +kernel, by decide +kernel⟩
  intro l hl b hb r hr
  simp only [exampleLayers, List.mem_cons, List.not_mem_nil, or_false] at hl
  rcases hl with rfl | rfl <;> simp only [List.mem_cons, List.not_mem_nil, or_false] at hb <;>
    rcases hb with rfl | rfl | rfl <;> simp only [List.mem_cons, List.not_mem_nil, or_false] at hr <;>
    (first | (rcases hr with rfl | rfl <;> rfl) | (subst hr; rfl))

/-- The full property fails when the name parts join to the same name: register `B_C` of block
`A` in one crate and register `C` of block `A_B` in another. The index keeps one of them,
without a message. -/
theorem C63_false : ∃ (layers : List (Layer String)) (σ : Nat → String → Bool),
    PlainRegs layers ∧
    (⟨"a_b_c", ⟨0, "a", "b_c"⟩⟩ : String × Path) ∈ wanted σ layers [] ∧
    index σ 2 layers [] = some [("a_b_c", ⟨1, "a_b", "c"⟩)] := by
  refine ⟨[⟨1, [⟨[], "a_b", [⟨[], "c", false⟩]⟩]⟩, ⟨0, [⟨[], "a", [⟨[], "b_c", false⟩]⟩]⟩],
    fun _ _ => false, ?_, by decide +kernel, by decide +kernel⟩
  intro l hl b hb r hr
  simp only [List.mem_cons, List.not_mem_nil, or_false] at hl
  rcases hl with rfl | rfl <;> simp only [List.mem_cons, List.not_mem_nil, or_false] at hb <;>
    subst hb <;> simp only [List.mem_cons, List.not_mem_nil, or_false] at hr <;> subst hr <;> rfl

/-- It also fails for a `cfg` attribute on a single register: it is evaluated in the
application, where features of the defining crate mean nothing. -/
theorem C63_false_register_cfg : ∃ (layers : List (Layer String)) (σ : Nat → String → Bool),
    σ 0 "adc" = true ∧ wanted σ layers [] = [("adc_cr", ⟨0, "adc", "cr"⟩)] ∧
    index σ 2 layers [] = some [] := by
  exact ⟨[⟨0, [⟨[], "adc", [⟨[.lit "adc"], "cr", false⟩]⟩]⟩], fun c k => c == 0 && k == "adc",
    by decide +kernel, by decide +kernel, by decide +kernel⟩

end Verif.Macros
