import Verif.Heap.MultiSpec
import Verif.Heap.ConcProps
/-! # One access of a context to a pool, for both builds -/
namespace Verif.Heap.Multi

/-- The part of a call that a context is in: looking at the free list, carving out a new block, giving a block back. -/
inductive Phase where
  | idle | look | carve | give
deriving DecidableEq

def phase : Conc.Pc → Phase
  | .idle => .idle
  | .afLoad | .afRead _ | .afCas _ _ => .look
  | .auLoad | .auCas _ => .carve
  | .deLoad _ | .deWrite _ _ | .deCas _ _ => .give

theorem phase_idle {pc : Conc.Pc} : phase pc = .idle ↔ pc = .idle := by cases pc <;> simp [phase]

/-- What an access does to the pool, and from which phase to which it goes. -/
inductive Moves (p p' : Conc.State) : Phase → Phase → Prop
  | stay (ph : Phase) : p'.free = p.free → p'.uninit = p.uninit → p'.held = p.held → Moves p p' ph ph
  | none : p.free = 0 → p'.free = p.free → p'.uninit = p.uninit → p'.held = p.held → Moves p p' .look .carve
  | pop (x : Nat) : p.free ≠ 0 → p'.uninit = p.uninit → p'.held = x :: p.held → Moves p p' .look .idle
  | full : p.uninit = p.edge → p'.free = p.free → p'.uninit = p.uninit → p'.held = p.held → Moves p p' .carve .idle
  | carve (x : Nat) : p.uninit ≠ p.edge → p'.free = p.free → p'.held = x :: p.held → Moves p p' .carve .idle
  | give : p'.uninit = p.uninit → p'.held = p.held → Moves p p' .give .idle

/-- Compare-exchanges on `uninit` expect a value below the edge, and those on `free` a block. -/
structure Good (p : Conc.State) : Prop where
  au : ∀ t old, p.pc t = .auCas old → old ≠ p.edge
  af : ∀ t old next, p.pc t = .afCas old next → old ≠ 0
  ar : ∀ t old, p.pc t = .afRead old → old ≠ 0

/-- What a step leaves alone. -/
structure Keeps (p p' : Conc.State) (t : Option Tid) : Prop where
  size : p'.size = p.size
  edge : p'.edge = p.edge
  others : ∀ u, some u ≠ t → p'.pc u = p.pc u
  good : Good p'

theorem good_goto {p : Conc.State} (hg : Good p) (t : Tid) (pc : Conc.Pc) (h1 : ∀ old, pc = .auCas old → old ≠ p.edge)
    (h2 : ∀ old next, pc = .afCas old next → old ≠ 0) (h3 : ∀ old, pc = .afRead old → old ≠ 0) (f u : Nat) (l : Nat → Nat) (h : List Nat) :
    Keeps p { p.goto t pc with free := f, uninit := u, link := l, held := h } (some t) := by
  refine ⟨rfl, rfl, ?_, ?_, ?_, ?_⟩
  · intro v hv
    have : v ≠ t := fun e => hv (by rw [e])
    simp [Conc.State.goto, this]
  · intro v old hv
    simp only [Conc.State.goto] at hv ⊢
    by_cases e : v = t
    · simp only [e, if_true] at hv; exact h1 old hv
    · simp only [e, if_false] at hv; exact hg.au v old hv
  · intro v old next hv
    simp only [Conc.State.goto] at hv
    by_cases e : v = t
    · simp only [e, if_true] at hv; exact h2 old next hv
    · simp only [e, if_false] at hv; exact hg.af v old next hv
  · intro v old hv
    simp only [Conc.State.goto] at hv
    by_cases e : v = t
    · simp only [e, if_true] at hv; exact h3 old hv
    · simp only [e, if_false] at hv; exact hg.ar v old hv

theorem goto_pc (p : Conc.State) (t : Tid) (pc : Conc.Pc) : (p.goto t pc).pc t = pc := by simp [Conc.State.goto]

theorem keeps_refl {p : Conc.State} (hg : Good p) (t : Option Tid) : Keeps p p t := ⟨rfl, rfl, fun _ _ => rfl, hg⟩

theorem step_ok (b : Build) {p : Conc.State} (hg : Good p) (t : Tid) (sp : Bool) :
    Moves p (poolStep b p (.step t sp)) (phase (p.pc t)) (phase ((poolStep b p (.step t sp)).pc t)) ∧
    Keeps p (poolStep b p (.step t sp)) (some t) := by
  have gt := fun pc h1 h2 h3 f u l h => good_goto hg t pc h1 h2 h3 f u l h
  have afA : ∀ pc, phase pc = .look → Moves p (Conc.afAfter p t p.free) (phase pc) (phase ((Conc.afAfter p t p.free).pc t)) ∧
      Keeps p (Conc.afAfter p t p.free) (some t) := by
    intro pc hpc
    unfold Conc.afAfter
    split
    · rename_i h0
      refine ⟨?_, gt .auLoad (by simp) (by simp) (by simp) _ _ _ _⟩
      rw [goto_pc, hpc]
      exact .none h0 rfl rfl rfl
    · rename_i h0
      refine ⟨?_, gt (.afRead p.free) (by simp) (by simp) (by simpa using h0) _ _ _ _⟩
      rw [goto_pc, hpc]
      exact .stay .look rfl rfl rfl
  have auA : ∀ pc, phase pc = .carve → Moves p (Conc.auAfter p t p.uninit) (phase pc) (phase ((Conc.auAfter p t p.uninit).pc t)) ∧
      Keeps p (Conc.auAfter p t p.uninit) (some t) := by
    intro pc hpc
    unfold Conc.auAfter
    split
    · rename_i h0
      refine ⟨?_, gt .idle (by simp) (by simp) (by simp) _ _ _ _⟩
      rw [goto_pc, hpc]
      exact .full h0 rfl rfl rfl
    · rename_i h0
      refine ⟨?_, gt (.auCas p.uninit) (by simpa using h0) (by simp) (by simp) _ _ _ _⟩
      rw [goto_pc, hpc]
      exact .stay .carve rfl rfl rfl
  cases b with
  | hw =>
    simp only [poolStep, Conc.stepHw]
    split
    · exact ⟨by rename_i h; rw [h]; exact .stay _ rfl rfl rfl, keeps_refl hg _⟩
    · rename_i h; rw [h]; exact afA _ rfl
    · rename_i old h
      refine ⟨?_, gt (.afCas old (p.link old)) (by simp) (by intro o n e; cases e; exact hg.ar t _ h) (by simp) _ _ _ _⟩
      rw [goto_pc, h]; exact .stay .look rfl rfl rfl
    · rename_i old next h
      split
      · rename_i hc
        refine ⟨?_, gt .idle (by simp) (by simp) (by simp) _ _ _ _⟩
        simp only [goto_pc, h]
        exact .pop old (by rw [hc.1]; exact hg.af t _ _ h) rfl rfl
      · rw [h]; exact afA _ rfl
    · rename_i h; rw [h]; exact auA _ rfl
    · rename_i old h
      split
      · rename_i hc
        refine ⟨?_, gt .idle (by simp) (by simp) (by simp) _ _ _ _⟩
        simp only [goto_pc, h]
        exact .carve old (by rw [hc.1]; exact hg.au t _ h) rfl rfl
      · rw [h]; exact auA _ rfl
    · rename_i q h
      refine ⟨?_, gt (.deWrite q p.free) (by simp) (by simp) (by simp) _ _ _ _⟩
      rw [goto_pc, h]; exact .stay .give rfl rfl rfl
    · rename_i q old h
      refine ⟨?_, gt (.deCas q old) (by simp) (by simp) (by simp) _ _ _ _⟩
      simp only [goto_pc, h]; exact .stay .give rfl rfl rfl
    · rename_i q old h
      split
      · refine ⟨?_, gt .idle (by simp) (by simp) (by simp) _ _ _ _⟩
        simp only [goto_pc, h]; exact .give rfl rfl
      · refine ⟨?_, gt (.deWrite q p.free) (by simp) (by simp) (by simp) _ _ _ _⟩
        rw [goto_pc, h]; exact .stay .give rfl rfl rfl
  | soft =>
    simp only [poolStep, Conc.stepSoft]
    split
    · rename_i h
      split
      · rename_i h0
        refine ⟨?_, gt .auLoad (by simp) (by simp) (by simp) _ _ _ _⟩
        rw [goto_pc, h]; exact .none h0 rfl rfl rfl
      · rename_i h0
        refine ⟨?_, gt .idle (by simp) (by simp) (by simp) _ _ _ _⟩
        simp only [goto_pc, h]; exact .pop p.free h0 rfl rfl
    · rename_i h
      split
      · rename_i h0
        refine ⟨?_, gt .idle (by simp) (by simp) (by simp) _ _ _ _⟩
        rw [goto_pc, h]; exact .full h0 rfl rfl rfl
      · rename_i h0
        refine ⟨?_, gt .idle (by simp) (by simp) (by simp) _ _ _ _⟩
        simp only [goto_pc, h]; exact .carve p.uninit h0 rfl rfl
    · rename_i q h
      refine ⟨?_, gt .idle (by simp) (by simp) (by simp) _ _ _ _⟩
      simp only [goto_pc, h]; exact .give rfl rfl
    · exact ⟨.stay _ rfl rfl rfl, keeps_refl hg _⟩

theorem alloc_ok (b : Build) {p : Conc.State} (hg : Good p) (t : Tid) (h : p.pc t = .idle) :
    phase ((poolStep b p (.alloc t)).pc t) = .look ∧ (poolStep b p (.alloc t)).free = p.free ∧
    (poolStep b p (.alloc t)).uninit = p.uninit ∧ (poolStep b p (.alloc t)).held = p.held ∧
    Keeps p (poolStep b p (.alloc t)) (some t) := by
  have e : poolStep b p (.alloc t) = p.goto t .afLoad := by
    cases b <;> simp [poolStep, Conc.stepHw, Conc.stepSoft, Conc.call, h]
  rw [e]
  exact ⟨by rw [goto_pc]; rfl, rfl, rfl, rfl, good_goto hg t .afLoad (by simp) (by simp) (by simp) _ _ _ _⟩

theorem dealloc_ok (b : Build) {p : Conc.State} (hg : Good p) (t : Tid) (q : Nat) (h : p.pc t = .idle) (hq : q ∈ p.held) :
    phase ((poolStep b p (.dealloc t q)).pc t) = .give ∧ (poolStep b p (.dealloc t q)).free = p.free ∧
    (poolStep b p (.dealloc t q)).uninit = p.uninit ∧ Keeps p (poolStep b p (.dealloc t q)) (some t) := by
  have e : poolStep b p (.dealloc t q) = { p.goto t (.deLoad q) with held := p.held.erase q } := by
    cases b <;> simp [poolStep, Conc.stepHw, Conc.stepSoft, Conc.call, h, hq]
  rw [e]
  exact ⟨by simp only [goto_pc]; rfl, rfl, rfl, good_goto hg t (.deLoad q) (by simp) (by simp) (by simp) _ _ _ _⟩

theorem write_ok (b : Build) {p : Conc.State} (hg : Good p) (q v : Nat) :
    (poolStep b p (.write q v)).free = p.free ∧ (poolStep b p (.write q v)).uninit = p.uninit ∧
    (poolStep b p (.write q v)).held = p.held ∧ Keeps p (poolStep b p (.write q v)) none := by
  by_cases hq : q ∈ p.held
  · have e : poolStep b p (.write q v) = { p with link := fun x => if x = q then v else p.link x } := by
      cases b <;> simp [poolStep, Conc.stepHw, Conc.stepSoft, Conc.call, hq]
    rw [e]
    exact ⟨rfl, rfl, rfl, rfl, rfl, fun _ _ => rfl, hg.au, hg.af, hg.ar⟩
  · have e : poolStep b p (.write q v) = p := by
      cases b <;> simp [poolStep, Conc.stepHw, Conc.stepSoft, Conc.call, hq]
    rw [e]
    exact ⟨rfl, rfl, rfl, keeps_refl hg _⟩

theorem init_good (a z c : Nat) (l : Nat → Nat) : Good (Conc.init a z c l) := by
  constructor <;> simp [Conc.init]

end Verif.Heap.Multi
