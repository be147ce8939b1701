import Verif.Exec.Inv
/-! # Software threads whose priorities do not change run at their level -/
namespace Verif.Exec
open Verif.Soft (upd Frame InvA U32)

/-- Bits of a cell are for threads of this level. -/
def CellOk (count : Nat) (prio : Nat → Nat) (cell : U32) (level : Nat) : Prop := ∀ t, t < count → cell.getLsbD t = true → prio t + 1 = level

/-- The call deals with threads of its level. -/
def FrameLevel (count : Nat) (prio : Nat → Nat) : Frame → Prop
  | .req t (.cell p) => p = prio t
  | .row r (.bits _ cell _) => CellOk count prio cell r.priority
  | .row r (.call thr cell _ _) => prio thr + 1 = r.priority ∧ CellOk count prio cell r.priority
  | _ => True

/-- Threads are pending at their level only, and run there. -/
structure Level (count : Nat) (s : Soft.State) : Prop where
  bit : ∀ p, p < 27 → CellOk count s.prio (s.mem (27 - p)) (p + 1)
  fr : ∀ f ∈ s.stack, FrameLevel count s.prio f

theorem init_level (count : Nat) (prio : Nat → Nat) : Level count (Soft.init prio) :=
  ⟨by intro p _ t _ h; simp [Soft.init] at h, by simp [Soft.init]⟩

/-- The call on top of the stack is replaced or ends. -/
theorem level_top {count : Nat} {s s' : Soft.State} {f : Frame} {rest : List Frame} (l : Level count s) (hst : s.stack = f :: rest)
    (hpr : s'.prio = s.prio) (hm : ∀ p, p < 27 → CellOk count s.prio (s'.mem (27 - p)) (p + 1))
    (hs : s'.stack = rest ∨ ∃ g, s'.stack = g :: rest ∧ FrameLevel count s.prio g) : Level count s' := by
  refine ⟨by rw [hpr]; exact hm, ?_⟩
  intro g hg
  rw [hpr]
  have old : ∀ g ∈ rest, FrameLevel count s.prio g := fun g h => l.fr g (by rw [hst]; simp [h])
  rcases hs with e | ⟨x, e, hx⟩
  · rw [e] at hg; exact old g hg
  · rw [e] at hg
    rcases List.mem_cons.1 hg with rfl | hg
    · exact hx
    · exact old g hg

theorem frameStep_level {count : Nat} (hc : count ≤ 32) {s s' : Soft.State} {f : Frame} {rest : List Frame} (i : InvA count s) (l : Level count s)
    (hst : s.stack = f :: rest) (h : Soft.frameStep count s rest f = some s') (hn : ∀ u q, f ≠ .clear u q) : Level count s' := by
  have hpr := Soft.frameStep_prio h
  have j := i.ok
  rw [hst] at j
  obtain ⟨j1, j2⟩ := j
  have lf := l.fr f (by rw [hst]; simp)
  have hz : ∀ p, p < 27 → ¬ (27 - p = 0) := by intro p hp; omega
  -- the memory is as before, the header excepted
  have keep : ∀ x, (∀ p, p < 27 → CellOk count s.prio (upd s.mem 0 x (27 - p)) (p + 1)) := by
    intro x p hp
    simp only [upd, hz p hp, ↓reduceIte]
    exact l.bit p hp
  cases f with
  | req thr pc =>
    cases pc with
    | load => simp only [Soft.frameStep, Option.some.injEq] at h; subst h; exact level_top l hst hpr l.bit (.inr ⟨_, rfl, rfl⟩)
    | cell q =>
      have hlt' : thr < 32 := by have := j1.1; omega
      have hq : q = s.prio thr := lf
      simp only [Soft.frameStep, Soft.cellIdx_lt j1.1 j1.2, ↓reduceIte, Option.some.injEq] at h
      simp only [Soft.cellIdx_small j1.1 hc j1.2, Soft.pendingBit_small hlt'] at h
      subst h
      refine level_top l hst rfl ?_ ?_
      · intro p hp t ht hb
        simp only [upd] at hb
        split at hb
        · rename_i e
          rw [Soft.getLsbD_or_bit (by omega), Bool.or_eq_true] at hb
          rcases hb with hb | hb
          · rw [← e] at hb; exact l.bit p hp t ht hb
          · simp only [decide_eq_true_eq] at hb
            have := j1.2
            subst hb hq; omega
        · exact l.bit p hp t ht hb
      · dsimp only
        split
        · exact .inr ⟨_, rfl, trivial⟩
        · exact .inl rfl
    | header q =>
      simp only [Soft.frameStep, Option.some.injEq] at h; subst h
      refine level_top l hst rfl (keep _) ?_
      dsimp only
      split
      · exact .inr ⟨_, rfl, trivial⟩
      · exact .inl rfl
  | start =>
    simp only [Soft.frameStep] at h
    split at h <;> (simp only [Option.some.injEq] at h; subst h)
    · exact level_top l hst rfl l.bit (.inl rfl)
    · exact level_top l hst rfl (keep _) (.inr ⟨_, rfl, trivial⟩)
  | row r pc =>
    obtain ⟨k1, k2, k3, k4, k5, k6⟩ := j1
    have hptr : r.ptr = 27 - (r.priority - 1) := by omega
    have hcell : CellOk count s.prio (s.mem r.ptr) r.priority := by
      have := l.bit (r.priority - 1) (by omega)
      rw [← hptr, show r.priority - 1 + 1 = r.priority by omega] at this
      exact this
    have hadv : ∀ thr cell bit, thr < count ∧ bit = 1#32 <<< thr → CellOk count s.prio cell r.priority →
        FrameLevel count s.prio (Soft.advance count r thr cell bit) := by
      intro thr cell bit hb hcl
      rw [hb.2, Soft.advance_small r cell hc hb.1]
      split
      · trivial
      · exact hcl
    cases pc with
    | load thr =>
      simp only [Soft.frameStep] at h
      split at h
      · split at h
        · split at h
          · simp only [Option.some.injEq] at h; subst h
            refine level_top l hst rfl l.bit ?_
            dsimp only
            split <;> exact .inr ⟨_, rfl, trivial⟩
          · simp at h
        · simp only [Option.some.injEq] at h; subst h
          exact level_top l hst rfl l.bit (.inr ⟨_, rfl, hcell⟩)
      · simp at h
    | bits thr cell bit =>
      obtain ⟨k7, k8⟩ := k6
      have lf : CellOk count s.prio cell r.priority := lf
      simp only [Soft.frameStep] at h
      split at h
      · rename_i hb
        split at h
        · simp only [Option.some.injEq] at h; subst h
          rw [k8, Soft.and_bit_ne (by omega)] at hb
          refine level_top l hst rfl ?_ (.inr ⟨_, rfl, lf thr k7 hb, hcell⟩)
          intro p hp t ht hbt
          simp only [upd] at hbt
          split at hbt
          · rename_i e
            rw [k8, Soft.getLsbD_andnot_bit (by omega), Bool.and_eq_true] at hbt
            rw [← e] at hbt
            exact l.bit p hp t ht hbt.1
          · exact l.bit p hp t ht hbt
        · simp at h
      · simp only [Option.some.injEq] at h; subst h
        exact level_top l hst rfl l.bit (.inr ⟨_, rfl, hadv _ _ _ ⟨k7, k8⟩ lf⟩)
    | call thr cell bit c =>
      have lf : s.prio thr + 1 = r.priority ∧ CellOk count s.prio cell r.priority := lf
      simp only [Soft.frameStep] at h
      split at h <;> (simp only [Option.some.injEq] at h; subst h)
      · exact level_top l hst rfl l.bit (.inr ⟨_, rfl, lf⟩)
      · exact level_top l hst rfl l.bit (.inr ⟨_, rfl, hadv _ _ _ k6 lf.2⟩)
    | next =>
      simp only [Soft.frameStep, Option.some.injEq] at h
      subst h
      refine level_top l hst rfl (keep _) ?_
      dsimp only
      split
      · exact .inl rfl
      · split <;> exact .inr ⟨_, rfl, trivial⟩
  | clear u q => exact absurd rfl (hn u q)
  | plain u c =>
    simp only [Soft.frameStep] at h
    split at h <;> (simp only [Option.some.injEq] at h; subst h)
    · exact level_top l hst rfl l.bit (.inr ⟨_, rfl, trivial⟩)
    · exact level_top l hst rfl l.bit (.inl rfl)

/-- A thread that is entered does not run yet. -/
theorem enter_once {count : Nat} {s : Soft.State} {f : Frame} {rest : List Frame} {t : Nat} (i : InvA count s) (l : Level count s)
    (hst : s.stack = f :: rest) (he : entering [f] = some t) : ∀ g ∈ s.stack, inside [g] ≠ some t := by
  intro g hg hin
  have hrow : ∀ g : Frame, g ∈ s.stack → inside [g] = some t ∨ entering [g] = some t → g.level = some (s.prio t + 1) := by
    intro g hg h
    have lf := l.fr g hg
    cases g with
    | row r pc =>
      cases pc with
      | call thr cell bit c =>
        have lf : s.prio thr + 1 = r.priority ∧ CellOk count s.prio cell r.priority := lf
        cases c <;> simp only [inside, entering, reduceCtorEq, Option.some.injEq, or_false, false_or] at h
        all_goals subst h; simp only [Frame.level, lf.1]
      | _ => simp [inside, entering] at h
    | _ => simp [inside, entering] at h
  have h1 := hrow g hg (.inl hin)
  have h2 := hrow f (by rw [hst]; simp) (.inr he)
  rw [hst] at hg
  rcases List.mem_cons.1 hg with rfl | hg
  · cases g with
    | row r pc =>
      cases pc with
      | call thr cell bit c => cases c <;> simp [inside, entering] at he hin
      | _ => simp [inside] at hin
    | _ => simp [inside] at hin
  · have j := i.ok
    rw [hst] at j
    have hle := Soft.level_le j.2 g hg _ h1
    cases f with
    | row r pc =>
      simp only [Frame.level, Option.some.injEq] at h2
      have := j.1.2.1
      have := j.1.2.2.1
      omega
    | _ => simp [Frame.level] at h2

end Verif.Exec
