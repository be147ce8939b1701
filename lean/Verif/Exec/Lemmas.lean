import Verif.Exec.Spec
import Verif.Soft.Irq
/-! # Lemmas about futures run by software threads -/
namespace Verif.Exec
open Verif.Soft (upd Frame InvA InvI)

/-- The call leads to the body of thread `t`. -/
def leads (t p : Nat) : Frame → Prop
  | .req u .load => u = t
  | .req u (.cell q) => u = t ∧ q = p
  | .row _ (.call u _ _ .load) => u = t
  | .row _ (.call u _ _ (.store _)) => u = t
  | _ => False

/-- Thread `t` will start its body (again). -/
def Due (s : Soft.State) (t : Nat) : Prop :=
  (s.mem (27 - s.prio t)).getLsbD t = true ∨ ∃ f ∈ s.stack, leads t (s.prio t) f

/-- Every task that was started waits for its signal or is about to be polled. -/
structure Inv (count : Nat) (s : State) : Prop where
  thr : ∀ k, k < s.made → (s.task k).thr < count
  wait : ∀ k, k < s.made → (s.task k).live = true → (s.task k).done = false →
    ((s.task k).pos < (s.task k).len ∧ s.fired k (s.task k).pos = false ∧ s.waker k (s.task k).pos = some (s.task k).thr) ∨
    k ∈ s.queue (s.task k).thr ∨ Due s.soft (s.task k).thr
  got : ∀ k, k < s.made → (s.task k).pos ≤ (s.task k).len ∧ ∀ i, i < (s.task k).pos → s.fired k i = true
  fin : ∀ k, k < s.made → (s.task k).done = true → (s.task k).pos = (s.task k).len
  wak : ∀ k i t, s.waker k i = some t → k < s.made ∧ t = (s.task k).thr
  que : ∀ t k, k ∈ s.queue t → k < s.made ∧ (s.task k).thr = t ∧ (s.task k).done = false
  nod : ∀ t, (s.queue t).Nodup
  bod : ∀ t, s.queue t ≠ [] → ∃ f ∈ s.soft.stack, inside [f] = some t

theorem init_inv (count : Nat) (prio : Nat → Nat) (fired : Nat → Nat → Bool) : Inv count (init prio fired) := by
  refine ⟨?_, ?_, ?_, ?_, ?_, ?_, ?_, ?_⟩ <;> simp [init]

theorem inside_cons {f : Frame} {st : List Frame} : inside (f :: st) = inside [f] := by
  unfold inside
  split
  · rename_i e; simp only [List.cons.injEq] at e; rw [e.1]
  · rename_i hn
    split
    · rename_i e; simp only [List.cons.injEq] at e
      exact absurd (by rw [e.1]) (hn _ _ _ _ _ st)
    · rfl

theorem entering_cons {f : Frame} {st : List Frame} : entering (f :: st) = entering [f] := by
  unfold entering
  split
  · rename_i e; simp only [List.cons.injEq] at e; rw [e.1]
  · rename_i hn
    split
    · rename_i e; simp only [List.cons.injEq] at e
      exact absurd (by rw [e.1]) (hn _ _ _ _ _ st)
    · rfl

/-- The body on top of the stack stays when it makes an access. -/
theorem frameStep_inside {count : Nat} {s s' : Soft.State} {f : Frame} {rest : List Frame} {t : Nat} (h : Soft.frameStep count s rest f = some s')
    (hf : inside [f] = some t) : s'.stack = f :: rest := by
  cases f with
  | row r pc =>
    cases pc with
    | call thr cell bit c =>
      cases c with
      | body p =>
        simp only [Soft.frameStep, Soft.callStep, Option.some.injEq] at h
        subst h; rfl
      | _ => simp [inside] at hf
    | _ => simp [inside] at hf
  | _ => simp [inside] at hf

/-- An access of a call keeps a thread due, or the thread is entered. -/
theorem frameStep_due {count : Nat} (hc : count ≤ 32) {s s' : Soft.State} {f : Frame} {rest : List Frame} {t : Nat} (i : InvA count s) (ht : t < count)
    (hst : s.stack = f :: rest) (h : Soft.frameStep count s rest f = some s') (hn : ∀ u q, f ≠ .clear u q) (hd : Due s t) :
    Due s' t ∨ entering [f] = some t := by
  have hpr := Soft.frameStep_prio h
  have hlt : t < 32 := by omega
  have hp := i.pr t
  have j := i.ok
  rw [hst] at j
  obtain ⟨j1, j2⟩ := j
  have hz : ¬ (27 - s.prio t = 0) := by omega
  -- a call below the top
  have below : ∀ g ∈ rest, leads t (s.prio t) g → Due s' t := by
    intro g hg hl
    right
    rw [hpr]
    rcases Soft.frameStep_stack h with e | ⟨x, e⟩
    · exact ⟨g, by rw [e]; exact hg, hl⟩
    · exact ⟨g, by rw [e]; simp [hg], hl⟩
  -- the memory keeps the bit, or a scheduler loop has taken it
  have hmem : (s.mem (27 - s.prio t)).getLsbD t = true → Due s' t := by
    intro hb
    cases f with
    | req thr pc =>
      left; rw [hpr]
      cases pc with
      | load => simp only [Soft.frameStep, Option.some.injEq] at h; subst h; exact hb
      | cell q =>
        have hlt' : thr < 32 := by have := j1.1; omega
        simp only [Soft.frameStep, Soft.cellIdx_lt j1.1 j1.2, ↓reduceIte, Option.some.injEq] at h
        simp only [Soft.cellIdx_small j1.1 hc j1.2, Soft.pendingBit_small hlt'] at h
        subst h
        simp only [upd]
        split
        · rename_i e
          rw [Soft.getLsbD_or_bit hlt, ← e, hb]; rfl
        · exact hb
      | header q =>
        simp only [Soft.frameStep, Option.some.injEq] at h; subst h
        simp only [upd, hz, ↓reduceIte]; exact hb
    | start =>
      left; rw [hpr]
      simp only [Soft.frameStep] at h
      split at h <;> (simp only [Option.some.injEq] at h; subst h)
      · exact hb
      · simp only [upd, hz, ↓reduceIte]; exact hb
    | row r pc =>
      obtain ⟨k1, k2, k3, k4, k5, k6⟩ := j1
      cases pc with
      | load thr =>
        left; rw [hpr]
        simp only [Soft.frameStep] at h
        split at h
        · split at h
          · split at h
            · simp only [Option.some.injEq] at h; subst h; exact hb
            · simp at h
          · simp only [Option.some.injEq] at h; subst h; exact hb
        · simp at h
      | bits thr cell bit =>
        obtain ⟨k7, k8⟩ := k6
        simp only [Soft.frameStep] at h
        split at h
        · split at h
          · simp only [Option.some.injEq] at h; subst h
            by_cases e : 27 - s.prio t = r.ptr ∧ t = thr
            · obtain ⟨e1, rfl⟩ := e
              exact .inr ⟨_, List.mem_cons_self .., rfl⟩
            · left
              simp only [upd]
              split
              · rename_i e1
                rw [k8, Soft.getLsbD_andnot_bit hlt, ← e1, hb]
                have : t ≠ thr := fun e2 => e ⟨e1, e2⟩
                simp [this]
              · exact hb
          · simp at h
        · left; rw [hpr]; simp only [Option.some.injEq] at h; subst h; exact hb
      | call thr cell bit c =>
        left; rw [hpr]
        simp only [Soft.frameStep] at h
        split at h <;> (simp only [Option.some.injEq] at h; subst h; exact hb)
      | next =>
        left; rw [hpr]
        simp only [Soft.frameStep, Option.some.injEq] at h
        subst h
        simp only [upd, hz, ↓reduceIte]; exact hb
    | clear u q => exact absurd rfl (hn u q)
    | plain u c =>
      left; rw [hpr]
      simp only [Soft.frameStep] at h
      split at h <;> (simp only [Option.some.injEq] at h; subst h; exact hb)
  rcases hd with hb | ⟨g, hg, hl⟩
  · exact .inl (hmem hb)
  · rw [hst] at hg
    rcases List.mem_cons.1 hg with rfl | hg
    · cases g with
      | req thr pc =>
        left
        cases pc with
        | load =>
          have : thr = t := hl
          subst this
          simp only [Soft.frameStep, Option.some.injEq] at h
          subst h
          exact .inr ⟨_, List.mem_cons_self .., rfl, rfl⟩
        | cell q =>
          obtain ⟨rfl, rfl⟩ := (hl : thr = t ∧ q = s.prio t)
          simp only [Soft.frameStep, Soft.cellIdx_lt j1.1 j1.2, ↓reduceIte, Option.some.injEq] at h
          simp only [Soft.cellIdx_small j1.1 hc j1.2, Soft.pendingBit_small hlt] at h
          subst h
          left
          simp only [upd, ↓reduceIte]
          rw [Soft.getLsbD_or_bit hlt]
          simp
        | header q => exact absurd hl id
      | row r pc =>
        cases pc with
        | call thr cell bit c =>
          cases c with
          | load =>
            have : thr = t := hl
            subst this
            simp only [Soft.frameStep, Soft.callStep, Option.some.injEq] at h
            subst h
            exact .inl (.inr ⟨_, List.mem_cons_self .., rfl⟩)
          | store p =>
            have : thr = t := hl
            subst this
            exact .inr rfl
          | _ => exact absurd hl id
        | _ => exact absurd hl id
      | _ => exact absurd hl id
    · exact .inl (below g hg hl)

theorem due_push {s : Soft.State} {t : Nat} {g : Frame} (h : Due s t) : Due { s with stack := g :: s.stack } t := by
  rcases h with h | ⟨f, hf, hl⟩
  · exact .inl h
  · exact .inr ⟨f, by simp [hf], hl⟩

theorem due_pend {s : Soft.State} {t : Nat} : Due { s with stack := .req t .load :: s.stack } t :=
  .inr ⟨_, List.mem_cons_self .., rfl⟩

theorem pend_eq {count : Nat} {s : Soft.State} {t : Nat} (ht : t < count) :
    Soft.step count s (.pend t) = some { s with stack := .req t .load :: s.stack } := by simp only [Soft.step, ht, ↓reduceIte]

theorem ret_eq {s : Soft.State} {t : Nat} (h : inside s.stack = some t) :
    ∃ r cell bit p rest, s.stack = .row r (.call t cell bit (.body p)) :: rest ∧
      Soft.ret s.stack = .row r (.call t cell bit (.restore p)) :: rest := by
  unfold inside at h
  split at h
  · rename_i e
    simp only [Option.some.injEq] at h
    subst h
    exact ⟨_, _, _, _, _, e, by rw [e]; rfl⟩
  · simp at h

theorem chain_mem {s : State} {t k : Nat} : k ∈ chain s t ↔ k < s.made ∧ (s.task k).thr = t ∧ (s.task k).done = false := by
  simp [chain]

theorem chain_nodup (s : State) (t : Nat) : (chain s t).Nodup := by
  unfold chain
  exact (List.pairwise_reverse.2 (List.nodup_range.imp Ne.symm)).filter _

/-- There is no `clear` and no `plain` call in progress. -/
def NoOther (s : Soft.State) : Prop := ∀ f ∈ s.stack, (∀ u q, f ≠ .clear u q) ∧ (∀ u c, f ≠ .plain u c)

end Verif.Exec
