import Verif.Soft.WideCov
/-! # Software threads with `row_next` repaired, every pool size: what is resumed was requested -/
namespace Verif.Soft

theorem bitOf_or_eq {count : Nat} {mem : Nat → U32} {t p u q : Nat} (ht : t < count) (hu : u < count) (hp : p < 27) (hq : q < 27) :
    bitOf count (upd mem (cellIdx count u q) (mem (cellIdx count u q) ||| 1#32 <<< (u % 32))) t p = (bitOf count mem t p || decide (t = u ∧ p = q)) := by
  rw [Bool.eq_iff_iff]
  simp only [Bool.or_eq_true, decide_eq_true_eq]
  constructor
  · exact bitOf_or ht hu hp hq
  · intro h
    simp only [bitOf, upd]
    split
    · rename_i e
      rw [getLsbD_or_bit (Nat.mod_lt _ (by omega)), ← e]
      rcases h with h | ⟨rfl, rfl⟩
      · simp only [bitOf] at h; rw [h]; rfl
      · simp
    · rename_i e
      rcases h with h | ⟨rfl, rfl⟩
      · exact h
      · exact absurd rfl e

theorem bitOf_and_eq {count : Nat} {mem : Nat → U32} {t p u q : Nat} (ht : t < count) (hu : u < count) (hp : p < 27) (hq : q < 27) :
    bitOf count (upd mem (cellIdx count u q) (mem (cellIdx count u q) &&& ~~~(1#32 <<< (u % 32)))) t p =
      (bitOf count mem t p && !decide (t = u ∧ p = q)) := by
  rw [Bool.eq_iff_iff]
  simp only [Bool.and_eq_true, Bool.not_eq_true', decide_eq_false_iff_not]
  constructor
  · exact bitOf_and
  · rintro ⟨h, hn⟩
    simp only [bitOf, upd]
    split
    · rename_i e
      rw [getLsbD_andnot_bit (Nat.mod_lt _ (by omega)), ← e]
      simp only [bitOf] at h
      rw [h]
      have := cellIdx_inj ht hu hp hq e
      simp only [Bool.true_and, decide_eq_true_eq]
      intro e2
      exact hn ⟨by omega, this.1⟩
    · exact h

/-- The threads a scheduler loop will resume without looking again. -/
def RowPc.willW : RowPc → Nat → Prop
  | .bits thr cell _, t => thr ≤ t ∧ t / 32 = thr / 32 ∧ cell.getLsbD (t % 32) = true
  | .call thr cell _ _, t => thr < t ∧ t / 32 = thr / 32 ∧ cell.getLsbD (t % 32) = true
  | _, _ => False

/-- The threads the call will resume without looking again are pending. -/
def Frame.SnapW (count : Nat) (mem : Nat → U32) : Frame → Prop
  | .row r pc => ∀ t, t < count → pc.willW t → bitOf count mem t (r.priority - 1) = true
  | _ => True

/-- Requests and resumes agree with what is pending. -/
structure InvS (count : Nat) (s : State) : Prop where
  snap : ∀ f ∈ s.stack, f.SnapW count s.mem
  nc : ∀ t p, .clear t p ∉ s.stack
  acc : ∀ t p, t < count → p < 27 → requests t p s.log = runs t p s.log + (bitOf count s.mem t p).toNat

theorem init_invS (count : Nat) (prio : Nat → Nat) : InvS count (init prio) := by
  refine ⟨by simp [init], by simp [init], ?_⟩
  intro t p _ _
  simp [init, requests, runs, bitOf]

theorem row_prio {count : Nat} : ∀ {st : List Frame}, StackOkW count st → ∀ r pc, .row r pc ∈ st → 0 < r.priority ∧ r.priority ≤ running st ∧ r.priority ≤ 27
  | f :: st, h, r, pc, hm => by
    have hl := level_leW h _ hm r.priority rfl
    rcases List.mem_cons.1 hm with rfl | hm
    · obtain ⟨_, _, a, b, _⟩ := h.1
      exact ⟨by omega, hl, b⟩
    · have := row_prio h.2 r pc hm
      exact ⟨this.1, hl, this.2.2⟩

/-- One step of the call on top. -/
theorem invS_top {count : Nat} {s s' : State} {f : Frame} {rest : List Frame} (k : InvS count s) (j2 : StackOkW count rest) (hst : s.stack = f :: rest)
    (hm : ∀ t p, t < count → p < 27 → p + 1 ≤ running rest → bitOf count s.mem t p = true → bitOf count s'.mem t p = true)
    (ht : s'.stack = rest ∨ ∃ g, s'.stack = g :: rest ∧ g.SnapW count s'.mem ∧ ∀ t p, g ≠ .clear t p)
    (hacc : ∀ t p, t < count → p < 27 → requests t p s'.log = runs t p s'.log + (bitOf count s'.mem t p).toNat) : InvS count s' := by
  have hrest : ∀ g ∈ rest, g.SnapW count s'.mem := by
    intro g hg
    have := k.snap g (by rw [hst]; simp [hg])
    cases g with
    | row r pc =>
      intro t ht hw
      have hp := row_prio j2 r pc hg
      exact hm t _ ht (by omega) (by omega) (this t ht hw)
    | _ => trivial
  have hnc : ∀ t p, .clear t p ∉ rest := by
    intro t p h
    exact k.nc t p (by rw [hst]; simp [h])
  rcases ht with e | ⟨g, e, hg, hgc⟩
  · exact ⟨by rw [e]; exact hrest, by rw [e]; exact hnc, hacc⟩
  · refine ⟨?_, ?_, hacc⟩
    · rw [e]
      intro x hx
      rcases List.mem_cons.1 hx with rfl | hx
      · exact hg
      · exact hrest x hx
    · rw [e]
      intro t p h
      rcases List.mem_cons.1 h with h | h
      · exact hgc t p h.symm
      · exact hnc t p h

theorem advance_willW {count thr : Nat} {r : Row} {cell : U32} {mem : Nat → U32}
    (h : ∀ t, t < count → thr < t → t / 32 = thr / 32 → cell.getLsbD (t % 32) = true → bitOf count mem t (r.priority - 1) = true) :
    (advance count r thr cell (1#32 <<< (thr % 32))).SnapW count mem ∧ ∀ t p, advance count r thr cell (1#32 <<< (thr % 32)) ≠ .clear t p := by
  rw [advance_wide]
  split
  · exact ⟨fun t _ hw => absurd hw id, by simp⟩
  · split
    · exact ⟨fun t _ hw => absurd hw id, by simp⟩
    · refine ⟨fun t ht hw => ?_, by simp⟩
      obtain ⟨h1, h2, h3⟩ := hw
      exact h t ht (by omega) (by omega) h3

set_option maxHeartbeats 400000 in
theorem frameStepW_invS {count : Nat} {s s' : State} {f : Frame} {rest : List Frame} (a : InvAW count s) (k : InvS count s)
    (hst : s.stack = f :: rest) (h : frameStepW count s rest f = some s') : InvS count s' := by
  have j := a.ok
  rw [hst] at j
  obtain ⟨j1, j2⟩ := j
  have hsnap := k.snap f (by rw [hst]; simp)
  cases f with
  | req thr pc =>
    rw [frameStepW_eq (by simp)] at h
    cases pc with
    | load =>
      simp only [frameStep, Option.some.injEq] at h
      subst h
      exact invS_top k j2 hst (fun _ _ _ _ _ h => h) (.inr ⟨_, rfl, trivial, by simp⟩) k.acc
    | cell p =>
      simp only [frameStep, cellIdx_lt j1.1 j1.2, ↓reduceIte, Option.some.injEq] at h
      simp only [pendingBit_eq] at h
      have h32 : thr % 32 < 32 := Nat.mod_lt _ (by omega)
      have hfr : s.mem (cellIdx count thr p) &&& 1#32 <<< (thr % 32) = 0 ↔ bitOf count s.mem thr p = false := by
        rw [← Decidable.not_iff_not]
        simp only [Bool.not_eq_false]
        exact and_bit_ne h32
      subst h
      refine invS_top k j2 hst ?_ ?_ ?_
      · intro t q ht hq _ hb
        dsimp only
        rw [bitOf_or_eq ht j1.1 hq j1.2, hb]; rfl
      · dsimp only
        split
        · exact .inr ⟨_, rfl, trivial, by simp⟩
        · exact .inl rfl
      · intro t q ht hq
        have e := k.acc t q ht hq
        simp only [requests, runs]
        rw [bitOf_or_eq ht j1.1 hq j1.2]
        by_cases e2 : t = thr ∧ q = p
        · obtain ⟨rfl, rfl⟩ := e2
          cases hb : bitOf count s.mem t q
          · rw [hb] at e
            have := hfr.2 hb
            simp only [this, decide_true, and_self, ↓reduceIte, Bool.or_true, Bool.toNat_true, Bool.toNat_false] at e ⊢
            omega
          · rw [hb] at e
            have : ¬ (s.mem (cellIdx count t q) &&& 1#32 <<< (t % 32) = 0) := by rw [hfr, hb]; simp
            simp only [this, decide_false, Bool.false_eq_true, and_false, and_self, decide_true, ↓reduceIte, Bool.or_true, Bool.toNat_true] at e ⊢
            omega
        · have e3 : ∀ x : Bool, ¬ (thr = t ∧ p = q ∧ x = true) := fun x h => e2 ⟨h.1.symm, h.2.1.symm⟩
          have e4 : ¬ (thr = t ∧ p = q) := fun h => e2 ⟨h.1.symm, h.2.symm⟩
          simp only [e2, decide_false, Bool.or_false]
          rw [e]
          simp [e3, e4]
          try (intro h1 h2; exact absurd ⟨h1, h2⟩ e4)
    | header p =>
      simp only [frameStep, Option.some.injEq] at h
      subst h
      refine invS_top k j2 hst ?_ ?_ ?_
      · intro t q _ _ _ hb; dsimp only; rw [bitOf_header]; exact hb
      · dsimp only
        split
        · exact .inr ⟨_, rfl, trivial, by simp⟩
        · exact .inl rfl
      · intro t q ht hq; dsimp only; rw [bitOf_header]; exact k.acc t q ht hq
  | start =>
    rw [frameStepW_eq (by simp)] at h
    simp only [frameStep] at h
    split at h
    · simp only [Option.some.injEq] at h
      subst h
      exact invS_top k j2 hst (fun _ _ _ _ _ h => h) (.inl rfl) k.acc
    · simp only [Option.some.injEq] at h
      subst h
      refine invS_top k j2 hst ?_ (.inr ⟨_, rfl, fun t _ hw => absurd hw id, by simp⟩) ?_
      · intro t q _ _ _ hb; dsimp only; rw [bitOf_header]; exact hb
      · intro t q ht hq; dsimp only; rw [bitOf_header]; exact k.acc t q ht hq
  | row r pc =>
    obtain ⟨k1, k2, k3, k4, k6⟩ := j1
    cases pc with
    | load thr =>
      rw [frameStepW_eq (by simp)] at h
      obtain ⟨l1, l2, l3⟩ := k6
      simp only [frameStep] at h
      split at h
      · split at h
        · split at h
          · simp only [Option.some.injEq] at h
            subst h
            refine invS_top k j2 hst (fun _ _ _ _ _ h => h) (.inr ?_) k.acc
            dsimp only
            split
            · exact ⟨_, rfl, fun t _ hw => absurd hw id, by simp⟩
            · exact ⟨_, rfl, fun t _ hw => absurd hw id, by simp⟩
          · simp at h
        · simp only [Option.some.injEq] at h
          subst h
          refine invS_top k j2 hst (fun _ _ _ _ _ h => h) (.inr ⟨_, rfl, ?_, by simp⟩) k.acc
          intro t ht hw
          obtain ⟨h1, h2, h3⟩ := hw
          rw [bitOf, covers_cell (by omega) (by omega) l3 h2]
          exact h3
      · simp at h
    | bits thr cell bit =>
      rw [frameStepW_eq (by simp)] at h
      obtain ⟨ht, hb, l3⟩ := k6
      subst hb
      have h32 : thr % 32 < 32 := Nat.mod_lt _ (by omega)
      have hptr : r.ptr = cellIdx count thr (r.priority - 1) := (covers_cell (by omega) (by omega) l3 rfl).symm
      have hp : r.ptr < pendingSize count := by rw [l3]; exact ptr_lt (by omega) k4 ht
      simp only [frameStep, hp, ↓reduceIte, and_bit_ne h32] at h
      split at h
      · rename_i hcell
        simp only [Option.some.injEq] at h
        subst h
        have hset : bitOf count s.mem thr (r.priority - 1) = true := hsnap thr ht ⟨Nat.le_refl _, rfl, hcell⟩
        refine invS_top k j2 hst ?_ (.inr ⟨_, rfl, ?_, by simp⟩) ?_
        · intro t q h1 h2 h3 hb
          simp only [hptr]
          rw [bitOf_and_eq h1 ht h2 (by omega), hb]
          have : ¬ (t = thr ∧ q = r.priority - 1) := by omega
          simp [this]
        · intro t h1 hw
          obtain ⟨h2, h3, h4⟩ := hw
          simp only [hptr]
          rw [bitOf_and_eq h1 ht (by omega) (by omega)]
          have hne : t ≠ thr := by omega
          have hb : bitOf count s.mem t (r.priority - 1) = true := by
            rw [bitOf, covers_cell (by omega) (by omega) l3 h3]
            exact h4
          simp [hb, hne]
        · intro t q h1 hq
          have e := k.acc t q h1 hq
          simp only [hptr, requests, runs]
          rw [bitOf_and_eq h1 ht hq (by omega)]
          by_cases e2 : t = thr ∧ q = r.priority - 1
          · obtain ⟨rfl, rfl⟩ := e2
            rw [hset] at e ⊢
            simp only [and_self, decide_true, Bool.not_true, Bool.and_false, Bool.toNat_true, Bool.toNat_false, ↓reduceIte] at e ⊢
            omega
          · have e4 : ¬ (thr = t ∧ r.priority - 1 = q) := fun h => e2 ⟨h.1.symm, h.2.symm⟩
            simp only [e2, e4, decide_false, Bool.not_false, Bool.and_true, ↓reduceIte, Nat.zero_add]
            exact e
      · simp only [Option.some.injEq] at h
        subst h
        refine invS_top k j2 hst (fun _ _ _ _ _ h => h) (.inr ⟨_, rfl, ?_⟩) k.acc
        refine advance_willW ?_
        intro t h1 h2 h3 h4
        exact hsnap t h1 ⟨by omega, h3, h4⟩
    | call thr cell bit c =>
      rw [frameStepW_eq (by simp)] at h
      obtain ⟨ht, hb, l3⟩ := k6
      subst hb
      simp only [frameStep] at h
      split at h <;> (simp only [Option.some.injEq] at h; subst h)
      · exact invS_top k j2 hst (fun _ _ _ _ _ h => h) (.inr ⟨_, rfl, hsnap, by simp⟩) k.acc
      · refine invS_top k j2 hst (fun _ _ _ _ _ h => h) (.inr ⟨_, rfl, ?_⟩) k.acc
        refine advance_willW ?_
        intro t h1 h2 h3 h4
        exact hsnap t h1 ⟨h2, h3, h4⟩
    | next =>
      rcases next_specW a hst h with ⟨rfl, -⟩ | ⟨new, next, rfl, -⟩
      · refine invS_top k j2 hst ?_ (.inl rfl) ?_
        · intro t q _ _ _ hb; dsimp only; rw [bitOf_header]; exact hb
        · intro t q ht hq; dsimp only; rw [bitOf_header]; exact k.acc t q ht hq
      · refine invS_top k j2 hst ?_ (.inr ⟨_, rfl, fun t _ hw => absurd hw id, by simp⟩) ?_
        · intro t q _ _ _ hb; dsimp only; rw [bitOf_header]; exact hb
        · intro t q ht hq; dsimp only; rw [bitOf_header]; exact k.acc t q ht hq
  | clear thr p => exact absurd (by rw [hst]; simp) (k.nc thr p)
  | plain thr c =>
    rw [frameStepW_eq (by simp)] at h
    simp only [frameStep] at h
    split at h <;> (simp only [Option.some.injEq] at h; subst h)
    · exact invS_top k j2 hst (fun _ _ _ _ _ h => h) (.inr ⟨_, rfl, trivial, by simp⟩) k.acc
    · exact invS_top k j2 hst (fun _ _ _ _ _ h => h) (.inl rfl) k.acc

theorem invS_push {count : Nat} {s : State} (k : InvS count s) {g : Frame} (hg : g.level = none) (hc : ∀ t p, g ≠ .clear t p) :
    InvS count { s with stack := g :: s.stack } := by
  refine ⟨?_, ?_, k.acc⟩
  · intro f hf
    rcases List.mem_cons.1 hf with rfl | hf
    · cases f with
      | row r pc => simp [Frame.level] at hg
      | _ => trivial
    · exact k.snap f hf
  · intro t p h
    rcases List.mem_cons.1 h with h | h
    · exact hc t p h.symm
    · exact k.nc t p h

theorem stepW_invS {count : Nat} {s s' : State} {a : Act} (ha : ∀ t, a ≠ .clear t) (i : InvAW count s) (k : InvS count s)
    (h : stepW count s a = some s') : InvS count s' := by
  cases a <;> simp only [stepW, step] at h
  case step =>
    split at h
    · simp only [Option.some.injEq] at h; exact h ▸ k
    · rename_i f rest hst; exact frameStepW_invS i k hst h
  case ret =>
    simp only [Option.some.injEq] at h
    subst h
    have j := i.ok
    unfold ret
    split <;> rename_i hst
    · rw [hst] at j
      have hs := k.snap _ (by rw [hst]; exact List.mem_cons_self ..)
      exact invS_top k j.2 hst (fun _ _ _ _ _ h => h) (.inr ⟨_, rfl, hs, by simp⟩) k.acc
    · rw [hst] at j
      exact invS_top k j.2 hst (fun _ _ _ _ _ h => h) (.inr ⟨_, rfl, trivial, by simp⟩) k.acc
    · exact k
  case setPrio =>
    split at h
    · simp only [Option.some.injEq] at h
      subst h
      exact ⟨k.snap, k.nc, k.acc⟩
    · simp at h
  case clear t => exact absurd rfl (ha t)
  all_goals
    simp only [Option.some.injEq] at h
    try split at h
    all_goals subst h
    all_goals first
      | exact k
      | exact invS_push k rfl (by simp)

theorem runW_invS {count : Nat} : ∀ {acts : List Act} {s s' : State}, NoClear acts → InvAW count s → InvS count s →
    runW count s acts = some s' → InvS count s'
  | [], s, s', _, _, k, h => by simp only [runW, Option.some.injEq] at h; exact h ▸ k
  | a :: as, s, s', n, i, k, h => by
    simp only [runW] at h
    split at h
    · simp at h
    · rename_i m hm
      exact runW_invS (fun t ht => n t (by simp [ht])) (stepW_invA i hm)
        (stepW_invS (fun t e => n t (by simp [e])) i k hm) h

/-- What is resumed was pending. -/
theorem resumed_wide {count : Nat} {s s' : State} {a : Act} (i : InvAW count s) (k : InvS count s) (hs : step count s a = some s') {t p : Nat}
    (hl : s'.log = .run t p :: s.log) : t < count ∧ Pending count s t p ∧ ¬ Pending count s' t p := by
  obtain ⟨rfl, r, cell, bit, rest, hst, rfl, hcell⟩ := run_event hs hl
  have j := i.ok
  rw [hst] at j
  obtain ⟨j1, j2, j3, j4, j6, rfl, l3⟩ := j.1
  have h32 : t % 32 < 32 := Nat.mod_lt _ (by omega)
  have hptr : r.ptr = cellIdx count t (r.priority - 1) := (covers_cell (by omega) (by omega) l3 rfl).symm
  have hsn := k.snap (.row r (.bits t cell (1#32 <<< (t % 32)))) (by rw [hst]; exact List.mem_cons_self ..)
  have hset := hsn t j6 ⟨Nat.le_refl _, rfl, (and_bit_ne h32).1 hcell⟩
  refine ⟨j6, pending_bitOf.2 hset, ?_⟩
  rw [pending_bitOf]
  have hpl : r.ptr < pendingSize count := by rw [l3]; exact ptr_lt (by omega) j4 j6
  simp only [step, hst, frameStep, hcell, hpl, ne_eq, not_false_eq_true, ↓reduceIte, Option.some.injEq] at hs
  subst hs
  simp only [hptr]
  intro hb
  exact (bitOf_and hb).2 ⟨rfl, rfl⟩

end Verif.Soft
