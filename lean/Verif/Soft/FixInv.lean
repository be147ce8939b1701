import Verif.Soft.Irq
import Verif.Soft.FixModel
/-! # Software threads with `row_next` repaired: nothing is forgotten -/
namespace Verif.Soft

/-- Every pending thread will be resumed. -/
structure InvF (count : Nat) (s : State) : Prop where
  bits : ∀ i, i < 27 → (s.mem 0).getLsbD i = true → i + 1 ≤ running s.stack ∨ startAbove s.stack = true
  cov : ∀ t p, t < count → p < 27 → (s.mem (27 - p)).getLsbD t = true → (s.mem 0).getLsbD p = true ∨ ∃ f ∈ s.stack, f.carries t p

theorem init_invF (count : Nat) (prio : Nat → Nat) : InvF count (init prio) := by
  refine ⟨?_, ?_⟩ <;> simp [init]

theorem frameStepR_eq {count : Nat} {s : State} {rest : List Frame} {f : Frame} (h : ∀ r, f ≠ .row r .next) :
    frameStepR count s rest f = frameStep count s rest f := by
  cases f with
  | row r pc =>
    cases pc with
    | next => exact absurd rfl (h r)
    | _ => rfl
  | _ => rfl

/-- `row_next`, repaired, as its outcome. -/
theorem next_spec {count : Nat} (hc : count ≤ 32) {s s' : State} {r : Row} {rest : List Frame} (a : InvA count s)
    (hst : s.stack = .row r .next :: rest) (h : frameStepR count s rest (.row r .next) = some s') :
    (s' = { s with mem := upd s.mem 0 (setPriority (s.mem 0) r.prev), stack := rest } ∧
      ∀ i, r.prev ≤ i → i < r.priority → (s.mem 0).getLsbD i = false) ∨
    ∃ new next, s' = { s with mem := upd s.mem 0 new, stack := .row ⟨28 - next, next, r.prev⟩ (.load 0) :: rest } ∧
      r.prev < next ∧ next ≤ r.priority ∧ (∀ i, next ≤ i → i < r.priority → (s.mem 0).getLsbD i = false) ∧
      (new >>> 27).toNat = next ∧ ∀ i, i < 27 → new.getLsbD i = ((s.mem 0).getLsbD i && decide (i ≠ next - 1)) := by
  have j := a.ok
  rw [hst] at j
  obtain ⟨⟨k1, k2, k3, k4, k5, k6⟩, j2⟩ := j
  simp only [frameStepR, Option.some.injEq] at h
  have sp := findPriority_spec (s.mem 0) r.prev r.priority (by omega) (by omega)
  cases hf : findPriority (s.mem 0) r.prev r.priority with
  | mk new next =>
    rw [hf] at sp h
    dsimp only at h
    cases new with
    | none =>
      simp only at sp
      left
      subst h
      simp only [sp.1, ↓reduceIte, Option.getD]
      exact ⟨trivial, sp.2⟩
    | some new =>
      simp only at sp
      obtain ⟨a1, a2, a3, a4, a5, a6⟩ := sp
      right
      refine ⟨new, next, ?_, a1, a2, a4, a5, a6⟩
      have hne : next ≠ r.prev := by omega
      subst h
      simp only [hne, ↓reduceIte, Option.getD]
      congr 1
      by_cases e : next = r.priority
      · subst e
        simp only [ne_eq, not_true_eq_false, ↓reduceIte]
        cases r
        simp_all
      · simp only [ne_eq, e, not_false_eq_true, ↓reduceIte]
        rw [rowSize_small k1 hc]
        congr 3
        omega

theorem frameStepR_invA {count : Nat} (hc : count ≤ 32) {s s' : State} {f : Frame} {rest : List Frame} (i : InvA count s)
    (hst : s.stack = f :: rest) (h : frameStepR count s rest f = some s') : InvA count s' := by
  by_cases hn : ∃ r, f = .row r .next
  · obtain ⟨r, rfl⟩ := hn
    have sp := next_spec hc i hst h
    obtain ⟨i1, i2, i3, i4⟩ := i
    rw [hst] at i1 i2
    obtain ⟨⟨k1, k2, k3, k4, k5, k6⟩, j2⟩ := i2
    rcases sp with ⟨rfl, sp⟩ | ⟨new, next, rfl, a1, a2, a4, a5, a6⟩
    · refine ⟨?_, j2, i3, fun _ _ _ => k1⟩
      simp only [recorded, upd, ↓reduceIte]
      rw [cur_setPriority (by omega), k2]
    · refine ⟨?_, ⟨⟨k1, k2, a1, ?_, rfl, rfl⟩, j2⟩, i3, fun _ _ _ => k1⟩
      · simp only [recorded, upd, ↓reduceIte, a5, running, Frame.level, Option.getD]
      · simp only; omega
  · rw [frameStepR_eq (fun r e => hn ⟨r, e⟩)] at h
    exact frameStep_invA hc i hst h

theorem stepR_eq {count : Nat} {s : State} {a : Act} (h : a ≠ .step) : stepR count s a = step count s a := by
  cases a with
  | step => exact absurd rfl h
  | _ => rfl

theorem stepR_invA {count : Nat} (hc : count ≤ 32) {s s' : State} {a : Act} (i : InvA count s) (h : stepR count s a = some s') : InvA count s' := by
  by_cases e : a = .step
  · subst e
    simp only [stepR] at h
    split at h
    · simp only [Option.some.injEq] at h; exact h ▸ i
    · rename_i f rest hst; exact frameStepR_invA hc i hst h
  · rw [stepR_eq e] at h
    exact step_invA hc i h

/-- The scheduler loop on top goes on at the same level; cells may lose bits. -/
theorem invF_row {count : Nat} {s s' : State} {r : Row} {pc : RowPc} {rest : List Frame} (w : InvF count s) (hst : s.stack = .row r pc :: rest)
    {g : Frame} (hg : g.level = some r.priority) (hst' : s'.stack = g :: rest) (h0 : s'.mem 0 = s.mem 0)
    (hm : ∀ t p, t < count → p < 27 → (s'.mem (27 - p)).getLsbD t = true → (s.mem (27 - p)).getLsbD t = true)
    (hcv : ∀ t p, t < count → p < 27 → (s'.mem (27 - p)).getLsbD t = true → (Frame.row r pc).covers t p → g.covers t p) : InvF count s' := by
  obtain ⟨w1, w2⟩ := w
  rw [hst] at w1
  simp only [hst] at w2
  refine ⟨?_, ?_⟩
  · intro i hi hb
    rw [h0] at hb
    rw [hst']
    left
    simp only [running, hg, Option.getD]
    rcases w1 i hi hb with b | b
    · exact b
    · simp [startAbove] at b
  · intro t p ht hp hb
    rw [h0, hst']
    rcases w2 t p ht hp (hm t p ht hp hb) with h | ⟨f, hf, hcf⟩
    · exact .inl h
    · rcases List.mem_cons.1 hf with rfl | hf
      · rcases hcf with hcf | hcf
        · exact absurd hcf id
        · exact .inr ⟨g, by simp, .inr (hcv t p ht hp hb hcf)⟩
      · exact .inr ⟨f, by simp [hf], hcf⟩

/-- A call that is no scheduler loop, no request and no start ends or goes on; cells may lose bits. -/
theorem invF_other {count : Nat} {s s' : State} {f : Frame} {rest : List Frame} (w : InvF count s) (hst : s.stack = f :: rest)
    (hf : f.level = none) (hfs : f ≠ .start) (hfr : f.isReq = false) (h0 : s'.mem 0 = s.mem 0)
    (hst' : s'.stack = rest ∨ ∃ g, s'.stack = g :: rest ∧ g.level = none)
    (hm : ∀ t p, t < count → p < 27 → (s'.mem (27 - p)).getLsbD t = true → (s.mem (27 - p)).getLsbD t = true) : InvF count s' := by
  obtain ⟨w1, w2⟩ := w
  rw [hst] at w1
  simp only [hst] at w2
  have hcf : ∀ t p, ¬ f.carries t p := by
    intro t p h
    rcases h with h | h
    · exact notHeader hfr p h
    · cases f with
      | row r pc => simp [Frame.level] at hf
      | _ => exact h
  have hsa : startAbove (f :: rest) = startAbove rest := by
    cases f with
    | start => exact absurd rfl hfs
    | row r pc => simp [Frame.level] at hf
    | _ => rfl
  have hru : running (f :: rest) = running rest := by simp [running, hf]
  have w2' : ∀ t p, t < count → p < 27 → (s'.mem (27 - p)).getLsbD t = true → (s.mem 0).getLsbD p = true ∨ ∃ g ∈ rest, g.carries t p := by
    intro t p ht hp hb
    rcases w2 t p ht hp (hm t p ht hp hb) with h | ⟨g, hg, hcg⟩
    · exact .inl h
    · rcases List.mem_cons.1 hg with rfl | hg
      · exact absurd hcg (hcf t p)
      · exact .inr ⟨g, hg, hcg⟩
  rw [hsa, hru] at w1
  rcases hst' with hst' | ⟨g, hst', hg⟩
  · refine ⟨?_, ?_⟩
    · intro i hi hb
      rw [h0] at hb
      rw [hst']
      exact w1 i hi hb
    · intro t p ht hp hb
      rw [h0, hst']
      exact w2' t p ht hp hb
  · refine ⟨?_, ?_⟩
    · intro i hi hb
      rw [h0] at hb
      rw [hst']
      have hr : running (g :: rest) = running rest := by simp [running, hg]
      rw [hr]
      rcases w1 i hi hb with b | b
      · exact .inl b
      · right
        cases g with
        | row r pc => simp [Frame.level] at hg
        | _ => simp [startAbove, b]
    · intro t p ht hp hb
      rw [h0, hst']
      rcases w2' t p ht hp hb with h | ⟨g', hg', h⟩
      · exact .inl h
      · exact .inr ⟨g', by simp [hg'], h⟩

set_option maxHeartbeats 400000 in
theorem frameStepR_invF {count : Nat} (hc : count ≤ 32) {s s' : State} {f : Frame} {rest : List Frame} (a : InvA count s) (w : InvF count s)
    (hst : s.stack = f :: rest) (h : frameStepR count s rest f = some s') : InvF count s' := by
  have j := a.ok
  have hcur := a.cur
  rw [hst] at j hcur
  obtain ⟨j1, j2⟩ := j
  cases f with
  | req thr pc =>
    rw [frameStepR_eq (by simp)] at h
    obtain ⟨w1, w2⟩ := w
    rw [hst] at w1
    simp only [hst] at w2
    cases pc with
    | load =>
      simp only [frameStep, Option.some.injEq] at h
      subst h
      refine ⟨w1, ?_⟩
      intro t p ht hp hb
      rcases w2 t p ht hp hb with h | ⟨g, hg, hcg⟩
      · exact .inl h
      · rcases List.mem_cons.1 hg with rfl | hg
        · exact absurd hcg (by rintro (h | h) <;> exact h)
        · exact .inr ⟨g, by simp [hg], hcg⟩
    | cell q =>
      have hlt : thr < 32 := by have := j1.1; omega
      simp only [frameStep, cellIdx_lt j1.1 j1.2, ↓reduceIte, Option.some.injEq] at h
      simp only [cellIdx_small j1.1 hc j1.2, pendingBit_small hlt] at h
      have hq := j1.2
      have h0 : upd s.mem (27 - q) (s.mem (27 - q) ||| 1#32 <<< thr) 0 = s.mem 0 := by
        simp only [upd]; rw [if_neg (by omega)]
      have hold : ∀ t p, t < count → p < 27 → (s.mem (27 - p)).getLsbD t = true → (s.mem 0).getLsbD p = true ∨ ∃ g ∈ rest, g.carries t p := by
        intro t p ht hp hb
        rcases w2 t p ht hp hb with h | ⟨g, hg, hcg⟩
        · exact .inl h
        · rcases List.mem_cons.1 hg with rfl | hg
          · exact absurd hcg (by rintro (h | h) <;> exact h)
          · exact .inr ⟨g, hg, hcg⟩
      have hbit : ∀ t p, t < count → p < 27 → (upd s.mem (27 - q) (s.mem (27 - q) ||| 1#32 <<< thr) (27 - p)).getLsbD t = true →
          (s.mem (27 - p)).getLsbD t = true ∨ (t = thr ∧ p = q) := by
        intro t p ht hp hb
        simp only [upd] at hb
        split at hb
        · rename_i e
          have : p = q := by omega
          subst this
          rw [getLsbD_or_bit (by omega)] at hb
          simp only [Bool.or_eq_true, decide_eq_true_eq] at hb
          rcases hb with hb | hb
          · exact .inl hb
          · exact .inr ⟨hb, rfl⟩
        · exact .inl hb
      subst h
      by_cases hfr : s.mem (27 - q) &&& 1#32 <<< thr = 0
      · rw [if_pos hfr]
        refine ⟨?_, ?_⟩
        · intro i hi hb
          dsimp only at hb
          rw [h0] at hb
          exact w1 i hi hb
        · intro t p ht hp hb
          dsimp only at hb ⊢
          rw [h0]
          rcases hbit t p ht hp hb with hb | ⟨rfl, rfl⟩
          · rcases hold t p ht hp hb with h | ⟨g, hg, hcg⟩
            · exact .inl h
            · exact .inr ⟨g, by simp [hg], hcg⟩
          · exact .inr ⟨_, List.mem_cons_self .., .inl rfl⟩
      · rw [if_neg hfr]
        have hset := (and_bit_ne hlt).1 hfr
        refine ⟨?_, ?_⟩
        · intro i hi hb
          dsimp only at hb
          rw [h0] at hb
          exact w1 i hi hb
        · intro t p ht hp hb
          dsimp only at hb ⊢
          rw [h0]
          have : (s.mem (27 - p)).getLsbD t = true := by
            rcases hbit t p ht hp hb with hb | ⟨rfl, rfl⟩
            · exact hb
            · exact hset
          exact hold t p ht hp this
    | header q =>
      have hq := j1.2
      simp only [frameStep, Option.some.injEq] at h
      have hcur' : (s.mem 0 >>> levels).toNat = running rest := hcur
      rw [hcur'] at h
      have hnew : ∀ i, i < 27 → (s.mem 0 ||| 1#32 <<< q).getLsbD i = true → (s.mem 0).getLsbD i = true ∨ i = q := by
        intro i hi hb
        rw [getLsbD_or_bit (by omega)] at hb
        simpa using hb
      have hcov : ∀ t p, t < count → p < 27 → (s.mem (27 - p)).getLsbD t = true →
          (s.mem 0 ||| 1#32 <<< q).getLsbD p = true ∨ ∃ g ∈ rest, g.carries t p := by
        intro t p ht hp hb
        rw [getLsbD_or_bit (by omega)]
        rcases w2 t p ht hp hb with h | ⟨g, hg, hcg⟩
        · exact .inl (by simp [h])
        · rcases List.mem_cons.1 hg with rfl | hg
          · rcases hcg with hcg | hcg
            · have : q = p := hcg
              exact .inl (by simp [this])
            · exact absurd hcg id
          · exact .inr ⟨g, hg, hcg⟩
      subst h
      have hz : ∀ p, p < 27 → ¬ (27 - p = 0) := by intro p hp; omega
      split
      · refine ⟨?_, ?_⟩
        · intro i hi hb
          exact .inr rfl
        · intro t p ht hp hb
          simp only [upd, hz p hp, ↓reduceIte] at hb ⊢
          rcases hcov t p ht hp hb with h | ⟨g, hg, hcg⟩
          · exact .inl h
          · exact .inr ⟨g, by simp [hg], hcg⟩
      · rename_i hle
        refine ⟨?_, ?_⟩
        · intro i hi hb
          simp only [upd, ↓reduceIte] at hb
          rcases hnew i hi hb with hb | rfl
          · exact w1 i hi hb
          · left; simp only; omega
        · intro t p ht hp hb
          simp only [upd, hz p hp, ↓reduceIte] at hb ⊢
          exact hcov t p ht hp hb
  | start =>
    rw [frameStepR_eq (by simp)] at h
    obtain ⟨w1, w2⟩ := w
    rw [hst] at w1
    simp only [hst] at w2
    have hold : ∀ t p, t < count → p < 27 → (s.mem (27 - p)).getLsbD t = true → (s.mem 0).getLsbD p = true ∨ ∃ g ∈ rest, g.carries t p := by
      intro t p ht hp hb
      rcases w2 t p ht hp hb with h | ⟨g, hg, hcg⟩
      · exact .inl h
      · rcases List.mem_cons.1 hg with rfl | hg
        · exact absurd hcg (by rintro (h | h) <;> exact h)
        · exact .inr ⟨g, hg, hcg⟩
    have hrun := running_le j2
    have hcur' : (s.mem 0 >>> levels).toNat = running rest := hcur
    simp only [frameStep] at h
    rw [hcur', show levels = 27 from rfl] at h
    have sp := findPriority_spec (s.mem 0) (running rest) 27 hrun (by omega)
    split at h
    · rename_i p hf
      rw [hf] at sp
      simp only [Option.some.injEq] at h
      subst h
      refine ⟨?_, ?_⟩
      · intro i hi hb
        left
        simp only
        have := sp.2 i
        by_cases e : running rest ≤ i
        · have h1 : (s.mem 0).getLsbD i = true := hb
          rw [this e hi] at h1; simp at h1
        · omega
      · intro t p ht hp hb
        exact hold t p ht hp hb
    · rename_i new p hf
      rw [hf] at sp
      obtain ⟨a1, a2, a3, a4, a5, a6⟩ := sp
      simp only [Option.some.injEq] at h
      subst h
      refine ⟨?_, ?_⟩
      · intro i hi hb
        simp only [upd, ↓reduceIte, a6 i hi, Bool.and_eq_true, decide_eq_true_eq] at hb
        have hlt : i < p := by
          refine Classical.byContradiction fun hn => ?_
          rw [a4 i (by omega) hi] at hb
          simp at hb
        left
        simp only [running, Frame.level, Option.getD]; omega
      · intro t q ht hq hb
        have hz : ¬ (27 - q = 0) := by omega
        simp only [upd, hz, ↓reduceIte] at hb ⊢
        rcases hold t q ht hq hb with h | ⟨g, hg, hcg⟩
        · by_cases e : q = p - 1
          · exact .inr ⟨_, List.mem_cons_self .., .inr ⟨by simp only; omega, trivial⟩⟩
          · left; rw [a6 q hq, h]; simp [e]
        · exact .inr ⟨g, by simp [hg], hcg⟩
  | row r pc =>
    obtain ⟨k1, k2, k3, k4, k5, k6⟩ := j1
    have hp : r.ptr < pendingSize count := by rw [pendingSize_small k1 hc]; omega
    cases pc with
    | load thr =>
      rw [frameStepR_eq (by simp)] at h
      have : thr = 0 := k6
      subst this
      have hge : 0 + (1 <<< colBits) ≥ count := by simp [colBits]; omega
      simp only [frameStep, hp, ↓reduceIte, hge] at h
      split at h
      · rename_i hz
        simp only [colBits, show (0 + 1 <<< 5 < 65536) from by decide, ↓reduceIte, Option.some.injEq] at h
        subst h
        refine invF_row w hst (g := .row r .next) rfl rfl rfl (fun _ _ _ _ h => h) ?_
        intro t p ht hpl hb hcv
        have : 27 - p = r.ptr := by have := hcv.1; omega
        simp only [this, hz] at hb
        simp at hb
      · simp only [Option.some.injEq] at h
        subst h
        refine invF_row w hst (g := .row r (.bits 0 (s.mem r.ptr) 1)) rfl rfl rfl (fun _ _ _ _ h => h) ?_
        intro t p ht hpl hb hcv
        have : 27 - p = r.ptr := by have := hcv.1; omega
        simp only [this] at hb
        exact ⟨hcv.1, Nat.zero_le _, hb⟩
    | bits thr cell bit =>
      rw [frameStepR_eq (by simp)] at h
      obtain ⟨ht, hb⟩ := k6
      subst hb
      have h32 : thr < 32 := by omega
      simp only [frameStep, hp, ↓reduceIte, and_bit_ne h32] at h
      split at h
      · simp only [Option.some.injEq] at h
        subst h
        refine invF_row w hst (g := .row r (.call thr (s.mem r.ptr) (1#32 <<< thr) .load)) rfl rfl ?_ ?_ ?_
        · simp only [upd]; rw [if_neg (by omega)]
        · intro t p h1 h2 h3
          simp only [upd] at h3
          split at h3
          · rename_i e
            rw [getLsbD_andnot_bit (by omega)] at h3
            simp only [Bool.and_eq_true] at h3
            rw [e]; exact h3.1
          · exact h3
        · intro t p h1 h2 h3 hcv
          have e : 27 - p = r.ptr := by have := hcv.1; omega
          simp only [upd, e, ↓reduceIte, getLsbD_andnot_bit (show t < 32 by omega), Bool.and_eq_true, decide_eq_true_eq] at h3
          refine ⟨hcv.1, ?_, h3.1⟩
          have := hcv.2.1
          have := h3.2
          omega
      · rename_i hcell
        simp only [Option.some.injEq] at h
        subst h
        have ha := advance_ok (st := rest) (cell := cell) hc (pc := .bits thr cell (1#32 <<< thr)) ⟨k1, k2, k3, k4, k5, ht, rfl⟩ ⟨ht, rfl⟩
        refine invF_row w hst ha.2 rfl rfl (fun _ _ _ _ h => h) ?_
        intro t p h1 h2 h3 hcv
        refine advance_cov hc ht ?_ h1 hcv.2.2 hcv.1
        have := hcv.2.1
        have : t ≠ thr := by rintro rfl; exact hcell hcv.2.2
        omega
    | call thr cell bit c =>
      rw [frameStepR_eq (by simp)] at h
      obtain ⟨ht, hb⟩ := k6
      subst hb
      simp only [frameStep] at h
      split at h <;> (simp only [Option.some.injEq] at h; subst h)
      · refine invF_row w hst (g := .row r (.call thr cell (1#32 <<< thr) _)) rfl rfl rfl (fun _ _ _ _ h => h) ?_
        intro t p h1 h2 h3 hcv
        exact hcv
      · have ha := advance_ok (st := rest) (cell := cell) hc (pc := .call thr cell (1#32 <<< thr) c) ⟨k1, k2, k3, k4, k5, ht, rfl⟩ ⟨ht, rfl⟩
        refine invF_row w hst ha.2 rfl rfl (fun _ _ _ _ h => h) ?_
        intro t p h1 h2 h3 hcv
        exact advance_cov hc ht hcv.2.1 h1 hcv.2.2 hcv.1
    | next =>
      have sp := next_spec hc a hst h
      obtain ⟨w1, w2⟩ := w
      rw [hst] at w1
      simp only [hst] at w2
      have hold : ∀ t p, t < count → p < 27 → (s.mem (27 - p)).getLsbD t = true → (s.mem 0).getLsbD p = true ∨ ∃ g ∈ rest, g.carries t p := by
        intro t p ht hp hb
        rcases w2 t p ht hp hb with h | ⟨g, hg, hcg⟩
        · exact .inl h
        · rcases List.mem_cons.1 hg with rfl | hg
          · exact absurd hcg (by rintro (h | h); exact h; exact h.2)
          · exact .inr ⟨g, hg, hcg⟩
      have hlow : ∀ i, i < 27 → (s.mem 0).getLsbD i = true → i < r.priority := by
        intro i hi hb
        rcases w1 i hi hb with b2 | b2
        · simp only [running, Frame.level, Option.getD] at b2; omega
        · simp [startAbove] at b2
      rcases sp with ⟨rfl, sp⟩ | ⟨new, next, rfl, a1, a2, a4, a5, a6⟩
      · refine ⟨?_, ?_⟩
        · intro i hi hb
          simp only [upd, ↓reduceIte, lvl_setPriority hi] at hb
          have := hlow i hi hb
          left
          simp only
          rw [← k2]
          by_cases e : r.prev ≤ i
          · rw [sp i e (by omega)] at hb; simp at hb
          · omega
        · intro t q ht hq hb
          have hz : ¬ (27 - q = 0) := by omega
          simp only [upd, hz, ↓reduceIte, lvl_setPriority hq] at hb ⊢
          exact hold t q ht hq hb
      · refine ⟨?_, ?_⟩
        · intro i hi hb
          simp only [upd, ↓reduceIte, a6 i hi, Bool.and_eq_true, decide_eq_true_eq] at hb
          have hl := hlow i hi hb.1
          have hlt : i < next := by
            refine Classical.byContradiction fun hn => ?_
            rw [a4 i (by omega) (by omega)] at hb
            simp at hb
          left
          simp only [running, Frame.level, Option.getD]; omega
        · intro t q ht hq hb
          have hz : ¬ (27 - q = 0) := by omega
          simp only [upd, hz, ↓reduceIte] at hb ⊢
          rcases hold t q ht hq hb with h | ⟨g, hg, hcg⟩
          · by_cases e : q = next - 1
            · exact .inr ⟨_, List.mem_cons_self .., .inr ⟨by simp only; omega, trivial⟩⟩
            · left; rw [a6 q hq, h]; simp [e]
          · exact .inr ⟨g, by simp [hg], hcg⟩
  | clear thr p =>
    rw [frameStepR_eq (by simp)] at h
    cases p with
    | none =>
      simp only [frameStep, Option.some.injEq] at h
      subst h
      exact invF_other w hst rfl (by simp) rfl rfl (.inr ⟨_, rfl, rfl⟩) (fun _ _ _ _ h => h)
    | some q =>
      have hlt : thr < 32 := by have := j1.1; omega
      have hq := j1.2 q rfl
      simp only [frameStep, cellIdx_lt j1.1 hq, ↓reduceIte, Option.some.injEq] at h
      simp only [cellIdx_small j1.1 hc hq, pendingBit_small hlt] at h
      subst h
      refine invF_other w hst rfl (by simp) rfl ?_ (.inl rfl) ?_
      · simp only [upd]; rw [if_neg (by omega)]
      · intro t p h1 h2 h3
        simp only [upd] at h3
        split at h3
        · rename_i e
          rw [getLsbD_andnot_bit (by omega)] at h3
          simp only [Bool.and_eq_true] at h3
          rw [e]; exact h3.1
        · exact h3
  | plain thr c =>
    rw [frameStepR_eq (by simp)] at h
    simp only [frameStep] at h
    split at h <;> (simp only [Option.some.injEq] at h; subst h)
    · exact invF_other w hst rfl (by simp) rfl rfl (.inr ⟨_, rfl, rfl⟩) (fun _ _ _ _ h => h)
    · exact invF_other w hst rfl (by simp) rfl rfl (.inl rfl) (fun _ _ _ _ h => h)

/-- A new call is put on the stack. -/
theorem invF_push {count : Nat} {s : State} (w : InvF count s) {g : Frame} (hg : g.level = none) : InvF count { s with stack := g :: s.stack } := by
  obtain ⟨w1, w2⟩ := w
  refine ⟨?_, ?_⟩
  · intro i hi hb
    simp only [running, hg, Option.getD]
    rcases w1 i hi hb with b2 | b2
    · exact .inl b2
    · right
      cases g with
      | row r pc => simp [Frame.level] at hg
      | _ => simp [startAbove, b2]
  · intro t p ht hp hb
    rcases w2 t p ht hp hb with h | ⟨f, hf, hcf⟩
    · exact .inl h
    · exact .inr ⟨f, by simp [hf], hcf⟩

theorem stepR_invF {count : Nat} (hc : count ≤ 32) {s s' : State} {a : Act} (i : InvA count s) (w : InvF count s)
    (h : stepR count s a = some s') : InvF count s' := by
  cases a <;> simp only [stepR, step] at h
  case step =>
    split at h
    · simp only [Option.some.injEq] at h; exact h ▸ w
    · rename_i f rest hst; exact frameStepR_invF hc i w hst h
  case ret =>
    simp only [Option.some.injEq] at h
    subst h
    unfold ret
    split <;> rename_i hst
    · exact invF_row w hst (g := .row _ (.call _ _ _ (.restore _))) rfl rfl rfl (fun _ _ _ _ h => h) (fun _ _ _ _ _ h => h)
    · exact invF_other w hst rfl (by simp) rfl rfl (.inr ⟨_, rfl, rfl⟩) (fun _ _ _ _ h => h)
    · exact w
  case setPrio =>
    split at h
    · simp only [Option.some.injEq] at h
      subst h
      exact ⟨w.bits, w.cov⟩
    · simp at h
  all_goals
    simp only [Option.some.injEq] at h
    try split at h
    all_goals subst h
    all_goals first
      | exact w
      | exact invF_push w rfl

theorem runR_inv {count : Nat} (hc : count ≤ 32) : ∀ {acts : List Act} {s s' : State},
    InvA count s → InvF count s → runR count s acts = some s' → InvA count s' ∧ InvF count s'
  | [], s, s', i, k, h => by simp only [runR, Option.some.injEq] at h; exact h ▸ ⟨i, k⟩
  | a :: as, s, s', i, k, h => by
    simp only [runR] at h
    split at h
    · simp at h
    · rename_i m hm
      exact runR_inv hc (stepR_invA hc i hm) (stepR_invF hc i k hm) h

/-- When no call of `preempt` is at its start and no request in progress, nothing is
pending above the running level. -/
theorem above_empty_fix {count : Nat} {s : State} (i : InvA count s) (w : InvF count s) (h1 : ∀ f ∈ s.stack, f ≠ .start)
    (h2 : ∀ f ∈ s.stack, f.isReq = false) {t p : Nat} (ht : t < count) (hp : p < 27)
    (hb : (s.mem (27 - p)).getLsbD t = true) : p + 1 ≤ running s.stack := by
  rcases w.cov t p ht hp hb with h | ⟨f, hf, hcf | hcf⟩
  · rcases w.bits p hp h with h | h
    · exact h
    · rw [not_startAbove h1] at h; simp at h
  · exact absurd hcf (notHeader (h2 f hf) p)
  · exact level_le i.ok f hf _ (covers_level hcf)

theorem runR_some {count : Nat} (hc : count ≤ 32) : ∀ {acts : List Act} {s : State}, PrioOk acts → InvA count s → ∃ s', runR count s acts = some s'
  | [], s, _, _ => ⟨s, rfl⟩
  | a :: as, s, hp, i => by
    have : ∃ m, stepR count s a = some m := by
      cases a with
      | step =>
        simp only [stepR]
        split
        · exact ⟨_, rfl⟩
        · rename_i f rest hst
          by_cases hn : ∃ r, f = .row r .next
          · obtain ⟨r, rfl⟩ := hn; exact ⟨_, rfl⟩
          · rw [frameStepR_eq (fun r e => hn ⟨r, e⟩)]; exact frameStep_some hc i hst
      | setPrio t p =>
        have := hp t p (by simp)
        simp only [stepR, step, levels, this, ↓reduceIte]
        exact ⟨_, rfl⟩
      | _ => exact ⟨_, rfl⟩
    obtain ⟨m, hm⟩ := this
    simp only [runR, hm]
    exact runR_some hc (fun t p h => hp t p (by simp [h])) (stepR_invA hc i hm)

/-- If the level just served was not requested again, nothing is changed by the repair. -/
theorem stepR_same {count : Nat} {s : State} {a : Act} (i : InvA count s) (w : InvI count s) : stepR count s a = step count s a := by
  by_cases e : a = .step
  · subst e
    cases hst : s.stack with
    | nil => simp only [stepR, step, hst]
    | cons f rest =>
      simp only [stepR, step, hst]
      by_cases hn : ∃ r, f = .row r .next
      · obtain ⟨r, rfl⟩ := hn
        have j := i.ok
        rw [hst] at j
        obtain ⟨⟨k1, k2, k3, k4, k5, k6⟩, -⟩ := j
        have hb : (s.mem 0).getLsbD (r.priority - 1) = false := by
          refine Bool.eq_false_iff.2 fun hb => ?_
          have := (w.bits (r.priority - 1) (by omega) hb).1 (.row r .next) (by rw [hst]; simp)
          simp only [Frame.level, ne_eq, Option.some.injEq] at this
          omega
        have : findPriority (s.mem 0) r.prev r.priority = findPriority (s.mem 0) r.prev (r.priority - 1) := by
          obtain ⟨q, hq⟩ : ∃ q, r.priority = q + 1 := ⟨r.priority - 1, by omega⟩
          rw [hq] at hb ⊢
          simp only [Nat.add_sub_cancel] at hb ⊢
          rw [findPriority, if_neg (by omega), if_neg]
          rw [and_bit_ne (by omega), hb]; simp
        simp only [frameStepR, frameStep, this]
      · exact frameStepR_eq (fun r e => hn ⟨r, e⟩)
  · exact stepR_eq e

theorem runR_same {count : Nat} (hc : count ≤ 32) : ∀ {acts : List Act} {s : State}, Always count (fun s a => PrioStill s a ∧ NoSame s a) s acts →
    InvA count s → InvI count s → runR count s acts = run count s acts
  | [], _, _, _, _ => rfl
  | a :: as, s, n, i, k => by
    simp only [runR, run, stepR_same i k]
    cases hm : step count s a with
    | none => rfl
    | some m => exact runR_same hc (n.2 m hm) (step_invA hc i hm) (step_invI hc n.1.1 n.1.2 i k hm)

/-- A step of the repaired scheduler is one of the code, or a `row_next`. -/
theorem stepR_cases {count : Nat} (hc : count ≤ 32) {s s' : State} {a : Act} (i : InvA count s) (h : stepR count s a = some s') :
    step count s a = some s' ∨ ∃ r rest x, a = .step ∧ s.stack = .row r .next :: rest ∧
      (s' = { s with mem := upd s.mem 0 x, stack := rest } ∨
        ∃ r', s' = { s with mem := upd s.mem 0 x, stack := .row r' (.load 0) :: rest }) := by
  by_cases e : a = .step
  · subst e
    cases hst : s.stack with
    | nil => simp only [stepR, hst] at h; left; simp only [step, hst]; exact h
    | cons f rest =>
      simp only [stepR, hst] at h
      by_cases hn : ∃ r, f = .row r .next
      · obtain ⟨r, rfl⟩ := hn
        right
        rcases next_spec hc i hst h with ⟨e, -⟩ | ⟨new, next, e, -⟩
        · exact ⟨r, rest, _, rfl, rfl, .inl e⟩
        · exact ⟨r, rest, _, rfl, rfl, .inr ⟨_, e⟩⟩
      · left
        simp only [step, hst]
        rw [← frameStepR_eq (fun r e => hn ⟨r, e⟩)]; exact h
  · left; rw [← stepR_eq e]; exact h

theorem stepR_invR {count : Nat} (hc : count ≤ 32) {s s' : State} {a : Act} (ha : ∀ t, a ≠ .clear t) (i : InvA count s) (k : InvR count s)
    (h : stepR count s a = some s') : InvR count s' := by
  rcases stepR_cases hc i h with h | ⟨r, rest, x, rfl, hst, h⟩
  · exact step_invR hc ha i k h
  · obtain ⟨i1, i2, i3⟩ := k
    have j := i.ok
    rw [hst] at i1 i2 j
    have hm : SnapOk (upd s.mem 0 x) rest := by
      refine snapOk_mono (mem := s.mem) i1.2 ?_
      intro r pc hr t ht hb
      have := row_ptr j.2 r pc hr
      simp only [upd]
      rw [if_neg (by omega)]
      exact hb
    have hacc : ∀ t p, t < count → p < 27 → requests t p s.log = runs t p s.log + if (upd s.mem 0 x (27 - p)).getLsbD t = true then 1 else 0 := by
      intro t q ht hq
      simp only [upd, show ¬ (27 - q = 0) from by omega, ↓reduceIte]
      exact i3 t q ht hq
    rcases h with rfl | ⟨r', rfl⟩
    · exact ⟨hm, i2, hacc⟩
    · exact ⟨⟨by simp [RowPc.will], hm⟩, i2, hacc⟩

theorem runR_invR {count : Nat} (hc : count ≤ 32) : ∀ {acts : List Act} {s s' : State}, NoClear acts → InvA count s → InvR count s →
    runR count s acts = some s' → InvR count s'
  | [], s, s', _, _, k, h => by simp only [runR, Option.some.injEq] at h; exact h ▸ k
  | a :: as, s, s', n, i, k, h => by
    simp only [runR] at h
    split at h
    · simp at h
    · rename_i m hm
      exact runR_invR hc (fun t ht => n t (by simp [ht])) (stepR_invA hc i hm)
        (stepR_invR hc (fun t e => n t (by simp [e])) i k hm) h

theorem stepR_reqIn {count t p n : Nat} (hc : count ≤ 32) {rest : List Frame} {s s' : State} {a : Act} (ht : t < count) (hp : p < 27)
    (i : InvA count s) (ha : ∀ q, a ≠ .setPrio t q) (h : stepR count s a = some s') (k : ReqIn t p n rest s) : ReqIn t p n rest s' := by
  rcases stepR_cases hc i h with h | ⟨r, rest', x, rfl, hst, h⟩
  · by_cases hs : PrioStill s a
    · exact step_reqIn hc ht hp i hs h k
    · cases a with
      | setPrio u q =>
        simp only [step] at h
        split at h
        · simp only [Option.some.injEq] at h
          subst h
          rcases k with k | ⟨k1, k2, pre, pc, k3, k4⟩
          · exact .inl k
          · refine .inr ⟨k1, k2, pre, pc, k3, ?_⟩
            have : t ≠ u := by rintro rfl; exact ha q rfl
            simp only [upd, this, ↓reduceIte]
            exact k4
        · simp at h
      | _ => exact absurd trivial hs
  · rcases k with k | ⟨k1, k2, pre, pc, k3, k4⟩
    · rcases h with rfl | ⟨r', rfl⟩ <;> exact .inl k
    · have hm : (upd s.mem 0 x (27 - p)).getLsbD t = false := by
        simp only [upd]; rw [if_neg (by omega)]; exact k2
      rw [hst] at k3
      cases pre with
      | nil => simp at k3
      | cons f pre =>
        simp only [List.cons_append, List.cons.injEq] at k3
        rcases h with rfl | ⟨r', rfl⟩
        · exact .inr ⟨k1, hm, pre, pc, k3.2, k4⟩
        · exact .inr ⟨k1, hm, .row r' (.load 0) :: pre, pc, by simp [k3.2], k4⟩

theorem runR_reqIn {count t p n : Nat} (hc : count ≤ 32) {rest : List Frame} (ht : t < count) (hp : p < 27) :
    ∀ {acts : List Act} {s s' : State}, (∀ q, .setPrio t q ∉ acts) → InvA count s →
    runR count s acts = some s' → ReqIn t p n rest s → ReqIn t p n rest s'
  | [], s, s', _, _, h, k => by simp only [runR, Option.some.injEq] at h; exact h ▸ k
  | a :: as, s, s', w, i, h, k => by
    simp only [runR] at h
    split at h
    · simp at h
    · rename_i m hms
      exact runR_reqIn hc ht hp (fun q hq => w q (by simp [hq])) (stepR_invA hc i hms) h
        (stepR_reqIn hc ht hp i (fun q e => w q (by simp [e])) hms k)

/-- `row_next` resumes nothing. -/
theorem runR_event {count : Nat} {s s' : State} {a : Act} {t p : Nat} (h : stepR count s a = some s') (hl : s'.log = .run t p :: s.log) :
    step count s a = some s' := by
  by_cases e : a = .step
  · subst e
    cases hst : s.stack with
    | nil => simp only [stepR, hst] at h; simp only [step, hst]; exact h
    | cons f rest =>
      simp only [stepR, hst] at h
      simp only [step, hst]
      by_cases hn : ∃ r, f = .row r .next
      · obtain ⟨r, rfl⟩ := hn
        simp only [frameStepR, Option.some.injEq] at h
        subst h
        simp at hl
      · rw [← frameStepR_eq (fun r e => hn ⟨r, e⟩)]; exact h
  · rw [← stepR_eq e]; exact h

end Verif.Soft
