import Verif.Soft.Run
/-! # Software threads: nothing is forgotten, with interrupted requests -/
namespace Verif.Soft

/-- The call is a `set_pending` at level `p` before its update of the header. -/
def Frame.isHeader (p : Nat) : Frame → Prop
  | .req _ (.header q) => q = p
  | _ => False

/-- The call will see to it that thread `t`, pending at level `p`, is resumed. -/
def Frame.carries (t p : Nat) (f : Frame) : Prop := f.isHeader p ∨ f.covers t p

/-- No `set_pending` call in progress is for a level that is in progress below it. -/
def NosOk (prio : Nat → Nat) : List Frame → Prop
  | [] => True
  | f :: st => (∀ t pc, f = .req t pc → ∀ g ∈ st, g.level ≠ some (pc.level prio t + 1)) ∧ NosOk prio st

/-- Every pending thread will be resumed. -/
structure InvI (count : Nat) (s : State) : Prop where
  bits : ∀ i, i < 27 → (s.mem 0).getLsbD i = true → (∀ f ∈ s.stack, f.level ≠ some (i + 1)) ∧ (i + 1 ≤ running s.stack ∨ startAbove s.stack = true)
  cov : ∀ t p, t < count → p < 27 → (s.mem (27 - p)).getLsbD t = true → (s.mem 0).getLsbD p = true ∨ ∃ f ∈ s.stack, f.carries t p
  nos : NosOk s.prio s.stack

theorem init_invI (count : Nat) (prio : Nat → Nat) : InvI count (init prio) := by
  refine ⟨?_, ?_, trivial⟩ <;> simp [init]

theorem nosOk_plain {prio : Nat → Nat} {g : Frame} {st : List Frame} (hg : g.isReq = false) (h : NosOk prio st) : NosOk prio (g :: st) := by
  refine ⟨?_, h⟩
  intro t pc e
  rw [e] at hg
  simp [Frame.isReq] at hg

theorem notHeader {g : Frame} (hg : g.isReq = false) (p : Nat) : ¬ g.isHeader p := by
  cases g with
  | req t pc => simp [Frame.isReq] at hg
  | _ => exact id

/-- The scheduler loop on top goes on at the same level; cells may lose bits. -/
theorem invI_row {count : Nat} {s s' : State} {r : Row} {pc : RowPc} {rest : List Frame} (w : InvI count s) (hst : s.stack = .row r pc :: rest)
    {g : Frame} (hg : g.level = some r.priority) (hgr : g.isReq = false) (hst' : s'.stack = g :: rest) (h0 : s'.mem 0 = s.mem 0)
    (hpr : s'.prio = s.prio)
    (hm : ∀ t p, t < count → p < 27 → (s'.mem (27 - p)).getLsbD t = true → (s.mem (27 - p)).getLsbD t = true)
    (hcv : ∀ t p, t < count → p < 27 → (s'.mem (27 - p)).getLsbD t = true → (Frame.row r pc).covers t p → g.covers t p) : InvI count s' := by
  obtain ⟨w1, w2, w3⟩ := w
  rw [hst] at w1 w3
  simp only [hst] at w2
  refine ⟨?_, ?_, ?_⟩
  · intro i hi hb
    rw [h0] at hb
    obtain ⟨a, b⟩ := w1 i hi hb
    rw [hst']
    refine ⟨?_, ?_⟩
    · intro f hf
      rcases List.mem_cons.1 hf with rfl | hf
      · rw [hg]; exact a _ (List.mem_cons_self ..)
      · exact a f (by simp [hf])
    · left
      simp only [running, hg, Option.getD]
      rcases b with b | b
      · exact b
      · simp [startAbove] at b
  · intro t p ht hp hb
    rw [h0, hst']
    rcases w2 t p ht hp (hm t p ht hp hb) with h | ⟨f, hf, hcf⟩
    · exact .inl h
    · rcases List.mem_cons.1 hf with rfl | hf
      · rcases hcf with hcf | hcf
        · exact absurd hcf id
        · exact .inr ⟨g, by simp, .inr (hcv t p ht hp hb hcf)⟩
      · exact .inr ⟨f, by simp [hf], hcf⟩
  · rw [hst', hpr]; exact nosOk_plain hgr w3.2

/-- A call that is no scheduler loop, no request and no start ends or goes on; cells may lose bits. -/
theorem invI_other {count : Nat} {s s' : State} {f : Frame} {rest : List Frame} (w : InvI count s) (hst : s.stack = f :: rest)
    (hf : f.level = none) (hfs : f ≠ .start) (hfr : f.isReq = false) (h0 : s'.mem 0 = s.mem 0) (hpr : s'.prio = s.prio)
    (hst' : s'.stack = rest ∨ ∃ g, s'.stack = g :: rest ∧ g.level = none ∧ g.isReq = false)
    (hm : ∀ t p, t < count → p < 27 → (s'.mem (27 - p)).getLsbD t = true → (s.mem (27 - p)).getLsbD t = true) : InvI count s' := by
  obtain ⟨w1, w2, w3⟩ := w
  rw [hst] at w1 w3
  simp only [hst] at w2
  have hcf : ∀ t p, ¬ f.carries t p := by
    intro t p h
    rcases h with h | h
    · exact notHeader hfr p h
    · cases f with
      | row r pc => simp [Frame.level] at hf
      | _ => exact h
  have hsa : startAbove (f :: rest) = startAbove rest := by
    cases f with
    | start => exact absurd rfl hfs
    | row r pc => simp [Frame.level] at hf
    | _ => rfl
  have hru : running (f :: rest) = running rest := by simp [running, hf]
  have w2' : ∀ t p, t < count → p < 27 → (s'.mem (27 - p)).getLsbD t = true → (s.mem 0).getLsbD p = true ∨ ∃ g ∈ rest, g.carries t p := by
    intro t p ht hp hb
    rcases w2 t p ht hp (hm t p ht hp hb) with h | ⟨g, hg, hcg⟩
    · exact .inl h
    · rcases List.mem_cons.1 hg with rfl | hg
      · exact absurd hcg (hcf t p)
      · exact .inr ⟨g, hg, hcg⟩
  rw [hsa, hru] at w1
  rcases hst' with hst' | ⟨g, hst', hg, hgr⟩
  · refine ⟨?_, ?_, ?_⟩
    · intro i hi hb
      rw [h0] at hb
      obtain ⟨a, b⟩ := w1 i hi hb
      rw [hst']
      exact ⟨fun g hg => a g (by simp [hg]), b⟩
    · intro t p ht hp hb
      rw [h0, hst']
      exact w2' t p ht hp hb
    · rw [hst', hpr]; exact w3.2
  · refine ⟨?_, ?_, ?_⟩
    · intro i hi hb
      rw [h0] at hb
      obtain ⟨a, b⟩ := w1 i hi hb
      rw [hst']
      refine ⟨?_, ?_⟩
      · intro g' hg'
        rcases List.mem_cons.1 hg' with rfl | hg'
        · simp [hg]
        · exact a g' (by simp [hg'])
      · have hr : running (g :: rest) = running rest := by simp [running, hg]
        rw [hr]
        rcases b with b | b
        · exact .inl b
        · right
          cases g with
          | row r pc => simp [Frame.level] at hg
          | _ => simp [startAbove, b]
    · intro t p ht hp hb
      rw [h0, hst']
      rcases w2' t p ht hp hb with h | ⟨g', hg', h⟩
      · exact .inl h
      · exact .inr ⟨g', by simp [hg'], h⟩
    · rw [hst', hpr]; exact nosOk_plain hgr w3.2

set_option maxHeartbeats 400000 in
theorem frameStep_invI {count : Nat} (hc : count ≤ 32) {s s' : State} {f : Frame} {rest : List Frame} (a : InvA count s) (w : InvI count s)
    (hst : s.stack = f :: rest) (h : frameStep count s rest f = some s') : InvI count s' := by
  have j := a.ok
  have hcur := a.cur
  rw [hst] at j hcur
  obtain ⟨j1, j2⟩ := j
  cases f with
  | req thr pc =>
    obtain ⟨w1, w2, w3⟩ := w
    rw [hst] at w1 w3
    simp only [hst] at w2
    have w4 := w3.1 thr pc rfl
    have hnos := w3.2
    cases pc with
    | load =>
      simp only [frameStep, Option.some.injEq] at h
      subst h
      refine ⟨?_, ?_, ?_, hnos⟩
      · intro i hi hb
        obtain ⟨b1, b2⟩ := w1 i hi hb
        refine ⟨?_, b2⟩
        intro f hf
        rcases List.mem_cons.1 hf with rfl | hf
        · simp [Frame.level]
        · exact b1 f (by simp [hf])
      · intro t p ht hp hb
        rcases w2 t p ht hp hb with h | ⟨g, hg, hcg⟩
        · exact .inl h
        · rcases List.mem_cons.1 hg with rfl | hg
          · exact absurd hcg (by rintro (h | h) <;> exact h)
          · exact .inr ⟨g, by simp [hg], hcg⟩
      · intro t pc h f hf
        simp only [Frame.req.injEq] at h
        obtain ⟨rfl, rfl⟩ := h
        exact w4 f hf
    | cell q =>
      have hlt : thr < 32 := by have := j1.1; omega
      simp only [frameStep, cellIdx_lt j1.1 j1.2, ↓reduceIte, Option.some.injEq] at h
      simp only [cellIdx_small j1.1 hc j1.2, pendingBit_small hlt] at h
      have hq := j1.2
      have h0 : upd s.mem (27 - q) (s.mem (27 - q) ||| 1#32 <<< thr) 0 = s.mem 0 := by
        simp only [upd]; rw [if_neg (by omega)]
      have hold : ∀ t p, t < count → p < 27 → (s.mem (27 - p)).getLsbD t = true → (s.mem 0).getLsbD p = true ∨ ∃ g ∈ rest, g.carries t p := by
        intro t p ht hp hb
        rcases w2 t p ht hp hb with h | ⟨g, hg, hcg⟩
        · exact .inl h
        · rcases List.mem_cons.1 hg with rfl | hg
          · exact absurd hcg (by rintro (h | h) <;> exact h)
          · exact .inr ⟨g, hg, hcg⟩
      have hbit : ∀ t p, t < count → p < 27 → (upd s.mem (27 - q) (s.mem (27 - q) ||| 1#32 <<< thr) (27 - p)).getLsbD t = true →
          (s.mem (27 - p)).getLsbD t = true ∨ (t = thr ∧ p = q) := by
        intro t p ht hp hb
        simp only [upd] at hb
        split at hb
        · rename_i e
          have : p = q := by omega
          subst this
          rw [getLsbD_or_bit (by omega)] at hb
          simp only [Bool.or_eq_true, decide_eq_true_eq] at hb
          rcases hb with hb | hb
          · exact .inl hb
          · exact .inr ⟨hb, rfl⟩
        · exact .inl hb
      subst h
      by_cases hfr : s.mem (27 - q) &&& 1#32 <<< thr = 0
      · rw [if_pos hfr]
        refine ⟨?_, ?_, ?_, hnos⟩
        · intro i hi hb
          dsimp only at hb
          rw [h0] at hb
          obtain ⟨b1, b2⟩ := w1 i hi hb
          refine ⟨?_, b2⟩
          intro f hf
          rcases List.mem_cons.1 hf with rfl | hf
          · simp [Frame.level]
          · exact b1 f (by simp [hf])
        · intro t p ht hp hb
          dsimp only at hb ⊢
          rw [h0]
          rcases hbit t p ht hp hb with hb | ⟨rfl, rfl⟩
          · rcases hold t p ht hp hb with h | ⟨g, hg, hcg⟩
            · exact .inl h
            · exact .inr ⟨g, by simp [hg], hcg⟩
          · exact .inr ⟨_, List.mem_cons_self .., .inl rfl⟩
        · intro t pc h f hf
          simp only [Frame.req.injEq] at h
          obtain ⟨rfl, rfl⟩ := h
          exact w4 f hf
      · rw [if_neg hfr]
        have hset := (and_bit_ne hlt).1 hfr
        refine ⟨?_, ?_, hnos⟩
        · intro i hi hb
          dsimp only at hb
          rw [h0] at hb
          obtain ⟨b1, b2⟩ := w1 i hi hb
          exact ⟨fun f hf => b1 f (by simp [hf]), b2⟩
        · intro t p ht hp hb
          dsimp only at hb ⊢
          rw [h0]
          have : (s.mem (27 - p)).getLsbD t = true := by
            rcases hbit t p ht hp hb with hb | ⟨rfl, rfl⟩
            · exact hb
            · exact hset
          exact hold t p ht hp this
    | header q =>
      have hq := j1.2
      simp only [frameStep, Option.some.injEq] at h
      have hcur' : (s.mem 0 >>> levels).toNat = running rest := hcur
      rw [hcur'] at h
      have hnew : ∀ i, i < 27 → (s.mem 0 ||| 1#32 <<< q).getLsbD i = true → (s.mem 0).getLsbD i = true ∨ i = q := by
        intro i hi hb
        rw [getLsbD_or_bit (by omega)] at hb
        simpa using hb
      have hcov : ∀ t p, t < count → p < 27 → (s.mem (27 - p)).getLsbD t = true →
          (s.mem 0 ||| 1#32 <<< q).getLsbD p = true ∨ ∃ g ∈ rest, g.carries t p := by
        intro t p ht hp hb
        rw [getLsbD_or_bit (by omega)]
        rcases w2 t p ht hp hb with h | ⟨g, hg, hcg⟩
        · exact .inl (by simp [h])
        · rcases List.mem_cons.1 hg with rfl | hg
          · rcases hcg with hcg | hcg
            · have : q = p := hcg
              exact .inl (by simp [this])
            · exact absurd hcg id
          · exact .inr ⟨g, hg, hcg⟩
      have hlev : ∀ i, i < 27 → (s.mem 0 ||| 1#32 <<< q).getLsbD i = true → ∀ f ∈ rest, f.level ≠ some (i + 1) := by
        intro i hi hb f hf
        rcases hnew i hi hb with hb | rfl
        · exact (w1 i hi hb).1 f (by simp [hf])
        · exact w4 f hf
      subst h
      have hz : ∀ p, p < 27 → ¬ (27 - p = 0) := by intro p hp; omega
      split
      · refine ⟨?_, ?_, nosOk_plain rfl hnos⟩
        · intro i hi hb
          simp only [upd, ↓reduceIte] at hb
          refine ⟨?_, .inr rfl⟩
          intro f hf
          rcases List.mem_cons.1 hf with rfl | hf
          · simp [Frame.level]
          · exact hlev i hi hb f hf
        · intro t p ht hp hb
          simp only [upd, hz p hp, ↓reduceIte] at hb ⊢
          rcases hcov t p ht hp hb with h | ⟨g, hg, hcg⟩
          · exact .inl h
          · exact .inr ⟨g, by simp [hg], hcg⟩
      · rename_i hle
        refine ⟨?_, ?_, hnos⟩
        · intro i hi hb
          simp only [upd, ↓reduceIte] at hb
          refine ⟨fun f hf => hlev i hi hb f hf, ?_⟩
          rcases hnew i hi hb with hb | rfl
          · exact (w1 i hi hb).2
          · left; simp only; omega
        · intro t p ht hp hb
          simp only [upd, hz p hp, ↓reduceIte] at hb ⊢
          exact hcov t p ht hp hb
  | start =>
    obtain ⟨w1, w2, w3⟩ := w
    rw [hst] at w1 w3
    simp only [hst] at w2
    have hnos := w3.2
    have hold : ∀ t p, t < count → p < 27 → (s.mem (27 - p)).getLsbD t = true → (s.mem 0).getLsbD p = true ∨ ∃ g ∈ rest, g.carries t p := by
      intro t p ht hp hb
      rcases w2 t p ht hp hb with h | ⟨g, hg, hcg⟩
      · exact .inl h
      · rcases List.mem_cons.1 hg with rfl | hg
        · exact absurd hcg (by rintro (h | h) <;> exact h)
        · exact .inr ⟨g, hg, hcg⟩
    have hrun := running_le j2
    have hcur' : (s.mem 0 >>> levels).toNat = running rest := hcur
    simp only [frameStep] at h
    rw [hcur', show levels = 27 from rfl] at h
    have sp := findPriority_spec (s.mem 0) (running rest) 27 hrun (by omega)
    split at h
    · rename_i p hf
      rw [hf] at sp
      simp only [Option.some.injEq] at h
      subst h
      refine ⟨?_, ?_, hnos⟩
      · intro i hi hb
        refine ⟨fun f hf => (w1 i hi hb).1 f (by simp [hf]), .inl ?_⟩
        simp only
        have := sp.2 i
        by_cases e : running rest ≤ i
        · have h1 : (s.mem 0).getLsbD i = true := hb
          rw [this e hi] at h1; simp at h1
        · omega
      · intro t p ht hp hb
        exact hold t p ht hp hb
    · rename_i new p hf
      rw [hf] at sp
      obtain ⟨a1, a2, a3, a4, a5, a6⟩ := sp
      simp only [Option.some.injEq] at h
      subst h
      refine ⟨?_, ?_, nosOk_plain rfl hnos⟩
      · intro i hi hb
        simp only [upd, ↓reduceIte, a6 i hi, Bool.and_eq_true, decide_eq_true_eq] at hb
        have hlt : i < p := by
          refine Classical.byContradiction fun hn => ?_
          rw [a4 i (by omega) hi] at hb
          simp at hb
        refine ⟨?_, .inl ?_⟩
        · intro f hf
          rcases List.mem_cons.1 hf with rfl | hf
          · simp only [Frame.level, ne_eq, Option.some.injEq]; omega
          · exact (w1 i hi hb.1).1 f (by simp [hf])
        · simp only [running, Frame.level, Option.getD]; omega
      · intro t q ht hq hb
        have hz : ¬ (27 - q = 0) := by omega
        simp only [upd, hz, ↓reduceIte] at hb ⊢
        rcases hold t q ht hq hb with h | ⟨g, hg, hcg⟩
        · by_cases e : q = p - 1
          · exact .inr ⟨_, List.mem_cons_self .., .inr ⟨by simp only; omega, trivial⟩⟩
          · left; rw [a6 q hq, h]; simp [e]
        · exact .inr ⟨g, by simp [hg], hcg⟩
  | row r pc =>
    obtain ⟨k1, k2, k3, k4, k5, k6⟩ := j1
    have hp : r.ptr < pendingSize count := by rw [pendingSize_small k1 hc]; omega
    cases pc with
    | load thr =>
      have : thr = 0 := k6
      subst this
      have hge : 0 + (1 <<< colBits) ≥ count := by simp [colBits]; omega
      simp only [frameStep, hp, ↓reduceIte, hge] at h
      split at h
      · rename_i hz
        simp only [colBits, show (0 + 1 <<< 5 < 65536) from by decide, ↓reduceIte, Option.some.injEq] at h
        subst h
        refine invI_row w hst (g := .row r .next) rfl rfl rfl rfl rfl (fun _ _ _ _ h => h) ?_
        intro t p ht hpl hb hcv
        have : 27 - p = r.ptr := by have := hcv.1; omega
        simp only [this, hz] at hb
        simp at hb
      · simp only [Option.some.injEq] at h
        subst h
        refine invI_row w hst (g := .row r (.bits 0 (s.mem r.ptr) 1)) rfl rfl rfl rfl rfl (fun _ _ _ _ h => h) ?_
        intro t p ht hpl hb hcv
        have : 27 - p = r.ptr := by have := hcv.1; omega
        simp only [this] at hb
        exact ⟨hcv.1, Nat.zero_le _, hb⟩
    | bits thr cell bit =>
      obtain ⟨ht, hb⟩ := k6
      subst hb
      have h32 : thr < 32 := by omega
      simp only [frameStep, hp, ↓reduceIte, and_bit_ne h32] at h
      split at h
      · simp only [Option.some.injEq] at h
        subst h
        refine invI_row w hst (g := .row r (.call thr (s.mem r.ptr) (1#32 <<< thr) .load)) rfl rfl rfl ?_ rfl ?_ ?_
        · simp only [upd]; rw [if_neg (by omega)]
        · intro t p h1 h2 h3
          simp only [upd] at h3
          split at h3
          · rename_i e
            rw [getLsbD_andnot_bit (by omega)] at h3
            simp only [Bool.and_eq_true] at h3
            rw [e]; exact h3.1
          · exact h3
        · intro t p h1 h2 h3 hcv
          have e : 27 - p = r.ptr := by have := hcv.1; omega
          simp only [upd, e, ↓reduceIte, getLsbD_andnot_bit (show t < 32 by omega), Bool.and_eq_true, decide_eq_true_eq] at h3
          refine ⟨hcv.1, ?_, h3.1⟩
          have := hcv.2.1
          have := h3.2
          omega
      · rename_i hcell
        simp only [Option.some.injEq] at h
        subst h
        have ha := advance_ok (st := rest) (cell := cell) hc (pc := .bits thr cell (1#32 <<< thr)) ⟨k1, k2, k3, k4, k5, ht, rfl⟩ ⟨ht, rfl⟩
        refine invI_row w hst ha.2 (advance_isReq ..) rfl rfl rfl (fun _ _ _ _ h => h) ?_
        intro t p h1 h2 h3 hcv
        refine advance_cov hc ht ?_ h1 hcv.2.2 hcv.1
        have := hcv.2.1
        have : t ≠ thr := by rintro rfl; exact hcell hcv.2.2
        omega
    | call thr cell bit c =>
      obtain ⟨ht, hb⟩ := k6
      subst hb
      simp only [frameStep] at h
      split at h <;> (simp only [Option.some.injEq] at h; subst h)
      · refine invI_row w hst (g := .row r (.call thr cell (1#32 <<< thr) _)) rfl rfl rfl rfl rfl (fun _ _ _ _ h => h) ?_
        intro t p h1 h2 h3 hcv
        exact hcv
      · have ha := advance_ok (st := rest) (cell := cell) hc (pc := .call thr cell (1#32 <<< thr) c) ⟨k1, k2, k3, k4, k5, ht, rfl⟩ ⟨ht, rfl⟩
        refine invI_row w hst ha.2 (advance_isReq ..) rfl rfl rfl (fun _ _ _ _ h => h) ?_
        intro t p h1 h2 h3 hcv
        exact advance_cov hc ht hcv.2.1 h1 hcv.2.2 hcv.1
    | next =>
      obtain ⟨w1, w2, w3⟩ := w
      rw [hst] at w1 w3
      simp only [hst] at w2
      have hnos := w3.2
      have hold : ∀ t p, t < count → p < 27 → (s.mem (27 - p)).getLsbD t = true → (s.mem 0).getLsbD p = true ∨ ∃ g ∈ rest, g.carries t p := by
        intro t p ht hp hb
        rcases w2 t p ht hp hb with h | ⟨g, hg, hcg⟩
        · exact .inl h
        · rcases List.mem_cons.1 hg with rfl | hg
          · exact absurd hcg (by rintro (h | h); exact h; exact h.2)
          · exact .inr ⟨g, hg, hcg⟩
      have hlow : ∀ i, i < 27 → (s.mem 0).getLsbD i = true → i + 1 < r.priority := by
        intro i hi hb
        obtain ⟨b1, b2⟩ := w1 i hi hb
        have b1 := b1 _ (List.mem_cons_self ..)
        simp only [Frame.level, ne_eq, Option.some.injEq] at b1
        rcases b2 with b2 | b2
        · simp only [running, Frame.level, Option.getD] at b2; omega
        · simp [startAbove] at b2
      simp only [frameStep, Option.some.injEq] at h
      have sp := findPriority_spec (s.mem 0) r.prev (r.priority - 1) (by omega) (by omega)
      cases hf : findPriority (s.mem 0) r.prev (r.priority - 1) with
      | mk new next =>
        rw [hf] at sp h
        dsimp only at h
        cases new with
        | none =>
          simp only at sp
          subst h
          simp only [sp.1, ↓reduceIte]
          refine ⟨?_, ?_, hnos⟩
          · intro i hi hb
            simp only [upd, ↓reduceIte, Option.getD, lvl_setPriority hi] at hb
            have := hlow i hi hb
            refine ⟨fun f hf => (w1 i hi hb).1 f (by simp [hf]), .inl ?_⟩
            simp only
            rw [← k2]
            by_cases e : r.prev ≤ i
            · rw [sp.2 i e (by omega)] at hb; simp at hb
            · omega
          · intro t q ht hq hb
            have hz : ¬ (27 - q = 0) := by omega
            simp only [upd, hz, ↓reduceIte, Option.getD, lvl_setPriority hq] at hb ⊢
            exact hold t q ht hq hb
        | some new =>
          simp only at sp
          obtain ⟨a1, a2, a3, a4, a5, a6⟩ := sp
          have hne : next ≠ r.prev := by omega
          have hne' : next ≠ r.priority := by omega
          subst h
          simp only [hne, hne', ↓reduceIte, ne_eq, not_false_eq_true]
          refine ⟨?_, ?_, nosOk_plain rfl hnos⟩
          · intro i hi hb
            simp only [upd, ↓reduceIte, Option.getD, a6 i hi, Bool.and_eq_true, decide_eq_true_eq] at hb
            have hl := hlow i hi hb.1
            have hlt : i < next := by
              refine Classical.byContradiction fun hn => ?_
              rw [a4 i (by omega) (by omega)] at hb
              simp at hb
            refine ⟨?_, .inl ?_⟩
            · intro f hf
              rcases List.mem_cons.1 hf with rfl | hf
              · simp only [Frame.level, ne_eq, Option.some.injEq]; omega
              · exact (w1 i hi hb.1).1 f (by simp [hf])
            · simp only [running, Frame.level, Option.getD]; omega
          · intro t q ht hq hb
            have hz : ¬ (27 - q = 0) := by omega
            simp only [upd, hz, ↓reduceIte, Option.getD] at hb ⊢
            rcases hold t q ht hq hb with h | ⟨g, hg, hcg⟩
            · by_cases e : q = next - 1
              · exact .inr ⟨_, List.mem_cons_self .., .inr ⟨by simp only; omega, trivial⟩⟩
              · left; rw [a6 q hq, h]; simp [e]
            · exact .inr ⟨g, by simp [hg], hcg⟩
  | clear thr p =>
    cases p with
    | none =>
      simp only [frameStep, Option.some.injEq] at h
      subst h
      exact invI_other w hst rfl (by simp) rfl rfl rfl (.inr ⟨_, rfl, rfl, rfl⟩) (fun _ _ _ _ h => h)
    | some q =>
      have hlt : thr < 32 := by have := j1.1; omega
      have hq := j1.2 q rfl
      simp only [frameStep, cellIdx_lt j1.1 hq, ↓reduceIte, Option.some.injEq] at h
      simp only [cellIdx_small j1.1 hc hq, pendingBit_small hlt] at h
      subst h
      refine invI_other w hst rfl (by simp) rfl ?_ rfl (.inl rfl) ?_
      · simp only [upd]; rw [if_neg (by omega)]
      · intro t p h1 h2 h3
        simp only [upd] at h3
        split at h3
        · rename_i e
          rw [getLsbD_andnot_bit (by omega)] at h3
          simp only [Bool.and_eq_true] at h3
          rw [e]; exact h3.1
        · exact h3
  | plain thr c =>
    simp only [frameStep] at h
    split at h <;> (simp only [Option.some.injEq] at h; subst h)
    · exact invI_other w hst rfl (by simp) rfl rfl rfl (.inr ⟨_, rfl, rfl, rfl⟩) (fun _ _ _ _ h => h)
    · exact invI_other w hst rfl (by simp) rfl rfl rfl (.inl rfl) (fun _ _ _ _ h => h)

/-- A new call is put on the stack. -/
theorem invI_push {count : Nat} {s : State} (w : InvI count s) {g : Frame} (hg : g.level = none)
    (hr : ∀ t pc, g = .req t pc → ∀ f ∈ s.stack, f.level ≠ some (pc.level s.prio t + 1)) : InvI count { s with stack := g :: s.stack } := by
  obtain ⟨w1, w2, w3⟩ := w
  refine ⟨?_, ?_, hr, w3⟩
  · intro i hi hb
    obtain ⟨b1, b2⟩ := w1 i hi hb
    refine ⟨?_, ?_⟩
    · intro f hf
      rcases List.mem_cons.1 hf with rfl | hf
      · simp [hg]
      · exact b1 f hf
    · simp only [running, hg, Option.getD]
      rcases b2 with b2 | b2
      · exact .inl b2
      · right
        cases g with
        | row r pc => simp [Frame.level] at hg
        | _ => simp [startAbove, b2]
  · intro t p ht hp hb
    rcases w2 t p ht hp hb with h | ⟨f, hf, hcf⟩
    · exact .inl h
    · exact .inr ⟨f, by simp [hf], hcf⟩

theorem nosOk_prio {prio : Nat → Nat} {thr p : Nat} : ∀ {st : List Frame}, .req thr .load ∉ st → NosOk prio st → NosOk (upd prio thr p) st
  | [], _, _ => trivial
  | f :: st, hn, h => by
    refine ⟨?_, nosOk_prio (fun hm => hn (by simp [hm])) h.2⟩
    intro t pc e g hg
    have := h.1 t pc e g hg
    cases pc with
    | load =>
      have hne : t ≠ thr := by rintro rfl; exact hn (by simp [e])
      simp only [Req.level, upd, hne, ↓reduceIte]
      exact this
    | _ => exact this

theorem step_invI {count : Nat} (hc : count ≤ 32) {s s' : State} {a : Act} (hp : PrioStill s a) (hn : NoSame s a) (i : InvA count s) (w : InvI count s)
    (h : step count s a = some s') : InvI count s' := by
  cases a <;> simp only [step] at h
  case step =>
    split at h
    · simp only [Option.some.injEq] at h; exact h ▸ w
    · rename_i f rest hst; exact frameStep_invI hc i w hst h
  case ret =>
    simp only [Option.some.injEq] at h
    subst h
    unfold ret
    split <;> rename_i hst
    · exact invI_row w hst (g := .row _ (.call _ _ _ (.restore _))) rfl rfl rfl rfl rfl (fun _ _ _ _ h => h) (fun _ _ _ _ _ h => h)
    · exact invI_other w hst rfl (by simp) rfl rfl rfl (.inr ⟨_, rfl, rfl, rfl⟩) (fun _ _ _ _ h => h)
    · exact w
  case setPrio =>
    split at h
    · simp only [Option.some.injEq] at h
      subst h
      exact ⟨w.bits, w.cov, nosOk_prio hp w.nos⟩
    · simp at h
  case pend t =>
    simp only [Option.some.injEq] at h
    split at h
    · subst h
      refine invI_push w rfl ?_
      intro t' pc e
      simp only [Frame.req.injEq] at e
      obtain ⟨rfl, rfl⟩ := e
      exact hn
    · subst h; exact w
  all_goals
    simp only [Option.some.injEq] at h
    try split at h
    all_goals subst h
    all_goals first
      | exact w
      | exact invI_push w rfl (by intro t pc e; simp at e)

theorem run_invI {count : Nat} (hc : count ≤ 32) : ∀ {acts : List Act} {s s' : State}, Always count (fun s a => PrioStill s a ∧ NoSame s a) s acts →
    InvA count s → InvI count s → run count s acts = some s' → InvI count s'
  | [], s, s', _, _, k, h => by simp only [run, Option.some.injEq] at h; exact h ▸ k
  | a :: as, s, s', n, i, k, h => by
    simp only [run] at h
    split at h
    · simp at h
    · rename_i m hm
      exact run_invI hc (n.2 m hm) (step_invA hc i hm) (step_invI hc n.1.1 n.1.2 i k hm) h

/-- When no call of `preempt` is at its start and no request in progress, nothing is
pending above the running level. -/
theorem above_empty_irq {count : Nat} {s : State} (i : InvA count s) (w : InvI count s) (h1 : ∀ f ∈ s.stack, f ≠ .start)
    (h2 : ∀ f ∈ s.stack, f.isReq = false) {t p : Nat} (ht : t < count) (hp : p < 27)
    (hb : (s.mem (27 - p)).getLsbD t = true) : p + 1 ≤ running s.stack := by
  rcases w.cov t p ht hp hb with h | ⟨f, hf, hcf | hcf⟩
  · rcases (w.bits p hp h).2 with h | h
    · exact h
    · rw [not_startAbove h1] at h; simp at h
  · exact absurd hcf (notHeader (h2 f hf) p)
  · exact level_le i.ok f hf _ (covers_level hcf)

/-- An access changes only the call on top of the stack. -/
theorem frameStep_stack {count : Nat} {s s' : State} {f : Frame} {rest : List Frame} (h : frameStep count s rest f = some s') :
    s'.stack = rest ∨ ∃ g, s'.stack = g :: rest := by
  cases f with
  | req thr pc =>
    cases pc <;> simp only [frameStep] at h
    · simp only [Option.some.injEq] at h; subst h; exact .inr ⟨_, rfl⟩
    · split at h
      · simp only [Option.some.injEq] at h; subst h
        dsimp only
        split
        · exact .inr ⟨_, rfl⟩
        · exact .inl rfl
      · simp at h
    · simp only [Option.some.injEq] at h; subst h
      dsimp only
      split
      · exact .inr ⟨_, rfl⟩
      · exact .inl rfl
  | start =>
    simp only [frameStep] at h
    split at h <;> (simp only [Option.some.injEq] at h; subst h)
    · exact .inl rfl
    · exact .inr ⟨_, rfl⟩
  | row r pc =>
    cases pc <;> simp only [frameStep] at h
    · split at h
      · split at h
        · split at h
          · simp only [Option.some.injEq] at h; subst h
            dsimp only
            split <;> exact .inr ⟨_, rfl⟩
          · simp at h
        · simp only [Option.some.injEq] at h; subst h; exact .inr ⟨_, rfl⟩
      · simp at h
    · split at h
      · split at h
        · simp only [Option.some.injEq] at h; subst h; exact .inr ⟨_, rfl⟩
        · simp at h
      · simp only [Option.some.injEq] at h; subst h; exact .inr ⟨_, rfl⟩
    · split at h <;> (simp only [Option.some.injEq] at h; subst h; exact .inr ⟨_, rfl⟩)
    · simp only [Option.some.injEq] at h
      subst h
      dsimp only
      split
      · exact .inl rfl
      · split <;> exact .inr ⟨_, rfl⟩
  | clear thr q =>
    cases q <;> simp only [frameStep] at h
    · simp only [Option.some.injEq] at h; subst h; exact .inr ⟨_, rfl⟩
    · split at h
      · simp only [Option.some.injEq] at h; subst h; exact .inl rfl
      · simp at h
  | plain thr c =>
    simp only [frameStep] at h
    split at h <;> (simp only [Option.some.injEq] at h; subst h)
    · exact .inr ⟨_, rfl⟩
    · exact .inl rfl

theorem frameStep_prio {count : Nat} {s s' : State} {f : Frame} {rest : List Frame} (h : frameStep count s rest f = some s') :
    s'.prio = s.prio := by
  cases f with
  | req thr pc =>
    cases pc <;> simp only [frameStep] at h
    · simp only [Option.some.injEq] at h; subst h; rfl
    · split at h
      · simp only [Option.some.injEq] at h; subst h; rfl
      · simp at h
    · simp only [Option.some.injEq] at h; subst h; rfl
  | start =>
    simp only [frameStep] at h
    split at h <;> (simp only [Option.some.injEq] at h; subst h; rfl)
  | row r pc =>
    cases pc <;> simp only [frameStep] at h
    · split at h
      · split at h
        · split at h
          · simp only [Option.some.injEq] at h; subst h; rfl
          · simp at h
        · simp only [Option.some.injEq] at h; subst h; rfl
      · simp at h
    · split at h
      · split at h
        · simp only [Option.some.injEq] at h; subst h; rfl
        · simp at h
      · simp only [Option.some.injEq] at h; subst h; rfl
    · split at h <;> (simp only [Option.some.injEq] at h; subst h; rfl)
    · simp only [Option.some.injEq] at h
      subst h; rfl
  | clear thr q =>
    cases q <;> simp only [frameStep] at h
    · simp only [Option.some.injEq] at h; subst h; rfl
    · split at h
      · simp only [Option.some.injEq] at h; subst h; rfl
      · simp at h
  | plain thr c =>
    simp only [frameStep] at h
    split at h <;> (simp only [Option.some.injEq] at h; subst h; rfl)

/-- A bit of a cell is set by a fresh request only. -/
theorem frameStep_bit {count : Nat} (hc : count ≤ 32) {s s' : State} {f : Frame} {rest : List Frame} (a : InvA count s) (hst : s.stack = f :: rest)
    (h : frameStep count s rest f = some s') {t p : Nat} (ht : t < count) (hp : p < 27) (hb : (s'.mem (27 - p)).getLsbD t = true) :
    (s.mem (27 - p)).getLsbD t = true ∨ requests t p s.log < requests t p s'.log := by
  have j := a.ok
  rw [hst] at j
  obtain ⟨j1, -⟩ := j
  have hz : ¬ (27 - p = 0) := by omega
  cases f with
  | req thr pc =>
    cases pc with
    | load => simp only [frameStep, Option.some.injEq] at h; subst h; exact .inl hb
    | cell q =>
      have hlt : thr < 32 := by have := j1.1; omega
      have hq := j1.2
      simp only [frameStep, cellIdx_lt j1.1 j1.2, ↓reduceIte, Option.some.injEq] at h
      simp only [cellIdx_small j1.1 hc j1.2, pendingBit_small hlt] at h
      subst h
      simp only [upd] at hb
      split at hb
      · rename_i e
        have : p = q := by omega
        subst this
        rw [getLsbD_or_bit (by omega)] at hb
        simp only [Bool.or_eq_true, decide_eq_true_eq] at hb
        rcases hb with hb | rfl
        · exact .inl hb
        · by_cases hf : s.mem (27 - p) &&& 1#32 <<< t = 0
          · right; simp [requests, hf]
          · exact .inl ((and_bit_ne hlt).1 hf)
      · exact .inl hb
    | header q =>
      simp only [frameStep, Option.some.injEq] at h
      subst h
      simp only [upd, hz, ↓reduceIte] at hb
      exact .inl hb
  | start =>
    simp only [frameStep] at h
    split at h <;> (simp only [Option.some.injEq] at h; subst h)
    · exact .inl hb
    · simp only [upd, hz, ↓reduceIte] at hb; exact .inl hb
  | row r pc =>
    cases pc <;> simp only [frameStep] at h
    · split at h
      · split at h
        · split at h
          · simp only [Option.some.injEq] at h; subst h; exact .inl hb
          · simp at h
        · simp only [Option.some.injEq] at h; subst h; exact .inl hb
      · simp at h
    · split at h
      · split at h
        · simp only [Option.some.injEq] at h; subst h
          left
          simp only [upd] at hb
          split at hb
          · rename_i e
            rw [BitVec.getLsbD_and, Bool.and_eq_true] at hb
            rw [e]; exact hb.1
          · exact hb
        · simp at h
      · simp only [Option.some.injEq] at h; subst h; exact .inl hb
    · split at h <;> (simp only [Option.some.injEq] at h; subst h; exact .inl hb)
    · simp only [Option.some.injEq] at h
      subst h
      simp only [upd, hz, ↓reduceIte] at hb; exact .inl hb
  | clear thr q =>
    cases q <;> simp only [frameStep] at h
    · simp only [Option.some.injEq] at h; subst h; exact .inl hb
    · split at h
      · simp only [Option.some.injEq] at h; subst h
        left
        simp only [upd] at hb
        split at hb
        · rename_i e
          rw [BitVec.getLsbD_and, Bool.and_eq_true] at hb
          rw [e]; exact hb.1
        · exact hb
      · simp at h
  | plain thr c =>
    simp only [frameStep] at h
    split at h <;> (simp only [Option.some.injEq] at h; subst h; exact .inl hb)

/-- Where a request made above `rest` is, if it may have been interrupted. -/
def ReqIn (t p n : Nat) (rest : List Frame) (s : State) : Prop :=
  n < requests t p s.log ∨
  requests t p s.log = n ∧ (s.mem (27 - p)).getLsbD t = false ∧
    ∃ pre pc, s.stack = pre ++ .req t pc :: rest ∧ (pc = .load ∧ s.prio t = p ∨ pc = .cell p)

theorem ret_below {f : Frame} {st : List Frame} : ∃ g, ret (f :: st) = g :: st := by
  unfold ret
  split
  · rename_i e; simp only [List.cons.injEq] at e; exact ⟨_, by rw [e.2]⟩
  · rename_i e; simp only [List.cons.injEq] at e; exact ⟨_, by rw [e.2]⟩
  · exact ⟨f, rfl⟩

theorem step_reqIn {count t p n : Nat} (hc : count ≤ 32) {rest : List Frame} {s s' : State} {a : Act} (ht : t < count) (hp : p < 27)
    (i : InvA count s) (hs : PrioStill s a) (h : step count s a = some s') (k : ReqIn t p n rest s) : ReqIn t p n rest s' := by
  rcases k with k | ⟨k1, k2, pre, pc, k3, k4⟩
  · exact .inl (Nat.lt_of_lt_of_le k (step_requests h t p))
  by_cases hgt : n < requests t p s'.log
  · exact .inl hgt
  have hle := step_requests h t p
  have heq : requests t p s'.log = n := by omega
  right
  cases a with
  | step =>
    cases pre with
    | nil =>
      simp only [List.nil_append] at k3
      simp only [step, k3] at h
      have hb : (s'.mem (27 - p)).getLsbD t = false := by
        refine Bool.eq_false_iff.2 fun hb => ?_
        rcases frameStep_bit hc i k3 h ht hp hb with hb | hb
        · rw [k2] at hb; simp at hb
        · omega
      rcases k4 with ⟨rfl, k4⟩ | rfl
      · simp only [frameStep, Option.some.injEq] at h
        subst h
        exact ⟨heq, hb, [], .cell p, by simp [k4], .inr rfl⟩
      · exfalso
        have j := i.ok
        rw [k3] at j
        have hf : s.mem (27 - p) &&& 1#32 <<< t = 0 := by
          refine Classical.byContradiction fun hn => ?_
          have := (and_bit_ne (show t < 32 by omega)).1 hn
          rw [k2] at this; simp at this
        simp only [frameStep, cellIdx_lt ht hp, ↓reduceIte, Option.some.injEq] at h
        simp only [cellIdx_small ht hc hp, pendingBit_small (show t < 32 by omega)] at h
        subst h
        simp only [requests, hf, decide_true, and_self, ↓reduceIte] at heq
        omega
    | cons f pre =>
      simp only [List.cons_append] at k3
      simp only [step, k3] at h
      have hb : (s'.mem (27 - p)).getLsbD t = false := by
        refine Bool.eq_false_iff.2 fun hb => ?_
        rcases frameStep_bit hc i k3 h ht hp hb with hb | hb
        · rw [k2] at hb; simp at hb
        · omega
      have hpr := frameStep_prio h
      rcases frameStep_stack h with e | ⟨g, e⟩
      · exact ⟨heq, hb, pre, pc, e, by rw [hpr]; exact k4⟩
      · exact ⟨heq, hb, g :: pre, pc, by simpa using e, by rw [hpr]; exact k4⟩
  | ret =>
    simp only [step, Option.some.injEq] at h
    subst h
    refine ⟨heq, k2, ?_⟩
    cases pre with
    | nil =>
      simp only [List.nil_append] at k3
      exact ⟨[], pc, by simp [k3, ret], k4⟩
    | cons f pre =>
      simp only [List.cons_append] at k3
      obtain ⟨g, hg⟩ := @ret_below f (pre ++ .req t pc :: rest)
      exact ⟨g :: pre, pc, by simp [k3, hg], k4⟩
  | setPrio u q =>
    simp only [step] at h
    split at h
    · simp only [Option.some.injEq] at h
      subst h
      refine ⟨heq, k2, pre, pc, k3, ?_⟩
      rcases k4 with ⟨rfl, k4⟩ | k4
      · left
        refine ⟨rfl, ?_⟩
        have : t ≠ u := by
          rintro rfl
          exact hs (by rw [k3]; simp)
        simp only [upd, this, ↓reduceIte, k4]
      · exact .inr k4
    · simp at h
  | pend u =>
    simp only [step, Option.some.injEq] at h
    split at h
    · subst h; exact ⟨k1, k2, _ :: pre, pc, by rw [k3]; rfl, k4⟩
    · subst h; exact ⟨k1, k2, pre, pc, k3, k4⟩
  | preempt =>
    simp only [step, Option.some.injEq] at h
    subst h; exact ⟨k1, k2, _ :: pre, pc, by rw [k3]; rfl, k4⟩
  | clear u =>
    simp only [step, Option.some.injEq] at h
    split at h
    · subst h; exact ⟨k1, k2, _ :: pre, pc, by rw [k3]; rfl, k4⟩
    · subst h; exact ⟨k1, k2, pre, pc, k3, k4⟩
  | enter u =>
    simp only [step, Option.some.injEq] at h
    split at h
    · subst h; exact ⟨k1, k2, _ :: pre, pc, by rw [k3]; rfl, k4⟩
    · subst h; exact ⟨k1, k2, pre, pc, k3, k4⟩

theorem run_reqIn {count t p n : Nat} (hc : count ≤ 32) {rest : List Frame} (ht : t < count) (hp : p < 27) :
    ∀ {acts : List Act} {s s' : State}, Always count (fun s a => PrioStill s a ∧ NoSame s a) s acts → InvA count s →
    run count s acts = some s' → ReqIn t p n rest s → ReqIn t p n rest s'
  | [], s, s', _, _, h, k => by simp only [run, Option.some.injEq] at h; exact h ▸ k
  | a :: as, s, s', w, i, h, k => by
    simp only [run] at h
    split at h
    · simp at h
    · rename_i m hms
      exact run_reqIn hc ht hp (w.2 m hms) (step_invA hc i hms) h (step_reqIn hc ht hp i w.1.1 hms k)

/-- A test for `PrioStill`. -/
def prioStillB (s : State) : Act → Bool
  | .setPrio thr _ => !s.stack.contains (.req thr .load)
  | _ => true

theorem prioStillB_sound (s : State) (a : Act) (h : prioStillB s a = true) : PrioStill s a := by
  cases a with
  | setPrio t p => simpa [prioStillB, PrioStill] using h
  | _ => trivial

end Verif.Soft
