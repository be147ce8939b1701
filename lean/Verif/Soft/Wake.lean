import Verif.Soft.Snap
/-! # Invariants of the software threads: nothing is forgotten -/
namespace Verif.Soft

/-- A call of `preempt` that has not yet started is above all scheduler loops. -/
def startAbove : List Frame → Bool
  | [] => false
  | .start :: _ => true
  | .row _ _ :: _ => false
  | _ :: st => startAbove st

/-- The bits a scheduler loop will still act upon. -/
def RowPc.cov : RowPc → Nat → Prop
  | .load _, _ => True
  | .bits thr cell _, t => thr ≤ t ∧ cell.getLsbD t = true
  | .call thr cell _ _, t => thr < t ∧ cell.getLsbD t = true
  | .next, _ => False

/-- The scheduler loop will still resume thread `t` at level `p`. -/
def Frame.covers (t p : Nat) : Frame → Prop
  | .row r pc => r.priority = p + 1 ∧ pc.cov t
  | _ => False

/-- The call is a `set_pending`. -/
def Frame.isReq : Frame → Bool
  | .req _ _ => true
  | _ => false

/-- The level of a `set_pending` call. -/
def Req.level (prio : Nat → Nat) (thr : Nat) : Req → Nat
  | .load => prio thr
  | .cell p => p
  | .header p => p

/-- Every pending thread will be resumed. -/
structure InvW (count : Nat) (s : State) : Prop where
  bits : ∀ i, i < 27 → (s.mem 0).getLsbD i = true → (∀ f ∈ s.stack, f.level ≠ some (i + 1)) ∧ (i + 1 ≤ running s.stack ∨ startAbove s.stack = true)
  cov : ∀ t p, t < count → p < 27 → (s.mem (27 - p)).getLsbD t = true →
    (s.mem 0).getLsbD p = true ∨ s.stack.head? = some (.req t (.header p)) ∨ ∃ f ∈ s.stack, f.covers t p
  tl : ∀ f ∈ s.stack.tail, f.isReq = false
  nos : ∀ t pc, s.stack.head? = some (.req t pc) → ∀ f ∈ s.stack, f.level ≠ some (pc.level s.prio t + 1)

theorem init_invW (count : Nat) (prio : Nat → Nat) : InvW count (init prio) := by
  constructor <;> simp [init]

theorem advance_cov {count thr t : Nat} {r : Row} {cell : U32} (hc : count ≤ 32) (ht : thr < count) (h1 : thr < t) (h2 : t < count)
    (h3 : cell.getLsbD t = true) {p : Nat} (hp : r.priority = p + 1) : (advance count r thr cell (1#32 <<< thr)).covers t p := by
  rw [advance_small r cell hc ht, if_neg (by omega)]
  exact ⟨hp, by omega, h3⟩

theorem advance_isReq (count : Nat) (r : Row) (thr : Nat) (cell bit : U32) : (advance count r thr cell bit).isReq = false := by
  unfold advance; split
  · rfl
  · split <;> rfl

/-- The scheduler loop on top goes on at the same level; cells may lose bits. -/
theorem invW_row {count : Nat} {s s' : State} {r : Row} {pc : RowPc} {rest : List Frame} (w : InvW count s) (hst : s.stack = .row r pc :: rest)
    {g : Frame} (hg : g.level = some r.priority) (hgr : g.isReq = false) (hst' : s'.stack = g :: rest) (h0 : s'.mem 0 = s.mem 0)
    (hpr : s'.prio = s.prio)
    (hm : ∀ t p, t < count → p < 27 → (s'.mem (27 - p)).getLsbD t = true → (s.mem (27 - p)).getLsbD t = true)
    (hcv : ∀ t p, t < count → p < 27 → (s'.mem (27 - p)).getLsbD t = true → (Frame.row r pc).covers t p → g.covers t p) : InvW count s' := by
  obtain ⟨w1, w2, w3, w4⟩ := w
  rw [hst] at w1 w3 w4
  simp only [hst] at w2
  refine ⟨?_, ?_, ?_, ?_⟩
  · intro i hi hb
    rw [h0] at hb
    obtain ⟨a, b⟩ := w1 i hi hb
    rw [hst']
    refine ⟨?_, ?_⟩
    · intro f hf
      rcases List.mem_cons.1 hf with rfl | hf
      · rw [hg]; exact a _ (List.mem_cons_self ..)
      · exact a f (by simp [hf])
    · left
      simp only [running, hg, Option.getD]
      rcases b with b | b
      · exact b
      · simp [startAbove] at b
  · intro t p ht hp hb
    rw [h0, hst']
    rcases w2 t p ht hp (hm t p ht hp hb) with h | h | ⟨f, hf, hcf⟩
    · exact .inl h
    · simp at h
    · rcases List.mem_cons.1 hf with rfl | hf
      · exact .inr (.inr ⟨g, by simp, hcv t p ht hp hb hcf⟩)
      · exact .inr (.inr ⟨f, by simp [hf], hcf⟩)
  · rw [hst']; exact w3
  · intro t pc' h
    rw [hst'] at h
    simp only [List.head?_cons, Option.some.injEq] at h
    rw [h] at hgr
    simp [Frame.isReq] at hgr

/-- A call that is no scheduler loop, no request and no start ends or goes on; cells may lose bits. -/
theorem invW_other {count : Nat} {s s' : State} {f : Frame} {rest : List Frame} (w : InvW count s) (hst : s.stack = f :: rest)
    (hf : f.level = none) (hfs : f ≠ .start) (hfr : f.isReq = false) (h0 : s'.mem 0 = s.mem 0) (hpr : s'.prio = s.prio)
    (hst' : s'.stack = rest ∨ ∃ g, s'.stack = g :: rest ∧ g.level = none ∧ g.isReq = false)
    (hm : ∀ t p, t < count → p < 27 → (s'.mem (27 - p)).getLsbD t = true → (s.mem (27 - p)).getLsbD t = true) : InvW count s' := by
  obtain ⟨w1, w2, w3, w4⟩ := w
  rw [hst] at w1 w3 w4
  simp only [hst] at w2
  have hcf : ∀ t p, ¬ f.covers t p := by
    intro t p h
    cases f with
    | row r pc => simp [Frame.level] at hf
    | _ => exact h
  have hsa : startAbove (f :: rest) = startAbove rest := by
    cases f with
    | start => exact absurd rfl hfs
    | row r pc => simp [Frame.level] at hf
    | _ => rfl
  have hru : running (f :: rest) = running rest := by simp [running, hf]
  have w2' : ∀ t p, t < count → p < 27 → (s'.mem (27 - p)).getLsbD t = true → (s.mem 0).getLsbD p = true ∨ ∃ g ∈ rest, g.covers t p := by
    intro t p ht hp hb
    rcases w2 t p ht hp (hm t p ht hp hb) with h | h | ⟨g, hg, hcg⟩
    · exact .inl h
    · simp only [List.head?_cons, Option.some.injEq] at h
      rw [h] at hfr; simp [Frame.isReq] at hfr
    · rcases List.mem_cons.1 hg with rfl | hg
      · exact absurd hcg (hcf t p)
      · exact .inr ⟨g, hg, hcg⟩
  have hnr : ∀ g ∈ rest, g.isReq = false := w3
  rw [hsa, hru] at w1
  rcases hst' with hst' | ⟨g, hst', hg, hgr⟩
  · refine ⟨?_, ?_, ?_, ?_⟩
    · intro i hi hb
      rw [h0] at hb
      obtain ⟨a, b⟩ := w1 i hi hb
      rw [hst']
      exact ⟨fun g hg => a g (by simp [hg]), b⟩
    · intro t p ht hp hb
      rw [h0, hst']
      exact (w2' t p ht hp hb).imp_right .inr
    · rw [hst']; intro g hg; exact hnr g (List.mem_of_mem_tail hg)
    · intro t pc h
      rw [hst'] at h
      have := hnr _ (List.mem_of_mem_head? h)
      simp [Frame.isReq] at this
  · refine ⟨?_, ?_, ?_, ?_⟩
    · intro i hi hb
      rw [h0] at hb
      obtain ⟨a, b⟩ := w1 i hi hb
      rw [hst']
      refine ⟨?_, ?_⟩
      · intro g' hg'
        rcases List.mem_cons.1 hg' with rfl | hg'
        · simp [hg]
        · exact a g' (by simp [hg'])
      · have hr : running (g :: rest) = running rest := by simp [running, hg]
        rw [hr]
        rcases b with b | b
        · exact .inl b
        · right
          cases g with
          | row r pc => simp [Frame.level] at hg
          | _ => simp [startAbove, b]
    · intro t p ht hp hb
      rw [h0, hst']
      rcases w2' t p ht hp hb with h | ⟨g', hg', h⟩
      · exact .inl h
      · exact .inr (.inr ⟨g', by simp [hg'], h⟩)
    · rw [hst']; exact hnr
    · intro t pc h
      rw [hst'] at h
      simp only [List.head?_cons, Option.some.injEq] at h
      rw [h] at hgr
      simp [Frame.isReq] at hgr

set_option maxHeartbeats 400000 in
theorem frameStep_invW {count : Nat} (hc : count ≤ 32) {s s' : State} {f : Frame} {rest : List Frame} (a : InvA count s) (w : InvW count s)
    (hst : s.stack = f :: rest) (h : frameStep count s rest f = some s') : InvW count s' := by
  have j := a.ok
  have hcur := a.cur
  rw [hst] at j hcur
  obtain ⟨j1, j2⟩ := j
  cases f with
  | req thr pc =>
    obtain ⟨w1, w2, w3, w4⟩ := w
    rw [hst] at w1 w3 w4
    simp only [hst] at w2
    have hnr : ∀ g ∈ rest, g.isReq = false := w3
    have w4 := w4 thr pc rfl
    cases pc with
    | load =>
      simp only [frameStep, Option.some.injEq] at h
      subst h
      refine ⟨?_, ?_, w3, ?_⟩
      · intro i hi hb
        obtain ⟨b1, b2⟩ := w1 i hi hb
        refine ⟨?_, b2⟩
        intro f hf
        rcases List.mem_cons.1 hf with rfl | hf
        · simp [Frame.level]
        · exact b1 f (by simp [hf])
      · intro t p ht hp hb
        rcases w2 t p ht hp hb with h | h | ⟨g, hg, hcg⟩
        · exact .inl h
        · simp at h
        · rcases List.mem_cons.1 hg with rfl | hg
          · exact absurd hcg id
          · exact .inr (.inr ⟨g, by simp [hg], hcg⟩)
      · intro t pc h f hf
        simp only [List.head?_cons, Option.some.injEq, Frame.req.injEq] at h
        obtain ⟨rfl, rfl⟩ := h
        rcases List.mem_cons.1 hf with rfl | hf
        · simp [Frame.level]
        · exact w4 f (by simp [hf])
    | cell q =>
      have hlt : thr < 32 := by have := j1.1; omega
      simp only [frameStep, cellIdx_lt j1.1 j1.2, ↓reduceIte, Option.some.injEq] at h
      simp only [cellIdx_small j1.1 hc j1.2, pendingBit_small hlt] at h
      have hq := j1.2
      have h0 : upd s.mem (27 - q) (s.mem (27 - q) ||| 1#32 <<< thr) 0 = s.mem 0 := by
        simp only [upd]; rw [if_neg (by omega)]
      have hold : ∀ t p, t < count → p < 27 → (s.mem (27 - p)).getLsbD t = true → (s.mem 0).getLsbD p = true ∨ ∃ g ∈ rest, g.covers t p := by
        intro t p ht hp hb
        rcases w2 t p ht hp hb with h | h | ⟨g, hg, hcg⟩
        · exact .inl h
        · simp at h
        · rcases List.mem_cons.1 hg with rfl | hg
          · exact absurd hcg id
          · exact .inr ⟨g, hg, hcg⟩
      have hbit : ∀ t p, t < count → p < 27 → (upd s.mem (27 - q) (s.mem (27 - q) ||| 1#32 <<< thr) (27 - p)).getLsbD t = true →
          (s.mem (27 - p)).getLsbD t = true ∨ (t = thr ∧ p = q) := by
        intro t p ht hp hb
        simp only [upd] at hb
        split at hb
        · rename_i e
          have : p = q := by omega
          subst this
          rw [getLsbD_or_bit (by omega)] at hb
          simp only [Bool.or_eq_true, decide_eq_true_eq] at hb
          rcases hb with hb | hb
          · exact .inl hb
          · exact .inr ⟨hb, rfl⟩
        · exact .inl hb
      subst h
      by_cases hfr : s.mem (27 - q) &&& 1#32 <<< thr = 0
      · rw [if_pos hfr]
        refine ⟨?_, ?_, w3, ?_⟩
        · intro i hi hb
          dsimp only at hb
          rw [h0] at hb
          obtain ⟨b1, b2⟩ := w1 i hi hb
          refine ⟨?_, b2⟩
          intro f hf
          rcases List.mem_cons.1 hf with rfl | hf
          · simp [Frame.level]
          · exact b1 f (by simp [hf])
        · intro t p ht hp hb
          dsimp only at hb ⊢
          rw [h0]
          rcases hbit t p ht hp hb with hb | ⟨rfl, rfl⟩
          · rcases hold t p ht hp hb with h | ⟨g, hg, hcg⟩
            · exact .inl h
            · exact .inr (.inr ⟨g, by simp [hg], hcg⟩)
          · exact .inr (.inl rfl)
        · intro t pc h f hf
          simp only [List.head?_cons, Option.some.injEq, Frame.req.injEq] at h
          obtain ⟨rfl, rfl⟩ := h
          rcases List.mem_cons.1 hf with rfl | hf
          · simp [Frame.level]
          · exact w4 f (by simp [hf])
      · rw [if_neg hfr]
        have hset := (and_bit_ne hlt).1 hfr
        refine ⟨?_, ?_, ?_, ?_⟩
        · intro i hi hb
          dsimp only at hb
          rw [h0] at hb
          obtain ⟨b1, b2⟩ := w1 i hi hb
          exact ⟨fun f hf => b1 f (by simp [hf]), b2⟩
        · intro t p ht hp hb
          dsimp only at hb ⊢
          rw [h0]
          have : (s.mem (27 - p)).getLsbD t = true := by
            rcases hbit t p ht hp hb with hb | ⟨rfl, rfl⟩
            · exact hb
            · exact hset
          exact (hold t p ht hp this).imp_right .inr
        · intro g hg; exact hnr g (List.mem_of_mem_tail hg)
        · intro t pc h
          have := hnr _ (List.mem_of_mem_head? h)
          simp [Frame.isReq] at this
    | header q =>
      have hq := j1.2
      simp only [frameStep, Option.some.injEq] at h
      have hcur' : (s.mem 0 >>> levels).toNat = running rest := hcur
      rw [hcur'] at h
      have hnew : ∀ i, i < 27 → (s.mem 0 ||| 1#32 <<< q).getLsbD i = true → (s.mem 0).getLsbD i = true ∨ i = q := by
        intro i hi hb
        rw [getLsbD_or_bit (by omega)] at hb
        simpa using hb
      have hcov : ∀ t p, t < count → p < 27 → (s.mem (27 - p)).getLsbD t = true →
          (s.mem 0 ||| 1#32 <<< q).getLsbD p = true ∨ ∃ g ∈ rest, g.covers t p := by
        intro t p ht hp hb
        rw [getLsbD_or_bit (by omega)]
        rcases w2 t p ht hp hb with h | h | ⟨g, hg, hcg⟩
        · exact .inl (by simp [h])
        · simp only [List.head?_cons, Option.some.injEq, Frame.req.injEq, Req.header.injEq] at h
          exact .inl (by simp [h.2])
        · rcases List.mem_cons.1 hg with rfl | hg
          · exact absurd hcg id
          · exact .inr ⟨g, hg, hcg⟩
      have hlev : ∀ i, i < 27 → (s.mem 0 ||| 1#32 <<< q).getLsbD i = true → ∀ f ∈ rest, f.level ≠ some (i + 1) := by
        intro i hi hb f hf
        rcases hnew i hi hb with hb | rfl
        · exact (w1 i hi hb).1 f (by simp [hf])
        · exact w4 f (by simp [hf])
      subst h
      have hz : ∀ p, p < 27 → ¬ (27 - p = 0) := by intro p hp; omega
      split
      · refine ⟨?_, ?_, hnr, ?_⟩
        · intro i hi hb
          simp only [upd, ↓reduceIte] at hb
          refine ⟨?_, .inr rfl⟩
          intro f hf
          rcases List.mem_cons.1 hf with rfl | hf
          · simp [Frame.level]
          · exact hlev i hi hb f hf
        · intro t p ht hp hb
          simp only [upd, hz p hp, ↓reduceIte] at hb ⊢
          rcases hcov t p ht hp hb with h | ⟨g, hg, hcg⟩
          · exact .inl h
          · exact .inr (.inr ⟨g, by simp [hg], hcg⟩)
        · intro t pc h; simp at h
      · rename_i hle
        refine ⟨?_, ?_, ?_, ?_⟩
        · intro i hi hb
          simp only [upd, ↓reduceIte] at hb
          refine ⟨fun f hf => hlev i hi hb f hf, ?_⟩
          rcases hnew i hi hb with hb | rfl
          · exact (w1 i hi hb).2
          · left; simp only; omega
        · intro t p ht hp hb
          simp only [upd, hz p hp, ↓reduceIte] at hb ⊢
          exact (hcov t p ht hp hb).imp_right .inr
        · intro g hg; exact hnr g (List.mem_of_mem_tail hg)
        · intro t pc h
          have := hnr _ (List.mem_of_mem_head? h)
          simp [Frame.isReq] at this
  | start =>
    obtain ⟨w1, w2, w3, w4⟩ := w
    rw [hst] at w1 w3 w4
    simp only [hst] at w2
    have hnr : ∀ g ∈ rest, g.isReq = false := w3
    have hold : ∀ t p, t < count → p < 27 → (s.mem (27 - p)).getLsbD t = true → (s.mem 0).getLsbD p = true ∨ ∃ g ∈ rest, g.covers t p := by
      intro t p ht hp hb
      rcases w2 t p ht hp hb with h | h | ⟨g, hg, hcg⟩
      · exact .inl h
      · simp at h
      · rcases List.mem_cons.1 hg with rfl | hg
        · exact absurd hcg id
        · exact .inr ⟨g, hg, hcg⟩
    have hrun := running_le j2
    have hcur' : (s.mem 0 >>> levels).toNat = running rest := hcur
    simp only [frameStep] at h
    rw [hcur', show levels = 27 from rfl] at h
    have sp := findPriority_spec (s.mem 0) (running rest) 27 hrun (by omega)
    split at h
    · rename_i p hf
      rw [hf] at sp
      simp only [Option.some.injEq] at h
      subst h
      refine ⟨?_, ?_, ?_, ?_⟩
      · intro i hi hb
        refine ⟨fun f hf => (w1 i hi hb).1 f (by simp [hf]), .inl ?_⟩
        simp only
        have := sp.2 i
        by_cases e : running rest ≤ i
        · have h1 : (s.mem 0).getLsbD i = true := hb
          rw [this e hi] at h1; simp at h1
        · omega
      · intro t p ht hp hb
        exact (hold t p ht hp hb).imp_right .inr
      · intro g hg; exact hnr g (List.mem_of_mem_tail hg)
      · intro t pc h
        have := hnr _ (List.mem_of_mem_head? h)
        simp [Frame.isReq] at this
    · rename_i new p hf
      rw [hf] at sp
      obtain ⟨a1, a2, a3, a4, a5, a6⟩ := sp
      simp only [Option.some.injEq] at h
      subst h
      refine ⟨?_, ?_, hnr, ?_⟩
      · intro i hi hb
        simp only [upd, ↓reduceIte, a6 i hi, Bool.and_eq_true, decide_eq_true_eq] at hb
        have hlt : i < p := by
          refine Classical.byContradiction fun hn => ?_
          rw [a4 i (by omega) hi] at hb
          simp at hb
        refine ⟨?_, .inl ?_⟩
        · intro f hf
          rcases List.mem_cons.1 hf with rfl | hf
          · simp only [Frame.level, ne_eq, Option.some.injEq]; omega
          · exact (w1 i hi hb.1).1 f (by simp [hf])
        · simp only [running, Frame.level, Option.getD]; omega
      · intro t q ht hq hb
        have hz : ¬ (27 - q = 0) := by omega
        simp only [upd, hz, ↓reduceIte] at hb ⊢
        rcases hold t q ht hq hb with h | ⟨g, hg, hcg⟩
        · by_cases e : q = p - 1
          · exact .inr (.inr ⟨_, List.mem_cons_self .., ⟨by simp only; omega, trivial⟩⟩)
          · left; rw [a6 q hq, h]; simp [e]
        · exact .inr (.inr ⟨g, by simp [hg], hcg⟩)
      · intro t pc h; simp at h
  | row r pc =>
    obtain ⟨k1, k2, k3, k4, k5, k6⟩ := j1
    have hp : r.ptr < pendingSize count := by rw [pendingSize_small k1 hc]; omega
    cases pc with
    | load thr =>
      have : thr = 0 := k6
      subst this
      have hge : 0 + (1 <<< colBits) ≥ count := by simp [colBits]; omega
      simp only [frameStep, hp, ↓reduceIte, hge] at h
      split at h
      · rename_i hz
        simp only [colBits, show (0 + 1 <<< 5 < 65536) from by decide, ↓reduceIte, Option.some.injEq] at h
        subst h
        refine invW_row w hst (g := .row r .next) rfl rfl rfl rfl rfl (fun _ _ _ _ h => h) ?_
        intro t p ht hpl hb hcv
        have : 27 - p = r.ptr := by have := hcv.1; omega
        simp only [this, hz] at hb
        simp at hb
      · simp only [Option.some.injEq] at h
        subst h
        refine invW_row w hst (g := .row r (.bits 0 (s.mem r.ptr) 1)) rfl rfl rfl rfl rfl (fun _ _ _ _ h => h) ?_
        intro t p ht hpl hb hcv
        have : 27 - p = r.ptr := by have := hcv.1; omega
        simp only [this] at hb
        exact ⟨hcv.1, Nat.zero_le _, hb⟩
    | bits thr cell bit =>
      obtain ⟨ht, hb⟩ := k6
      subst hb
      have h32 : thr < 32 := by omega
      simp only [frameStep, hp, ↓reduceIte, and_bit_ne h32] at h
      split at h
      · simp only [Option.some.injEq] at h
        subst h
        refine invW_row w hst (g := .row r (.call thr (s.mem r.ptr) (1#32 <<< thr) .load)) rfl rfl rfl ?_ rfl ?_ ?_
        · simp only [upd]; rw [if_neg (by omega)]
        · intro t p h1 h2 h3
          simp only [upd] at h3
          split at h3
          · rename_i e
            rw [getLsbD_andnot_bit (by omega)] at h3
            simp only [Bool.and_eq_true] at h3
            rw [e]; exact h3.1
          · exact h3
        · intro t p h1 h2 h3 hcv
          have e : 27 - p = r.ptr := by have := hcv.1; omega
          simp only [upd, e, ↓reduceIte, getLsbD_andnot_bit (show t < 32 by omega), Bool.and_eq_true, decide_eq_true_eq] at h3
          refine ⟨hcv.1, ?_, h3.1⟩
          have := hcv.2.1
          have := h3.2
          omega
      · rename_i hcell
        simp only [Option.some.injEq] at h
        subst h
        have ha := advance_ok (st := rest) (cell := cell) hc (pc := .bits thr cell (1#32 <<< thr)) ⟨k1, k2, k3, k4, k5, ht, rfl⟩ ⟨ht, rfl⟩
        refine invW_row w hst ha.2 (advance_isReq ..) rfl rfl rfl (fun _ _ _ _ h => h) ?_
        intro t p h1 h2 h3 hcv
        refine advance_cov hc ht ?_ h1 hcv.2.2 hcv.1
        have := hcv.2.1
        have : t ≠ thr := by rintro rfl; exact hcell hcv.2.2
        omega
    | call thr cell bit c =>
      obtain ⟨ht, hb⟩ := k6
      subst hb
      simp only [frameStep] at h
      split at h <;> (simp only [Option.some.injEq] at h; subst h)
      · refine invW_row w hst (g := .row r (.call thr cell (1#32 <<< thr) _)) rfl rfl rfl rfl rfl (fun _ _ _ _ h => h) ?_
        intro t p h1 h2 h3 hcv
        exact hcv
      · have ha := advance_ok (st := rest) (cell := cell) hc (pc := .call thr cell (1#32 <<< thr) c) ⟨k1, k2, k3, k4, k5, ht, rfl⟩ ⟨ht, rfl⟩
        refine invW_row w hst ha.2 (advance_isReq ..) rfl rfl rfl (fun _ _ _ _ h => h) ?_
        intro t p h1 h2 h3 hcv
        exact advance_cov hc ht hcv.2.1 h1 hcv.2.2 hcv.1
    | next =>
      obtain ⟨w1, w2, w3, w4⟩ := w
      rw [hst] at w1 w3 w4
      simp only [hst] at w2
      have hnr : ∀ g ∈ rest, g.isReq = false := w3
      have hold : ∀ t p, t < count → p < 27 → (s.mem (27 - p)).getLsbD t = true → (s.mem 0).getLsbD p = true ∨ ∃ g ∈ rest, g.covers t p := by
        intro t p ht hp hb
        rcases w2 t p ht hp hb with h | h | ⟨g, hg, hcg⟩
        · exact .inl h
        · simp at h
        · rcases List.mem_cons.1 hg with rfl | hg
          · exact absurd hcg.2 id
          · exact .inr ⟨g, hg, hcg⟩
      have hlow : ∀ i, i < 27 → (s.mem 0).getLsbD i = true → i + 1 < r.priority := by
        intro i hi hb
        obtain ⟨b1, b2⟩ := w1 i hi hb
        have b1 := b1 _ (List.mem_cons_self ..)
        simp only [Frame.level, ne_eq, Option.some.injEq] at b1
        rcases b2 with b2 | b2
        · simp only [running, Frame.level, Option.getD] at b2; omega
        · simp [startAbove] at b2
      simp only [frameStep, Option.some.injEq] at h
      have sp := findPriority_spec (s.mem 0) r.prev (r.priority - 1) (by omega) (by omega)
      cases hf : findPriority (s.mem 0) r.prev (r.priority - 1) with
      | mk new next =>
        rw [hf] at sp h
        dsimp only at h
        cases new with
        | none =>
          simp only at sp
          subst h
          simp only [sp.1, ↓reduceIte]
          refine ⟨?_, ?_, ?_, ?_⟩
          · intro i hi hb
            simp only [upd, ↓reduceIte, Option.getD, lvl_setPriority hi] at hb
            have := hlow i hi hb
            refine ⟨fun f hf => (w1 i hi hb).1 f (by simp [hf]), .inl ?_⟩
            simp only
            rw [← k2]
            by_cases e : r.prev ≤ i
            · rw [sp.2 i e (by omega)] at hb; simp at hb
            · omega
          · intro t q ht hq hb
            have hz : ¬ (27 - q = 0) := by omega
            simp only [upd, hz, ↓reduceIte, Option.getD, lvl_setPriority hq] at hb ⊢
            exact (hold t q ht hq hb).imp_right .inr
          · intro g hg; exact hnr g (List.mem_of_mem_tail hg)
          · intro t pc h
            have := hnr _ (List.mem_of_mem_head? h)
            simp [Frame.isReq] at this
        | some new =>
          simp only at sp
          obtain ⟨a1, a2, a3, a4, a5, a6⟩ := sp
          have hne : next ≠ r.prev := by omega
          have hne' : next ≠ r.priority := by omega
          subst h
          simp only [hne, hne', ↓reduceIte, ne_eq, not_false_eq_true]
          refine ⟨?_, ?_, hnr, ?_⟩
          · intro i hi hb
            simp only [upd, ↓reduceIte, Option.getD, a6 i hi, Bool.and_eq_true, decide_eq_true_eq] at hb
            have hl := hlow i hi hb.1
            have hlt : i < next := by
              refine Classical.byContradiction fun hn => ?_
              rw [a4 i (by omega) (by omega)] at hb
              simp at hb
            refine ⟨?_, .inl ?_⟩
            · intro f hf
              rcases List.mem_cons.1 hf with rfl | hf
              · simp only [Frame.level, ne_eq, Option.some.injEq]; omega
              · exact (w1 i hi hb.1).1 f (by simp [hf])
            · simp only [running, Frame.level, Option.getD]; omega
          · intro t q ht hq hb
            have hz : ¬ (27 - q = 0) := by omega
            simp only [upd, hz, ↓reduceIte, Option.getD] at hb ⊢
            rcases hold t q ht hq hb with h | ⟨g, hg, hcg⟩
            · by_cases e : q = next - 1
              · exact .inr (.inr ⟨_, List.mem_cons_self .., ⟨by simp only; omega, trivial⟩⟩)
              · left; rw [a6 q hq, h]; simp [e]
            · exact .inr (.inr ⟨g, by simp [hg], hcg⟩)
          · intro t pc h; simp at h
  | clear thr p =>
    cases p with
    | none =>
      simp only [frameStep, Option.some.injEq] at h
      subst h
      exact invW_other w hst rfl (by simp) rfl rfl rfl (.inr ⟨_, rfl, rfl, rfl⟩) (fun _ _ _ _ h => h)
    | some q =>
      have hlt : thr < 32 := by have := j1.1; omega
      have hq := j1.2 q rfl
      simp only [frameStep, cellIdx_lt j1.1 hq, ↓reduceIte, Option.some.injEq] at h
      simp only [cellIdx_small j1.1 hc hq, pendingBit_small hlt] at h
      subst h
      refine invW_other w hst rfl (by simp) rfl ?_ rfl (.inl rfl) ?_
      · simp only [upd]; rw [if_neg (by omega)]
      · intro t p h1 h2 h3
        simp only [upd] at h3
        split at h3
        · rename_i e
          rw [getLsbD_andnot_bit (by omega)] at h3
          simp only [Bool.and_eq_true] at h3
          rw [e]; exact h3.1
        · exact h3
  | plain thr c =>
    simp only [frameStep] at h
    split at h <;> (simp only [Option.some.injEq] at h; subst h)
    · exact invW_other w hst rfl (by simp) rfl rfl rfl (.inr ⟨_, rfl, rfl, rfl⟩) (fun _ _ _ _ h => h)
    · exact invW_other w hst rfl (by simp) rfl rfl rfl (.inl rfl) (fun _ _ _ _ h => h)

/-- A new call is put on the stack. -/
theorem invW_push {count : Nat} {s : State} (w : InvW count s) {g : Frame} (hg : g.level = none)
    (htop : ∀ thr pc rest, s.stack ≠ .req thr pc :: rest)
    (hr : ∀ t pc, g = .req t pc → ∀ f ∈ s.stack, f.level ≠ some (pc.level s.prio t + 1)) : InvW count { s with stack := g :: s.stack } := by
  obtain ⟨w1, w2, w3, w4⟩ := w
  have hnr : ∀ f ∈ s.stack, f.isReq = false := by
    intro f hf
    cases hst : s.stack with
    | nil => rw [hst] at hf; simp at hf
    | cons a b =>
      rw [hst] at hf
      rcases List.mem_cons.1 hf with rfl | hf
      · cases f with
        | req t pc => exact absurd hst (htop t pc b)
        | _ => rfl
      · exact w3 f (by rw [hst]; exact hf)
  refine ⟨?_, ?_, hnr, ?_⟩
  · intro i hi hb
    obtain ⟨b1, b2⟩ := w1 i hi hb
    refine ⟨?_, ?_⟩
    · intro f hf
      rcases List.mem_cons.1 hf with rfl | hf
      · simp [hg]
      · exact b1 f hf
    · simp only [running, hg, Option.getD]
      rcases b2 with b2 | b2
      · exact .inl b2
      · right
        cases g with
        | row r pc => simp [Frame.level] at hg
        | _ => simp [startAbove, b2]
  · intro t p ht hp hb
    rcases w2 t p ht hp hb with h | h | ⟨f, hf, hcf⟩
    · exact .inl h
    · have := hnr _ (List.mem_of_mem_head? h)
      simp [Frame.isReq] at this
    · exact .inr (.inr ⟨f, by simp [hf], hcf⟩)
  · intro t pc h f hf
    simp only [List.head?_cons, Option.some.injEq] at h
    rcases List.mem_cons.1 hf with rfl | hf
    · simp [hg]
    · exact hr t pc h f hf

theorem step_invW {count : Nat} (hc : count ≤ 32) {s s' : State} {a : Act} (hw : Whole s a) (hn : NoSame s a) (i : InvA count s) (w : InvW count s)
    (h : step count s a = some s') : InvW count s' := by
  cases a <;> simp only [step] at h
  case step =>
    split at h
    · simp only [Option.some.injEq] at h; exact h ▸ w
    · rename_i f rest hst; exact frameStep_invW hc i w hst h
  case ret =>
    simp only [Option.some.injEq] at h
    subst h
    unfold ret
    split <;> rename_i hst
    · exact invW_row w hst (g := .row _ (.call _ _ _ (.restore _))) rfl rfl rfl rfl rfl (fun _ _ _ _ h => h) (fun _ _ _ _ _ h => h)
    · exact invW_other w hst rfl (by simp) rfl rfl rfl (.inr ⟨_, rfl, rfl, rfl⟩) (fun _ _ _ _ h => h)
    · exact w
  case setPrio =>
    split at h
    · simp only [Option.some.injEq] at h
      subst h
      obtain ⟨w1, w2, w3, w4⟩ := w
      refine ⟨w1, w2, w3, ?_⟩
      intro t pc h
      exfalso
      simp only at h
      cases hst : s.stack with
      | nil => rw [hst] at h; simp at h
      | cons b c =>
        rw [hst] at h
        simp only [List.head?_cons, Option.some.injEq] at h
        subst h
        exact hw _ _ _ hst
    · simp at h
  case pend t =>
    simp only [Option.some.injEq] at h
    split at h
    · subst h
      refine invW_push w rfl hw ?_
      intro t' pc e
      simp only [Frame.req.injEq] at e
      obtain ⟨rfl, rfl⟩ := e
      exact hn
    · subst h; exact w
  all_goals
    simp only [Option.some.injEq] at h
    try split at h
    all_goals subst h
    all_goals first
      | exact w
      | exact invW_push w rfl hw (by intro t pc e; simp at e)

end Verif.Soft
