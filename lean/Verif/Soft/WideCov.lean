import Verif.Soft.WideInv
/-! # Software threads with `row_next` repaired, every pool size: nothing is forgotten -/
namespace Verif.Soft

/-- The threads a scheduler loop will still look at, with the bits it has already read. -/
def RowPc.covW : RowPc → Nat → Prop
  | .load thr, t => thr ≤ t
  | .bits thr cell _, t => thr ≤ t ∧ (t / 32 = thr / 32 → cell.getLsbD (t % 32) = true)
  | .call thr cell _ _, t => thr < t ∧ (t / 32 = thr / 32 → cell.getLsbD (t % 32) = true)
  | .next, _ => False

/-- The scheduler loop will still resume thread `t` at level `p`. -/
def Frame.coversW (t p : Nat) : Frame → Prop
  | .row r pc => r.priority = p + 1 ∧ pc.covW t
  | _ => False

/-- The call will announce level `p`, or resume thread `t` at it. -/
def Frame.carriesW (t p : Nat) (f : Frame) : Prop := f.isHeader p ∨ f.coversW t p

theorem coversW_level {f : Frame} {t p : Nat} (h : f.coversW t p) : f.level = some (p + 1) := by
  cases f with
  | row r pc => simp only [Frame.level, h.1]
  | _ => exact absurd h id

/-- Every pending thread will be resumed. -/
structure InvWide (count : Nat) (s : State) : Prop where
  bits : ∀ i, i < 27 → (s.mem 0).getLsbD i = true → i + 1 ≤ running s.stack ∨ startAbove s.stack = true
  cov : ∀ t p, t < count → p < 27 → bitOf count s.mem t p = true → (s.mem 0).getLsbD p = true ∨ ∃ f ∈ s.stack, f.carriesW t p

theorem init_invWide (count : Nat) (prio : Nat → Nat) : InvWide count (init prio) := by
  refine ⟨?_, ?_⟩ <;> simp [init, bitOf]

/-- A change of the header leaves the bits of the threads. -/
theorem bitOf_header {count : Nat} {mem : Nat → U32} {v : U32} {t p : Nat} : bitOf count (upd mem 0 v) t p = bitOf count mem t p := by
  have : cellIdx count t p ≠ 0 := cellIdx_ne_zero
  simp only [bitOf, upd, this, ↓reduceIte]

/-- Setting the bit of a thread. -/
theorem bitOf_or {count : Nat} {mem : Nat → U32} {t p u q : Nat} (ht : t < count) (hu : u < count) (hp : p < 27) (hq : q < 27)
    (h : bitOf count (upd mem (cellIdx count u q) (mem (cellIdx count u q) ||| 1#32 <<< (u % 32))) t p = true) :
    bitOf count mem t p = true ∨ (t = u ∧ p = q) := by
  simp only [bitOf, upd] at h
  split at h
  · rename_i e
    rw [getLsbD_or_bit (Nat.mod_lt _ (by omega))] at h
    simp only [Bool.or_eq_true, decide_eq_true_eq] at h
    rcases h with h | h
    · left; simp only [bitOf, e]; exact h
    · have := cellIdx_inj ht hu hp hq e
      right; exact ⟨by omega, this.1⟩
  · exact .inl h

/-- Clearing the bit of a thread. -/
theorem bitOf_and {count : Nat} {mem : Nat → U32} {t p u q : Nat}
    (h : bitOf count (upd mem (cellIdx count u q) (mem (cellIdx count u q) &&& ~~~(1#32 <<< (u % 32)))) t p = true) :
    bitOf count mem t p = true ∧ ¬ (t = u ∧ p = q) := by
  simp only [bitOf, upd] at h
  split at h
  · rename_i e
    rw [getLsbD_andnot_bit (Nat.mod_lt _ (by omega))] at h
    simp only [Bool.and_eq_true, decide_eq_true_eq] at h
    refine ⟨by simp only [bitOf, e]; exact h.1, ?_⟩
    rintro ⟨rfl, rfl⟩
    exact h.2 rfl
  · rename_i e
    refine ⟨h, ?_⟩
    rintro ⟨rfl, rfl⟩
    exact e rfl

/-- The scheduler loop on top goes on at the same level; cells may lose bits. -/
theorem invWide_row {count : Nat} {s s' : State} {r : Row} {pc : RowPc} {rest : List Frame} (w : InvWide count s) (hst : s.stack = .row r pc :: rest)
    {g : Frame} (hg : g.level = some r.priority) (hst' : s'.stack = g :: rest) (h0 : s'.mem 0 = s.mem 0)
    (hm : ∀ t p, t < count → p < 27 → bitOf count s'.mem t p = true → bitOf count s.mem t p = true)
    (hcv : ∀ t p, t < count → p < 27 → bitOf count s'.mem t p = true → (Frame.row r pc).coversW t p → g.coversW t p) : InvWide count s' := by
  obtain ⟨w1, w2⟩ := w
  rw [hst] at w1
  simp only [hst] at w2
  refine ⟨?_, ?_⟩
  · intro i hi hb
    rw [h0] at hb
    rw [hst']
    left
    simp only [running, hg, Option.getD]
    rcases w1 i hi hb with b | b
    · exact b
    · simp [startAbove] at b
  · intro t p ht hp hb
    rw [h0, hst']
    rcases w2 t p ht hp (hm t p ht hp hb) with h | ⟨f, hf, hcf⟩
    · exact .inl h
    · rcases List.mem_cons.1 hf with rfl | hf
      · rcases hcf with hcf | hcf
        · exact absurd hcf id
        · exact .inr ⟨g, by simp, .inr (hcv t p ht hp hb hcf)⟩
      · exact .inr ⟨f, by simp [hf], hcf⟩

/-- A call that is no scheduler loop, no request and no start ends or goes on; cells may lose bits. -/
theorem invWide_other {count : Nat} {s s' : State} {f : Frame} {rest : List Frame} (w : InvWide count s) (hst : s.stack = f :: rest)
    (hf : f.level = none) (hfs : f ≠ .start) (hfr : f.isReq = false) (h0 : s'.mem 0 = s.mem 0)
    (hst' : s'.stack = rest ∨ ∃ g, s'.stack = g :: rest ∧ g.level = none)
    (hm : ∀ t p, t < count → p < 27 → bitOf count s'.mem t p = true → bitOf count s.mem t p = true) : InvWide count s' := by
  obtain ⟨w1, w2⟩ := w
  rw [hst] at w1
  simp only [hst] at w2
  have hcf : ∀ t p, ¬ f.carriesW t p := by
    intro t p h
    rcases h with h | h
    · exact notHeader hfr p h
    · cases f with
      | row r pc => simp [Frame.level] at hf
      | _ => exact h
  have hsa : startAbove (f :: rest) = startAbove rest := by
    cases f with
    | start => exact absurd rfl hfs
    | row r pc => simp [Frame.level] at hf
    | _ => rfl
  have hru : running (f :: rest) = running rest := by simp [running, hf]
  have w2' : ∀ t p, t < count → p < 27 → bitOf count s'.mem t p = true → (s.mem 0).getLsbD p = true ∨ ∃ g ∈ rest, g.carriesW t p := by
    intro t p ht hp hb
    rcases w2 t p ht hp (hm t p ht hp hb) with h | ⟨g, hg, hcg⟩
    · exact .inl h
    · rcases List.mem_cons.1 hg with rfl | hg
      · exact absurd hcg (hcf t p)
      · exact .inr ⟨g, hg, hcg⟩
  rw [hsa, hru] at w1
  rcases hst' with hst' | ⟨g, hst', hg⟩
  · refine ⟨?_, ?_⟩
    · intro i hi hb
      rw [h0] at hb
      rw [hst']
      exact w1 i hi hb
    · intro t p ht hp hb
      rw [h0, hst']
      exact w2' t p ht hp hb
  · refine ⟨?_, ?_⟩
    · intro i hi hb
      rw [h0] at hb
      rw [hst']
      have hr : running (g :: rest) = running rest := by simp [running, hg]
      rw [hr]
      rcases w1 i hi hb with b | b
      · exact .inl b
      · right
        cases g with
        | row r pc => simp [Frame.level] at hg
        | _ => simp [startAbove, b]
    · intro t p ht hp hb
      rw [h0, hst']
      rcases w2' t p ht hp hb with h | ⟨g', hg', h⟩
      · exact .inl h
      · exact .inr ⟨g', by simp [hg'], h⟩

/-- The threads after `thr` are still to be looked at. -/
theorem advance_covW {count thr : Nat} {r : Row} {cell : U32} {t p : Nat} (hlt : thr < t) (ht : t < count)
    (hb : t / 32 = thr / 32 → cell.getLsbD (t % 32) = true) (hp : r.priority = p + 1) :
    (advance count r thr cell (1#32 <<< (thr % 32))).coversW t p := by
  rw [advance_wide]
  rw [if_neg (by omega)]
  split
  · exact ⟨hp, hlt⟩
  · exact ⟨hp, hlt, fun e => hb (by omega)⟩

/-- The cell of a thread of the row that is searched. -/
theorem covers_cell {count : Nat} {r : Row} {t thr p : Nat} (hp : p < 27) (h : r.priority = p + 1)
    (hr : r.ptr = rowAt count r.priority + thr / 32) (e : t / 32 = thr / 32) : cellIdx count t p = r.ptr := by
  rw [cellIdx_row hp, hr, h, e]

set_option maxHeartbeats 400000 in
theorem frameStepW_invWide {count : Nat} {s s' : State} {f : Frame} {rest : List Frame} (a : InvAW count s) (w : InvWide count s)
    (hst : s.stack = f :: rest) (h : frameStepW count s rest f = some s') : InvWide count s' := by
  have j := a.ok
  have hcur := a.cur
  rw [hst] at j hcur
  obtain ⟨j1, j2⟩ := j
  cases f with
  | req thr pc =>
    rw [frameStepW_eq (by simp)] at h
    obtain ⟨w1, w2⟩ := w
    rw [hst] at w1
    simp only [hst] at w2
    cases pc with
    | load =>
      simp only [frameStep, Option.some.injEq] at h
      subst h
      refine ⟨w1, ?_⟩
      intro t p ht hp hb
      rcases w2 t p ht hp hb with h | ⟨g, hg, hcg⟩
      · exact .inl h
      · rcases List.mem_cons.1 hg with rfl | hg
        · exact absurd hcg (by rintro (h | h) <;> exact h)
        · exact .inr ⟨g, by simp [hg], hcg⟩
    | cell q =>
      have hm : thr % 32 < 32 := Nat.mod_lt _ (by omega)
      simp only [frameStep, cellIdx_lt j1.1 j1.2, ↓reduceIte, Option.some.injEq] at h
      simp only [pendingBit_eq] at h
      have hq := j1.2
      have h0 : upd s.mem (cellIdx count thr q) (s.mem (cellIdx count thr q) ||| 1#32 <<< (thr % 32)) 0 = s.mem 0 := by
        simp only [upd]; rw [if_neg (Ne.symm cellIdx_ne_zero)]
      have hold : ∀ t p, t < count → p < 27 → bitOf count s.mem t p = true → (s.mem 0).getLsbD p = true ∨ ∃ g ∈ rest, g.carriesW t p := by
        intro t p ht hp hb
        rcases w2 t p ht hp hb with h | ⟨g, hg, hcg⟩
        · exact .inl h
        · rcases List.mem_cons.1 hg with rfl | hg
          · exact absurd hcg (by rintro (h | h) <;> exact h)
          · exact .inr ⟨g, hg, hcg⟩
      subst h
      by_cases hfr : s.mem (cellIdx count thr q) &&& 1#32 <<< (thr % 32) = 0
      · rw [if_pos hfr]
        refine ⟨?_, ?_⟩
        · intro i hi hb
          dsimp only at hb
          rw [h0] at hb
          exact w1 i hi hb
        · intro t p ht hp hb
          dsimp only at hb ⊢
          rw [h0]
          rcases bitOf_or ht j1.1 hp hq hb with hb | ⟨rfl, rfl⟩
          · rcases hold t p ht hp hb with h | ⟨g, hg, hcg⟩
            · exact .inl h
            · exact .inr ⟨g, by simp [hg], hcg⟩
          · exact .inr ⟨_, List.mem_cons_self .., .inl rfl⟩
      · rw [if_neg hfr]
        have hset := (and_bit_ne hm).1 hfr
        refine ⟨?_, ?_⟩
        · intro i hi hb
          dsimp only at hb
          rw [h0] at hb
          exact w1 i hi hb
        · intro t p ht hp hb
          dsimp only at hb ⊢
          rw [h0]
          have : bitOf count s.mem t p = true := by
            rcases bitOf_or ht j1.1 hp hq hb with hb | ⟨rfl, rfl⟩
            · exact hb
            · exact hset
          exact hold t p ht hp this
    | header q =>
      have hq := j1.2
      simp only [frameStep, Option.some.injEq] at h
      have hcur' : (s.mem 0 >>> levels).toNat = running rest := hcur
      rw [hcur'] at h
      have hnew : ∀ i, i < 27 → (s.mem 0 ||| 1#32 <<< q).getLsbD i = true → (s.mem 0).getLsbD i = true ∨ i = q := by
        intro i hi hb
        rw [getLsbD_or_bit (by omega)] at hb
        simpa using hb
      have hcov : ∀ t p, t < count → p < 27 → bitOf count s.mem t p = true →
          (s.mem 0 ||| 1#32 <<< q).getLsbD p = true ∨ ∃ g ∈ rest, g.carriesW t p := by
        intro t p ht hp hb
        rw [getLsbD_or_bit (by omega)]
        rcases w2 t p ht hp hb with h | ⟨g, hg, hcg⟩
        · exact .inl (by simp [h])
        · rcases List.mem_cons.1 hg with rfl | hg
          · rcases hcg with hcg | hcg
            · have : q = p := hcg
              exact .inl (by simp [this])
            · exact absurd hcg id
          · exact .inr ⟨g, hg, hcg⟩
      subst h
      split
      · refine ⟨?_, ?_⟩
        · intro i hi hb
          exact .inr rfl
        · intro t p ht hp hb
          dsimp only at hb
          rw [bitOf_header] at hb
          simp only [upd, ↓reduceIte]
          rcases hcov t p ht hp hb with h | ⟨g, hg, hcg⟩
          · exact .inl h
          · exact .inr ⟨g, by simp [hg], hcg⟩
      · rename_i hle
        refine ⟨?_, ?_⟩
        · intro i hi hb
          simp only [upd, ↓reduceIte] at hb
          rcases hnew i hi hb with hb | rfl
          · exact w1 i hi hb
          · left; simp only; omega
        · intro t p ht hp hb
          dsimp only at hb
          rw [bitOf_header] at hb
          simp only [upd, ↓reduceIte]
          exact hcov t p ht hp hb
  | start =>
    rw [frameStepW_eq (by simp)] at h
    obtain ⟨w1, w2⟩ := w
    rw [hst] at w1
    simp only [hst] at w2
    have hold : ∀ t p, t < count → p < 27 → bitOf count s.mem t p = true → (s.mem 0).getLsbD p = true ∨ ∃ g ∈ rest, g.carriesW t p := by
      intro t p ht hp hb
      rcases w2 t p ht hp hb with h | ⟨g, hg, hcg⟩
      · exact .inl h
      · rcases List.mem_cons.1 hg with rfl | hg
        · exact absurd hcg (by rintro (h | h) <;> exact h)
        · exact .inr ⟨g, hg, hcg⟩
    have hrun := running_leW j2
    have hcur' : (s.mem 0 >>> levels).toNat = running rest := hcur
    simp only [frameStep] at h
    rw [hcur', show levels = 27 from rfl] at h
    have sp := findPriority_spec (s.mem 0) (running rest) 27 hrun (by omega)
    split at h
    · rename_i p hf
      rw [hf] at sp
      simp only [Option.some.injEq] at h
      subst h
      refine ⟨?_, ?_⟩
      · intro i hi hb
        left
        simp only
        have := sp.2 i
        by_cases e : running rest ≤ i
        · have h1 : (s.mem 0).getLsbD i = true := hb
          rw [this e hi] at h1; simp at h1
        · omega
      · intro t p ht hp hb
        exact hold t p ht hp hb
    · rename_i new p hf
      rw [hf] at sp
      obtain ⟨a1, a2, a3, a4, a5, a6⟩ := sp
      simp only [Option.some.injEq] at h
      subst h
      refine ⟨?_, ?_⟩
      · intro i hi hb
        simp only [upd, ↓reduceIte, a6 i hi, Bool.and_eq_true, decide_eq_true_eq] at hb
        have hlt : i < p := by
          refine Classical.byContradiction fun hn => ?_
          rw [a4 i (by omega) hi] at hb
          simp at hb
        left
        simp only [running, Frame.level, Option.getD]; omega
      · intro t q ht hq hb
        dsimp only at hb
        rw [bitOf_header] at hb
        simp only [upd, ↓reduceIte]
        rcases hold t q ht hq hb with h | ⟨g, hg, hcg⟩
        · by_cases e : q = p - 1
          · exact .inr ⟨_, List.mem_cons_self .., .inr ⟨by simp only; omega, Nat.zero_le _⟩⟩
          · left; rw [a6 q hq, h]; simp [e]
        · exact .inr ⟨g, by simp [hg], hcg⟩
  | row r pc =>
    obtain ⟨k1, k2, k3, k4, k6⟩ := j1
    cases pc with
    | load thr =>
      rw [frameStepW_eq (by simp)] at h
      obtain ⟨l1, l2, l3⟩ := k6
      simp only [frameStep] at h
      split at h
      · split at h
        · rename_i hz
          split at h
          · simp only [Option.some.injEq] at h
            subst h
            have hfar : ∀ t p, t < count → p < 27 → bitOf count s.mem t p = true → (Frame.row r (.load thr)).coversW t p → thr + 32 ≤ t := by
              intro t p ht hpl hb hcv
              have hge : thr ≤ t := hcv.2
              refine Classical.byContradiction fun hn => ?_
              have e : cellIdx count t p = r.ptr := covers_cell hpl hcv.1 l3 (by omega)
              rw [bitOf, e, hz] at hb
              simp at hb
            simp only [colBits, show (1 <<< 5 : Nat) = 32 from rfl]
            by_cases hge : thr + 32 ≥ count
            · refine invWide_row w hst (g := .row r .next) rfl (by simp only [hge, ↓reduceIte]) rfl (fun _ _ _ _ h => h) ?_
              intro t p ht hpl hb hcv
              have := hfar t p ht hpl hb hcv
              omega
            · refine invWide_row w hst (g := .row { r with ptr := r.ptr + 1 } (.load (thr + 32))) rfl (by simp only [hge, ↓reduceIte]) rfl (fun _ _ _ _ h => h) ?_
              intro t p ht hpl hb hcv
              exact ⟨hcv.1, hfar t p ht hpl hb hcv⟩
          · simp at h
        · simp only [Option.some.injEq] at h
          subst h
          refine invWide_row w hst (g := .row r (.bits thr (s.mem r.ptr) 1)) rfl rfl rfl (fun _ _ _ _ h => h) ?_
          intro t p ht hpl hb hcv
          refine ⟨hcv.1, hcv.2, fun e => ?_⟩
          have e : cellIdx count t p = r.ptr := covers_cell hpl hcv.1 l3 e
          rw [bitOf, e] at hb
          exact hb
      · simp at h
    | bits thr cell bit =>
      rw [frameStepW_eq (by simp)] at h
      obtain ⟨ht, hb, l3⟩ := k6
      subst hb
      have h32 : thr % 32 < 32 := Nat.mod_lt _ (by omega)
      have hptr : r.ptr = cellIdx count thr (r.priority - 1) := (covers_cell (by omega) (by omega) l3 rfl).symm
      have hp : r.ptr < pendingSize count := by rw [l3]; exact ptr_lt (by omega) k4 ht
      simp only [frameStep, hp, ↓reduceIte, and_bit_ne h32] at h
      split at h
      · simp only [Option.some.injEq] at h
        subst h
        refine invWide_row w hst (g := .row r (.call thr (s.mem r.ptr) (1#32 <<< (thr % 32)) .load)) rfl rfl ?_ ?_ ?_
        · simp only [upd]; rw [if_neg (by rw [hptr]; exact Ne.symm cellIdx_ne_zero)]
        · intro t p h1 h2 h3
          simp only [hptr] at h3
          exact (bitOf_and h3).1
        · intro t p h1 h2 h3 hcv
          simp only [hptr] at h3
          have h3 := bitOf_and h3
          have hge : thr ≤ t := hcv.2.1
          have hpr := hcv.1
          refine ⟨hpr, ?_, fun e => ?_⟩
          · have : t ≠ thr := fun e => h3.2 ⟨e, by omega⟩
            omega
          · have e : cellIdx count t p = r.ptr := covers_cell h2 hpr l3 e
            rw [bitOf, e] at h3
            exact h3.1
      · rename_i hcell
        simp only [Option.some.injEq] at h
        subst h
        have ha := advance_okW (cell := cell) k1 k2 k3 k4 ht l3
        refine invWide_row w hst ha.2 rfl rfl (fun _ _ _ _ h => h) ?_
        intro t p h1 h2 h3 hcv
        refine advance_covW ?_ h1 hcv.2.2 hcv.1
        have hge : thr ≤ t := hcv.2.1
        have : t ≠ thr := by rintro rfl; exact hcell (hcv.2.2 rfl)
        omega
    | call thr cell bit c =>
      rw [frameStepW_eq (by simp)] at h
      obtain ⟨ht, hb, l3⟩ := k6
      subst hb
      simp only [frameStep] at h
      split at h <;> (simp only [Option.some.injEq] at h; subst h)
      · refine invWide_row w hst (g := .row r (.call thr cell (1#32 <<< (thr % 32)) _)) rfl rfl rfl (fun _ _ _ _ h => h) ?_
        intro t p h1 h2 h3 hcv
        exact hcv
      · have ha := advance_okW (cell := cell) k1 k2 k3 k4 ht l3
        refine invWide_row w hst ha.2 rfl rfl (fun _ _ _ _ h => h) ?_
        intro t p h1 h2 h3 hcv
        exact advance_covW hcv.2.1 h1 hcv.2.2 hcv.1
    | next =>
      have sp := next_specW a hst h
      obtain ⟨w1, w2⟩ := w
      rw [hst] at w1
      simp only [hst] at w2
      have hold : ∀ t p, t < count → p < 27 → bitOf count s.mem t p = true → (s.mem 0).getLsbD p = true ∨ ∃ g ∈ rest, g.carriesW t p := by
        intro t p ht hp hb
        rcases w2 t p ht hp hb with h | ⟨g, hg, hcg⟩
        · exact .inl h
        · rcases List.mem_cons.1 hg with rfl | hg
          · exact absurd hcg (by rintro (h | h); exact h; exact h.2)
          · exact .inr ⟨g, hg, hcg⟩
      have hlow : ∀ i, i < 27 → (s.mem 0).getLsbD i = true → i < r.priority := by
        intro i hi hb
        rcases w1 i hi hb with b2 | b2
        · simp only [running, Frame.level, Option.getD] at b2; omega
        · simp [startAbove] at b2
      rcases sp with ⟨rfl, sp⟩ | ⟨new, next, rfl, a1, a2, a4, a5, a6⟩
      · refine ⟨?_, ?_⟩
        · intro i hi hb
          simp only [upd, ↓reduceIte, lvl_setPriority hi] at hb
          have := hlow i hi hb
          left
          simp only
          rw [← k2]
          by_cases e : r.prev ≤ i
          · rw [sp i e (by omega)] at hb; simp at hb
          · omega
        · intro t q ht hq hb
          dsimp only at hb
          rw [bitOf_header] at hb
          simp only [upd, ↓reduceIte, lvl_setPriority hq]
          exact hold t q ht hq hb
      · refine ⟨?_, ?_⟩
        · intro i hi hb
          simp only [upd, ↓reduceIte, a6 i hi, Bool.and_eq_true, decide_eq_true_eq] at hb
          have hl := hlow i hi hb.1
          have hlt : i < next := by
            refine Classical.byContradiction fun hn => ?_
            rw [a4 i (by omega) (by omega)] at hb
            simp at hb
          left
          simp only [running, Frame.level, Option.getD]; omega
        · intro t q ht hq hb
          dsimp only at hb
          rw [bitOf_header] at hb
          simp only [upd, ↓reduceIte]
          rcases hold t q ht hq hb with h | ⟨g, hg, hcg⟩
          · by_cases e : q = next - 1
            · exact .inr ⟨_, List.mem_cons_self .., .inr ⟨by simp only; omega, Nat.zero_le _⟩⟩
            · left; rw [a6 q hq, h]; simp [e]
          · exact .inr ⟨g, by simp [hg], hcg⟩
  | clear thr p =>
    rw [frameStepW_eq (by simp)] at h
    cases p with
    | none =>
      simp only [frameStep, Option.some.injEq] at h
      subst h
      exact invWide_other w hst rfl (by simp) rfl rfl (.inr ⟨_, rfl, rfl⟩) (fun _ _ _ _ h => h)
    | some q =>
      have hq := j1.2 q rfl
      simp only [frameStep, cellIdx_lt j1.1 hq, ↓reduceIte, Option.some.injEq] at h
      simp only [pendingBit_eq] at h
      subst h
      refine invWide_other w hst rfl (by simp) rfl ?_ (.inl rfl) ?_
      · simp only [upd]; rw [if_neg (Ne.symm cellIdx_ne_zero)]
      · intro t p h1 h2 h3
        exact (bitOf_and h3).1
  | plain thr c =>
    rw [frameStepW_eq (by simp)] at h
    simp only [frameStep] at h
    split at h <;> (simp only [Option.some.injEq] at h; subst h)
    · exact invWide_other w hst rfl (by simp) rfl rfl (.inr ⟨_, rfl, rfl⟩) (fun _ _ _ _ h => h)
    · exact invWide_other w hst rfl (by simp) rfl rfl (.inl rfl) (fun _ _ _ _ h => h)

/-- A new call is put on the stack. -/
theorem invWide_push {count : Nat} {s : State} (w : InvWide count s) {g : Frame} (hg : g.level = none) : InvWide count { s with stack := g :: s.stack } := by
  obtain ⟨w1, w2⟩ := w
  refine ⟨?_, ?_⟩
  · intro i hi hb
    simp only [running, hg, Option.getD]
    rcases w1 i hi hb with b2 | b2
    · exact .inl b2
    · right
      cases g with
      | row r pc => simp [Frame.level] at hg
      | _ => simp [startAbove, b2]
  · intro t p ht hp hb
    rcases w2 t p ht hp hb with h | ⟨f, hf, hcf⟩
    · exact .inl h
    · exact .inr ⟨f, by simp [hf], hcf⟩

theorem stepW_invWide {count : Nat} {s s' : State} {a : Act} (i : InvAW count s) (w : InvWide count s)
    (h : stepW count s a = some s') : InvWide count s' := by
  cases a <;> simp only [stepW, step] at h
  case step =>
    split at h
    · simp only [Option.some.injEq] at h; exact h ▸ w
    · rename_i f rest hst; exact frameStepW_invWide i w hst h
  case ret =>
    simp only [Option.some.injEq] at h
    subst h
    unfold ret
    split <;> rename_i hst
    · exact invWide_row w hst (g := .row _ (.call _ _ _ (.restore _))) rfl rfl rfl (fun _ _ _ _ h => h) (fun _ _ _ _ _ h => h)
    · exact invWide_other w hst rfl (by simp) rfl rfl (.inr ⟨_, rfl, rfl⟩) (fun _ _ _ _ h => h)
    · exact w
  case setPrio =>
    split at h
    · simp only [Option.some.injEq] at h
      subst h
      exact ⟨w.bits, w.cov⟩
    · simp at h
  all_goals
    simp only [Option.some.injEq] at h
    try split at h
    all_goals subst h
    all_goals first
      | exact w
      | exact invWide_push w rfl

theorem runW_inv {count : Nat} : ∀ {acts : List Act} {s s' : State},
    InvAW count s → InvWide count s → runW count s acts = some s' → InvAW count s' ∧ InvWide count s'
  | [], s, s', i, k, h => by simp only [runW, Option.some.injEq] at h; exact h ▸ ⟨i, k⟩
  | a :: as, s, s', i, k, h => by
    simp only [runW] at h
    split at h
    · simp at h
    · rename_i m hm
      exact runW_inv (stepW_invA i hm) (stepW_invWide i k hm) h

theorem runW_some {count : Nat} (hc : count ≤ 65504) : ∀ {acts : List Act} {s : State}, PrioOk acts → InvAW count s → ∃ s', runW count s acts = some s'
  | [], s, _, _ => ⟨s, rfl⟩
  | a :: as, s, hp, i => by
    obtain ⟨m, hm⟩ := stepW_some hc i (a := a) (fun t p e => hp t p (by simp [e]))
    simp only [runW, hm]
    exact runW_some hc (fun t p h => hp t p (by simp [h])) (stepW_invA i hm)

/-- When no call of `preempt` is at its start and no request in progress, nothing is
pending above the running level. -/
theorem above_empty_wide {count : Nat} {s : State} (i : InvAW count s) (w : InvWide count s) (h1 : ∀ f ∈ s.stack, f ≠ .start)
    (h2 : ∀ f ∈ s.stack, f.isReq = false) {t p : Nat} (ht : t < count) (hp : p < 27)
    (hb : bitOf count s.mem t p = true) : p + 1 ≤ running s.stack := by
  rcases w.cov t p ht hp hb with h | ⟨f, hf, hcf | hcf⟩
  · rcases w.bits p hp h with h | h
    · exact h
    · rw [not_startAbove h1] at h; simp at h
  · exact absurd hcf (notHeader (h2 f hf) p)
  · exact level_leW i.ok f hf _ (coversW_level hcf)

/-- The event of a resumption is not due to `row_next`. -/
theorem runW_event {count : Nat} {s s' : State} {a : Act} {t p : Nat} (h : stepW count s a = some s') (hl : s'.log = .run t p :: s.log) :
    step count s a = some s' := by
  by_cases e : a = .step
  · subst e
    cases hst : s.stack with
    | nil => simp only [stepW, hst] at h; simp only [step, hst]; exact h
    | cons f rest =>
      simp only [stepW, hst] at h
      simp only [step, hst]
      by_cases hn : ∃ r, f = .row r .next
      · obtain ⟨r, rfl⟩ := hn
        simp only [frameStepW, Option.some.injEq] at h
        subst h
        simpa using congrArg List.length hl
      · rw [frameStepW_eq (fun r e => hn ⟨r, e⟩)] at h; exact h
  · rw [stepW_eq e] at h; exact h

end Verif.Soft
