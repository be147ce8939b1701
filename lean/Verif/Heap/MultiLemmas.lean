import Verif.Heap.Lemmas
import Verif.Heap.MultiPool
/-! # Lemmas for the shared heap -/
namespace Verif.Heap.Multi

open Verif.Heap (Pool Region regions poolRangeByLayout poolByPtr Legal Wf)

/-- How one step of the heap changes one pool. -/
inductive Touch (b : Build) (p p' : Conc.State) (a : Act) : Prop
  | same : p' = p → Touch b p p' a
  | step (v : Tid) (sp : Bool) : a = .step v sp → p.pc v ≠ .idle → p' = poolStep b p (.step v sp) → Touch b p p' a
  | alloc (v : Tid) : a.who = some v → p.pc v = .idle → p' = poolStep b p (.alloc v) → Touch b p p' a
  | dealloc (v : Tid) (q : Nat) : a.who = some v → p.pc v = .idle → q ∈ p.held → p' = poolStep b p (.dealloc v q) → Touch b p p' a
  | write (q v : Nat) : a.who = none → p' = poolStep b p (.write q v) → Touch b p p' a

theorem Touch.keeps {b : Build} {p p' : Conc.State} {a : Act} (h : Touch b p p' a) (hg : Good p) : Keeps p p' a.who := by
  cases h with
  | same e => rw [e]; exact keeps_refl hg _
  | step v sp hw _ e => subst hw; rw [e]; exact (step_ok b hg v sp).2
  | alloc v hw hi e => rw [e, hw]; exact (alloc_ok b hg v hi).2.2.2.2
  | dealloc v q hw hi hq e => rw [e, hw]; exact (dealloc_ok b hg v q hi hq).2.2.2
  | write q v hw e => rw [e, hw]; exact (write_ok b hg q v).2.2.2

theorem Moves.uninit {p p' : Conc.State} {x y : Phase} (h : Moves p p' x y) (hu : p.uninit = p.edge) : p'.uninit = p.uninit := by
  cases h with
  | stay _ _ h _ => exact h
  | none _ _ h _ => exact h
  | pop _ _ h _ => exact h
  | full _ _ h _ => exact h
  | carve _ h _ _ => exact absurd hu h
  | give h _ => exact h

/-- A pool that is used up stays so. -/
theorem Touch.full {b : Build} {p p' : Conc.State} {a : Act} (h : Touch b p p' a) (hg : Good p) (hu : p.uninit = p.edge) :
    p'.uninit = p'.edge := by
  rw [(h.keeps hg).edge, ← hu]
  cases h with
  | same e => rw [e]
  | step v sp hw _ e =>
    rw [e]
    exact (step_ok b hg v sp).1.uninit hu
  | alloc v hw hi e => rw [e]; exact (alloc_ok b hg v hi).2.2.1
  | dealloc v q hw hi hq e => rw [e]; exact (dealloc_ok b hg v q hi hq).2.2.1
  | write q v hw e => rw [e]; exact (write_ok b hg q v).2.1

/-- Where the calls of context `t` on pools are, according to its call on the heap. -/
def Placed (s : State) (t : Tid) : Prop :=
  match s.pc t with
  | .idle => ∀ j, (s.pool j).pc t = .idle
  | .alloc _ i => i < s.n ∧ (phase ((s.pool i).pc t) = .look ∨ phase ((s.pool i).pc t) = .carve) ∧ ∀ j, j ≠ i → (s.pool j).pc t = .idle
  | .dealloc i => i < s.n ∧ phase ((s.pool i).pc t) = .give ∧ ∀ j, j ≠ i → (s.pool j).pc t = .idle

/-- The invariant. -/
structure Ok (base : Nat) (cfg : List (Nat × Nat)) (s : State) : Prop where
  hbase : s.base = base
  hn : s.n = (regions base cfg).length
  size : ∀ i r, (regions base cfg)[i]? = some r → (s.pool i).size = r.size
  edge : ∀ i r, (regions base cfg)[i]? = some r → (s.pool i).edge = r.stop
  good : ∀ i, Good (s.pool i)
  placed : ∀ t, Placed s t

theorem regions_length (base : Nat) (cfg : List (Nat × Nat)) : (regions base cfg).length = cfg.length := by
  induction cfg generalizing base with
  | nil => rfl
  | cons c cfg ih => obtain ⟨a, b⟩ := c; simp [regions, ih]

theorem init_ok (base : Nat) (cfg : List (Nat × Nat)) (link : Nat → Nat) : Ok base cfg (init base cfg link) := by
  refine ⟨rfl, (regions_length base cfg).symm, ?_, ?_, ?_, ?_⟩
  · intro i r h; simp [init, h, Conc.init]
  · intro i r h; simp [init, h, Conc.init, Region.stop]
  · intro i
    simp only [init]
    split <;> exact init_good _ _ _ _
  · intro t
    simp only [Placed, init]
    intro j
    split <;> rfl

theorem table_length (s : State) : s.table.length = s.n := by simp [State.table]

theorem table_get (s : State) {i : Nat} (h : i < s.n) :
    s.table[i]? = some ⟨(s.pool i).size, (s.pool i).edge, (s.pool i).free, (s.pool i).uninit⟩ := by
  simp [State.table, h]

theorem poolByPtr_lt {s : State} {ptr i : Nat} (h : poolByPtr s.table s.base ptr = some i) : i < s.n := by
  simp only [poolByPtr] at h
  split at h
  · rename_i hc
    cases h
    rw [table_length] at hc
    exact hc.1
  · cases h

/-- The loop starts at the first pool that fits. -/
theorem first_fit {W base : Nat} {cfg : List (Nat × Nat)} (hl : Legal W base cfg) {s : State} (ok : Ok base cfg s) (size : Nat) {i : Nat} (hi : i < s.n) :
    poolRangeByLayout s.table size ≤ i ↔ size ≤ (s.pool i).size := by
  have toReg : ∀ (i : Nat) (p : Pool), s.table[i]? = some p → ∃ r, (regions base cfg)[i]? = some r ∧ p.size = r.size := by
    intro i p hp
    have hi := (List.getElem?_eq_some_iff.mp hp).1
    rw [table_length] at hi
    rw [table_get s hi] at hp
    cases hp
    have hi' : i < (regions base cfg).length := by rw [← ok.hn]; exact hi
    have hr : (regions base cfg)[i]? = some (regions base cfg)[i] := List.getElem?_eq_getElem hi'
    exact ⟨_, hr, ok.size i _ hr⟩
  have spec := binarySearch_spec s.table (fun pool => decide (size ≤ pool.size)) (by
    intro i j p q hij hp hq hf
    obtain ⟨r1, g1, g2⟩ := toReg i p hp
    obtain ⟨r2, g3, g4⟩ := toReg j q hq
    have : r1.size ≤ r2.size := by
      rcases Nat.lt_or_eq_of_le hij with h | h
      · exact pairwise_idx hl.wf.sorted g1 g3 h
      · subst h
        rw [g1] at g3
        simp only [Option.some.injEq] at g3
        rw [g3]
        exact Nat.le_refl _
    simp only [decide_eq_true_eq] at *
    omega)
  have hp := table_get s hi
  constructor
  · intro hle
    have := spec.2.2 i _ hle hp
    simpa using this
  · intro hsize
    rcases Nat.lt_or_ge i (poolRangeByLayout s.table size) with h | h
    · have := spec.2.1 i _ h hp
      simp only [decide_eq_false_iff_not] at this
      omega
    · exact h

theorem setPool_same (s : State) (i : Nat) (p : Conc.State) : (s.setPool i p).pool i = p := by simp [State.setPool]

theorem setPool_other (s : State) {i j : Nat} (h : j ≠ i) (p : Conc.State) : (s.setPool i p).pool j = s.pool j := by
  simp [State.setPool, h]

theorem goto_same (s : State) (t : Tid) (pc : Pc) : (s.goto t pc).pc t = pc := by simp [State.goto]

theorem goto_other (s : State) {t u : Tid} (h : u ≠ t) (pc : Pc) : (s.goto t pc).pc u = s.pc u := by simp [State.goto, h]

theorem results_cons_same (t : Tid) (s : State) (e : Event) (pc : Tid → Pc) (pool : Nat → Conc.State) (h : e.who = t) :
    results t { s with pc := pc, pool := pool, log := e :: s.log } = e :: results t s := by
  simp [results, h]

theorem results_cons_other {t : Tid} (s : State) {e : Event} (pc : Tid → Pc) (pool : Nat → Conc.State) (h : e.who ≠ t) :
    results t { s with pc := pc, pool := pool, log := e :: s.log } = results t s := by
  simp [results, h]

/-! ### The steps of the heap -/

/-- What a step of the heap does, as seen by a context `t` that does not act. -/
structure Aside (s s' : State) (t : Tid) : Prop where
  pc : s'.pc t = s.pc t
  pools : ∀ j, (s'.pool j).pc t = (s.pool j).pc t
  res : results t s' = results t s

/-- What a step of context `t` does, if `t` is in `allocate`. -/
inductive Mine (s s' : State) (t : Tid) (size i : Nat) : Prop
  | stay : s'.pc t = .alloc size i → results t s' = results t s → phase ((s'.pool i).pc t) = phase ((s.pool i).pc t) → Mine s s' t size i
  | look : s'.pc t = .alloc size i → results t s' = results t s → phase ((s.pool i).pc t) = .look → (s.pool i).free = 0 →
      (s'.pool i).free = 0 → phase ((s'.pool i).pc t) = .carve → Mine s s' t size i
  | next : s'.pc t = .alloc size (i + 1) → results t s' = results t s → phase ((s.pool i).pc t) = .carve → (s.pool i).uninit = (s.pool i).edge →
      phase ((s'.pool (i + 1)).pc t) = .look → Mine s s' t size i
  | fail : s.n ≤ i + 1 → results t s' = .failed t size :: results t s → phase ((s.pool i).pc t) = .carve →
      (s.pool i).uninit = (s.pool i).edge → Mine s s' t size i
  | got (ptr : Nat) : results t s' = .got t size ptr (s.pool i).size :: results t s → Mine s s' t size i

theorem enter_pool (b : Build) (s : State) (t : Tid) (size i j : Nat) :
    (enter b s t size i).pool j = if i < s.n ∧ j = i then poolStep b (s.pool j) (.alloc t) else s.pool j := by
  unfold enter
  split
  · by_cases h : j = i
    · subst h; simp [State.goto, State.setPool, *]
    · simp [State.goto, State.setPool, h]
  · simp [State.goto, *]

theorem enter_pc (b : Build) (s : State) (t : Tid) (size i : Nat) (u : Tid) :
    (enter b s t size i).pc u = if u = t then (if i < s.n then .alloc size i else .idle) else s.pc u := by
  unfold enter
  split <;> by_cases h : u = t <;> simp [State.goto, State.setPool, h, *]

theorem enter_n (b : Build) (s : State) (t : Tid) (size i : Nat) :
    (enter b s t size i).n = s.n ∧ (enter b s t size i).base = s.base := by
  unfold enter
  split <;> simp [State.goto, State.setPool]

theorem enter_results (b : Build) (s : State) (t : Tid) (size i : Nat) (u : Tid) :
    results u (enter b s t size i) = if i < s.n ∨ u ≠ t then results u s else .failed t size :: results u s := by
  unfold enter
  by_cases h : i < s.n
  · simp [h, results, State.goto, State.setPool]
  · by_cases hu : u = t
    · simp [h, hu, results, State.goto, Event.who]
    · have : t ≠ u := fun e => hu e.symm
      simp [h, hu, this, results, State.goto, Event.who]

theorem step_n (b : Build) (s : State) (a : Act) : (step b s a).n = s.n ∧ (step b s a).base = s.base := by
  cases a with
  | alloc t size =>
    simp only [step]
    split
    · exact enter_n ..
    · exact ⟨rfl, rfl⟩
  | dealloc t ptr size =>
    simp only [step]
    split
    · exact ⟨rfl, rfl⟩
    · split <;> exact ⟨rfl, rfl⟩
  | step t sp =>
    simp only [step]
    split
    · exact ⟨rfl, rfl⟩
    · split
      · split
        · exact enter_n ..
        · exact ⟨rfl, rfl⟩
      · exact ⟨rfl, rfl⟩
    · split <;> exact ⟨rfl, rfl⟩
  | write ptr v =>
    simp only [step]
    split <;> exact ⟨rfl, rfl⟩

theorem step_touch (b : Build) {s : State} {base : Nat} {cfg : List (Nat × Nat)} (ok : Ok base cfg s) (a : Act) (j : Nat) :
    Touch b (s.pool j) ((step b s a).pool j) a := by
  cases a with
  | alloc t size =>
    simp only [step]
    split
    · rename_i h
      have hp := ok.placed t
      simp only [Placed, h.1] at hp
      rw [enter_pool]
      split
      · exact .alloc t rfl (hp j) rfl
      · exact .same rfl
    · exact .same rfl
  | dealloc t ptr size =>
    simp only [step]
    split
    · exact .same rfl
    · rename_i i hi
      split
      · rename_i h
        have hp := ok.placed t
        simp only [Placed, h.1] at hp
        by_cases e : j = i
        · subst e
          refine .dealloc t ptr rfl (hp j) h.2.2 ?_
          simp [State.goto, State.setPool]
        · exact .same (by simp [State.goto, State.setPool, e])
      · exact .same rfl
  | step t sp =>
    simp only [step]
    split
    · exact .same rfl
    · rename_i size i h
      have hp := ok.placed t
      simp only [Placed, h] at hp
      have hb : (s.pool i).pc t ≠ .idle := by
        intro e
        rw [e] at hp
        rcases hp.2.1 with h | h <;> cases h
      have base : ∀ j, Touch b (s.pool j) ((s.setPool i (poolStep b (s.pool i) (.step t sp))).pool j) (.step t sp) := by
        intro j
        by_cases e : j = i
        · subst e
          exact .step t sp rfl hb (setPool_same ..)
        · exact .same (setPool_other s e _)
      split
      · split
        · rw [enter_pool]
          split
          · rename_i hc
            have e : j ≠ i := by omega
            refine .alloc t rfl (hp.2.2 j e) ?_
            rw [setPool_other s e]
          · exact base j
        · exact base j
      · exact base j
    · rename_i i h
      have hp := ok.placed t
      simp only [Placed, h] at hp
      have hb : (s.pool i).pc t ≠ .idle := by
        intro e
        rw [e] at hp
        cases hp.2.1
      have base : ∀ j, Touch b (s.pool j) ((s.setPool i (poolStep b (s.pool i) (.step t sp))).pool j) (.step t sp) := by
        intro j
        by_cases e : j = i
        · subst e
          exact .step t sp rfl hb (setPool_same ..)
        · exact .same (setPool_other s e _)
      split <;> exact base j
  | write ptr v =>
    simp only [step]
    split
    · exact .same rfl
    · rename_i i hi
      by_cases e : j = i
      · subst e
        exact .write ptr v rfl (setPool_same ..)
      · exact .same (setPool_other s e _)

/-- A context that does not act. -/
theorem step_aside (b : Build) {s : State} {base : Nat} {cfg : List (Nat × Nat)} (ok : Ok base cfg s) (a : Act) (t : Tid) (h : a.who ≠ some t) :
    Aside s (step b s a) t := by
  refine ⟨?_, fun j => ((step_touch b ok a j).keeps (ok.good j)).others t (Ne.symm h), ?_⟩
  · cases a with
    | alloc u size =>
      have hu : t ≠ u := fun e => h (by simp [Act.who, e])
      simp only [step]
      split
      · rw [enter_pc, if_neg hu]
      · rfl
    | dealloc u ptr size =>
      have hu : t ≠ u := fun e => h (by simp [Act.who, e])
      simp only [step]
      split
      · rfl
      · split
        · rw [goto_other _ hu]; rfl
        · rfl
    | step u sp =>
      have hu : t ≠ u := fun e => h (by simp [Act.who, e])
      simp only [step]
      split
      · rfl
      · split
        · split
          · rw [enter_pc, if_neg hu]; rfl
          · exact goto_other _ hu _
        · rfl
      · split
        · rw [goto_other _ hu]; rfl
        · rfl
    | write ptr v =>
      simp only [step]
      split <;> rfl
  · cases a with
    | alloc u size =>
      have hu : t ≠ u := fun e => h (by simp [Act.who, e])
      simp only [step]
      split
      · rw [enter_results, if_pos (Or.inr hu)]
      · rfl
    | dealloc u ptr size =>
      simp only [step]
      split
      · rfl
      · split <;> rfl
    | step u sp =>
      have hu : u ≠ t := fun e => h (by simp [Act.who, e])
      simp only [step]
      split
      · rfl
      · split
        · split
          · rw [enter_results, if_pos (Or.inr (Ne.symm hu))]; rfl
          · simp [results, Event.who, hu]
        · rfl
      · split <;> rfl
    | write ptr v =>
      simp only [step]
      split <;> rfl

/-- A step of a context in `allocate`. -/
theorem step_mine (b : Build) {s : State} {base : Nat} {cfg : List (Nat × Nat)} (ok : Ok base cfg s) (a : Act) (t : Tid) (h : a.who = some t)
    {size i : Nat} (hpc : s.pc t = .alloc size i) : Mine s (step b s a) t size i ∧
      ((step b s a).pc t = .alloc size i ∨ ((step b s a).pc t = .alloc size (i + 1) ∧ i + 1 < s.n) ∨ (step b s a).pc t = .idle) ∧
      Placed (step b s a) t := by
  have hp := ok.placed t
  have hp0 := hp
  simp only [Placed, hpc] at hp
  obtain ⟨hi, hph, hoth⟩ := hp
  cases a with
  | alloc u z =>
    simp only [Act.who, Option.some.injEq] at h
    subst h
    have e : step b s (.alloc u z) = s := by simp [step, hpc]
    rw [e]
    exact ⟨.stay hpc rfl rfl, Or.inl hpc, hp0⟩
  | dealloc u ptr z =>
    simp only [Act.who, Option.some.injEq] at h
    subst h
    have e : step b s (.dealloc u ptr z) = s := by
      simp only [step]
      split
      · rfl
      · simp [hpc]
    rw [e]
    exact ⟨.stay hpc rfl rfl, Or.inl hpc, hp0⟩
  | write _ _ => cases h
  | step u sp =>
    simp only [Act.who, Option.some.injEq] at h
    subst h
    obtain ⟨hm, hk⟩ := step_ok b (ok.good i) u sp
    simp only [step, hpc]
    generalize hp' : poolStep b (s.pool i) (.step u sp) = p' at hm hk ⊢
    by_cases hid : p'.pc u = .idle
    · rw [if_pos hid]
      rw [hid] at hm
      by_cases hlen : p'.held.length = (s.pool i).held.length
      · rw [if_pos hlen]
        have hc : phase ((s.pool i).pc u) = .carve ∧ (s.pool i).uninit = (s.pool i).edge := by
          have key : ∀ x y, Moves (s.pool i) p' x y → (x = .look ∨ x = .carve) → y = .idle → x = .carve ∧ (s.pool i).uninit = (s.pool i).edge := by
            intro x y hm hx hy
            cases hm with
            | stay _ _ _ _ => subst hy; rcases hx with h | h <;> cases h
            | none => cases hy
            | pop x _ _ h => rw [h] at hlen; simp at hlen
            | full h _ _ _ => exact ⟨rfl, h⟩
            | carve x _ _ h => rw [h] at hlen; simp at hlen
            | give => rcases hx with h | h <;> cases h
          exact key _ _ hm hph rfl
        by_cases hn : i + 1 < s.n
        · have e : i + 1 ≠ i := by omega
          have hn' : i + 1 < (s.setPool i p').n := hn
          have hpool : (enter b (s.setPool i p') u size (i + 1)).pool (i + 1) = poolStep b (s.pool (i + 1)) (.alloc u) := by
            rw [enter_pool, if_pos ⟨hn, rfl⟩, setPool_other s e]
          have hpc' : (enter b (s.setPool i p') u size (i + 1)).pc u = .alloc size (i + 1) := by
            rw [enter_pc, if_pos rfl, if_pos hn']
          have hal := alloc_ok b (ok.good (i + 1)) u (hoth _ e)
          refine ⟨.next hpc' ?_ hc.1 hc.2 (by rw [hpool]; exact hal.1), Or.inr (Or.inl ⟨hpc', hn⟩), ?_⟩
          · rw [enter_results, if_pos (Or.inl hn')]; rfl
          · unfold Placed
            rw [hpc']
            refine ⟨by rw [(enter_n ..).1]; exact hn, Or.inl (by rw [hpool]; exact hal.1), ?_⟩
            intro j hj
            rw [enter_pool, if_neg (by simp [hj])]
            by_cases hji : j = i
            · subst hji; rw [setPool_same]; exact hid
            · rw [setPool_other s hji]; exact hoth j hji
        · have hn' : ¬ (i + 1 < (s.setPool i p').n) := hn
          have hpc' : (enter b (s.setPool i p') u size (i + 1)).pc u = .idle := by
            rw [enter_pc, if_pos rfl, if_neg hn']
          refine ⟨.fail (by omega) ?_ hc.1 hc.2, Or.inr (Or.inr hpc'), ?_⟩
          · rw [enter_results, if_neg (by simp [hn'])]; rfl
          · unfold Placed
            rw [hpc']
            intro j
            rw [enter_pool, if_neg (by simp [hn'])]
            by_cases hji : j = i
            · subst hji; rw [setPool_same]; exact hid
            · rw [setPool_other s hji]; exact hoth j hji
      · rw [if_neg hlen]
        refine ⟨.got (p'.held.headD 0) (by simp [results, Event.who]), Or.inr (Or.inr (goto_same ..)), ?_⟩
        unfold Placed
        have hpc' : ({ (s.setPool i p').goto u .idle with log := .got u size (p'.held.headD 0) (s.pool i).size :: s.log } : State).pc u = .idle := goto_same ..
        rw [hpc']
        intro j
        show ((s.setPool i p').pool j).pc u = .idle
        by_cases hji : j = i
        · subst hji; rw [setPool_same]; exact hid
        · rw [setPool_other s hji]; exact hoth j hji
    · rw [if_neg hid]
      have hpc' : (s.setPool i p').pc u = .alloc size i := hpc
      have key : ∀ x y, Moves (s.pool i) p' x y → (x = .look ∨ x = .carve) → y ≠ .idle →
          x = y ∨ (x = .look ∧ y = .carve ∧ (s.pool i).free = 0 ∧ p'.free = 0) := by
        intro x y hm hx hy
        cases hm with
        | stay _ _ _ _ => exact Or.inl rfl
        | none h0 h1 _ _ => exact Or.inr ⟨rfl, rfl, h0, by rw [h1]; exact h0⟩
        | pop => exact absurd rfl hy
        | full => exact absurd rfl hy
        | carve => exact absurd rfl hy
        | give => exact absurd rfl hy
      have hk := key _ _ hm hph (by rw [ne_eq, phase_idle]; exact hid)
      have hpl : Placed (s.setPool i p') u := by
        unfold Placed
        rw [hpc']
        refine ⟨hi, ?_, ?_⟩
        · rw [setPool_same]
          rcases hk with hk | hk
          · rw [← hk]; exact hph
          · exact Or.inr hk.2.1
        · intro j hji
          rw [setPool_other s hji]; exact hoth j hji
      refine ⟨?_, Or.inl hpc', hpl⟩
      rcases hk with hk | ⟨h1, h2, h3, h4⟩
      · exact .stay hpc' rfl (by rw [setPool_same, hk])
      · exact .look hpc' rfl h1 h3 (by rw [setPool_same]; exact h4) (by rw [setPool_same]; exact h2)

/-- The start of a call of `allocate`. -/
theorem step_open (b : Build) {s : State} {base : Nat} {cfg : List (Nat × Nat)} (ok : Ok base cfg s) (t : Tid) {size : Nat} (hz : size ≠ 0)
    (hpc : s.pc t = .idle) :
    Placed (step b s (.alloc t size)) t ∧
    ((poolRangeByLayout s.table size < s.n ∧ (step b s (.alloc t size)).pc t = .alloc size (poolRangeByLayout s.table size) ∧
      results t (step b s (.alloc t size)) = results t s ∧
      phase (((step b s (.alloc t size)).pool (poolRangeByLayout s.table size)).pc t) = .look) ∨
    (s.n ≤ poolRangeByLayout s.table size ∧ results t (step b s (.alloc t size)) = .failed t size :: results t s)) := by
  have hp := ok.placed t
  simp only [Placed, hpc] at hp
  have e : step b s (.alloc t size) = enter b s t size (poolRangeByLayout s.table size) := by simp [step, hpc, hz]
  rw [e]
  generalize poolRangeByLayout s.table size = i
  by_cases hn : i < s.n
  · have hpool : (enter b s t size i).pool i = poolStep b (s.pool i) (.alloc t) := by rw [enter_pool, if_pos ⟨hn, rfl⟩]
    have hpc' : (enter b s t size i).pc t = .alloc size i := by rw [enter_pc, if_pos rfl, if_pos hn]
    have hal := alloc_ok b (ok.good i) t (hp i)
    refine ⟨?_, Or.inl ⟨hn, hpc', by rw [enter_results, if_pos (Or.inl hn)], by rw [hpool]; exact hal.1⟩⟩
    unfold Placed
    rw [hpc']
    refine ⟨by rw [(enter_n ..).1]; exact hn, Or.inl (by rw [hpool]; exact hal.1), ?_⟩
    intro j hj
    rw [enter_pool, if_neg (by simp [hj])]
    exact hp j
  · refine ⟨?_, Or.inr ⟨by omega, by rw [enter_results, if_neg (by simp [hn])]⟩⟩
    have hpc' : (enter b s t size i).pc t = .idle := by rw [enter_pc, if_pos rfl, if_neg hn]
    unfold Placed
    rw [hpc']
    intro j
    rw [enter_pool, if_neg (by simp [hn])]
    exact hp j

theorem step_placed (b : Build) {s : State} {base : Nat} {cfg : List (Nat × Nat)} (ok : Ok base cfg s) (a : Act) (t : Tid) :
    Placed (step b s a) t := by
  by_cases hw : a.who = some t
  · cases hpc : s.pc t with
    | alloc size i => exact (step_mine b ok a t hw hpc).2.2
    | idle =>
      cases a with
      | alloc u size =>
        simp only [Act.who, Option.some.injEq] at hw
        subst hw
        by_cases hz : size = 0
        · have e : step b s (.alloc u size) = s := by simp [step, hz]
          rw [e]; exact ok.placed u
        · exact (step_open b ok u hz hpc).1
      | dealloc u ptr size =>
        simp only [Act.who, Option.some.injEq] at hw
        subst hw
        have hp := ok.placed u
        have hp0 := hp
        simp only [Placed, hpc] at hp
        simp only [step]
        split
        · exact hp0
        · rename_i i hi
          split
          · rename_i hc
            have hd := dealloc_ok b (ok.good i) u ptr (hp i) hc.2.2
            unfold Placed
            rw [goto_same]
            have hlt := poolByPtr_lt hi
            refine ⟨hlt, ?_, ?_⟩
            · show phase (((s.setPool i _).pool i).pc u) = .give
              rw [setPool_same]; exact hd.1
            · intro j hj
              show ((s.setPool i _).pool j).pc u = .idle
              rw [setPool_other s hj]; exact hp j
          · exact hp0
      | step u sp =>
        simp only [Act.who, Option.some.injEq] at hw
        subst hw
        have e : step b s (.step u sp) = s := by simp [step, hpc]
        rw [e]; exact ok.placed u
      | write _ _ => cases hw
    | dealloc i =>
      have hp := ok.placed t
      have hp0 := hp
      simp only [Placed, hpc] at hp
      obtain ⟨hi, hph, hoth⟩ := hp
      cases a with
      | alloc u size =>
        simp only [Act.who, Option.some.injEq] at hw
        subst hw
        have e : step b s (.alloc u size) = s := by simp [step, hpc]
        rw [e]; exact hp0
      | dealloc u ptr size =>
        simp only [Act.who, Option.some.injEq] at hw
        subst hw
        have e : step b s (.dealloc u ptr size) = s := by
          simp only [step]
          split
          · rfl
          · simp [hpc]
        rw [e]; exact hp0
      | write _ _ => cases hw
      | step u sp =>
        simp only [Act.who, Option.some.injEq] at hw
        subst hw
        obtain ⟨hm, hk⟩ := step_ok b (ok.good i) u sp
        simp only [step, hpc]
        generalize hp' : poolStep b (s.pool i) (.step u sp) = p' at hm hk ⊢
        split
        · rename_i hid
          unfold Placed
          rw [goto_same]
          intro j
          show ((s.setPool i p').pool j).pc u = .idle
          by_cases hji : j = i
          · subst hji; rw [setPool_same]; exact hid
          · rw [setPool_other s hji]; exact hoth j hji
        · rename_i hid
          have hpc' : (s.setPool i p').pc u = .dealloc i := hpc
          unfold Placed
          rw [hpc']
          refine ⟨hi, ?_, ?_⟩
          · rw [setPool_same]
            have key : ∀ x y, Moves (s.pool i) p' x y → x = .give → y ≠ .idle → y = .give := by
              intro x y hm hx hy
              cases hm <;> first | exact hx | exact absurd rfl hy | cases hx
            exact key _ _ hm hph (by rw [ne_eq, phase_idle]; exact hid)
          · intro j hji
            rw [setPool_other s hji]; exact hoth j hji
  · have has := step_aside b ok a t hw
    have hp := ok.placed t
    unfold Placed at hp ⊢
    rw [has.pc, (step_n b s a).1]
    cases hpc : s.pc t <;> simp only [hpc, has.pools] at hp ⊢ <;> exact hp

theorem step_ok' (b : Build) {s : State} {base : Nat} {cfg : List (Nat × Nat)} (ok : Ok base cfg s) (a : Act) : Ok base cfg (step b s a) where
  hbase := by rw [(step_n b s a).2]; exact ok.hbase
  hn := by rw [(step_n b s a).1]; exact ok.hn
  size := fun i r h => by rw [((step_touch b ok a i).keeps (ok.good i)).size]; exact ok.size i r h
  edge := fun i r h => by rw [((step_touch b ok a i).keeps (ok.good i)).edge]; exact ok.edge i r h
  good := fun i => ((step_touch b ok a i).keeps (ok.good i)).good
  placed := step_placed b ok a

theorem run_ok (b : Build) {base : Nat} {cfg : List (Nat × Nat)} (as : List Act) : ∀ {s : State}, Ok base cfg s → Ok base cfg (run b s as) := by
  induction as with
  | nil => intro s h; exact h
  | cons a as ih => intro s h; exact ih (step_ok' b h a)

theorem run_take_succ (b : Build) (s : State) (as : List Act) {k : Nat} (h : k < as.length) :
    run b s (as.take (k + 1)) = step b (run b s (as.take k)) as[k] := by
  simp only [run, List.take_succ_eq_append_getElem h, List.foldl_append, List.foldl_cons, List.foldl_nil]

end Verif.Heap.Multi
