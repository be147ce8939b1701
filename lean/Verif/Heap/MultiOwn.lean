import Verif.Heap.MultiFail
/-!
# Lemmas for C86: the invariant of each pool, ownership, tests
-/
namespace Verif.Heap.Multi

open Verif.Heap (Pool Region regions poolRangeByLayout poolByPtr Legal)

theorem Reached.ok {b : Build} {base : Nat} {cfg : List (Nat × Nat)} {s : State} (h : Reached b base cfg s) : Ok base cfg s := by
  obtain ⟨link, as, rfl⟩ := h
  exact run_ok b as (init_ok base cfg link)

instance (p : Conc.State) : Decidable (Empty p) := by unfold Empty; infer_instance

instance (size : Nat) (s : State) : Decidable (Exhausted size s) := by unfold Exhausted; infer_instance

/-- A test for `Fails`. -/
theorem fails_of_test {b : Build} {s : State} {t : Tid} {size : Nat} {as : List Act}
    (h : decide (s.pc t = .idle) && decide (as.head? = some (.alloc t size)) && decide (size ≠ 0) &&
      (List.range as.length).all (fun k => decide (results t (run b s (as.take k)) = results t s)) &&
      decide (results t (run b s as) = .failed t size :: results t s) = true) : Fails b s t size as := by
  simp only [Bool.and_eq_true, decide_eq_true_eq, List.all_eq_true, List.mem_range] at h
  exact ⟨⟨h.1.1.1.1, h.1.1.1.2, h.1.1.2⟩, h.1.2, h.2⟩

/-- A test for the negation of `Sometime … Exhausted`. -/
theorem never_of_test {b : Build} {s : State} {size : Nat} {as : List Act}
    (h : (List.range (as.length + 1)).all (fun k => !decide (Exhausted size (run b s (as.take k)))) = true) :
    ¬ Sometime b s as (Exhausted size) := by
  rintro ⟨k, hk, he⟩
  simp only [List.all_eq_true, List.mem_range] at h
  have := h k (by omega)
  simp [he] at this

/-- Each pool satisfies the invariant of the concurrent pool. -/
theorem soft_pools {W base : Nat} {cfg : List (Nat × Nat)} (hl : Legal W base cfg) (link : Nat → Nat) (as : List Act) {i : Nat} {r : Region}
    (hr : (regions base cfg)[i]? = some r) :
    ∃ fl k, Conc.Inv r.start r.size r.count ((run .soft (init base cfg link) as).pool i) fl k := by
  have hpos : 0 < r.start := Nat.lt_of_lt_of_le hl.basePos (hl.wf.low r (List.mem_of_getElem? hr))
  have hsz : 0 < r.size := Nat.lt_of_lt_of_le hl.wpos (hl.wf.word r (List.mem_of_getElem? hr))
  have key : ∀ (as : List Act) (s : State), Ok base cfg s → (∃ fl k, Conc.Inv r.start r.size r.count (s.pool i) fl k) →
      ∃ fl k, Conc.Inv r.start r.size r.count ((run .soft s as).pool i) fl k := by
    intro as
    induction as with
    | nil => intro s _ h; exact h
    | cons a as ih =>
      intro s ok ⟨fl, k, inv⟩
      refine ih _ (step_ok' .soft ok a) ?_
      cases step_touch .soft ok a i with
      | same e => rw [e]; exact ⟨fl, k, inv⟩
      | step v sp _ _ e => rw [e]; exact Conc.soft_step hpos hsz inv (.step v sp)
      | alloc v _ _ e => rw [e]; exact Conc.soft_step hpos hsz inv (.alloc v)
      | dealloc v q _ _ _ e => rw [e]; exact Conc.soft_step hpos hsz inv (.dealloc v q)
      | write q v _ e => rw [e]; exact Conc.soft_step hpos hsz inv (.write q v)
  refine key as _ (init_ok base cfg link) ⟨[], 0, ?_⟩
  simp only [init, hr]
  exact Conc.init_inv ..

/-- The same for the build with `atomics`, if no block comes back under a compare-exchange. -/
theorem hw_pools {W base : Nat} {cfg : List (Nat × Nat)} (hl : Legal W base cfg) (link : Nat → Nat) (as : List Act)
    (hn : NoReturn (init base cfg link) as) {i : Nat} {r : Region} (hr : (regions base cfg)[i]? = some r) :
    ∃ fl k, Conc.Inv r.start r.size r.count ((run .hw (init base cfg link) as).pool i) fl k := by
  have hpos : 0 < r.start := Nat.lt_of_lt_of_le hl.basePos (hl.wf.low r (List.mem_of_getElem? hr))
  have hsz : 0 < r.size := Nat.lt_of_lt_of_le hl.wpos (hl.wf.word r (List.mem_of_getElem? hr))
  have key : ∀ (as : List Act) (s : State), Ok base cfg s → NoReturn s as →
      (∃ fl k, Conc.Inv r.start r.size r.count (s.pool i) fl k ∧ Conc.LinkOk (s.pool i) fl) →
      ∃ fl k, Conc.Inv r.start r.size r.count ((run .hw s as).pool i) fl k := by
    intro as
    induction as with
    | nil => intro s _ _ ⟨fl, k, h, _⟩; exact ⟨fl, k, h⟩
    | cons a as ih =>
      intro s ok hn ⟨fl, k, inv, lk⟩
      refine ih _ (step_ok' .hw ok a) hn.2 ?_
      cases step_touch .hw ok a i with
      | same e => rw [e]; exact ⟨fl, k, inv, lk⟩
      | alloc v _ _ e => rw [e]; exact Conc.hw_step_return hpos hsz inv lk (.alloc v) (by simp [Conc.returns])
      | dealloc v q _ _ _ e => rw [e]; exact Conc.hw_step_return hpos hsz inv lk (.dealloc v q) (by simp [Conc.returns])
      | write q v _ e => rw [e]; exact Conc.hw_step_return hpos hsz inv lk (.write q v) (by simp [Conc.returns])
      | step v sp ha _ e =>
        rw [e]
        refine Conc.hw_step_return hpos hsz inv lk (.step v sp) ?_
        intro p hp
        refine hn.1 v sp i ha ?_ p hp
        have hph : phase ((s.pool i).pc v) = .give := by
          simp only [Conc.returns] at hp
          split at hp
          · rename_i h; rw [h]; rfl
          · cases hp
        have hpl := ok.placed v
        unfold Placed at hpl
        cases hpc : s.pc v with
        | idle => simp only [hpc] at hpl; rw [hpl i] at hph; cases hph
        | alloc z j =>
          simp only [hpc] at hpl
          by_cases hij : i = j
          · subst hij; rw [hph] at hpl; rcases hpl.2.1 with h | h <;> cases h
          · rw [hpl.2.2 i hij] at hph; cases hph
        | dealloc j =>
          simp only [hpc] at hpl
          by_cases hij : i = j
          · rw [hij]
          · rw [hpl.2.2 i hij] at hph; cases hph
  refine key as _ (init_ok base cfg link) hn ⟨[], 0, ?_, ?_⟩
  · simp only [init, hr]
    exact Conc.init_inv ..
  · simp only [init, hr]
    exact ⟨by simp [Conc.init], by simp [Conc.init]⟩

theorem shared_of {W base : Nat} {cfg : List (Nat × Nat)} (hl : Legal W base cfg) {s : State} (ok : Ok base cfg s)
    (h : ∀ i r, (regions base cfg)[i]? = some r → ∃ fl k, Conc.Inv r.start r.size r.count (s.pool i) fl k) : Shared base cfg s := by
  have reg : ∀ i, i < s.n → ∃ r, (regions base cfg)[i]? = some r := by
    intro i hi
    have hi' : i < (regions base cfg).length := by rw [← ok.hn]; exact hi
    exact ⟨_, List.getElem?_eq_getElem hi'⟩
  have blk : ∀ i r a, (regions base cfg)[i]? = some r → a ∈ (s.pool i).held → ∃ j < r.count, a = r.block j := by
    intro i r a hr ha
    obtain ⟨fl, k, inv⟩ := h i r hr
    obtain ⟨j, hj, e⟩ := inv.blocks a (List.mem_append_left _ ha)
    exact ⟨j, Nat.lt_of_lt_of_le hj inv.hk, e⟩
  refine ⟨?_, ?_, ?_, ?_⟩
  · intro i hi
    obtain ⟨r, hr⟩ := reg i hi
    obtain ⟨fl, k, inv⟩ := h i r hr
    exact (List.nodup_append.mp inv.nodup).1
  · intro i j a c hi hj ha hc hne
    obtain ⟨r, hr⟩ := reg i hi
    obtain ⟨q, hq⟩ := reg j hj
    obtain ⟨x, hx, rfl⟩ := blk i r a hr ha
    obtain ⟨y, hy, rfl⟩ := blk j q c hq hc
    rw [ok.size i r hr, ok.size j q hq]
    refine blocks_apart hl.wf hr hq hx hy ?_
    rintro ⟨rfl, rfl⟩
    rw [hr] at hq
    cases hq
    exact hne rfl
  · intro i a hi ha
    obtain ⟨r, hr⟩ := reg i hi
    obtain ⟨x, hx, rfl⟩ := blk i r a hr ha
    rw [ok.size i r hr]
    have hb := regions_bounds cfg base r (List.mem_of_getElem? hr)
    have := start_le_block r x
    have := block_le_stop r hx
    omega
  · intro i a hi ha
    obtain ⟨r, hr⟩ := reg i hi
    obtain ⟨x, hx, rfl⟩ := blk i r a hr ha
    rw [ok.hbase]
    have hsz : 0 < r.size := Nat.lt_of_lt_of_le hl.wpos (hl.wf.word r (List.mem_of_getElem? hr))
    have := block_le_stop r hx
    refine poolByPtr_in hl.wf (by rw [table_length, ok.hn]) ?_ hr (start_le_block r x) (by omega)
    intro i r p hr hp
    have hi := (List.getElem?_eq_some_iff.mp hp).1
    rw [table_length] at hi
    rw [table_get s hi] at hp
    cases hp
    exact ok.edge i r hr

/-- Contexts look at pools that fit. -/
def Fit (s : State) : Prop := ∀ t size i, s.pc t = .alloc size i → size ≤ (s.pool i).size

theorem step_fit {W base : Nat} {cfg : List (Nat × Nat)} (hl : Legal W base cfg) (b : Build) {s : State} (ok : Ok base cfg s) (hf : Fit s) (a : Act) :
    Fit (step b s a) := by
  intro t size i h
  have hsz : ∀ j, ((step b s a).pool j).size = (s.pool j).size := fun j => ((step_touch b ok a j).keeps (ok.good j)).size
  rw [hsz]
  by_cases hw : a.who = some t
  · cases hpc : s.pc t with
    | alloc z j =>
      rcases (step_mine b ok a t hw hpc).2.1 with e | ⟨e, hn⟩ | e
      · rw [e] at h; cases h; exact hf t _ _ hpc
      · rw [e] at h
        cases h
        have hj : j < s.n := by omega
        exact (first_fit hl ok size hn).mp (Nat.le_succ_of_le ((first_fit hl ok size hj).mpr (hf t _ _ hpc)))
      · rw [e] at h; cases h
    | dealloc j =>
      exfalso
      cases a with
      | alloc u z => cases hw; simp [step, hpc] at h
      | dealloc u q z =>
        cases hw
        simp only [step, hpc] at h
        split at h <;> simp [hpc] at h
      | step u sp =>
        cases hw
        simp only [step, hpc] at h
        split at h
        · rw [goto_same] at h; cases h
        · simp [State.setPool, hpc] at h
      | write q v => cases hw
    | idle =>
      cases a with
      | alloc u z =>
        cases hw
        by_cases hz : z = 0
        · simp [step, hz, hpc] at h
        · rcases (step_open b ok t hz hpc).2 with ⟨hn, e, _⟩ | ⟨hn, _⟩
          · rw [e] at h
            cases h
            exact (first_fit hl ok size hn).mp (Nat.le_refl _)
          · exfalso
            have e : step b s (.alloc t z) = enter b s t z (poolRangeByLayout s.table z) := by simp [step, hpc, hz]
            rw [e, enter_pc, if_pos rfl, if_neg (by omega)] at h
            cases h
      | dealloc u q z =>
        cases hw
        simp only [step, hpc] at h
        split at h
        · simp [hpc] at h
        · split at h
          · rw [goto_same] at h; cases h
          · simp [hpc] at h
      | step u sp => cases hw; simp [step, hpc] at h
      | write q v => cases hw
  · rw [(step_aside b ok a t hw).pc] at h
    exact hf t _ _ h

theorem run_fit {W base : Nat} {cfg : List (Nat × Nat)} (hl : Legal W base cfg) (b : Build) (as : List Act) :
    ∀ s, Ok base cfg s → Fit s → Fit (run b s as) := by
  induction as with
  | nil => intro s _ h; exact h
  | cons a as ih => intro s ok hf; exact ih _ (step_ok' b ok a) (step_fit hl b ok hf a)

theorem enter_log (b : Build) (s : State) (t : Tid) (size i : Nat) :
    (enter b s t size i).log = s.log ∨ (enter b s t size i).log = .failed t size :: s.log := by
  unfold enter
  split
  · exact Or.inl rfl
  · exact Or.inr rfl

/-- A test for `NoReturn` in histories of the contexts below `m`. -/
def noReturnB (m : Nat) (s : State) : List Act → Bool
  | [] => true
  | a :: as =>
    (match a with
      | .step t sp =>
        match s.pc t with
        | .dealloc i =>
          match Conc.returns (s.pool i) (.step t sp) with
          | none => true
          | some p => (List.range m).all fun u => match (s.pool i).pc u with | .afCas q _ => q != p | _ => true
        | _ => true
      | _ => true) &&
    (match a.who with | some t => decide (t < m) | none => true) && noReturnB m (step .hw s a) as

theorem noReturn_of_test {base : Nat} {cfg : List (Nat × Nat)} (m : Nat) : ∀ (as : List Act) (s : State), Ok base cfg s →
    (∀ t, m ≤ t → ∀ i, (s.pool i).pc t = .idle) → noReturnB m s as = true → NoReturn s as := by
  intro as
  induction as with
  | nil => intros; trivial
  | cons a as ih =>
    intro s ok hs h
    simp only [noReturnB, Bool.and_eq_true] at h
    obtain ⟨⟨h1, h2⟩, h3⟩ := h
    refine ⟨?_, ih _ (step_ok' .hw ok a) (fun t ht i => ?_) h3⟩
    · intro t sp i ha hd p hp u next hu
      subst ha
      by_cases hn : m ≤ u
      · rw [hs u hn] at hu; cases hu
      · simp only [hd, hp, List.all_eq_true, List.mem_range] at h1
        have := h1 u (by omega)
        simp [hu] at this
    · rw [(step_aside .hw ok a t ?_).pools, hs t ht]
      intro e
      rw [e] at h2
      exact absurd (of_decide_eq_true h2) (Nat.not_lt.2 ht)

end Verif.Heap.Multi
