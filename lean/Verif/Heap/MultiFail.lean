import Verif.Heap.MultiLemmas
/-! # What a failed allocation has seen -/
namespace Verif.Heap.Multi

open Verif.Heap (Pool Region regions poolRangeByLayout poolByPtr Legal)

/-- Induction over a call that fails: `Inv k i` holds after `k` steps, with the loop at pool `i`. -/
theorem fails_induct {b : Build} {base : Nat} {cfg : List (Nat × Nat)} {s : State} (ok : Ok base cfg s) {t : Tid} {size : Nat} {as : List Act}
    (hf : Fails b s t size as) (Inv : Nat → Nat → Prop)
    (openI : phase (((run b s (as.take 1)).pool (poolRangeByLayout s.table size)).pc t) = .look → Inv 1 (poolRangeByLayout s.table size))
    (stayI : ∀ k i, (h : k < as.length) → Inv k i → Ok base cfg (run b s (as.take k)) →
      phase (((run b s (as.take (k + 1))).pool i).pc t) = phase (((run b s (as.take k)).pool i).pc t) → Inv (k + 1) i)
    (lookI : ∀ k i, k < as.length → Inv k i → Ok base cfg (run b s (as.take k)) → as[k]?.map Act.who = some (some t) →
      phase (((run b s (as.take k)).pool i).pc t) = .look → ((run b s (as.take k)).pool i).free = 0 →
      ((run b s (as.take (k + 1))).pool i).free = 0 →
      phase (((run b s (as.take (k + 1))).pool i).pc t) = .carve → Inv (k + 1) i)
    (nextI : ∀ k i, k < as.length → Inv k i → Ok base cfg (run b s (as.take k)) →
      phase (((run b s (as.take k)).pool i).pc t) = .carve →
      ((run b s (as.take k)).pool i).uninit = ((run b s (as.take k)).pool i).edge →
      phase (((run b s (as.take (k + 1))).pool (i + 1)).pc t) = .look → Inv (k + 1) (i + 1)) :
    s.n ≤ poolRangeByLayout s.table size ∨
    ∃ k i, k + 1 = as.length ∧ Inv k i ∧ poolRangeByLayout s.table size ≤ i ∧ i < s.n ∧ s.n ≤ i + 1 ∧
      phase (((run b s (as.take k)).pool i).pc t) = .carve ∧
      ((run b s (as.take k)).pool i).uninit = ((run b s (as.take k)).pool i).edge := by
  obtain ⟨⟨hpc, hhead, hz⟩, hdur, hres⟩ := hf
  obtain ⟨rest, rfl⟩ : ∃ rest, as = .alloc t size :: rest := by
    cases as with
    | nil => cases hhead
    | cons a rest => simp only [List.head?_cons, Option.some.injEq] at hhead; exact ⟨rest, by rw [hhead]⟩
  have e1 : run b s ((Act.alloc t size :: rest).take 1) = step b s (.alloc t size) := by simp [run]
  obtain ⟨-, hop⟩ := step_open b ok t hz hpc
  rcases hop with ⟨hn, hpc1, hr1, hph⟩ | ⟨hn, -⟩
  · right
    rw [e1] at openI
    have h0 := openI hph
    -- the call is in progress after `k` steps
    have key : ∀ k, 1 ≤ k → k < (Act.alloc t size :: rest).length → ∃ i, poolRangeByLayout s.table size ≤ i ∧ i < s.n ∧
        (run b s ((Act.alloc t size :: rest).take k)).pc t = .alloc size i ∧ Inv k i := by
      intro k
      induction k with
      | zero => intro h; omega
      | succ k ih =>
        intro _ hk
        by_cases hk0 : k = 0
        · subst hk0
          exact ⟨_, Nat.le_refl _, hn, by rw [e1]; exact hpc1, h0⟩
        · have hk' : k < (Act.alloc t size :: rest).length := by omega
          obtain ⟨i, hi1, hi2, hi3, hi4⟩ := ih (by omega) hk'
          have okk := run_ok b ((Act.alloc t size :: rest).take k) ok
          have e := run_take_succ b s _ hk'
          have hd1 := hdur k hk'
          have hd2 := hdur (k + 1) hk
          have hnk : (run b s ((Act.alloc t size :: rest).take k)).n = s.n := by rw [okk.hn, ok.hn]
          by_cases hw : ((Act.alloc t size :: rest)[k]).who = some t
          · obtain ⟨hm, -, -⟩ := step_mine b okk _ t hw hi3
            rw [← e] at hm
            cases hm with
            | stay h1 _ h2 => exact ⟨i, hi1, hi2, h1, stayI k i hk' hi4 okk h2⟩
            | look h1 _ h2 h3 h4 h5 =>
              exact ⟨i, hi1, hi2, h1, lookI k i hk' hi4 okk (by rw [List.getElem?_eq_getElem hk', Option.map_some, hw]) h2 h3 h4 h5⟩
            | next h1 _ h2 h3 h4 =>
              have hpl := (run_ok b ((Act.alloc t size :: rest).take (k + 1)) ok).placed t
              unfold Placed at hpl
              rw [h1] at hpl
              have : (run b s ((Act.alloc t size :: rest).take (k + 1))).n = s.n := by
                rw [(run_ok b ((Act.alloc t size :: rest).take (k + 1)) ok).hn, ok.hn]
              exact ⟨i + 1, by omega, by have := hpl.1; omega, h1, nextI k i hk' hi4 okk h2 h3 h4⟩
            | fail _ h _ _ => rw [hd2, hd1] at h; simp at h
            | got p h => rw [hd2, hd1] at h; simp at h
          · have has := step_aside b okk _ t hw
            rw [← e] at has
            exact ⟨i, hi1, hi2, by rw [has.pc]; exact hi3, stayI k i hk' hi4 okk (by rw [has.pools])⟩
    -- the last step
    by_cases hlen : rest = []
    · subst hlen
      simp only [run, List.foldl_cons, List.foldl_nil] at hres
      rw [hr1] at hres
      simp at hres
    · have hpos : 0 < rest.length := List.length_pos_iff.mpr hlen
      have hk : rest.length < (Act.alloc t size :: rest).length := by simp
      obtain ⟨i, hi1, hi2, hi3, hi4⟩ := key rest.length (by omega) hk
      have okk := run_ok b ((Act.alloc t size :: rest).take rest.length) ok
      have e := run_take_succ b s _ hk
      have efull : (Act.alloc t size :: rest).take (rest.length + 1) = Act.alloc t size :: rest := by simp
      rw [efull] at e
      have hd1 := hdur _ hk
      have hnk : (run b s ((Act.alloc t size :: rest).take rest.length)).n = s.n := by rw [okk.hn, ok.hn]
      by_cases hw : ((Act.alloc t size :: rest)[rest.length]).who = some t
      · obtain ⟨hm, -, -⟩ := step_mine b okk _ t hw hi3
        rw [← e] at hm
        cases hm with
        | stay _ h _ => rw [hres, hd1] at h; simp at h
        | look _ h _ _ _ _ => rw [hres, hd1] at h; simp at h
        | next _ h _ _ _ => rw [hres, hd1] at h; simp at h
        | fail h1 _ h2 h3 => exact ⟨rest.length, i, by simp, hi4, hi1, hi2, by omega, h2, h3⟩
        | got p h => rw [hres, hd1] at h; simp at h
      · have h := (step_aside b okk _ t hw).res
        rw [← e, hres, hd1] at h
        simp at h
  · exact Or.inl hn

end Verif.Heap.Multi
