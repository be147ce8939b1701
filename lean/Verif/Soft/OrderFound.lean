import Verif.Soft.OrderSteps
import Verif.Order.Witness
/-! # Races, and what the scheduler finds -/
namespace Verif.Soft.Order

open Verif.Order

variable {count : Nat} {o : Ords} {prio : Nat → Nat}

theorem no_conflict {e f : Ev} (he : (e.kind.atomic = true ∧ ∀ t, e.loc ≠ msgLoc t) ∨
    ∃ t, t ≠ 0 ∧ e.loc = msgLoc t ∧ ((e.tid = t ∧ e.kind = .write) ∨ (e.tid = 0 ∧ e.kind = .read))) (hf : f.kind.atomic = true)
    (hl : ∀ t, f.loc ≠ msgLoc t) : ¬ Conflict e f := by
  rintro ⟨-, h | h | ⟨h1, -, h2⟩⟩
  · rcases he with he | ⟨t, -, -, he | he⟩
    · rw [h] at he; cases he.1
    · rw [h] at he; cases he.2
    · rw [h] at he; cases he.2
  · rw [h] at hf; cases hf
  · rcases he with he | ⟨t, -, he, -⟩
    · exact h2 ⟨he.1, hf⟩
    · exact hl t (h1 ▸ he)

theorem pstep_races {p p' : PState SState Nat} (o1 : o.setCell.rel = true) (o2 : o.run.acq = true) (h : PInv count o p) (hr : ∀ i j, ¬ Race p.tr i j)
    {a : PAct Op} (hs : (machine count prio o).pstep p a = some p') : ∀ i j, ¬ Race p'.tr i j := by
  cases a with
  | call a => cases hs; exact hr
  | step t k =>
    have app : ∀ {f : Ev}, (∀ (i : Nat) (e : Ev), p.tr[i]? = some e → Conflict e f → Know p.tr f.tid i) → ∀ i j, ¬ Race (p.tr ++ [f]) i j := fun hf =>
      no_race (P := fun _ _ => False) hr fun i e he hc => .inl (hf i e he hc)
    rcases pstep_cases hs with rfl | ⟨l, a, v, s', ha, -, -, hst, rfl⟩ | ⟨l, b, s', ha, hst, rfl⟩ | ⟨l, b, ha⟩ | ⟨l, k, s', ha, hst, rfl⟩
    · exact hr
    · have hk := (pstep_inv h hs).kinds p.tr.length ⟨t, l, .load a k⟩ (by simp)
      refine app fun i e he hc => absurd hc (no_conflict (h.kinds i e he) rfl ?_)
      rcases hk with hk | ⟨u, -, -, hk | hk⟩
      · exact hk.2
      · cases hk.2
      · cases hk.2
    · have hk := (pstep_inv h hs).kinds p.tr.length ⟨t, l, .rmw b.acq b.rel⟩ (by simp)
      refine app fun i e he hc => absurd hc (no_conflict (h.kinds i e he) rfl ?_)
      rcases hk with hk | ⟨u, -, -, hk | hk⟩
      · exact hk.2
      · cases hk.2
      · cases hk.2
    · exact absurd ha acc_store
    · by_cases h0 : t = 0
      · subst h0
        obtain ⟨u, hu, rfl, rfl⟩ := acc_other ha
        refine app fun i e he hc => ?_
        have hu := h.core.task u hu
        rcases h.kinds i e he with hk | ⟨v, -, hv, hk⟩
        · exfalso
          rcases hc with ⟨-, hc | hc | ⟨hc, -⟩⟩
          · rw [hc] at hk; cases hk.1
          · cases hc
          · exact hk.2 u hc
        · rcases hk with hk | hk
          · refine h.read o1 o2 u hu i e he ?_
            rcases hc with ⟨-, hc | hc | ⟨hc, -⟩⟩
            · rw [hk.2] at hc; cases hc
            · cases hc
            · have := msgLoc_inj (hv.symm.trans hc)
              subst this
              exact ⟨hk.1, hv⟩
          · exact absurd hk.1 hc.1
      · simp only [machine, if_neg h0] at ha
        match hc : p.s.ctx t with
        | .idle | .done _ => rw [hc] at ha; cases ha
        | .req thr pc => rw [hc] at ha; cases pc <;> simp [accCtx] at ha
        | .write thr =>
          rw [hc] at ha
          simp only [accCtx, Option.some.injEq, Acc.other.injEq] at ha
          obtain ⟨rfl, rfl⟩ := ha
          refine app fun i e he hcf => ?_
          have := h.unused t (.inr ⟨thr, hc⟩) i e he
          exfalso
          rcases hcf with ⟨-, hc | hc | ⟨hc, -⟩⟩
          · rcases h.kinds i e he with hk | ⟨u, -, -, hk | hk⟩
            · rw [hc] at hk; cases hk.1
            · rw [hc] at hk; cases hk.2
            · rw [hc] at hk; cases hk.2
          · cases hc
          · exact this hc

theorem no_races (o1 : o.setCell.rel = true) (o2 : o.run.acq = true) {tr : List Ev} (ht : (machine count prio o).Trace tr) (i j : Nat) : ¬ Race tr i j := by
  obtain ⟨as, p, hp, rfl⟩ := ht
  have key : ∀ {as : List (PAct Op)} {p p' : PState SState Nat}, PInv count o p → (∀ i j, ¬ Race p.tr i j) → (machine count prio o).prun p as = some p' →
      ∀ i j, ¬ Race p'.tr i j := by
    intro as
    induction as with
    | nil => intro p p' _ h hs; cases hs; exact h
    | cons a as ih =>
      intro p p' h hr hs
      simp only [Machine.prun] at hs
      split at hs
      · cases hs
      · rename_i q hq
        exact ih (pstep_inv h hq) (pstep_races o1 o2 h hr hq) hs
  refine key pinit_inv ?_ hp i j
  rintro i j ⟨-, e, f, he, -⟩
  simp [Machine.pinit] at he

theorem prun_snoc {S W A : Type} {M : Machine S W A} {as : List (PAct A)} {a : PAct A} : ∀ {p : PState S W},
    M.prun p (as ++ [a]) = (M.prun p as).bind fun q => M.pstep q a := by
  induction as with
  | nil =>
    intro p
    simp only [List.nil_append, Machine.prun, Option.bind]
    split <;> simp_all
  | cons b as ih =>
    intro p
    simp only [List.cons_append, Machine.prun]
    split
    · rfl
    · exact ih

/-- The scheduler finds the requests if it knows of them. -/
theorem found_of {taken : SState → Nat → Bool} (h : ∀ {p : PState SState Nat}, PInv count o p → ∀ t x, taken p.s t = true → p.s.said t = some x →
    Knows p.tr 0 (Up t (cellLoc count x))) : Found taken count prio o := by
  rintro as k s tr s' tr' ⟨p, hp, rfl, rfl⟩ ⟨p', hp', rfl, rfl⟩ hco hne htask r thr rest hst t u q hsaid htk hgone hptr
  rw [prun_snoc, hp] at hp'
  simp only [Option.bind] at hp'
  have hI := run_inv hp
  have hacc : (machine count prio o).acc 0 p.s = some (.load (memLoc r.ptr) o.cellRead) := by
    simp only [machine, if_true, htask, hst, accFrame]
  rcases pstep_cases hp' with rfl | ⟨l, a, v, s1, ha, -, hv, hstep, rfl⟩ | ⟨l, b, s1, ha, -⟩ | ⟨l, b, ha⟩ | ⟨l, b, s1, ha, -⟩
  · exact absurd rfl hne
  · rw [hacc, Option.some.injEq, Acc.load.injEq] at ha
    obtain ⟨rfl, rfl⟩ := ha
    obtain ⟨b, e, he, hup⟩ := hI.put t (u, q) hsaid
    have hloc : cellLoc count (u, q) = memLoc r.ptr := by unfold cellLoc; rw [hptr]
    have hb := (List.getElem?_eq_some_iff.1 he).1
    have hle : cnt (p.tr.take (b + 1)) (cellLoc count (u, q)) ≤ k := by
      refine Nat.le_of_not_lt fun hlt => ?_
      refine hco p.tr.length ⟨0, memLoc r.ptr, .load o.cellRead k⟩ o.cellRead k (by simp) rfl b e (by rw [List.getElem?_append_left hb]; exact he)
        (by rw [← hloc]; exact hup.2) ?_ (hb_last.2 (.inl (h hI t (u, q) htk hsaid b e he hup)))
      rw [List.take_append_of_le_length (by omega)]
      rw [hloc] at hlt
      exact hlt
    have hbit := hI.bit t (u, q) hsaid hgone b e he hup k v (by rw [hloc]; exact hv) hle
    simp only [machine, memLoc_mod, memLoc_div, if_true, htask, coreStep, hst, reduceCtorEq, false_and, if_false, ghosts, frameStep] at hstep ⊢
    have hz : BitVec.ofNat 32 v ≠ 0 := by
      intro e; rw [e] at hbit; simp at hbit
    simp only [Soft.upd, if_true, if_neg hz] at hstep
    split at hstep
    · cases hstep
    · rename_i b' hb'
      split at hb'
      · simp only [Option.some.injEq] at hstep hb'
        subst hstep hb'
        exact ⟨_, rfl, hbit⟩
      · cases hb'
  · rw [hacc] at ha; cases ha
  · rw [hacc] at ha; cases ha
  · rw [hacc] at ha; cases ha

/-- No acquire read of a release sequence lies in between. -/
theorem not_hb {tr : List Ev} {i j : Nat} {e f : Ev} (he : tr[i]? = some e) (hf : tr[j]? = some f) (hne : e.tid ≠ f.tid)
    (h : ∀ m g, i < m → m ≤ j → tr[m]? = some g → g.tid = f.tid → g.acq = true →
      src (tr.take m) g = 0 ∨ ∀ (c : Nat) (x : Ev), (tr.take m)[c]? = some x → x.writes g.loc = true → x.rel = false) : ¬ Hb tr i j := by
  intro hb
  obtain ⟨m, g, c, h1, h2, h3, h4, h5, ⟨x, hx, hw, hr⟩, h6, -⟩ := hb_carries he hf hne hb
  rcases h m g h1 h2 h3 h4 h5 with h | h
  · omega
  · rw [h c x hx hw] at hr; cases hr

/-- Loads read the last value, or no acquire read comes between them and what has overwritten their value. -/
def loadOk (tr : List Ev) (j : Nat) : Bool := match tr[j]? with
  | some ⟨t, l, .load _ k⟩ => (List.range j).all fun i => match tr[i]? with
    | some e => !(e.writes l && decide (k < cnt (tr.take (i + 1)) l)) ||
        (e.tid != t && ((tr.take (j + 1)).drop (i + 1)).all fun g => g.tid != t || !g.acq)
    | none => true
  | _ => true

theorem coherent_of {tr : List Ev} (h : ∀ j < tr.length, loadOk tr j = true) : Coherent tr := by
  intro j f a k hf hk i e he hw hlt hb
  have hij := hb.lt
  have := h j hij.2
  obtain ⟨t, l, kd⟩ := f
  simp only at hk
  subst hk
  simp only [loadOk, hf, List.all_eq_true, List.mem_range] at this
  have := this i hij.1
  simp only [he, hw, Bool.true_and, hlt, decide_true, Bool.not_true, Bool.false_or, Bool.and_eq_true, bne_iff_ne, ne_eq] at this
  obtain ⟨m, g, h1, h2, h3, h4, h5⟩ := hb_acq he hf this.1 hb
  have := List.all_eq_true.1 this.2 g (List.mem_of_getElem? (i := m - (i + 1)) (by
    rw [List.getElem?_drop, List.getElem?_take_of_lt (by omega), ← h3]; congr 1; omega))
  simp only at h4
  simp [h4, h5] at this

end Verif.Soft.Order
