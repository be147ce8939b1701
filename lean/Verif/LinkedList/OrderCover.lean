import Verif.LinkedList.OrderSteps
/-! # Schedules of `ConcModel.lean` are schedules with memory orderings -/
namespace Verif.LinkedList.Conc.Order

open Verif.LinkedList.Conc
open Verif.Order

variable {α : Type} {r : Nat} {o : Ords}

theorem step_head {s : State α} {t : Nat} {b : Bool} {x : State α × List (Event α)} {a : Acc}
    (ha : accOf o b s.head (s.pc t) = some a) (hs : step true s (.step t b) = some x) (hw : a.wr ≠ some 0) : x.1.head = s.head := by
  have key : ∀ old rd d, cas b s.head old rd d = some a → b = true := by
    intro old rd d h
    unfold cas at h
    split at h
    · assumption
    · split at h
      · exact absurd (by rw [← Option.some.inj h]; rfl) hw
      · cases h
  cases hpc : s.pc t <;> simp only [hpc, accOf] at ha <;> simp only [step, hpc] at hs
  case idle => cases ha
  case pushLoad => simp only [if_true, Option.some.injEq] at hs; subst hs; rfl
  case popLoad => simp only [if_true, Option.some.injEq] at hs; subst hs; simp only [popAfter]; split <;> rfl
  case drLoad => simp only [Option.some.injEq] at hs; subst hs; simp only [drTest]; split <;> rfl
  case cutLoad => simp only [if_true, Option.some.injEq] at hs; subst hs; simp only [cutAfter]; split <;> rfl
  case pushCas =>
    simp only [key _ _ _ ha, Bool.true_eq_false, and_false, if_false, Option.some.injEq] at hs
    subst hs; rfl
  case popCas =>
    simp only [key _ _ _ ha, Bool.true_eq_false, and_false, if_false, Option.some.injEq] at hs
    subst hs; simp only [popAfter]; split <;> rfl
  case cutCas =>
    simp only [key _ _ _ ha, Bool.true_eq_false, and_false, if_false, Option.some.injEq] at hs
    subst hs; simp only [cutAfter]; split <;> rfl
  case drFilter =>
    split at hs
    · cases hs
    · split at hs
      · split at hs <;> (simp only [Option.some.injEq] at hs; subst hs; rfl)
      · simp only [Option.some.injEq] at hs; subst hs; simp only [drTest]; split <;> rfl
  case cutWalk =>
    split at hs
    · cases hs
    · split at hs <;> (simp only [Option.some.injEq] at hs; subst hs; rfl)
  case drFree =>
    split at hs
    · cases hs
    · simp only [Option.some.injEq] at hs; subst hs; simp only [drTest]; split <;> rfl
  all_goals
    split at hs
    · cases hs
    · simp only [Option.some.injEq] at hs; subst hs; rfl

theorem frame : (machine α r o).Frame := by
  refine ⟨fun s a => ?_, fun s l => ?_, fun {t s a s'} ha hs l hl => ?_⟩
  · funext l
    cases a <;> simp only [machine] <;> (repeat' split) <;> rfl
  · simp only [machine]
    by_cases h : l = 0
    · simp only [h, if_true]
    · simp only [h, if_false]
  · obtain ⟨x, hx, rfl⟩ := Option.map_eq_some_iff.1 hs
    simp only [machine]
    split
    · rename_i h0
      subst h0
      exact step_head ha hx hl
    · rfl

/-- The flag with which the machine does the step. -/
def flagFor (s : State α) (t : Nat) (b : Bool) : Bool := match s.pc t with
  | .pushCas _ old | .popCas old _ | .cutCas old _ => b || decide (s.head ≠ old)
  | _ => b

theorem flagFor_step (s : State α) (t : Nat) (b : Bool) : step true s (.step t (flagFor s t b)) = step true s (.step t b) := by
  have key : ∀ old : Nat, (s.head = old ∧ (b || decide (s.head ≠ old)) = false) ↔ (s.head = old ∧ b = false) := by
    intro old
    by_cases h : s.head = old <;> simp [h]
  unfold flagFor
  cases hpc : s.pc t <;> try rfl
  all_goals simp only [step, hpc, key]

theorem flagFor_acc (s : State α) (t : Nat) (b : Bool) : s.pc t = .idle ∨ ∃ a, accOf o (flagFor s t b) s.head (s.pc t) = some a := by
  have key : ∀ old rd d, ∃ a, cas (b || decide (s.head ≠ old)) s.head old rd d = some a := by
    intro old rd d
    unfold cas
    by_cases h : s.head = old
    · cases b <;> simp [h]
    · simp [h]
  unfold flagFor
  cases hpc : s.pc t <;> first | exact .inl rfl | (right; simp only [accOf]; first | exact ⟨_, rfl⟩ | exact key _ _ _)

theorem step_none {s : State α} {t v : Nat} {b : Bool} {x : State α × List (Event α)} (hv : s.node v = none)
    (hs : step true s (.step t b) = some x) : x.1.node v = none := by
  have key : ∀ {n : Nat} {y : Nat × α} (z : Option (Nat × α)), s.node n = some y → (if v = n then z else s.node v) = none := by
    intro n y z hn
    rw [if_neg]
    · exact hv
    · rintro rfl
      rw [hv] at hn; cases hn
  cases hpc : s.pc t <;> simp only [step, hpc, popAfter, cutAfter, drTest, if_true] at hs
  all_goals
    repeat' split at hs
    all_goals
      first
        | (cases hs; done)
        | (simp only [Option.some.injEq] at hs; subst hs; exact hv)
        | (simp only [Option.some.injEq] at hs; subst hs; exact key _ (by assumption))
        | (simp only [Option.some.injEq] at hs; subst hs; dsimp only; split <;> exact key _ (by assumption))
        | (simp only [Option.some.injEq] at hs; subst hs; dsimp only; split <;> exact hv)

theorem cover (acts : List (Act α)) (p : PState (LState α) Nat) (hf : Fresh (machine α r o) p) (hinc : (addrs acts).Pairwise (· < ·))
    (hge : ∀ a ∈ addrs acts, p.s.next ≤ a) (hn : ∀ v, p.s.next ≤ v → p.s.base.node v = none) (hpos : 1 ≤ p.s.next)
    (hr : ∀ a ∈ acts, ∀ t, a = .pop t ∨ a = .drain t → t = r)
    {s : State α} {log : List (Event α)} (hrun : run true p.s.base acts = some (s, log)) :
    ∃ as p', (machine α r o).prun p as = some p' ∧ p'.s.base = s := by
  induction acts generalizing p log with
  | nil =>
    simp only [run, Option.some.injEq, Prod.mk.injEq] at hrun
    exact ⟨[], p, rfl, hrun.1⟩
  | cons a acts ih =>
    simp only [run] at hrun
    split at hrun
    · cases hrun
    rename_i s1 e1 h1
    split at hrun
    · cases hrun
    rename_i s2 e2 h2
    simp only [Option.some.injEq, Prod.mk.injEq] at hrun
    obtain ⟨rfl, -⟩ := hrun
    have hr' : ∀ a ∈ acts, ∀ t, a = .pop t ∨ a = .drain t → t = r := fun b hb => hr b (List.mem_cons_of_mem _ hb)
    have call : ∀ op : Op α, ((machine α r o).call p.s op).base = s1 → (addrs acts).Pairwise (· < ·) →
        (∀ a ∈ addrs acts, ((machine α r o).call p.s op).next ≤ a) →
        (∀ v, ((machine α r o).call p.s op).next ≤ v → ((machine α r o).call p.s op).base.node v = none) → 1 ≤ ((machine α r o).call p.s op).next →
        ∃ as p', (machine α r o).prun p as = some p' ∧ p'.s.base = s2 := by
      intro op e g1 g2 g3 g4
      obtain ⟨as, p', k1, k2⟩ := ih { p with s := (machine α r o).call p.s op } (fresh_call frame hf op) g1 g2 g3 g4 hr' (log := e2) (by
        dsimp only; rw [e]; exact h2)
      exact ⟨.call op :: as, p', k1, k2⟩
    cases a with
    | push t a v =>
      simp only [addrs, List.pairwise_cons, List.mem_cons, forall_eq_or_imp] at hinc hge
      have hna := hn a hge.1
      have h0 : a ≠ 0 := by omega
      simp only [step, hna, Option.isNone_none, and_true] at h1
      by_cases hi : p.s.base.pc t = .idle
      · simp only [hi, h0, ne_eq, not_false_eq_true, and_self, if_true, Option.some.injEq, Prod.mk.injEq] at h1
        have hc : (machine α r o).call p.s (.push t a v) = { p.s with base := (p.s.base.put a (some (0, v))).goto t (.pushLoad a), next := a + 1 } := by
          simp only [machine, hi, hge.1, and_self, if_true]
        refine call (.push t a v) ?_ hinc.2 ?_ ?_ ?_ <;> rw [hc]
        · exact h1.1
        · exact fun b hb => hinc.1 b hb
        · intro u hu
          dsimp only at hu
          simp only [State.goto, State.put]
          rw [if_neg (by omega)]
          exact hn u (by omega)
        · dsimp only; omega
      · simp only [hi, false_and, if_false, Option.some.injEq, Prod.mk.injEq] at h1
        have hc : (machine α r o).call p.s (.push t a v) = p.s := by simp only [machine, hi, false_and, if_false]
        refine call (.push t a v) ?_ hinc.2 ?_ ?_ ?_ <;> rw [hc]
        · exact h1.1
        · exact hge.2
        · exact hn
        · exact hpos
    | pop t =>
      have ht := hr _ List.mem_cons_self t (.inl rfl)
      subst ht
      simp only [step] at h1
      have hc : (machine α t o).call p.s .pop = { p.s with base := s1 } := by
        simp only [machine]
        split at h1
        · rename_i hi
          simp only [Option.some.injEq, Prod.mk.injEq] at h1
          obtain ⟨rfl, -⟩ := h1
          rw [if_pos hi]
        · rename_i hi
          simp only [Option.some.injEq, Prod.mk.injEq] at h1
          obtain ⟨rfl, -⟩ := h1
          rw [if_neg hi]
      refine call .pop ?_ hinc ?_ ?_ ?_ <;> rw [hc]
      · exact hge
      · intro u hu
        have := hn u hu
        split at h1 <;> simp only [Option.some.injEq, Prod.mk.injEq] at h1 <;> (obtain ⟨rfl, -⟩ := h1; exact this)
      · exact hpos
    | drain t =>
      have ht := hr _ List.mem_cons_self t (.inr rfl)
      subst ht
      simp only [step] at h1
      have hc : (machine α t o).call p.s .drain = { p.s with base := s1 } := by
        simp only [machine]
        split at h1
        · rename_i hi
          simp only [Option.some.injEq, Prod.mk.injEq] at h1
          obtain ⟨rfl, -⟩ := h1
          rw [if_pos hi]
        · rename_i hi
          simp only [Option.some.injEq, Prod.mk.injEq] at h1
          obtain ⟨rfl, -⟩ := h1
          rw [if_neg hi]
      refine call .drain ?_ hinc ?_ ?_ ?_ <;> rw [hc]
      · exact hge
      · intro u hu
        have := hn u hu
        split at h1 <;> simp only [Option.some.injEq, Prod.mk.injEq] at h1 <;> (obtain ⟨rfl, -⟩ := h1; exact this)
      · exact hpos
    | step t b =>
      have hq := fresh_call frame hf (.choose t (flagFor p.s.base t b))
      have hn1 : ∀ v, p.s.next ≤ v → s1.node v = none := fun v hv => step_none (hn v hv) h1
      rw [← flagFor_step] at h1
      rcases flagFor_acc (o := o) p.s.base t b with hidle | ⟨a, ha⟩
      · simp only [step, hidle, Option.some.injEq, Prod.mk.injEq] at h1
        obtain ⟨rfl, -⟩ := h1
        exact ih p hf hinc hge hn hpos hr' h2
      · have hflag : ((machine α r o).call p.s (.choose t (flagFor p.s.base t b))).flag t = flagFor p.s.base t b := by simp [machine]
        obtain ⟨n, p', k1, k2, -, k4⟩ := fresh_go (s' := { (machine α r o).call p.s (.choose t (flagFor p.s.base t b)) with base := s1 }) frame hq
          (t := t) (a := a) (by
            show accOf o (((machine α r o).call p.s (.choose t (flagFor p.s.base t b))).flag t) _ _ = _
            rw [hflag]; exact ha) (by
            show Option.map _ (step true p.s.base (.step t (((machine α r o).call p.s (.choose t (flagFor p.s.base t b))).flag t))) = _
            rw [hflag, h1]; rfl)
        obtain ⟨as, p'', m1, m2⟩ := ih p' k4 hinc (by rw [k2]; exact hge) (by rw [k2]; exact hn1) (by rw [k2]; exact hpos) hr' (log := e2) (by
          rw [k2]; exact h2)
        refine ⟨.call (.choose t (flagFor p.s.base t b)) :: .step t n :: as, p'', ?_, m2⟩
        show (machine α r o).prun { p with s := (machine α r o).call p.s (.choose t (flagFor p.s.base t b)) } (.step t n :: as) = _
        simp only [Machine.prun]
        rw [k1]; exact m1

end Verif.LinkedList.Conc.Order
