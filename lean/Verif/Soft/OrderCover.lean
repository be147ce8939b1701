import Verif.Soft.OrderFound
import Verif.Order.MachineLemmas
/-! # The schedules of the model without memory orderings -/
namespace Verif.Soft.Order

open Verif.Order

variable {count : Nat} {o : Ords} {prio : Nat → Nat}

theorem upd_self {α : Type} (f : Nat → α) (i : Nat) : Soft.upd f i (f i) = f := by
  funext j; unfold Soft.upd; split
  · rename_i e; rw [e]
  · rfl

theorem set_word (s : SState) (l : Nat) : (machine count prio o).setWord s l ((machine count prio o).word s l) = s := by
  simp only [machine]
  split
  · rw [ofNat_toNat, upd_self]
  · split
    · rw [upd_self]
    · rfl

theorem word_eq {s s' : SState} (h1 : s'.base.mem = s.base.mem) (h2 : s'.base.prio = s.base.prio) (l : Nat) :
    (machine count prio o).word s' l = (machine count prio o).word s l := by
  simp only [machine, h1, h2]

theorem frame_prio {s b : State} {rest : List Frame} {f : Frame} (h : frameStep count s rest f = some b) : b.prio = s.prio := by
  cases f with
  | req thr pc =>
    cases pc <;> simp only [frameStep] at h
    · cases h; rfl
    · split at h <;> cases h; rfl
    · cases h; rfl
  | start => simp only [frameStep] at h; split at h <;> (cases h; rfl)
  | row r pc =>
    cases pc <;> simp only [frameStep] at h
    · (repeat' split at h) <;> cases h <;> rfl
    · (repeat' split at h) <;> cases h <;> rfl
    · split at h <;> (cases h; rfl)
    · cases h; rfl
  | clear thr p =>
    cases p <;> simp only [frameStep] at h
    · cases h; rfl
    · split at h <;> cases h; rfl
  | plain thr c => simp only [frameStep] at h; split at h <;> (cases h; rfl)

/-- A step of the core changes only the word that it accesses. -/
theorem frame_word {s : SState} {b : State} {rest : List Frame} {f : Frame} {a : Acc} (h : frameStep count s.base rest f = some b)
    (ha : accFrame o count s.flag s.base f = some a) (hf : f = .start → s.flag = false) :
    ∀ l, a.wr ≠ some l → (machine count prio o).word { ghosts count s f with base := b } l = (machine count prio o).word s l := by
  have hp := frame_prio h
  have key : ∀ {i : Nat} {v : U32}, b.mem = Soft.upd s.base.mem i v → ∀ l, some (memLoc i) ≠ some l →
      (machine count prio o).word { ghosts count s f with base := b } l = (machine count prio o).word s l := by
    intro i v hm l hl
    simp only [machine, hm, hp]
    split
    · have : l / 3 ≠ i := fun e => hl (by unfold memLoc; congr 1; omega)
      simp only [Soft.upd, if_neg this]
    · rfl
  have same : b.mem = s.base.mem → ∀ l, a.wr ≠ some l →
      (machine count prio o).word { ghosts count s f with base := b } l = (machine count prio o).word s l := fun hm l _ => word_eq hm hp l
  cases f with
  | req thr pc =>
    cases pc <;> simp only [frameStep] at h <;> simp only [accFrame, Option.some.injEq] at ha <;> subst ha
    · exact same (by cases h; rfl)
    · split at h <;> cases h
      exact key rfl
    · cases h; exact key rfl
  | start =>
    simp only [accFrame, hf rfl, Bool.false_eq_true, if_false] at ha
    split at ha
    · rename_i hfi
      simp only [Option.some.injEq] at ha
      subst ha
      simp only [frameStep] at h
      split at h
      · rename_i he
        unfold finds at hfi
        rw [he] at hfi; cases hfi
      · cases h; exact key rfl
    · cases ha
  | row r pc =>
    cases pc with
    | load thr =>
      refine same ?_
      simp only [frameStep] at h
      (repeat' split at h) <;> cases h <;> rfl
    | bits thr cell bit =>
      simp only [accFrame] at ha
      split at ha
      · rename_i hc
        simp only [Option.some.injEq] at ha
        subst ha
        simp only [frameStep] at h
        rw [if_pos hc] at h
        split at h <;> cases h
        exact key rfl
      · cases ha
    | call thr cell bit c => cases ha
    | next =>
      simp only [accFrame, Option.some.injEq] at ha
      subst ha
      simp only [frameStep, Option.some.injEq] at h
      subst h
      exact key rfl
  | clear thr p =>
    cases p <;> simp only [frameStep] at h <;> simp only [accFrame, Option.some.injEq] at ha <;> subst ha
    · exact same (by cases h; rfl)
    · split at h <;> cases h
      exact key rfl
  | plain thr c => cases ha

theorem call_fresh {p : PState SState Nat} (hf : Fresh (machine count prio o) p) {s' : SState} (hm : s'.base.mem = p.s.base.mem)
    (hp : s'.base.prio = p.s.base.prio) : Fresh (machine count prio o) { p with s := s' } :=
  ⟨fun l => by dsimp only; rw [word_eq hm hp]; exact hf.last l, hf.seen⟩

theorem act_prio {s b : State} {a : Act} (h : step count s a = some b) (ha : ∀ thr p, a ≠ .setPrio thr p) : b.prio = s.prio := by
  cases a with
  | step =>
    simp only [step] at h
    split at h
    · cases h; rfl
    · exact frame_prio h
  | setPrio thr p => exact absurd rfl (ha thr p)
  | ret | preempt => cases h; rfl
  | pend thr | clear thr | enter thr => simp only [step, Option.some.injEq] at h; subst h; split <;> rfl

/-- Priorities do not change. -/
def NoSet (acts : List Act) : Prop := ∀ thr p, .setPrio thr p ∉ acts

theorem cover_step {p : PState SState Nat} (hf : Fresh (machine count prio o) p) (ht : p.s.task = none) {a : Act} (ha : ∀ thr q, a ≠ .setPrio thr q) {b : State}
    (hs : step count p.s.base a = some b) :
    ∃ as p', (machine count prio o).prun p as = some p' ∧ Fresh (machine count prio o) p' ∧ p'.s.task = none ∧ p'.s.base = b := by
  by_cases h : a = .step
  · subst h
    cases hturn : isTurn p.s.base.stack with
    | true =>
      refine ⟨[.call .turn], { p with s := { p.s with base := b } }, ?_, call_fresh hf (turn_mem hturn hs) (act_prio hs ha), ht, rfl⟩
      simp only [Machine.prun, Machine.pstep, machine, hturn, if_true, hs]
    | false =>
      cases hst : p.s.base.stack with
      | nil =>
        simp only [step, hst, Option.some.injEq] at hs
        exact ⟨[], p, rfl, hf, ht, hs⟩
      | cons f rest =>
        have hs' := hs
        simp only [step, hst] at hs
        by_cases hnf : f = .start ∧ finds p.s.base = false
        · obtain ⟨rfl, hnf⟩ := hnf
          have hb : b = { p.s.base with stack := rest } := by
            simp only [frameStep] at hs
            split at hs
            · exact (Option.some.inj hs).symm
            · rename_i he
              unfold finds at hnf
              rw [he] at hnf; cases hnf
          let q : PState SState Nat := { p with s := { p.s with flag := true } }
          have hacc : (machine count prio o).acc 0 q.s = some (.load (memLoc 0) o.startRead) := by
            simp only [q, machine, if_true, ht, hst, accFrame]
          have hstep : (machine count prio o).step 0 q.s = some { q.s with base := b } := by
            simp only [q, machine, if_true, ht, coreStep, hst, and_self, hnf, Bool.false_eq_true, if_false, hb]
          obtain ⟨n, p', h1, h2, -, h4⟩ := fresh_step_of set_word (call_fresh hf (s' := q.s) rfl rfl) hacc hstep (fun l _ => word_eq (by rw [hb]) (by rw [hb]) l)
          refine ⟨[.call (.choose true), .step 0 n], p', ?_, h4, by rw [h2]; exact ht, by rw [h2]⟩
          have h1' : (machine count prio o).pstep { p with s := (machine count prio o).call p.s (.choose true) } (.step 0 n) = some p' := h1
          simp only [Machine.prun]
          rw [show (machine count prio o).pstep p (.call (.choose true)) = some { p with s := (machine count prio o).call p.s (.choose true) } from rfl]
          simp only [h1']
        · let q : PState SState Nat := { p with s := { p.s with flag := false } }
          obtain ⟨a, hacc⟩ : ∃ a, accFrame o count false p.s.base f = some a := by
            cases f with
            | req thr pc => cases pc <;> exact ⟨_, rfl⟩
            | start =>
              have : finds p.s.base = true := by
                cases h : finds p.s.base
                · exact absurd ⟨rfl, h⟩ hnf
                · rfl
              simp only [accFrame, Bool.false_eq_true, if_false, this, if_true]
              exact ⟨_, rfl⟩
            | row r pc =>
              cases pc with
              | load thr => exact ⟨_, rfl⟩
              | bits thr cell bit =>
                rw [hst] at hturn
                have hc : cell &&& bit ≠ 0 := of_decide_eq_false hturn
                simp only [accFrame]
                rw [if_pos hc]
                exact ⟨_, rfl⟩
              | call thr cell bit c => rw [hst] at hturn; cases hturn
              | next => exact ⟨_, rfl⟩
            | clear thr p => cases p <;> exact ⟨_, rfl⟩
            | plain thr c => rw [hst] at hturn; cases hturn
          have hacc' : (machine count prio o).acc 0 q.s = some a := by
            simp only [q, machine, if_true, ht, hst, hacc]
          have hstep : (machine count prio o).step 0 q.s = some { ghosts count q.s f with base := b } := by
            simp only [q, machine, if_true, ht, coreStep, hst, Bool.false_eq_true, and_false, if_false, hs]
          obtain ⟨n, p', h1, h2, -, h4⟩ := fresh_step_of set_word (call_fresh hf (s' := q.s) rfl rfl) hacc' hstep
            (frame_word (s := q.s) (rest := rest) hs hacc fun _ => rfl)
          refine ⟨[.call (.choose false), .step 0 n], p', ?_, h4, ?_, by rw [h2]⟩
          · have h1' : (machine count prio o).pstep { p with s := (machine count prio o).call p.s (.choose false) } (.step 0 n) = some p' := h1
            simp only [Machine.prun]
            rw [show (machine count prio o).pstep p (.call (.choose false)) = some { p with s := (machine count prio o).call p.s (.choose false) } from rfl]
            simp only [h1']
          · rw [h2]
            have : (ghosts count q.s f).task = q.s.task := by
              unfold ghosts
              split
              · rfl
              · split <;> rfl
              · rfl
              · rfl
              · rfl
            simp only [this]
            exact ht
  · refine ⟨[.call (.act a)], { p with s := { p.s with base := b } }, ?_, call_fresh hf (act_mem hs h) (act_prio hs ha), ht, rfl⟩
    have : (machine count prio o).call p.s (.act a) = { p.s with base := b } := by
      cases a with
      | step => exact absurd rfl h
      | setPrio thr q => exact absurd rfl (ha thr q)
      | _ => simp only [machine, hs]
    simp only [Machine.prun, Machine.pstep, this]

theorem prun_app {S W A : Type} {M : Machine S W A} {as as' : List (PAct A)} : ∀ {p q : PState S W}, M.prun p as = some q →
    M.prun p (as ++ as') = M.prun q as' := by
  induction as with
  | nil => intro p q h; cases h; rfl
  | cons y as ih =>
    intro p q h
    simp only [Machine.prun, List.cons_append] at h ⊢
    split at h
    · cases h
    · exact ih h

theorem cover (acts : List Act) : ∀ {p : PState SState Nat} {b : State}, Fresh (machine count prio o) p → p.s.task = none → NoSet acts →
    run count p.s.base acts = some b → ∃ as p', (machine count prio o).prun p as = some p' ∧ p'.s.base = b := by
  induction acts with
  | nil => intro p b _ _ _ h; simp only [run, Option.some.injEq] at h; exact ⟨[], p, rfl, h⟩
  | cons a acts ih =>
    intro p b hf ht hn h
    simp only [run] at h
    split at h
    · cases h
    · rename_i c hs
      obtain ⟨as, q, h1, h2, h3, h4⟩ := cover_step (prio := prio) (o := o) hf ht (fun thr q e => hn thr q (e ▸ List.mem_cons_self)) hs
      subst h4
      obtain ⟨as', q', h5, h6⟩ := ih h2 h3 (fun thr q hm => hn thr q (List.mem_cons_of_mem _ hm)) h
      refine ⟨as ++ as', q', ?_, h6⟩
      rw [prun_app h1, h5]

end Verif.Soft.Order
