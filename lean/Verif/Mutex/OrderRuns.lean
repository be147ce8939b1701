import Verif.Mutex.OrderCover
import Verif.Mutex.Nodes
/-! # Schedules of `Model.lean` are schedules with memory orderings -/
namespace Verif.Mutex.Order

open Verif.Order

variable {o : Ords}

theorem word_tk (s : OState) (n : Nat) : word s (tk n) = (s.base.node n).taken := by
  have h1 : ¬ 4 + 2 * n = 0 := by omega
  have h2 : 4 ≤ 4 + 2 * n ∧ (4 + 2 * n) % 2 = 0 := by omega
  have h3 : (4 + 2 * n - 4) / 2 = n := by omega
  simp only [word, tk, lockLoc, if_neg h1, if_pos h2, h3]

theorem word_congr {s s' : OState} {l : Nat} (h1 : l = lockLoc → s'.base.locked = s.base.locked)
    (h2 : ∀ n, l = tk n → (s'.base.node n).taken = (s.base.node n).taken) : word s' l = word s l := by
  unfold word
  split
  · rename_i h; exact h1 h
  · split
    · rename_i h; exact h2 _ (by unfold tk; omega)
    · rfl

theorem set_word (s : OState) (l : Nat) : setWord s l (word s l) = s := by
  unfold setWord word
  split
  · rfl
  · split
    · have : upd s.base.node ((l - 4) / 2) (s.base.node ((l - 4) / 2)) = s.base.node := by
        funext m; rw [upd_apply]; split <;> simp [*]
      simp only [State.setN, this]
    · rfl

/-- No client is inside a creation, a release or a use of the guard. -/
structure Calm (s : OState) : Prop where
  use : ∀ q, s.use q = false
  rel : ∀ q, s.rel q = none
  sub : ∀ q, s.sub q = 0

/-- Nodes that do not exist are not taken. -/
def Unused (b : State) : Prop := ∀ n, b.next ≤ n → (b.node n).taken = false

theorem call_unused {b : State} {p : Nat} {op : Op} (h : Unused b) : Unused (call b p op) := by
  unfold call
  simp only
  split
  · exact h
  · cases op <;> simp only <;> (repeat' split) <;> exact h

theorem pstep_unused {b b' : State} {p : Nat} (i : InvN b) (h : Unused b) (hs : pstep b p = some b') : Unused b' := by
  have hn : ∀ n, (b.client p).pc.own = some n → n < b.next := fun n h => ((i.cl p).olt n h).1
  have hl : ∀ n l, (b.client p).pc = .ulScan (n :: l) → n < b.next := by
    intro n l h
    have := (i.cl p).suf
    rw [h] at this
    exact (i.live n (suffix_mem this).1).1
  unfold pstep at hs
  simp only at hs
  cases hpc : (b.client p).pc <;> simp only [hpc] at hs hn hl <;>
    step_cases <;>
    simp only [Option.some.injEq, reduceCtorEq] at hs <;> (try subst hs) <;>
    first
    | exact h
    | (intro m hm
       simp only [upd_apply] at hm ⊢
       split
       · rename_i e
         subst e
         first
         | exact h m hm
         | rfl
         | omega
         | (have := hn m rfl; omega)
         | (have := hl m _ rfl; omega)
       · exact h m (by omega))

/-- Which objects a step writes. -/
theorem pstep_word {s : OState} {b : State} {p : Nat} {a : Acc} (hp : ∀ w, (s.base.client p).pc ≠ .ppush w)
    (ha : accPc o s p (s.base.client p).pc = some a) (hsub : s.sub p = 0) (hcut : ∀ n l, (s.base.client p).pc ≠ .ulCut n l) (hs : pstep s.base p = some b) (l : Nat) (hl : a.wr ≠ some l) (s' : OState)
    (h' : s'.base = b) : word s' l = word s l := by
  refine word_congr (fun e => ?_) (fun n e => ?_)
  all_goals
    subst e
    rw [h']
    unfold pstep at hs
    simp only at hs
    cases hpc : (s.base.client p).pc <;> simp only [hpc, accPc] at hs ha hp hcut
    all_goals
      (try exact absurd rfl (hp _)) <;> (try exact absurd rfl (hcut _ _)) <;>
      step_cases <;>
      simp only [Option.some.injEq, reduceCtorEq] at hs ha <;> (try subst hs) <;> (try subst ha) <;> (try simp only [Acc.wr, Option.some.injEq, ne_eq, not_true_eq_false] at hl) <;>
      first
      | rfl
      | (simp only [upd_apply]
         split
         · rename_i e; subst e; first | rfl | exact absurd rfl hl
         · rfl)
      | skip

/-- A step of `Model.lean`. -/
theorem cover_step {q : PState OState Bool} {p : Nat} {b : State} (hf : Fresh (machine o) q) (hc : Calm q.s) (hb : Unused q.s.base)
    (hs : pstep q.s.base p = some b) : ∃ as q', (machine o).prun q as = some q' ∧ Fresh (machine o) q' ∧ Calm q'.s ∧ q'.s.base = b := by
  have hu := hc.use p
  have hr := hc.rel p
  have hsub := hc.sub p
  have ha : acc o p q.s = accPc o q.s p (q.s.base.client p).pc := by simp only [acc, hu, hr, Bool.false_eq_true, if_false]
  by_cases hp : ∃ w, (q.s.base.client p).pc = .ppush w
  · obtain ⟨w, hpc⟩ := hp
    simp only [pstep, hpc, Option.some.injEq] at hs
    have a1 : acc o p q.s = some (.other (tk q.s.base.next) .write) := by rw [ha, hpc]; simp only [accPc, hsub, if_true]
    obtain ⟨n1, q1, h1, e1, -, f1⟩ := fresh_step_of (M := machine o) set_word hf a1 (s' := ⟨{ q.s.base with next := q.s.base.next + 1 }, q.s.use,
        upd q.s.sub p 1, upd q.s.tag p q.s.base.next, q.s.rel, upd q.s.maker q.s.base.next p⟩)
      (by simp only [machine, ostep, hu, hr, hpc, hsub, Bool.false_eq_true, if_false, if_true]) (fun l _ => rfl)
    have a2 : acc o p q1.s = some (.other (wk q.s.base.next) .write) := by
      simp [e1, acc, hu, hr, hpc, accPc, upd_apply]
    obtain ⟨n2, q2, h2, e2, -, f2⟩ := fresh_step_of (M := machine o) set_word f1 a2 (s' := { q1.s with sub := upd q1.s.sub p 2 })
      (by rw [e1]; simp [machine, ostep, hu, hr, hpc, upd_apply]) (fun l _ => rfl)
    have a3 : acc o p q2.s = some (.rmw headLoc o.push) := by
      rw [e2, e1]
      simp [acc, hu, hr, hpc, accPc, upd_apply]
    obtain ⟨n3, q3, h3, e3, -, f3⟩ := fresh_step_of (M := machine o) set_word f2 a3
      (s' := { q2.s with base := b, sub := upd q2.s.sub p 0 })
      (by rw [e2, e1, ← hs]; simp [machine, ostep, hu, hr, hpc, upd_apply, pstep, State.setN, State.setC, State.emit]) (fun l _ => by
        refine word_congr (fun _ => by rw [e2, e1, ← hs]; rfl) (fun n _ => ?_)
        rw [e2, e1, ← hs]
        simp only [State.setN, State.setC, State.emit, upd_apply]
        split
        · rename_i e; rw [e, hb _ (Nat.le_refl _)]
        · rfl)
    refine ⟨[.step p n1, .step p n2, .step p n3], q3, by simp only [Machine.prun, h1, h2, h3], f3, ?_, by rw [e3]⟩
    rw [e3, e2, e1]
    refine ⟨hc.use, hc.rel, fun r => ?_⟩
    have := hc.sub r
    simp only [upd_apply]
    split <;> first | rfl | simp_all
  · by_cases hcut : ∃ n l, (q.s.base.client p).pc = .ulCut n l
    · obtain ⟨n, l, hpc⟩ := hcut
      simp only [pstep, hpc] at hs
      split at hs
      · cases hs
      rename_i hfr
      simp only [Option.some.injEq] at hs
      have a1 : acc o p q.s = some (.load (tk n) o.drop) := by rw [ha, hpc]; simp only [accPc, hsub, if_true]
      obtain ⟨n1, q1, h1, e1, -, f1⟩ := fresh_step_of (M := machine o) set_word hf a1 (s' := { q.s with sub := upd q.s.sub p 1 })
        (by simp only [machine, ostep, hu, hr, hpc, hsub, hfr, Bool.false_eq_true, if_false, if_true]) (fun l _ => rfl)
      have a2 : acc o p q1.s = some (.other (tk n) .write) := by
        simp [e1, acc, hu, hr, hpc, accPc, upd_apply]
      obtain ⟨n2, q2, h2, e2, -, f2⟩ := fresh_step_of (M := machine o) set_word f1 a2
        (s' := { q1.s with base := b, sub := upd q1.s.sub p 0, rel := upd q1.s.rel p (some n) })
        (by rw [e1, ← hs]; simp [machine, ostep, hu, hr, hpc, upd_apply, pstep, State.setN, State.goto, State.setC, State.emit, hfr]) (fun l _ => by
          refine word_congr (fun _ => by rw [e1, ← hs]; rfl) (fun m _ => ?_)
          rw [e1, ← hs]
          simp only [State.setN, State.goto, State.setC, State.emit, upd_apply]
          split
          · rename_i e; rw [e]
          · rfl)
      have a3 : acc o p q2.s = some (.other (wk n) .write) := by
        rw [e2, e1]
        simp [acc, hu, upd_apply]
      obtain ⟨n3, q3, h3, e3, -, f3⟩ := fresh_step_of (M := machine o) set_word f2 a3 (s' := { q2.s with rel := upd q2.s.rel p none })
        (by rw [e2, e1]; simp [machine, ostep, hu, upd_apply]) (fun l _ => rfl)
      refine ⟨[.step p n1, .step p n2, .step p n3], q3, by simp only [Machine.prun, h1, h2, h3], f3, ?_, by rw [e3, e2]⟩
      rw [e3, e2, e1]
      refine ⟨hc.use, fun r => ?_, fun r => ?_⟩
      · have := hc.rel r
        simp only [upd_apply]
        split <;> first | rfl | simp_all
      · have := hc.sub r
        simp only [upd_apply]
        split <;> first | rfl | simp_all
    · cases hacc : acc o p q.s with
      | none =>
        have hidle : (q.s.base.client p).pc = .idle := by
          rw [ha] at hacc
          unfold accPc at hacc
          (repeat' split at hacc) <;> simp_all
        simp only [pstep, hidle, Option.some.injEq] at hs
        exact ⟨[], q, rfl, hf, hc, hs⟩
      | some a =>
        have hst : ostep p q.s = some { q.s with base := b } := by
          simp only [ostep, hu, hr, Bool.false_eq_true, if_false]
          split
          · exact absurd ⟨_, by assumption⟩ hp
          · exact absurd ⟨_, _, by assumption⟩ hcut
          · rw [hs]; rfl
        obtain ⟨n, q', h1, h2, -, h4⟩ := fresh_step_of (M := machine o) set_word hf hacc hst
          (fun l hl => pstep_word (fun w h => hp ⟨w, h⟩) (ha ▸ hacc) hsub (fun n l h => hcut ⟨n, l, h⟩) hs l hl _ rfl)
        exact ⟨[.step p n], q', by simp only [Machine.prun, h1], h4, by rw [h2]; exact ⟨hc.use, hc.rel, hc.sub⟩, by rw [h2]⟩

theorem prun_append {S W A : Type} {M : Machine S W A} {q q' : PState S W} {as bs : List (PAct A)} (h : M.prun q as = some q') :
    M.prun q (as ++ bs) = M.prun q' bs := by
  induction as generalizing q with
  | nil => simp only [Machine.prun, Option.some.injEq] at h; subst h; rfl
  | cons a as ih =>
    simp only [Machine.prun, List.cons_append] at h ⊢
    split at h
    · cases h
    · exact ih h

theorem cover {s : State} (acts : List Act) : ∀ (q : PState OState Bool), Fresh (machine o) q → Calm q.s → InvO q.s.base → InvN q.s.base → Unused q.s.base →
    run q.s.base acts = some s → ∃ as q', (machine o).prun q as = some q' ∧ q'.s.base = s := by
  induction acts with
  | nil => intro q _ _ _ _ _ h; simp only [run, Option.some.injEq] at h; exact ⟨[], q, rfl, h⟩
  | cons a as ih =>
    intro q hf hc ho hi hb h
    simp only [run] at h
    split at h
    · cases h
    · rename_i b hs
      cases a with
      | call p op =>
        simp only [step, Option.some.injEq] at hs
        subst hs
        have hst : (machine o).pstep q (.call (.op p op)) = some { q with s := { q.s with base := call q.s.base p op } } := by
          simp [Machine.pstep, machine, ocall, hc.use p]
        have hcw : (machine o).word { q.s with base := call q.s.base p op } = (machine o).word q.s := by
          funext l
          refine word_congr (fun _ => ?_) (fun n _ => ?_)
          all_goals
            simp only [call]
            split
            · rfl
            · cases op <;> simp only <;> (repeat' split) <;> rfl
        obtain ⟨as', q', h1, h2⟩ := ih { q with s := { q.s with base := call q.s.base p op } }
          ⟨fun l => (by rw [hcw]; exact hf.last l), hf.seen⟩ ⟨hc.use, hc.rel, hc.sub⟩ (call_invO ho p op) (call_invN hi p op) (call_unused hb) h
        exact ⟨.call (.op p op) :: as', q', by simp only [Machine.prun, hst]; exact h1, h2⟩
      | step p =>
        obtain ⟨as1, q1, h1, h2, h3, rfl⟩ := cover_step hf hc hb hs
        obtain ⟨as2, q2, h4, h5⟩ := ih q1 h2 h3 (pstep_invO ho hs) (pstep_invN ho hi hs) (pstep_unused hi hb hs) h
        exact ⟨as1 ++ as2, q2, by rw [prun_append h1]; exact h4, h5⟩

theorem node_race (ho : Most o) {tr : List Ev} (ht : (machine o).Trace tr) {i j : Nat} (hr : Race tr i j) : NodeRace tr i j := by
  obtain ⟨⟨t, l, k⟩, h1, ⟨u, l', k'⟩, n, h2, h3, h4, h5, h6, m, h7, h8⟩ := (sound ho).races plain ht hr
  obtain ⟨hij, e, f, he, hf, hc, -⟩ := hr
  rw [List.getElem?_take_of_lt hij] at h2
  rw [List.getElem?_take_of_lt (by omega)] at h8
  rw [h1, Option.some.injEq] at hf
  rw [h2, Option.some.injEq] at he
  subst he hf
  simp only at h4 h5 h6 h8
  subst h4 h5
  exact ⟨n, u, t, l', k', m, h3, h7, hc.1, h8, h2, h6, h1⟩

end Verif.Mutex.Order
