import Verif.Ring.SpecProps
import Verif.Ring.LogErr
import Verif.Ring.LogFin
import Verif.Ring.LogWake
import Verif.Ring.LogTx
import Verif.Ring.LogSeq
/-! # Lemmas for the properties of the ring channel -/
namespace Verif.Ring

open Verif.Spsc

variable {k cap : Nat} {τ ε : Type}

theorem reach (h1 : 1 < cap) (hcap : cap < 2 ^ k) {acts : List (Act τ ε)} {s : State k τ ε}
    (h : run cap (init k τ ε) acts = some s) :
    (Inv cap s ∨ Doomed s) ∧ InvL cap s ∧ LogA s ∧ LogB s ∧ LogC s ∧ LogE s ∧ LogD cap s ∧ LogH s := by
  have := run_ind h1 hcap (Q := fun _ => True) (P := fun s => LogA s ∧ LogB s ∧ LogC s ∧ LogE s ∧ LogD cap s ∧ LogH s)
    (fun s a s' inv il _ p hs => ⟨step_logA s a s' inv il p.1 hs, step_logB s a s' inv p.2.1 hs, step_logC s a s' inv il p.2.2.1 hs,
      step_logE h1 hcap s a s' inv il p.2.2.2.1 hs, step_logD h1 hcap s a s' inv il p.2.2.2.2.1 hs, step_logH s a s' p.2.2.2.1 p.2.2.2.2.2 hs⟩)
    (.inl (init_inv cap k τ ε)) (init_invL h1) ⟨init_logA, init_logB, init_logC, init_logE, init_logD, init_logH⟩ (Always.trivial _ _) h
  exact this

theorem reachS (h1 : 1 < cap) (hcap : cap < 2 ^ k) {acts : List (Act τ ε)} {s : State k τ ε}
    (al : Always cap Sequential (init k τ ε) acts) (h : run cap (init k τ ε) acts = some s) : LogS cap s :=
  (run_ind h1 hcap (P := fun s => LogD cap s ∧ LogS cap s)
    (fun s a s' inv il q p hs => ⟨step_logD h1 hcap s a s' inv il p.1 hs, step_logS h1 hcap s a s' inv il p.1 q p.2 hs⟩)
    (.inl (init_inv cap k τ ε)) (init_invL h1) ⟨init_logD, init_logS⟩ al h).2.2.2

theorem reachC (h1 : 1 < cap) (hcap : cap < 2 ^ k) {acts : List (Act τ ε)} {s : State k τ ε}
    (al : Always cap (fun t => ¬Clash cap t) (init k τ ε) acts) (h : run cap (init k τ ε) acts = some s) :
    InvL cap s ∧ InvC cap s :=
  (run_ind h1 hcap (P := fun s => InvC cap s) (fun _ _ _ inv il q p hs => step_invC h1 hcap inv il q p hs)
    (.inl (init_inv cap k τ ε)) (init_invL h1) init_invC al h).2

theorem sIdle_inv (h1 : 1 < cap) (hcap : cap < 2 ^ k) {acts : List (Act τ ε)} {s : State k τ ε}
    (h : run cap (init k τ ε) acts = some s) (hi : s.spc = .idle) : Inv cap s ∧ s.freed = false := by
  rcases (reach h1 hcap h).1 with i | d
  · exact ⟨i, by rw [i.freed, hi]; rfl⟩
  · rcases d.2 with ⟨d, _⟩ | ⟨_, d⟩ <;> simp [hi, SPc.leaving, sGone] at d

theorem rIdle_inv (h1 : 1 < cap) (hcap : cap < 2 ^ k) {acts : List (Act τ ε)} {s : State k τ ε}
    (h : run cap (init k τ ε) acts = some s) (hi : s.rpc = .idle) : Inv cap s ∧ s.freed = false := by
  rcases (reach h1 hcap h).1 with i | d
  · exact ⟨i, by rw [i.freed, hi]; simp [rGone]⟩
  · rcases d.2 with ⟨_, d⟩ | ⟨d, _⟩ <;> simp [hi, RPc.leaving, rGone] at d

theorem run_append (u : State k τ ε) (xs ys : List (Act τ ε)) :
    run cap u (xs ++ ys) = (run cap u xs).bind (fun v => run cap v ys) := by
  induction xs generalizing u with
  | nil => rfl
  | cons x xs ih => simp only [List.cons_append, run]; split <;> simp [*]

theorem hist_mem {ok : Event τ ε → List (Event τ ε) → Prop} {l₁ l₂ : List (Event τ ε)} {e : Event τ ε}
    (h : Hist ok (l₁ ++ e :: l₂)) : ok e l₂ ∧ Hist ok l₂ := by
  induction l₁ with
  | nil => exact h
  | cons a l ih => exact ih h.2

theorem left_tail {e : Event τ ε} {l : List (Event τ ε)} (h : SenderLeft l) : SenderLeft (e :: l) := by
  rcases h with h | h
  · cases e <;> first | exact .inl h | exact .inl (by simp [errs])
  · exact .inr (List.mem_cons_of_mem _ h)

/-! ### Replaying logs -/

theorem head_tail {α : Type} (l : List α) : l.head?.toList ++ l.tail = l := by cases l <;> rfl

theorem pushed_eq (l : List (Event τ ε)) : pushed l = (removals l).map (·.2) ++ (abs l).pend := by
  induction l with
  | nil => rfl
  | cons e l ih =>
    cases e <;> simp only [pushed, removals, abs, List.map_append, List.append_assoc, ih]
    case claimRx => rw [List.map_map]; simp [Function.comp_def, head_tail]
    case claimTx => rw [List.map_map]; simp [Function.comp_def, head_tail]
    case claimAll => simp [Function.comp_def]

theorem removedBy_append (w : Who) (r r' : List (Who × τ)) : removedBy w (r ++ r') = removedBy w r ++ removedBy w r' := by
  simp [removedBy]

theorem removedBy_map (w w' : Who) (l : List τ) : removedBy w (l.map (fun v => (w', v))) = if w' = w then l else [] := by
  induction l with
  | nil => simp [removedBy]
  | cons v l ih =>
    rw [removedBy] at ih ⊢
    by_cases h : w' = w <;> simp_all

theorem removedBy_eq {l : List (Event τ ε)} (h : Hist OkVal l) :
    removedBy .receiver (removals l) = received l ++ (abs l).rx.toList ∧
    removedBy .sender (removals l) = overwritten l ++ (abs l).tx.toList ∧
    removedBy .drop (removals l) = droppedVals l ++ (abs l).del := by
  induction l with
  | nil => exact ⟨rfl, rfl, rfl⟩
  | cons e l ih =>
    obtain ⟨i1, i2, i3⟩ := ih h.2
    have h0 := h.1
    cases e with
    | claimRx =>
      have a := h0.1
      simp only [removals, received, overwritten, droppedVals, abs, removedBy_append, removedBy_map, i1, i2, i3, a]
      simp
    | claimTx =>
      have a : (abs l).tx = none := h0
      simp only [removals, received, overwritten, droppedVals, abs, removedBy_append, removedBy_map, i1, i2, i3, a]
      simp
    | claimAll =>
      have a := h0.1
      have b := h0.2
      simp only [removals, received, overwritten, droppedVals, abs, removedBy_append, removedBy_map, i1, i2, i3, b]
      simp
    | recv v =>
      have a : (abs l).rx = some v := h0
      simp only [removals, received, overwritten, droppedVals, abs, i1, i2, i3, a]
      simp
    | overwrote v =>
      have a : (abs l).tx = some v := h0
      simp only [removals, received, overwritten, droppedVals, abs, i1, i2, i3, a]
      simp
    | dropped v =>
      have a : (abs l).del.head? = some v := h0
      simp only [removals, received, overwritten, droppedVals, abs, i1, i2, i3]
      refine ⟨trivial, trivial, ?_⟩
      have := head_tail (abs l).del
      rw [a] at this
      simp only [Option.toList_some] at this
      conv => lhs; rw [← this]
      simp
    | _ => exact ⟨i1, i2, i3⟩

theorem perm_removedBy (r : List (Who × τ)) :
    (r.map (·.2)).Perm (removedBy .receiver r ++ removedBy .sender r ++ removedBy .drop r) := by
  induction r with
  | nil => exact .nil
  | cons a r ih =>
    obtain ⟨w, v⟩ := a
    cases w
    · simp only [removedBy] at ih ⊢
      simpa using ih
    · simp only [removedBy] at ih ⊢
      simp only [List.map_cons, List.filter_cons, reduceCtorEq, decide_false, Bool.false_eq_true, if_false, decide_true, if_true]
      refine (List.Perm.cons v ih).trans ?_
      simp only [List.append_assoc, List.cons_append]
      exact (List.perm_middle).symm
    · simp only [removedBy] at ih ⊢
      simp only [List.map_cons, List.filter_cons, reduceCtorEq, decide_false, Bool.false_eq_true, if_false, decide_true, if_true]
      refine (List.Perm.cons v ih).trans ?_
      exact (List.perm_middle).symm

/-- Without overwriting sends, before the receiver is dropped, only receives remove values. -/
theorem removals_rx {l : List (Event τ ε)} (h1 : Event.claimTx ∉ l) (h2 : Event.claimAll ∉ l) :
    (removals l).map (·.2) = removedBy .receiver (removals l) := by
  induction l with
  | nil => rfl
  | cons e l ih =>
    simp only [List.mem_cons, not_or] at h1 h2
    have ih := ih h1.2 h2.2
    cases e <;> simp only [removals, ih, removedBy_append, removedBy_map, List.map_append] <;> simp [Function.comp_def] at *

/-! ### The contents of the buffer -/

theorem addCursor_mod {c j : Nat} (hc : c < cap) (hj : j < cap) : addCursor c j cap = (c + j) % cap := by
  unfold addCursor
  split
  · rename_i h
    rw [Nat.mod_eq_sub_mod h, Nat.mod_eq_of_lt (by omega)]
  · exact (Nat.mod_eq_of_lt (by omega)).symm

/-- Between calls the log has nothing in flight. -/
theorem resting_abs {s : State k τ ε} (ic : InvC cap s) (hs : s.spc.resting = true) (hr : s.rpc.resting = true) :
    (abs s.log).rx = none ∧ (abs s.log).tx = none ∧ (abs s.log).del = [] := by
  have h1 := ic.1.rx
  have h2 := ic.1.tx
  have h3 := ic.1.del
  cases hh : s.rpc <;> simp [hh, RPc.resting] at hr <;> cases hh' : s.spc <;> simp [hh', SPc.resting] at hs <;>
    simp [hh, hh', rHold, sOw, rDel] at h1 h2 h3 <;> exact ⟨Option.map_eq_none_iff.1 h1.symm, Option.map_eq_none_iff.1 h2.symm, h3⟩

/-! ### Single calls -/

theorem run_full {s : State k τ ε} {v : τ} (hi : s.spc = .idle) (hf : s.freed = false) (hl : len s.st = cap) :
    run cap s (trySend v) = some ((s.emit (.callSend v)).emit (.full v)) := by
  obtain ⟨st, buf, err, rxw, txw, freed, spc, rpc, log⟩ := s
  dsimp only at hi hf hl
  subst hi hf
  simp [trySend, run, step, SPc.isIdle, sCall, State.emit, sStep, SPc.resting, hl]

theorem run_canceled {s : State k τ ε} {v : τ} (hi : s.spc = .idle) (hf : s.freed = false) (hl : len s.st ≠ cap)
    (hc : has s.st (CLOSED k) = true) (hlt : addCursor (cur s.st) (len s.st) cap < cap) :
    run cap s (trySend v) =
      some (({ s with buf := upd s.buf (addCursor (cur s.st) (len s.st) cap) none }.emit (.callSend v)).emit (.canceled v)) := by
  obtain ⟨st, buf, err, rxw, txw, freed, spc, rpc, log⟩ := s
  dsimp only at hi hf hl hc hlt
  subst hi hf
  have e : addLength st = st := by simp [addLength, hc]
  have hlt' : ¬cap ≤ addCursor (cur st) (len st) cap := by omega
  have e2 : ∀ (i : Nat), upd (upd buf i (some v)) i none = upd buf i none := by
    intro i; funext j; simp only [upd]; split <;> rfl
  simp [trySend, run, step, SPc.isIdle, sCall, State.emit, sStep, SPc.resting, hl, hc, hlt', e, upd_self, e2]

theorem run_push {s : State k τ ε} {v : τ} (hi : s.spc = .idle) (hf : s.freed = false) (hl : len s.st ≠ cap)
    (hc : has s.st (CLOSED k) = false) (hlt : addCursor (cur s.st) (len s.st) cap < cap)
    (hw : has s.st (RX k) = true → s.rxw.isSome = true) :
    run cap s (trySend v) =
      some { s with buf := upd s.buf (addCursor (cur s.st) (len s.st) cap) (some v), st := addLength s.st,
                    log := (if has s.st (RX k) then s.rxw.toList.map Event.wakeRefRx else []) ++ .push v :: .callSend v :: s.log } := by
  obtain ⟨st, buf, err, rxw, txw, freed, spc, rpc, log⟩ := s
  dsimp only at hi hf hl hc hlt hw
  subst hi hf
  have hlt' : ¬cap ≤ addCursor (cur st) (len st) cap := by omega
  cases hr : has st (RX k)
  · simp [trySend, run, step, SPc.isIdle, sCall, State.emit, sStep, SPc.resting, hl, hc, hlt', hr]
  · cases rxw with
    | none => simp [hr] at hw
    | some w => simp [trySend, run, step, SPc.isIdle, sCall, State.emit, sStep, SPc.resting, hl, hc, hlt', hr]

end Verif.Ring
