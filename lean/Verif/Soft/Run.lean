import Verif.Soft.Wake
import Verif.Soft.Cur
/-! # Software threads: whole histories -/
namespace Verif.Soft

theorem run_append {count : Nat} : ∀ {as bs : List Act} {s s' : State}, run count s (as ++ bs) = some s' →
    ∃ m, run count s as = some m ∧ run count m bs = some s'
  | [], _, s, _, h => ⟨s, rfl, h⟩
  | a :: as, bs, s, s', h => by
    simp only [List.cons_append, run] at h ⊢
    split at h
    · simp at h
    · exact run_append h

theorem run_app {count : Nat} : ∀ {as bs : List Act} {s m s' : State}, run count s as = some m → run count m bs = some s' →
    run count s (as ++ bs) = some s'
  | [], _, s, m, s', h, h' => by simp only [run, Option.some.injEq] at h; subst h; exact h'
  | a :: as, bs, s, m, s', h, h' => by
    simp only [List.cons_append, run] at h ⊢
    split at h
    · simp at h
    · exact run_app h h'

theorem run_invA {count : Nat} (hc : count ≤ 32) : ∀ {acts : List Act} {s s' : State}, InvA count s → run count s acts = some s' → InvA count s'
  | [], s, s', i, h => by simp only [run, Option.some.injEq] at h; exact h ▸ i
  | a :: as, s, s', i, h => by
    simp only [run] at h
    split at h
    · simp at h
    · rename_i m hm; exact run_invA hc (step_invA hc i hm) h

theorem run_invC {count : Nat} : ∀ {acts : List Act} {s s' : State}, InvC s → run count s acts = some s' → InvC s'
  | [], s, s', i, h => by simp only [run, Option.some.injEq] at h; exact h ▸ i
  | a :: as, s, s', i, h => by
    simp only [run] at h
    split at h
    · simp at h
    · rename_i m hm; exact run_invC (step_invC i hm) h

theorem run_invR {count : Nat} (hc : count ≤ 32) : ∀ {acts : List Act} {s s' : State}, NoClear acts → InvA count s → InvR count s →
    run count s acts = some s' → InvR count s'
  | [], s, s', _, _, k, h => by simp only [run, Option.some.injEq] at h; exact h ▸ k
  | a :: as, s, s', n, i, k, h => by
    simp only [run] at h
    split at h
    · simp at h
    · rename_i m hm
      have hn : ∀ t, a ≠ .clear t := by rintro t rfl; exact n t (by simp)
      exact run_invR hc (fun t ht => n t (by simp [ht])) (step_invA hc i hm) (step_invR hc hn i k hm) h

theorem run_invW {count : Nat} (hc : count ≤ 32) : ∀ {acts : List Act} {s s' : State}, Always count (fun s a => Whole s a ∧ NoSame s a) s acts →
    InvA count s → InvW count s → run count s acts = some s' → InvW count s'
  | [], s, s', _, _, k, h => by simp only [run, Option.some.injEq] at h; exact h ▸ k
  | a :: as, s, s', n, i, k, h => by
    simp only [run] at h
    split at h
    · simp at h
    · rename_i m hm
      exact run_invW hc (n.2 m hm) (step_invA hc i hm) (step_invW hc n.1.1 n.1.2 i k hm) h

theorem run_some {count : Nat} (hc : count ≤ 32) : ∀ {acts : List Act} {s : State}, PrioOk acts → InvA count s → ∃ s', run count s acts = some s'
  | [], s, _, _ => ⟨s, rfl⟩
  | a :: as, s, n, i => by
    have : ∃ m, step count s a = some m := by
      cases a with
      | step =>
        simp only [step]
        split
        · exact ⟨_, rfl⟩
        · rename_i f rest hst; exact frameStep_some hc i hst
      | setPrio t p =>
        simp only [step, levels, n t p (by simp), ↓reduceIte]
        exact ⟨_, rfl⟩
      | _ => exact ⟨_, rfl⟩
    obtain ⟨m, hm⟩ := this
    simp only [run, hm]
    exact run_some hc (fun t p h => n t p (by simp [h])) (step_invA hc i hm)

theorem pending_iff {count : Nat} (hc : count ≤ 32) {s : State} {t p : Nat} (ht : t < count) (hp : p < 27) :
    Pending count s t p ↔ (s.mem (27 - p)).getLsbD t = true := by
  rw [Pending, cellIdx_small ht hc hp, pendingBit_small (by omega), and_bit_ne (by omega)]

/-- Only testing the bits of a row logs a resume. -/
theorem run_event {count : Nat} {s s' : State} {a : Act} {t p : Nat} (h : step count s a = some s') (hl : s'.log = .run t p :: s.log) :
    a = .step ∧ ∃ r cell bit rest, s.stack = .row r (.bits t cell bit) :: rest ∧ p = r.priority - 1 ∧ cell &&& bit ≠ 0 := by
  have ne : ∀ (e : Event) (l : List Event), ¬ l = e :: l := fun e l h => by simpa using congrArg List.length h
  cases a <;> simp only [step] at h
  case step =>
    refine ⟨rfl, ?_⟩
    split at h
    · simp only [Option.some.injEq] at h; subst h; exact absurd hl (ne _ _)
    · rename_i f rest hst
      cases f with
      | req thr pc =>
        exfalso
        cases pc <;> simp only [frameStep] at h
        · simp only [Option.some.injEq] at h; subst h; exact ne _ _ hl
        · split at h
          · simp only [Option.some.injEq] at h; subst h; simp at hl
          · simp at h
        · simp only [Option.some.injEq] at h; subst h; exact ne _ _ hl
      | start =>
        exfalso
        simp only [frameStep] at h
        split at h <;> (simp only [Option.some.injEq] at h; subst h; exact ne _ _ hl)
      | row r pc =>
        cases pc with
        | load thr =>
          exfalso
          simp only [frameStep] at h
          split at h
          · split at h
            · split at h
              · simp only [Option.some.injEq] at h; subst h; exact ne _ _ hl
              · simp at h
            · simp only [Option.some.injEq] at h; subst h; exact ne _ _ hl
          · simp at h
        | bits thr cell bit =>
          simp only [frameStep] at h
          split at h
          · rename_i hb
            split at h
            · simp only [Option.some.injEq] at h; subst h
              simp only [List.cons.injEq, Event.run.injEq, and_true] at hl
              obtain ⟨rfl, rfl⟩ := hl
              exact ⟨r, cell, bit, rest, hst, rfl, hb⟩
            · simp at h
          · simp only [Option.some.injEq] at h; subst h; exact absurd hl (ne _ _)
        | call thr cell bit c =>
          exfalso
          simp only [frameStep] at h
          split at h <;> (simp only [Option.some.injEq] at h; subst h; exact ne _ _ hl)
        | next =>
          exfalso
          simp only [frameStep, Option.some.injEq] at h
          subst h; exact ne _ _ hl
      | clear thr q =>
        exfalso
        cases q <;> simp only [frameStep] at h
        · simp only [Option.some.injEq] at h; subst h; exact ne _ _ hl
        · split at h
          · simp only [Option.some.injEq] at h; subst h; simp at hl
          · simp at h
      | plain thr c =>
        exfalso
        simp only [frameStep] at h
        split at h <;> (simp only [Option.some.injEq] at h; subst h; exact ne _ _ hl)
  case ret => simp only [Option.some.injEq] at h; subst h; exact absurd hl (ne _ _)
  case setPrio =>
    split at h
    · simp only [Option.some.injEq] at h; subst h; exact absurd hl (ne _ _)
    · simp at h
  all_goals
    simp only [Option.some.injEq] at h
    try split at h
    all_goals (subst h; exact absurd hl (ne _ _))

theorem not_startAbove : ∀ {st : List Frame}, (∀ f ∈ st, f ≠ .start) → startAbove st = false
  | [], _ => rfl
  | f :: st, h => by
    cases f with
    | start => exact absurd rfl (h _ (by simp))
    | row r pc => rfl
    | _ => exact not_startAbove (st := st) fun g hg => h g (by simp [hg])

theorem covers_level {f : Frame} {t p : Nat} (h : f.covers t p) : f.level = some (p + 1) := by
  cases f with
  | row r pc => simp only [Frame.level, h.1]
  | _ => exact absurd h id

/-- When no call of `preempt` is at its start and no request in progress, nothing is
pending above the running level. -/
theorem above_empty {count : Nat} {s : State} (i : InvA count s) (w : InvW count s) (h1 : ∀ f ∈ s.stack, f ≠ .start)
    (h2 : ∀ thr pc rest, s.stack ≠ .req thr pc :: rest) {t p : Nat} (ht : t < count) (hp : p < 27)
    (hb : (s.mem (27 - p)).getLsbD t = true) : p + 1 ≤ running s.stack := by
  rcases w.cov t p ht hp hb with h | h | ⟨f, hf, hcf⟩
  · rcases (w.bits p hp h).2 with h | h
    · exact h
    · rw [not_startAbove h1] at h; simp at h
  · cases hst : s.stack with
    | nil => rw [hst] at h; simp at h
    | cons a b =>
      rw [hst] at h
      simp only [List.head?_cons, Option.some.injEq] at h
      exact absurd (h ▸ hst) (h2 _ _ _)
  · exact level_le i.ok f hf _ (covers_level hcf)

/-- Requests in the log only grow. -/
theorem frameStep_log {count : Nat} {s s' : State} {f : Frame} {rest : List Frame} (h : frameStep count s rest f = some s') :
    s'.log = s.log ∨ ∃ e, s'.log = e :: s.log := by
  cases f with
  | req thr pc =>
    cases pc <;> simp only [frameStep] at h
    · simp only [Option.some.injEq] at h; subst h; exact .inl rfl
    · split at h
      · simp only [Option.some.injEq] at h; subst h; exact .inr ⟨_, rfl⟩
      · simp at h
    · simp only [Option.some.injEq] at h; subst h; exact .inl rfl
  | start =>
    simp only [frameStep] at h
    split at h <;> (simp only [Option.some.injEq] at h; subst h; exact .inl rfl)
  | row r pc =>
    cases pc <;> simp only [frameStep] at h
    · split at h
      · split at h
        · split at h
          · simp only [Option.some.injEq] at h; subst h; exact .inl rfl
          · simp at h
        · simp only [Option.some.injEq] at h; subst h; exact .inl rfl
      · simp at h
    · split at h
      · split at h
        · simp only [Option.some.injEq] at h; subst h; exact .inr ⟨_, rfl⟩
        · simp at h
      · simp only [Option.some.injEq] at h; subst h; exact .inl rfl
    · split at h <;> (simp only [Option.some.injEq] at h; subst h; exact .inl rfl)
    · simp only [Option.some.injEq] at h
      subst h; exact .inl rfl
  | clear thr q =>
    cases q <;> simp only [frameStep] at h
    · simp only [Option.some.injEq] at h; subst h; exact .inl rfl
    · split at h
      · simp only [Option.some.injEq] at h; subst h; exact .inr ⟨_, rfl⟩
      · simp at h
  | plain thr c =>
    simp only [frameStep] at h
    split at h <;> (simp only [Option.some.injEq] at h; subst h; exact .inl rfl)

theorem step_requests {count : Nat} {s s' : State} {a : Act} (h : step count s a = some s') (t p : Nat) :
    requests t p s.log ≤ requests t p s'.log := by
  have hl : s'.log = s.log ∨ ∃ e, s'.log = e :: s.log := by
    cases a <;> simp only [step] at h
    case step =>
      split at h
      · simp only [Option.some.injEq] at h; subst h; exact .inl rfl
      · exact frameStep_log h
    case ret => simp only [Option.some.injEq] at h; subst h; exact .inl rfl
    case setPrio =>
      split at h
      · simp only [Option.some.injEq] at h; subst h; exact .inl rfl
      · simp at h
    all_goals
      simp only [Option.some.injEq] at h
      try split at h
      all_goals (subst h; exact .inl rfl)
  rcases hl with hl | ⟨e, hl⟩ <;> rw [hl]
  · exact Nat.le_refl _
  · cases e <;> simp only [requests] <;> omega

/-- Where a request made in state `s₀` is. -/
def ReqAt (t p n : Nat) (mem : Nat → U32) (rest : List Frame) (s : State) : Prop :=
  (s.stack = .req t .load :: rest ∧ s.prio t = p ∧ s.mem = mem ∧ requests t p s.log = n) ∨
  (s.stack = .req t (.cell p) :: rest ∧ s.mem = mem ∧ requests t p s.log = n) ∨
  n < requests t p s.log

theorem step_reqAt {count t p n : Nat} (hc : count ≤ 32) {mem : Nat → U32} {rest : List Frame} {s s' : State} {a : Act} (ht : t < count) (hp : p < 27)
    (hm : (mem (27 - p)).getLsbD t = false) (hw : Whole s a) (h : step count s a = some s') (k : ReqAt t p n mem rest s) :
    ReqAt t p n mem rest s' := by
  rcases k with ⟨k1, k2, k3, k4⟩ | ⟨k1, k3, k4⟩ | k
  · cases a with
    | step =>
      simp only [step, k1, frameStep, Option.some.injEq] at h
      subst h
      exact .inr (.inl ⟨by simp only [k2], k3, k4⟩)
    | ret =>
      simp only [step, k1, ret, Option.some.injEq] at h
      subst h
      exact .inl ⟨rfl, k2, k3, k4⟩
    | _ => exact absurd k1 (hw _ _ _)
  · cases a with
    | step =>
      simp only [step, k1, frameStep, cellIdx_lt ht hp, ↓reduceIte, Option.some.injEq] at h
      simp only [cellIdx_small ht hc hp, pendingBit_small (show t < 32 by omega)] at h
      have hf : s.mem (27 - p) &&& 1#32 <<< t = 0 := by
        refine Classical.byContradiction fun hn => ?_
        have := (and_bit_ne (show t < 32 by omega)).1 hn
        rw [k3, hm] at this; simp at this
      subst h
      refine .inr (.inr ?_)
      simp only [requests, hf, k4]
      simp
    | ret =>
      simp only [step, k1, ret, Option.some.injEq] at h
      subst h
      exact .inr (.inl ⟨rfl, k3, k4⟩)
    | _ => exact absurd k1 (hw _ _ _)
  · exact .inr (.inr (Nat.lt_of_lt_of_le k (step_requests h t p)))

theorem run_reqAt {count t p n : Nat} (hc : count ≤ 32) {mem : Nat → U32} {rest : List Frame} (ht : t < count) (hp : p < 27)
    (hm : (mem (27 - p)).getLsbD t = false) : ∀ {acts : List Act} {s s' : State}, Always count (fun s a => Whole s a ∧ NoSame s a) s acts →
    run count s acts = some s' → ReqAt t p n mem rest s → ReqAt t p n mem rest s'
  | [], s, s', _, h, k => by simp only [run, Option.some.injEq] at h; exact h ▸ k
  | a :: as, s, s', w, h, k => by
    simp only [run] at h
    split at h
    · simp at h
    · rename_i m hms
      exact run_reqAt hc ht hp hm (w.2 m hms) h (step_reqAt hc ht hp hm w.1.1 hms k)

theorem always_append {count : Nat} {P : State → Act → Prop} : ∀ {as bs : List Act} {s m : State}, Always count P s (as ++ bs) →
    run count s as = some m → Always count P s as ∧ Always count P m bs
  | [], bs, s, m, h, hr => by simp only [run, Option.some.injEq] at hr; subst hr; exact ⟨trivial, h⟩
  | a :: as, bs, s, m, h, hr => by
    simp only [run] at hr
    split at hr
    · simp at hr
    · rename_i m' hm
      have := always_append (h.2 m' hm) hr
      exact ⟨⟨h.1, fun s' hs' => by rw [hm, Option.some.injEq] at hs'; exact hs' ▸ this.1⟩, this.2⟩

/-! Boolean checkers for concrete histories. -/

/-- A Boolean version of `Always`. -/
def alwaysB (count : Nat) (P : State → Act → Bool) (s : State) : List Act → Bool
  | [] => true
  | a :: as => P s a && (match step count s a with | none => true | some s' => alwaysB count P s' as)

theorem alwaysB_sound {count : Nat} {P : State → Act → Bool} {Q : State → Act → Prop} (hPQ : ∀ s a, P s a = true → Q s a) :
    ∀ {acts : List Act} {s : State}, alwaysB count P s acts = true → Always count Q s acts
  | [], _, _ => trivial
  | a :: as, s, h => by
    simp only [alwaysB, Bool.and_eq_true] at h
    refine ⟨hPQ _ _ h.1, fun s' hs' => ?_⟩
    rw [hs'] at h
    exact alwaysB_sound hPQ h.2

/-- A Boolean version of `Whole`. -/
def wholeB (s : State) : Act → Bool
  | .step | .ret => true
  | _ => match s.stack with | .req _ _ :: _ => false | _ => true

theorem wholeB_sound (s : State) (a : Act) (h : wholeB s a = true) : Whole s a := by
  cases a <;> first
    | exact trivial
    | (intro thr pc rest hst; simp [wholeB, hst] at h)

/-- A Boolean version of `NoSame`. -/
def noSameB (s : State) : Act → Bool
  | .pend thr => s.stack.all fun f => decide (f.level ≠ some (s.prio thr + 1))
  | _ => true

theorem noSameB_sound (s : State) (a : Act) (h : noSameB s a = true) : NoSame s a := by
  cases a with
  | pend thr =>
    simp only [noSameB, List.all_eq_true, decide_eq_true_eq] at h
    exact h
  | _ => trivial

/-- The state after a history. -/
def ran (count : Nat) (prio : Nat → Nat) (acts : List Act) : State := (run count (init prio) acts).getD (init prio)

theorem run_ran {count : Nat} {prio : Nat → Nat} {acts : List Act} (h : (run count (init prio) acts).isSome = true) :
    run count (init prio) acts = some (ran count prio acts) := by
  unfold ran
  obtain ⟨s, hs⟩ := Option.isSome_iff_exists.1 h
  rw [hs]; rfl

end Verif.Soft
