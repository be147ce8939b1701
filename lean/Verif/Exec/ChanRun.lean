import Verif.Exec.ChanInv
/-! # Tests for concrete histories of futures that await oneshot channels -/
namespace Verif.Exec.Chan

/-- Thread 0 has level 1, thread 1 level 3. -/
def prioA : Nat → Nat := fun t => if t = 0 then 1 else 3

theorem prioA_lt (t : Nat) : prioA t < 27 := by unfold prioA; split <;> omega

def steps (n : Nat) : List Act := List.replicate n .step

def polls (n : Nat) : List Act := List.replicate n .poll

/-- The state after a history. -/
def ran (count : Nat) (prio : Nat → Nat) (acts : List Act) : State := (run count (init prio) acts).getD (init prio)

theorem run_ran {count : Nat} {prio : Nat → Nat} {acts : List Act} (h : (run count (init prio) acts).isSome = true) :
    run count (init prio) acts = some (ran count prio acts) := by
  unfold ran
  cases e : run count (init prio) acts with
  | none => rw [e] at h; simp at h
  | some s => rfl

/-- A test for `NoSame`. -/
def noSameB (count : Nat) (s : State) (a : Act) : Bool :=
  match wakes count s a with
  | none => true
  | some t => s.soft.stack.all fun f => f.level != some (s.soft.prio t + 1)

theorem noSameB_sound (count : Nat) (s : State) (a : Act) (h : noSameB count s a = true) : NoSame count s a := by
  intro t ht f hf
  simp only [noSameB, ht, List.all_eq_true, bne_iff_ne] at h
  exact h f hf

/-- A test for `Always`. -/
def alwaysB (count : Nat) (P : State → Act → Bool) (s : State) : List Act → Bool
  | [] => true
  | a :: as => P s a && (match step count s a with | none => true | some s' => alwaysB count P s' as)

theorem alwaysB_sound {count : Nat} {P : State → Act → Bool} {Q : State → Act → Prop} (hPQ : ∀ s a, P s a = true → Q s a) :
    ∀ {acts : List Act} {s : State}, alwaysB count P s acts = true → Always count Q s acts
  | [], _, _ => trivial
  | a :: as, s, h => by
    simp only [alwaysB, Bool.and_eq_true] at h
    refine ⟨hPQ s a h.1, ?_⟩
    intro s' hs
    rw [hs] at h
    exact alwaysB_sound hPQ h.2

theorem rStep_spc {c c' : Ch} (h : Oneshot.rStep c = some c') : c'.spc = c.spc := by
  simp only [Oneshot.rStep] at h
  split at h
  · simp only [Option.some.injEq] at h; subst h; rfl
  split at h
  · simp at h
  split at h
  all_goals (repeat' (split at h))
  all_goals first
    | (simp at h; done)
    | skip
  all_goals simp only [Option.some.injEq] at h
  all_goals subst h
  all_goals try simp only [Oneshot.dropTail]
  all_goals (repeat' split)
  all_goals rfl

theorem recvStep_spc {t : Nat} {c c' : Ch} {r : Res} (h : recvStep t c = some (c', r)) : c'.spc = c.spc := by
  unfold recvStep at h
  split at h
  · simp only [Option.some.injEq, Prod.mk.injEq] at h; rw [← h.1]; rfl
  · split at h
    · simp at h
    · rename_i c1 h1
      have := rStep_spc h1
      repeat' (split at h)
      all_goals (simp only [Option.some.injEq, Prod.mk.injEq] at h; rw [← h.1]; first | exact this | rfl)

theorem step_spc {count : Nat} {s s' : State} {a : Act} {k i : Nat} (hi : (s.chan k i).spc = .idle) (ha : ∀ op, a ≠ .call k i op)
    (h : step count s a = some s') : (s'.chan k i).spc = .idle := by
  have key : ∀ m w, act count s a = some (m, w) → (m.chan k i).spc = .idle := by
    intro m w hm
    cases a with
    | call k' i' op =>
      have hne : ¬ (k = k' ∧ i = i') := by rintro ⟨rfl, rfl⟩; exact ha op rfl
      simp only [act] at hm
      split at hm
      · simp at hm
      · simp only [Option.some.injEq, Prod.mk.injEq] at hm; rw [← hm.1]
        simp only [upd2, hne, ↓reduceIte]; exact hi
    | send k' i' =>
      simp only [act] at hm
      split at hm
      · simp at hm
      · rename_i c' hc
        simp only [Option.some.injEq, Prod.mk.injEq] at hm; rw [← hm.1]
        simp only [upd2]
        split
        · rename_i e
          rw [← e.1, ← e.2] at hc
          simp only [Oneshot.step, Oneshot.sStep, hi, Oneshot.SPc.resting, ↓reduceIte, Option.some.injEq] at hc
          rw [← hc]; exact hi
        · exact hi
    | poll =>
      simp only [act] at hm
      split at hm
      · simp only [Option.some.injEq, Prod.mk.injEq] at hm; rw [← hm.1]; exact hi
      split at hm
      · simp only [Option.some.injEq, Prod.mk.injEq] at hm; rw [← hm.1]; exact hi
      split at hm
      · simp at hm
      split at hm
      · simp only [Option.some.injEq, Prod.mk.injEq] at hm; rw [← hm.1]; exact hi
      · split at hm
        · simp at hm
        all_goals
          rename_i hr
          have := recvStep_spc hr
          simp only [Option.some.injEq, Prod.mk.injEq] at hm; rw [← hm.1]
          simp only [upd2]
          split
          · rename_i e; rw [this, ← e.2, ← e.1]; exact hi
          · exact hi
    | step =>
      simp only [act] at hm
      split at hm
      · simp at hm
      · split at hm <;> (simp only [Option.some.injEq, Prod.mk.injEq] at hm; rw [← hm.1]; exact hi)
    | ret =>
      simp only [act] at hm
      split at hm
      · simp only [Option.some.injEq, Prod.mk.injEq] at hm; rw [← hm.1]; exact hi
      · split at hm
        · split at hm
          · simp at hm
          · simp only [Option.some.injEq, Prod.mk.injEq] at hm; rw [← hm.1]; exact hi
        · simp only [Option.some.injEq, Prod.mk.injEq] at hm; rw [← hm.1]; exact hi
    | add thr len =>
      simp only [act, Option.some.injEq, Prod.mk.injEq] at hm
      rw [← hm.1]
      split <;> exact hi
    | exec thr len =>
      simp only [act, Option.some.injEq] at hm
      split at hm <;> (simp only [Prod.mk.injEq] at hm; rw [← hm.1]; exact hi)
  simp only [step] at h
  split at h
  · simp at h
  · rename_i m w hm
    have := key m w hm
    cases w with
    | none => simp only [wake, Option.some.injEq] at h; rw [← h]; exact this
    | some t => simp only [wake, Soft.step, Option.some.injEq] at h; rw [← h]; exact this

/-- The channels on which calls of the sender are made are among `l`. -/
def within (l : List (Nat × Nat)) : Act → Bool
  | .call k i _ => l.contains (k, i)
  | _ => true

theorem within_ne {l : List (Nat × Nat)} {a : Act} (h : within l a = true) {k i : Nat} (hl : (k, i) ∉ l) (op) : a ≠ .call k i op := by
  rintro rfl
  simp only [within, List.contains_iff_mem] at h
  exact hl h

theorem run_spc {count : Nat} {l : List (Nat × Nat)} : ∀ {acts : List Act} {s s' : State}, acts.all (within l) = true →
    (∀ k i, (k, i) ∉ l → (s.chan k i).spc = .idle) → run count s acts = some s' → ∀ k i, (k, i) ∉ l → (s'.chan k i).spc = .idle
  | [], s, s', _, hi, h => by simp only [run, Option.some.injEq] at h; exact h ▸ hi
  | a :: as, s, s', hw, hi, h => by
    simp only [List.all_cons, Bool.and_eq_true] at hw
    simp only [run] at h
    split at h
    · simp at h
    · rename_i m hm
      exact run_spc hw.2 (fun k i hl => step_spc (hi k i hl) (within_ne hw.1 hl) hm) h

theorem idle_ran {count : Nat} {prio : Nat → Nat} {acts : List Act} (l : List (Nat × Nat)) (hs : (run count (init prio) acts).isSome = true)
    (hw : acts.all (within l) = true) (h1 : (ran count prio acts).soft.stack = [])
    (h2 : l.all (fun p => ((ran count prio acts).chan p.1 p.2).spc.resting) = true) : Idle (ran count prio acts) := by
  refine ⟨h1, fun k i => ?_⟩
  by_cases hl : (k, i) ∈ l
  · exact List.all_eq_true.1 h2 _ hl
  · rw [run_spc hw (fun _ _ _ => rfl) (run_ran hs) k i hl]; rfl

/-- A test for `Apart`. -/
def apartB (c : Ch) : Bool := (!c.spc.freeing || !c.rpc.leaving) && (!c.rpc.freeing || !c.spc.leaving)

theorem apart_ran {count : Nat} {l : List (Nat × Nat)} : ∀ {acts : List Act} {s : State}, acts.all (within l) = true →
    (∀ k i, (k, i) ∉ l → (s.chan k i).spc = .idle) → alwaysB count (fun s _ => l.all fun p => apartB (s.chan p.1 p.2)) s acts = true →
    Always count AllApart s acts
  | [], _, _, _, _ => trivial
  | a :: as, s, hw, hi, h => by
    simp only [List.all_cons, Bool.and_eq_true] at hw
    simp only [alwaysB, Bool.and_eq_true] at h
    refine ⟨fun k i => ?_, fun s' hs => ?_⟩
    · by_cases hl : (k, i) ∈ l
      · have := List.all_eq_true.1 h.1 _ hl
        simp only [apartB, Bool.and_eq_true, Bool.or_eq_true, Bool.not_eq_true'] at this
        exact ⟨fun e => this.1.resolve_left (by rw [e]; simp), fun e => this.2.resolve_left (by rw [e]; simp)⟩
      · have := hi k i hl
        exact ⟨by rw [this]; simp [Oneshot.SPc.freeing], by rw [this]; simp [Oneshot.SPc.leaving]⟩
    · have h2 := h.2
      rw [hs] at h2
      exact apart_ran hw.2 (fun k i hl => step_spc (hi k i hl) (within_ne hw.1 hl) hs) h2

end Verif.Exec.Chan
