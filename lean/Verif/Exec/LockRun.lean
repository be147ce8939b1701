import Verif.Exec.LockInv
/-! # Tests for concrete histories of futures that share a mutex -/
namespace Verif.Exec.Lock
open Verif.Mutex (pstep call Refers)

/-- Thread 0 has level 1, thread 1 level 3. -/
def prioA : Nat → Nat := fun t => if t = 0 then 1 else 3

theorem prioA_lt (t : Nat) : prioA t < 27 := by unfold prioA; split <;> omega

/-- No signal has occurred. -/
def quiet : Nat → Nat → Bool := fun _ _ => false

/-- All signals have occurred. -/
def loud : Nat → Nat → Bool := fun _ _ => true

def steps (n : Nat) : List Act := List.replicate n .step

def polls (n : Nat) : List Act := List.replicate n .poll

def works (p n : Nat) : List Act := List.replicate n (.work p)

/-- The state after a history. -/
def ran (count : Nat) (prio : Nat → Nat) (fired : Nat → Nat → Bool) (acts : List Act) : State :=
  (run count (init prio fired) acts).getD (init prio fired)

theorem run_ran {count : Nat} {prio : Nat → Nat} {fired : Nat → Nat → Bool} {acts : List Act}
    (h : (run count (init prio fired) acts).isSome = true) : run count (init prio fired) acts = some (ran count prio fired acts) := by
  unfold ran
  cases e : run count (init prio fired) acts with
  | none => rw [e] at h; simp at h
  | some s => rfl

/-- A test for `NoSame`. -/
def noSameB (count : Nat) (s : State) (a : Act) : Bool :=
  match wakes count s a with
  | none => true
  | some t => s.soft.stack.all fun f => f.level != some (s.soft.prio t + 1)

/-- A test for `Timely` if only the clients below `b` make calls. -/
def timelyB (b : Nat) (s : State) (a : Act) : Bool :=
  match acting s a with
  | none => true
  | some p => (decide ((s.mutex.client p).pc ≠ .p2) && decide ((s.mutex.client p).pc ≠ .dTry)) ||
    (List.range b).all fun q => !(s.mutex.client q).pc.scanning

instance (c : Mutex.Client) (n : Nat) : Decidable (Refers c n) := by unfold Refers; infer_instance

/-- A test for `Prompt` if only the clients below `b` make calls. -/
def promptB (b : Nat) (s : State) (a : Act) : Bool :=
  match acting s a with
  | none => true
  | some p =>
    match (s.mutex.client p).pc with
    | .ulCut n _ => (List.range b).all fun q => decide (¬Refers (s.mutex.client q) n)
    | _ => true

/-- A test for `Alone` if only the clients below `b` make calls. -/
def aloneB (b : Nat) (s : State) (a : Act) : Bool :=
  match acting s a with
  | none => true
  | some p => (List.range b).all fun q => decide (q = p) || decide ((s.mutex.client q).pc = .idle)

/-- Only the clients below `b` make calls. -/
def belowB (b : Nat) (s : State) (a : Act) : Bool :=
  match who s a with
  | none => true
  | some p => decide (p < b)

/-- A test for `Always`. -/
def alwaysB (count b : Nat) (P : State → Act → Bool) (s : State) : List Act → Bool
  | [] => true
  | a :: as => P s a && belowB b s a && (match step count s a with | none => true | some s' => alwaysB count b P s' as)

/-- The clients from `b` on are as in the beginning. -/
def Small (b : Nat) (s : State) : Prop := ∀ q, b ≤ q → s.mutex.client q = ⟨.idle, false, none, 0⟩

theorem init_small (b : Nat) (prio : Nat → Nat) (fired : Nat → Nat → Bool) : Small b (init prio fired) := fun _ _ => rfl

theorem step_small {count b : Nat} {s s' : State} {a : Act} (i : Small b s) (hb : belowB b s a = true) (h : step count s a = some s') : Small b s' := by
  simp only [step] at h
  split at h
  · simp at h
  · rename_i m w hm
    intro q hq
    rw [wake_mutex h]
    rcases act_mutex hm with e | ⟨p, op, h1, e⟩ | ⟨p, h1, h2⟩
    · rw [e]; exact i q hq
    · simp only [belowB, h1, decide_eq_true_eq] at hb
      rw [e, Mutex.call_other (by omega)]; exact i q hq
    · have h1 : who s a = some p := by
        cases a with
        | grab => simp [acting] at h1
        | drop => simp [acting] at h1
        | _ => exact h1
      simp only [belowB, h1, decide_eq_true_eq] at hb
      rw [Mutex.pstep_other h2 (by omega)]; exact i q hq

theorem alwaysB_sound {count b : Nat} {P : State → Act → Bool} {Q : State → Act → Prop} (hPQ : ∀ s a, Small b s → P s a = true → Q s a) :
    ∀ {acts : List Act} {s : State}, Small b s → alwaysB count b P s acts = true → Always count Q s acts
  | [], _, _, _ => trivial
  | a :: as, s, i, h => by
    simp only [alwaysB, Bool.and_eq_true] at h
    refine ⟨hPQ s a i h.1.1, ?_⟩
    intro s' hs
    rw [hs] at h
    exact alwaysB_sound hPQ (step_small i h.1.2 hs) h.2

theorem run_small {count b : Nat} : ∀ {acts : List Act} {s s' : State}, Small b s → alwaysB count b (fun _ _ => true) s acts = true →
    run count s acts = some s' → Small b s'
  | [], s, s', i, _, h => by simp only [run, Option.some.injEq] at h; exact h ▸ i
  | a :: as, s, s', i, hb, h => by
    simp only [run] at h
    split at h
    · simp at h
    · rename_i m hm
      simp only [alwaysB, hm, Bool.true_and, Bool.and_eq_true] at hb
      exact run_small (step_small i hb.1 hm) hb.2 h

theorem noSame_of {count : Nat} (b : Nat) {prio : Nat → Nat} {fired : Nat → Nat → Bool} {acts : List Act}
    (h : alwaysB count b (noSameB count) (init prio fired) acts = true) : Always count (NoSame count) (init prio fired) acts := by
  refine alwaysB_sound ?_ (init_small b _ _) h
  intro s a _ h t ht f hf
  simp only [noSameB, ht, List.all_eq_true, bne_iff_ne] at h
  exact h f hf

theorem timely_of {count : Nat} (b : Nat) {prio : Nat → Nat} {fired : Nat → Nat → Bool} {acts : List Act}
    (h : alwaysB count b (timelyB b) (init prio fired) acts = true) : Always count Timely (init prio fired) acts := by
  refine alwaysB_sound ?_ (init_small b _ _) h
  intro s a i h p hp hpc q
  simp only [timelyB, hp, Bool.or_eq_true, Bool.and_eq_true, decide_eq_true_eq] at h
  rcases h with h | h
  · rcases hpc with e | e
    · exact absurd e h.1
    · exact absurd e h.2
  · by_cases e : q < b
    · have := List.all_eq_true.1 h q (List.mem_range.2 e)
      simpa using this
    · simp [i q (by omega), Mutex.Pc.scanning]

theorem prompt_of {count : Nat} (b : Nat) {prio : Nat → Nat} {fired : Nat → Nat → Bool} {acts : List Act}
    (h : alwaysB count b (promptB b) (init prio fired) acts = true) : Always count Prompt (init prio fired) acts := by
  refine alwaysB_sound ?_ (init_small b _ _) h
  intro s a i h p hp n rest hpc q
  simp only [promptB, hp, hpc] at h
  by_cases e : q < b
  · have := List.all_eq_true.1 h q (List.mem_range.2 e)
    simpa using this
  · simp [i q (by omega), Refers]

theorem alone_of {count : Nat} (b : Nat) {prio : Nat → Nat} {fired : Nat → Nat → Bool} {acts : List Act}
    (h : alwaysB count b (aloneB b) (init prio fired) acts = true) : Always count Alone (init prio fired) acts := by
  refine alwaysB_sound ?_ (init_small b _ _) h
  intro s a i h p hp q hq
  simp only [aloneB, hp] at h
  by_cases e : q < b
  · have := List.all_eq_true.1 h q (List.mem_range.2 e)
    simpa [hq] using this
  · rw [i q (by omega)]

theorem idle_of {count : Nat} (b : Nat) {prio : Nat → Nat} {fired : Nat → Nat → Bool} {acts : List Act}
    (h : (run count (init prio fired) acts).isSome = true) (hb : alwaysB count b (fun _ _ => true) (init prio fired) acts = true)
    (h1 : (ran count prio fired acts).soft.stack = [])
    (h2 : ((List.range b).all fun q => decide (((ran count prio fired acts).mutex.client q).pc = .idle)) = true) : Idle (ran count prio fired acts) := by
  have hs := run_small (init_small b _ _) hb (run_ran h)
  refine ⟨h1, fun p => ?_⟩
  by_cases e : ext p < b
  · have := List.all_eq_true.1 h2 (ext p) (List.mem_range.2 e)
    simpa using this
  · rw [hs _ (by omega)]

end Verif.Exec.Lock
