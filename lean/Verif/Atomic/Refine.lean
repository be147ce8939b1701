/-! # Programs whose updates are compare-exchange loops

The channel and thread models take an update of an atomic word by one of the macros of
`src/atomic_macros.rs` as one step. With feature `atomics` such an update is a load and any
number of `compare_exchange_weak` calls (27–101), and other contexts may run between these.
This file defines, for any such model, the program in which every load and every
compare-exchange is a step of its own. -/
namespace Verif.Atomic.Refine

variable {S A W : Type}

/-- A model with states `S` and actions `A`, and what is needed to take its updates apart. -/
structure Machine (S A W : Type) where
  /-- the model: an update is one step -/
  step : S → A → Option S
  /-- the context that acts -/
  ctx : S → A → Nat
  /-- if the next access of the action is an update by a macro: the closure -/
  update : S → A → Option (W → Option W)
  /-- the word may be accessed (the shared object is not released) -/
  live : S → A → Bool
  /-- the content of the word -/
  cell : S → A → W
  /-- the word is written -/
  store : S → A → W → S
  /-- the macro has written the word, and gave back the value it had before -/
  after : S → A → W → Option S
  /-- the macro has ended with `Err(old)` -/
  declined : S → A → W → Option S

/-- What the model does in its one step: an access of the word, the closure, the write. -/
def Machine.atomicStep (M : Machine S A W) (s : S) (a : A) (f : W → Option W) : Option S :=
  if M.live s a then
    match f (M.cell s a) with
    | some w => M.after (M.store s a w) a (M.cell s a)
    | none => M.declined s a (M.cell s a)
  else none

/-- The model makes its updates in one step. -/
def Machine.Lawful (M : Machine S A W) : Prop :=
  ∀ s a f, M.update s a = some f → M.step s a = M.atomicStep s a f

/-- Perform a history of the model. -/
def Machine.run (M : Machine S A W) (s : S) : List A → Option S
  | [] => some s
  | a :: as =>
    match M.step s a with
    | none => none
    | some s => M.run s as

/-- The program with feature `atomics`: the state of the model, and for each context that is
inside a macro the content of its variable `$old`. -/
structure Fine (S W : Type) where
  s : S
  old : Nat → Option W

/-- Scheduler choices. -/
inductive Act (A W : Type) where
  /-- the next access of an action; `spurious` makes a weak compare-exchange fail -/
  | go (a : A) (spurious : Bool)
  /-- `modify_atomic!` (28–47) starts with the value its caller has in `$old`, not with a load -/
  | hold (a : A) (o : W)

/-- Assign `$old` of a context. -/
def setOld (old : Nat → Option W) (c : Nat) (o : Option W) : Nat → Option W :=
  fun d => if d = c then o else old d

/-- `$old` was assigned: evaluate the closure; without a new value the macro ends (57–71). -/
def afterRead (M : Machine S A W) (x : Fine S W) (a : A) (f : W → Option W) (o : W) : Option (Fine S W) :=
  match f o with
  | some _ => some { x with old := setOld x.old (M.ctx x.s a) (some o) }
  | none =>
    match M.declined x.s a o with
    | none => none
    | some s => some ⟨s, setOld x.old (M.ctx x.s a) none⟩

/-- One access. -/
def fineStep [DecidableEq W] (M : Machine S A W) (x : Fine S W) : Act A W → Option (Fine S W)
  | .go a spurious =>
    match M.update x.s a with
    | none =>
      match M.step x.s a with
      | none => none
      | some s => some { x with s := s }
    | some f =>
      if M.live x.s a then
        match x.old (M.ctx x.s a) with
        -- `load`, 83, 97
        | none => afterRead M x a f (M.cell x.s a)
        | some o =>
          match f o with
          | none => some x
          | some w =>
            -- `compare_exchange_weak`, 36, 59
            if M.cell x.s a = o ∧ spurious = false then
              match M.after (M.store x.s a w) a o with
              | none => none
              | some s => some ⟨s, setOld x.old (M.ctx x.s a) none⟩
            else afterRead M x a f (M.cell x.s a)
      else none
  | .hold a o =>
    match M.update x.s a with
    | none => some x
    | some f =>
      match x.old (M.ctx x.s a), f o with
      | none, some _ => some { x with old := setOld x.old (M.ctx x.s a) (some o) }
      | _, _ => some x

/-- Perform a schedule. -/
def fineRun [DecidableEq W] (M : Machine S A W) (x : Fine S W) : List (Act A W) → Option (Fine S W)
  | [] => some x
  | a :: as =>
    match fineStep M x a with
    | none => none
    | some x => fineRun M x as

/-- No context is inside a macro. -/
def start (s : S) : Fine S W := ⟨s, fun _ => none⟩

/-- The action of a scheduler choice. -/
def Act.action : Act A W → A
  | .go a _ => a
  | .hold a _ => a

/-! ### The two programs do the same -/

/-- One access of the fine program is a step of the model or nothing. -/
theorem fineStep_sim [DecidableEq W] {M : Machine S A W} (hM : M.Lawful) (x : Fine S W) (c : Act A W) :
    (∃ old, fineStep M x c = some ⟨x.s, old⟩) ∨ (fineStep M x c).map (·.s) = M.step x.s c.action := by
  have hread : ∀ a f, M.update x.s a = some f → M.live x.s a = true →
      (∃ old, afterRead M x a f (M.cell x.s a) = some ⟨x.s, old⟩) ∨
      (afterRead M x a f (M.cell x.s a)).map (·.s) = M.step x.s a := by
    intro a f hf hl
    rw [hM x.s a f hf]
    unfold afterRead Machine.atomicStep
    cases hw : f (M.cell x.s a) with
    | some w => exact .inl ⟨_, rfl⟩
    | none =>
      right
      simp only [hl, if_true]
      cases M.declined x.s a (M.cell x.s a) <;> rfl
  cases c with
  | go a sp =>
    simp only [fineStep, Act.action]
    cases hf : M.update x.s a with
    | none =>
      right
      cases M.step x.s a <;> rfl
    | some f =>
      by_cases hl : M.live x.s a = true
      · simp only [hl, if_true]
        cases ho : x.old (M.ctx x.s a) with
        | none => exact hread a f hf hl
        | some o =>
          simp only
          cases hw : f o with
          | none => exact .inl ⟨_, rfl⟩
          | some w =>
            simp only
            by_cases hc : M.cell x.s a = o ∧ sp = false
            · right
              simp only [if_pos hc]
              rw [hM x.s a f hf, Machine.atomicStep, if_pos hl, hc.1, hw]
              simp only
              cases M.after (M.store x.s a w) a o <;> rfl
            · simp only [if_neg hc]
              exact hread a f hf hl
      · right
        rw [hM x.s a f hf, Machine.atomicStep, if_neg hl]
        simp only [if_neg hl]
        rfl
  | hold a o =>
    left
    simp only [fineStep]
    cases M.update x.s a with
    | none => exact ⟨_, rfl⟩
    | some f =>
      simp only
      split <;> exact ⟨_, rfl⟩

/-- Every schedule of the fine program does what some of its actions, in this order, do in
the model. -/
theorem fineRun_sim [DecidableEq W] {M : Machine S A W} (hM : M.Lawful) :
    ∀ (cs : List (Act A W)) (x : Fine S W), ∃ as, as.Sublist (cs.map Act.action) ∧
      M.run x.s as = (fineRun M x cs).map (·.s)
  | [], x => ⟨[], List.Sublist.refl _, rfl⟩
  | c :: cs, x => by
    rcases fineStep_sim hM x c with ⟨old, h⟩ | h
    · obtain ⟨as, h1, h2⟩ := fineRun_sim hM cs ⟨x.s, old⟩
      refine ⟨as, List.Sublist.cons _ h1, ?_⟩
      simp only [fineRun, h]
      exact h2
    · cases hf : fineStep M x c with
      | none =>
        rw [hf] at h
        refine ⟨[c.action], List.Sublist.cons₂ _ (List.nil_sublist _), ?_⟩
        simp only [fineRun, hf, Machine.run, ← h]
        rfl
      | some y =>
        rw [hf] at h
        obtain ⟨as, h1, h2⟩ := fineRun_sim hM cs y
        refine ⟨c.action :: as, List.Sublist.cons₂ _ h1, ?_⟩
        simp only [fineRun, hf, Machine.run, ← h]
        exact h2

/-- The accesses of an action that is not disturbed. -/
def solo (a : A) : List (Act A W) := [.go a false, .go a false]

theorem setOld_none (c : Nat) : setOld (fun _ => (none : Option W)) c none = fun _ => none := by
  funext d; simp [setOld]

theorem setOld_twice (c : Nat) (o : W) : setOld (setOld (fun _ => (none : Option W)) c (some o)) c none = fun _ => none := by
  funext d; simp only [setOld]; split <;> rfl

/-- A step of the model is made by at most two accesses. -/
theorem step_fine [DecidableEq W] {M : Machine S A W} (hM : M.Lawful) (s : S) (a : A) :
    ∃ cs, fineRun M (start s) cs = (M.step s a).map start := by
  cases hf : M.update s a with
  | none =>
    refine ⟨[.go a false], ?_⟩
    simp only [fineRun, fineStep, start, hf]
    cases M.step s a <;> rfl
  | some f =>
    rw [hM s a f hf]
    by_cases hl : M.live s a = true
    · cases hw : f (M.cell s a) with
      | none =>
        refine ⟨[.go a false], ?_⟩
        simp only [fineRun, fineStep, start, hf, hl, if_true, afterRead, hw, Machine.atomicStep]
        cases M.declined s a (M.cell s a) <;> simp [setOld_none, start]
      | some w =>
        refine ⟨solo a, ?_⟩
        simp only [solo, fineRun, fineStep, start, hf, hl, if_true, afterRead, hw, Machine.atomicStep]
        simp only [setOld, if_true, hw, and_self]
        cases M.after (M.store s a w) a (M.cell s a) with
        | none => rfl
        | some s' =>
          simp [start, setOld_twice]
    · refine ⟨[.go a false], ?_⟩
      rw [Machine.atomicStep, if_neg hl]
      have hl' : M.live (start (W := W) s).s a ≠ true := hl
      simp only [fineRun, fineStep, show M.update (start (W := W) s).s a = some f from hf, if_neg hl']
      rfl

theorem fineRun_append [DecidableEq W] (M : Machine S A W) : ∀ (cs ds : List (Act A W)) (x : Fine S W),
    fineRun M x (cs ++ ds) = (fineRun M x cs).bind fun y => fineRun M y ds
  | [], ds, x => rfl
  | c :: cs, ds, x => by
    simp only [List.cons_append, fineRun]
    cases fineStep M x c with
    | none => rfl
    | some y => exact fineRun_append M cs ds y

/-- Every history of the model is one of the fine program. -/
theorem run_fine [DecidableEq W] {M : Machine S A W} (hM : M.Lawful) : ∀ (as : List A) (s : S),
    ∃ cs, fineRun M (start s) cs = (M.run s as).map start
  | [], s => ⟨[], rfl⟩
  | a :: as, s => by
    obtain ⟨cs, h⟩ := step_fine hM s a
    cases hs : M.step s a with
    | none =>
      rw [hs] at h
      refine ⟨cs, ?_⟩
      simp only [Machine.run, hs]
      exact h
    | some s' =>
      rw [hs] at h
      obtain ⟨ds, h'⟩ := run_fine hM as s'
      refine ⟨cs ++ ds, ?_⟩
      rw [fineRun_append, h]
      simp only [Machine.run, hs]
      exact h'

/-- The two programs have the same outcomes. -/
theorem same_outcomes [DecidableEq W] {M : Machine S A W} (hM : M.Lawful) (s : S) (r : Option S) :
    (∃ cs, (fineRun M (start s) cs).map (·.s) = r) ↔ ∃ as, M.run s as = r := by
  constructor
  · rintro ⟨cs, rfl⟩
    obtain ⟨as, _, h⟩ := fineRun_sim hM cs (start s)
    exact ⟨as, h⟩
  · rintro ⟨as, rfl⟩
    obtain ⟨cs, h⟩ := run_fine hM as s
    refine ⟨cs, ?_⟩
    rw [h]
    cases M.run s as <;> rfl

/-- A model with its own definition of a history. -/
theorem run_eq {M : Machine S A W} (R : S → List A → Option S) (h0 : ∀ s, R s [] = some s)
    (h1 : ∀ s a as, R s (a :: as) = (M.step s a).bind fun s' => R s' as) :
    ∀ (as : List A) (s : S), M.run s as = R s as
  | [], s => (h0 s).symm
  | a :: as, s => by
    rw [h1, Machine.run]
    cases M.step s a with
    | none => rfl
    | some s' => exact run_eq R h0 h1 as s'

end Verif.Atomic.Refine
