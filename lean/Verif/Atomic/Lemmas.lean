import Verif.Atomic.Spec
namespace Verif.Atomic
variable {α : Type}

theorem returned_append (a b : List (Event α)) : returned (a ++ b) = returned a ++ returned b := by
  induction a with
  | nil => rfl
  | cons e es ih => cases e <;> simp [returned, ih]

theorem invokedBy_append (t : Tid) (a b : List (Event α)) :
    invokedBy t (a ++ b) = invokedBy t a ++ invokedBy t b := by
  induction a with
  | nil => rfl
  | cons e es ih => cases e <;> simp [invokedBy, ih]; split <;> simp

theorem returnedBy_append (t : Tid) (a b : List (Event α)) :
    returnedBy t (a ++ b) = returnedBy t a ++ returnedBy t b := by
  induction a with
  | nil => rfl
  | cons e es ih => cases e <;> simp [returnedBy, ih]; split <;> simp

theorem sequential_append (m : α) (a b : List (α → Option α)) :
    sequential m (a ++ b) =
      ((sequential (sequential m a).1 b).1, (sequential m a).2 ++ (sequential (sequential m a).1 b).2) := by
  induction a generalizing m with
  | nil => simp [sequential]
  | cons f fs ih =>
    simp only [List.cons_append, sequential]
    split <;> simp [ih]

/-- The value a context computed is consistent with its closure. -/
def Inv (s : State α) : Prop :=
  ∀ t f old new, s.pc t = .loop f old new → f old = some new

/-- The call a context is currently executing. -/
def pendingCall : Pc α → List (α → Option α)
  | .idle => []
  | .start f => [f]
  | .loop f _ _ => [f]

theorem afterRead_inv {s : State α} (h : Inv s) (t : Tid) (f : α → Option α) (old : α) :
    Inv (afterRead s t f old).1 := by
  intro u g o n hu
  unfold afterRead at hu
  cases hf : f old with
  | none =>
    simp only [hf] at hu
    by_cases e : u = t
    · simp [e] at hu
    · simp only [e, if_false] at hu; exact h u g o n hu
  | some new =>
    simp only [hf] at hu
    by_cases e : u = t
    · simp only [e, if_true, Pc.loop.injEq] at hu
      obtain ⟨rfl, rfl, rfl⟩ := hu; exact hf
    · simp only [e, if_false] at hu; exact h u g o n hu

theorem step_inv [DecidableEq α] {s : State α} (h : Inv s) (a : Act α) : Inv (step s a).1 := by
  cases a with
  | call t f =>
    simp only [step]
    cases hp : s.pc t <;> simp only []
    · intro u g o n hu
      by_cases e : u = t
      · simp [e] at hu
      · simp only [e, if_false] at hu; exact h u g o n hu
    · exact h
    · exact h
  | callFrom t g old =>
    simp only [step]
    cases hp : s.pc t <;> simp only []
    · intro u g' o n hu
      by_cases e : u = t
      · simp only [e, if_true, Pc.loop.injEq] at hu
        obtain ⟨rfl, rfl, rfl⟩ := hu; rfl
      · simp only [e, if_false] at hu; exact h u g' o n hu
    · exact h
    · exact h
  | step t sp =>
    simp only [step]
    cases hp : s.pc t <;> simp only []
    · exact h
    · exact afterRead_inv h t _ _
    · split
      · intro u g o n hu
        by_cases e : u = t
        · simp [e] at hu
        · simp only [e, if_false] at hu; exact h u g o n hu
      · exact afterRead_inv h t _ _
  | rmw t g =>
    simp only [step]
    cases hp : s.pc t <;> simp only []
    · exact h
    · exact h
    · exact h

/-- Shorthand: replaying what returned in `es`, starting from `m`, ends in `m'`
with the recorded results. -/
def Replays (m : α) (es : List (Event α)) (m' : α) : Prop :=
  sequential m ((returned es).map (·.2.1)) = (m', (returned es).map (·.2.2))

theorem afterRead_replays {s : State α} (t : Tid) (f : α → Option α) :
    Replays s.mem (afterRead s t f s.mem).2 (afterRead s t f s.mem).1.mem := by
  unfold afterRead Replays
  cases hf : f s.mem <;> simp [returned, sequential, hf]

theorem step_replays [DecidableEq α] {s : State α} (h : Inv s) (a : Act α) :
    Replays s.mem (step s a).2 (step s a).1.mem := by
  cases a with
  | call t f => simp only [step]; cases hp : s.pc t <;> simp [Replays, returned, sequential]
  | callFrom t g old => simp only [step]; cases hp : s.pc t <;> simp [Replays, returned, sequential]
  | step t sp =>
    simp only [step]
    cases hp : s.pc t with
    | idle => simp [Replays, returned, sequential]
    | start f => exact afterRead_replays t f
    | loop f old new =>
      simp only []
      split
      · rename_i hc
        have := h t f old new hp
        rw [hc.1]
        simp [Replays, returned, sequential, this]
      · exact afterRead_replays t f
  | rmw t g => simp only [step]; cases hp : s.pc t <;> simp [Replays, returned, sequential]

theorem run_replays [DecidableEq α] (as : List (Act α)) :
    ∀ {s : State α}, Inv s → Replays s.mem (run s as).2 (run s as).1.mem := by
  induction as with
  | nil => intro s _; simp [run, Replays, returned, sequential]
  | cons a as ih =>
    intro s h
    have h1 := step_replays h a
    have h2 := ih (step_inv h a)
    unfold Replays at h1 h2 ⊢
    simp only [run]
    rw [returned_append, List.map_append, List.map_append, sequential_append, h1, h2]

/-- Call accounting of one step. -/
theorem afterRead_account {s : State α} {t : Tid} (u : Tid) {f : α → Option α} {old : α}
    (hp : pendingCall (s.pc t) = [f]) :
    pendingCall (s.pc u) =
      returnedBy u (afterRead s t f old).2 ++ pendingCall ((afterRead s t f old).1.pc u) ∧
    invokedBy u (afterRead s t f old).2 = [] := by
  unfold afterRead
  cases hf : f old <;> by_cases e : u = t
  · subst e; rw [hp]; simp [returnedBy, invokedBy, pendingCall]
  · simp [returnedBy, invokedBy, e, Ne.symm e]
  · subst e; rw [hp]; simp [returnedBy, invokedBy, pendingCall]
  · simp [returnedBy, invokedBy, e]

theorem step_account [DecidableEq α] (s : State α) (a : Act α) (u : Tid) :
    pendingCall (s.pc u) ++ invokedBy u (step s a).2 =
      returnedBy u (step s a).2 ++ pendingCall ((step s a).1.pc u) := by
  cases a with
  | call t f =>
    simp only [step]
    cases hp : s.pc t <;> simp only [] <;> by_cases e : u = t
    all_goals first
      | (subst e; simp [returnedBy, invokedBy, pendingCall, hp]; done)
      | simp [returnedBy, invokedBy, e, Ne.symm e]
  | callFrom t g old =>
    simp only [step]
    cases hp : s.pc t <;> simp only [] <;> by_cases e : u = t
    all_goals first
      | (subst e; simp [returnedBy, invokedBy, pendingCall, hp]; done)
      | simp [returnedBy, invokedBy, e, Ne.symm e]
  | step t sp =>
    simp only [step]
    cases hp : s.pc t with
    | idle => simp [returnedBy, invokedBy]
    | start f =>
      have := afterRead_account (s := s) (t := t) u (f := f) (old := s.mem) (by rw [hp]; rfl)
      simp only []
      rw [this.2, this.1]; simp
    | loop f old new =>
      simp only []
      split
      · by_cases e : u = t
        · subst e; simp [returnedBy, invokedBy, pendingCall, hp]
        · simp [returnedBy, invokedBy, e, Ne.symm e]
      · have := afterRead_account (s := s) (t := t) u (f := f) (old := s.mem) (by rw [hp]; rfl)
        rw [this.2, this.1]; simp
  | rmw t g =>
    simp only [step]
    cases hp : s.pc t <;> simp only [] <;> by_cases e : u = t
    all_goals first
      | (subst e; simp [returnedBy, invokedBy, pendingCall, hp]; done)
      | simp [returnedBy, invokedBy, e, Ne.symm e]

theorem run_account [DecidableEq α] (as : List (Act α)) (u : Tid) :
    ∀ s : State α, pendingCall (s.pc u) ++ invokedBy u (run s as).2 =
      returnedBy u (run s as).2 ++ pendingCall ((run s as).1.pc u) := by
  induction as with
  | nil => intro s; simp [run, returnedBy, invokedBy]
  | cons a as ih =>
    intro s
    have h1 := step_account s a u
    have h2 := ih (step s a).1
    simp only [run]
    rw [invokedBy_append, returnedBy_append, ← List.append_assoc, h1, List.append_assoc, h2,
      List.append_assoc]

theorem pendingCall_length (p : Pc α) : (pendingCall p).length ≤ 1 := by
  cases p <;> simp [pendingCall]

theorem init_inv (m : α) : Inv (init m) := by
  intro t f o n h; simp [init] at h

/-- Total closures: the sequential run is a fold. -/
theorem sequential_total (gs : List (α → α)) (m : α) :
    (sequential m (gs.map (fun g => fun x => some (g x)))).1 = gs.foldl (fun x g => g x) m := by
  induction gs generalizing m with
  | nil => rfl
  | cons g gs ih => simp [sequential, ih]

end Verif.Atomic
