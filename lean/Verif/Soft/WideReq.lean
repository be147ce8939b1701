import Verif.Soft.WideQuiet
/-! # Software threads with `row_next` repaired, every pool size: where a request is -/
namespace Verif.Soft

/-- Where a request made above `rest` is, if it may have been interrupted. -/
def ReqW (count t p n : Nat) (rest : List Frame) (s : State) : Prop :=
  n < requests t p s.log ∨
  requests t p s.log = n ∧ bitOf count s.mem t p = false ∧
    ∃ pre pc, s.stack = pre ++ .req t pc :: rest ∧ (pc = .load ∧ s.prio t = p ∨ pc = .cell p)

theorem runs_cons (t p : Nat) (e : Event) (l : List Event) : runs t p l ≤ runs t p (e :: l) := by
  cases e <;> simp only [runs] <;> omega

theorem requests_cons (t p : Nat) (e : Event) (l : List Event) : requests t p l ≤ requests t p (e :: l) := by
  cases e <;> simp only [requests] <;> omega

/-- An access changes only the call on top of the stack, and at most adds an event. -/
theorem frameStepW_shape {count : Nat} {s s' : State} {f : Frame} {rest : List Frame} (i : InvAW count s) (hst : s.stack = f :: rest)
    (h : frameStepW count s rest f = some s') :
    (s'.stack = rest ∨ ∃ g, s'.stack = g :: rest) ∧ s'.prio = s.prio ∧ (s'.log = s.log ∨ ∃ e, s'.log = e :: s.log) := by
  by_cases hn : ∃ r, f = .row r .next
  · obtain ⟨r, rfl⟩ := hn
    rcases next_specW i hst h with ⟨rfl, -⟩ | ⟨new, next, rfl, -⟩
    · exact ⟨.inl rfl, rfl, .inl rfl⟩
    · exact ⟨.inr ⟨_, rfl⟩, rfl, .inl rfl⟩
  · rw [frameStepW_eq (fun r e => hn ⟨r, e⟩)] at h
    exact ⟨frameStep_stack h, frameStep_prio h, frameStep_log h⟩

theorem stepW_log {count : Nat} {s s' : State} {a : Act} (i : InvAW count s) (h : stepW count s a = some s') :
    s'.log = s.log ∨ ∃ e, s'.log = e :: s.log := by
  cases a <;> simp only [stepW, step] at h
  case step =>
    split at h
    · simp only [Option.some.injEq] at h; exact .inl (h ▸ rfl)
    · rename_i f rest hst; exact (frameStepW_shape i hst h).2.2
  case setPrio =>
    split at h
    · simp only [Option.some.injEq] at h; exact .inl (h ▸ rfl)
    · simp at h
  all_goals
    simp only [Option.some.injEq] at h
    try split at h
    all_goals exact .inl (h ▸ rfl)

theorem stepW_reqW {count t p n : Nat} {rest : List Frame} {s s' : State} {a : Act} (ht : t < count) (hp : p < 27) (i : InvAW count s) (k0 : InvS count s)
    (k0' : InvS count s') (ha : ∀ q, a ≠ .setPrio t q) (h : stepW count s a = some s') (k : ReqW count t p n rest s) : ReqW count t p n rest s' := by
  have hlog := stepW_log i h
  have hreq : requests t p s.log ≤ requests t p s'.log := by
    rcases hlog with e | ⟨e, he⟩
    · rw [e]; exact Nat.le_refl _
    · rw [he]; exact requests_cons ..
  have hruns : runs t p s.log ≤ runs t p s'.log := by
    rcases hlog with e | ⟨e, he⟩
    · rw [e]; exact Nat.le_refl _
    · rw [he]; exact runs_cons ..
  rcases k with k | ⟨k1, k2, pre, pc, k3, k4⟩
  · exact .inl (by omega)
  by_cases hgt : n < requests t p s'.log
  · exact .inl hgt
  have heq : requests t p s'.log = n := by omega
  have hb : bitOf count s'.mem t p = false := by
    have e := k0.acc t p ht hp
    have e' := k0'.acc t p ht hp
    rw [k2] at e
    simp only [Bool.toNat_false] at e
    cases hb : bitOf count s'.mem t p with
    | false => rfl
    | true =>
      rw [hb] at e'
      simp only [Bool.toNat_true] at e'
      omega
  right
  cases a with
  | step =>
    cases pre with
    | nil =>
      simp only [List.nil_append] at k3
      simp only [stepW, k3, frameStepW] at h
      rcases k4 with ⟨rfl, k4⟩ | rfl
      · simp only [frameStep, Option.some.injEq] at h
        subst h
        exact ⟨heq, hb, [], .cell p, by simp [k4], .inr rfl⟩
      · exfalso
        have hf : s.mem (cellIdx count t p) &&& 1#32 <<< (t % 32) = 0 := by
          refine Classical.byContradiction fun hn => ?_
          have := (and_bit_ne (Nat.mod_lt t (show 0 < 32 by omega))).1 hn
          rw [bitOf] at k2
          rw [k2] at this; simp at this
        simp only [frameStep, cellIdx_lt ht hp, ↓reduceIte, Option.some.injEq] at h
        simp only [pendingBit_eq] at h
        subst h
        simp only [requests, hf, decide_true, and_self, ↓reduceIte] at heq
        omega
    | cons f pre =>
      simp only [List.cons_append] at k3
      simp only [stepW, k3] at h
      obtain ⟨hs, hpr, -⟩ := frameStepW_shape i k3 h
      rcases hs with e | ⟨g, e⟩
      · exact ⟨heq, hb, pre, pc, e, by rw [hpr]; exact k4⟩
      · exact ⟨heq, hb, g :: pre, pc, by simpa using e, by rw [hpr]; exact k4⟩
  | ret =>
    simp only [stepW, step, Option.some.injEq] at h
    subst h
    refine ⟨heq, hb, ?_⟩
    cases pre with
    | nil =>
      simp only [List.nil_append] at k3
      exact ⟨[], pc, by simp [k3, ret], k4⟩
    | cons f pre =>
      simp only [List.cons_append] at k3
      obtain ⟨g, hg⟩ := @ret_below f (pre ++ .req t pc :: rest)
      exact ⟨g :: pre, pc, by simp [k3, hg], k4⟩
  | setPrio u q =>
    simp only [stepW, step] at h
    split at h
    · simp only [Option.some.injEq] at h
      subst h
      refine ⟨heq, hb, pre, pc, k3, ?_⟩
      have : t ≠ u := by rintro rfl; exact ha q rfl
      simp only [upd, this, ↓reduceIte]
      exact k4
    · simp at h
  | preempt =>
    simp only [stepW, step, Option.some.injEq] at h
    subst h; exact ⟨heq, hb, _ :: pre, pc, by rw [k3]; rfl, k4⟩
  | _ =>
    simp only [stepW, step, Option.some.injEq] at h
    split at h
    · subst h; exact ⟨heq, hb, _ :: pre, pc, by rw [k3]; rfl, k4⟩
    · subst h; exact ⟨heq, hb, pre, pc, k3, k4⟩

theorem runW_reqW {count t p n : Nat} {rest : List Frame} (ht : t < count) (hp : p < 27) :
    ∀ {acts : List Act} {s s' : State}, (∀ q, .setPrio t q ∉ acts) → NoClear acts → InvAW count s → InvS count s →
    runW count s acts = some s' → ReqW count t p n rest s → ReqW count t p n rest s'
  | [], s, s', _, _, _, _, h, k => by simp only [runW, Option.some.injEq] at h; exact h ▸ k
  | a :: as, s, s', w, nc, i, k0, h, k => by
    simp only [runW] at h
    split at h
    · simp at h
    · rename_i m hms
      have k0' := stepW_invS (fun t e => nc t (by simp [e])) i k0 hms
      exact runW_reqW ht hp (fun q hq => w q (by simp [hq])) (fun t h => nc t (by simp [h])) (stepW_invA i hms) k0' h
        (stepW_reqW ht hp i k0 k0' (fun q e => w q (by simp [e])) hms k)

end Verif.Soft
