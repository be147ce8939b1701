import Verif.Bound.Lemmas
import Verif.Soft.Run
/-! # The scheduler of the software threads -/
namespace Verif.Bound.Soft
open Verif.Soft

/-- The top call of the stack is in the body of a thread. -/
def atBody : List Frame → Bool
  | f :: _ => f.inBody.isSome
  | [] => false

/-- The software threads, seen from the call with `d` calls below it on the stack. What the bodies of
the threads do, and what interrupts do, is not its own. -/
def prog (count d : Nat) : Prog State Act where
  step := step count
  own s a := decide (a = .step) && s.stack.length == d + 1 && !atBody s.stack
  busy s := decide (d < s.stack.length)
  excuse _ _ _ := 0

/-- The accesses for a level. -/
def level (count : Nat) : Nat := 4 * count + 2

/-- The rest of a `Thread::call`. -/
def cRank : Call → Nat
  | .load => 3
  | .store _ => 2
  | .body _ => 1
  | .restore _ => 1

/-- The rest of a level. -/
def pRank (count : Nat) : RowPc → Nat
  | .load _ => 4 * count + 2
  | .bits thr _ _ => 4 * (count - thr) + 1
  | .call thr _ _ c => 4 * (count - thr - 1) + 1 + cRank c
  | .next => 1

/-- The rest of a call above the calls `st`. -/
def rank (count : Nat) (st : List Frame) : Frame → Nat
  | .req _ .load => 4 + (27 - running st) * level count
  | .req _ (.cell _) => 3 + (27 - running st) * level count
  | .req _ (.header _) => 2 + (27 - running st) * level count
  | .start => 1 + (27 - running st) * level count
  | .row r pc => (r.priority - 1 - r.prev) * level count + pRank count pc
  | .clear _ none => 2
  | .clear _ (some _) => 1
  | .plain _ c => cRank c

/-- The rest of the call with `d` calls below it. -/
def pot (count d : Nat) : List Frame → Nat
  | [] => 0
  | f :: st => if st.length = d then rank count st f else pot count d st

theorem pot_short {count d : Nat} : ∀ {st : List Frame}, st.length ≤ d → pot count d st = 0
  | [], _ => rfl
  | f :: st, h => by
    have h' : st.length + 1 ≤ d := h
    rw [pot, if_neg (by omega)]
    exact pot_short (by omega)

theorem rank_pos {count : Nat} (st : List Frame) (f : Frame) : 0 < rank count st f := by
  cases f with
  | req t pc => cases pc <;> simp only [rank] <;> omega
  | start => simp only [rank]; omega
  | row r pc => cases pc <;> simp only [rank, pRank] <;> omega
  | clear t p => cases p <;> simp [rank]
  | plain t c => cases c <;> simp [rank, cRank]

theorem pot_pos {count d : Nat} : ∀ {st : List Frame}, d < st.length → 0 < pot count d st
  | f :: st, h => by
    have h' : d < st.length + 1 := h
    rw [pot]
    split
    · exact rank_pos _ _
    · exact pot_pos (by omega)

/-- One access of the call on top: it returns, or has less left. -/
theorem frameStep_rank {count : Nat} (hc : count ≤ 32) {s s' : State} {f : Frame} {rest : List Frame} (i : InvA count s)
    (hst : s.stack = f :: rest) (h : frameStep count s rest f = some s') :
    s'.stack = rest ∨ ∃ g, s'.stack = g :: rest ∧ rank count rest g + (if f.inBody.isSome then 0 else 1) ≤ rank count rest f := by
  have hok : f.Ok count rest := by have := i.ok; rw [hst] at this; exact this.1
  have hcur : (s.mem 0 >>> levels).toNat = running (f :: rest) := by rw [← hst]; exact i.cur
  have hrun : running rest ≤ 27 := by have := i.ok; rw [hst] at this; exact running_le this.2
  cases f with
  | req t pc =>
    cases pc with
    | load => simp only [frameStep, Option.some.injEq] at h; subst h; exact .inr ⟨_, rfl, by simp [rank, Frame.inBody]; omega⟩
    | cell p =>
      simp only [frameStep] at h
      split at h
      · simp only [Option.some.injEq] at h; subst h
        simp only
        split
        · exact .inr ⟨_, rfl, by simp [rank, Frame.inBody]; omega⟩
        · exact .inl rfl
      · cases h
    | header p =>
      simp only [frameStep, Option.some.injEq] at h; subst h
      simp only
      split
      · exact .inr ⟨_, rfl, by simp [rank, Frame.inBody]; omega⟩
      · exact .inl rfl
  | start =>
    simp only [frameStep] at h
    have hp : (s.mem 0 >>> levels).toNat = running rest := hcur
    have sp := findPriority_spec (s.mem 0) (running rest) 27 hrun (Nat.le_refl _)
    rw [hp] at h
    rw [show levels = 27 from rfl] at h
    split at h
    · simp only [Option.some.injEq] at h; subst h; exact .inl rfl
    · rename_i new p hf
      rw [hf] at sp
      simp only [Option.some.injEq] at h; subst h
      refine .inr ⟨_, rfl, ?_⟩
      simp only [rank, pRank, level, Frame.inBody, Option.isSome_none, Bool.false_eq_true, if_false]
      have h1 := sp.1
      have h2 := sp.2.1
      have : (27 - running rest) * (4 * count + 2) = (p - 1 - running rest) * (4 * count + 2) + (28 - p) * (4 * count + 2) := by
        rw [← Nat.add_mul]; congr 1; omega
      have h3 : 1 * (4 * count + 2) ≤ (28 - p) * (4 * count + 2) := Nat.mul_le_mul_right _ (by omega)
      omega
  | row r pc =>
    obtain ⟨h0, hprev, hlt, hle, hptr, hpc⟩ := hok
    cases pc with
    | load thr =>
      simp only [RowPc.Ok] at hpc
      subst hpc
      simp only [frameStep] at h
      split at h
      · split at h
        · split at h
          · simp only [Option.some.injEq] at h; subst h
            simp only
            rw [if_pos (show (0 + 1 <<< colBits) ≥ count from by simp [colBits]; omega)]
            exact .inr ⟨_, rfl, by simp only [rank, pRank, Frame.inBody, Option.isSome_none, Bool.false_eq_true, if_false]; omega⟩
          · cases h
        · simp only [Option.some.injEq] at h; subst h
          exact .inr ⟨_, rfl, by simp only [rank, pRank, Frame.inBody, Option.isSome_none, Bool.false_eq_true, if_false]; omega⟩
      · cases h
    | bits thr cell bit =>
      obtain ⟨ht, hbit⟩ := hpc
      simp only [frameStep] at h
      split at h
      · split at h
        · simp only [Option.some.injEq] at h; subst h
          exact .inr ⟨_, rfl, by simp only [rank, pRank, cRank, Frame.inBody, Option.isSome_none, Bool.false_eq_true, if_false]; omega⟩
        · cases h
      · simp only [Option.some.injEq] at h; subst h
        refine .inr ⟨_, rfl, ?_⟩
        rw [hbit, advance_small r cell hc ht]
        split <;> simp only [rank, pRank, Frame.inBody, Option.isSome_none, Bool.false_eq_true, if_false] <;> omega
    | call thr cell bit c =>
      obtain ⟨ht, hbit⟩ := hpc
      cases c <;> simp only [frameStep, callStep, Option.some.injEq] at h <;> subst h <;> refine .inr ⟨_, rfl, ?_⟩
      · simp only [rank, pRank, cRank, Frame.inBody, Option.isSome_none, Bool.false_eq_true, if_false]; omega
      · simp only [rank, pRank, cRank, Frame.inBody, Option.isSome_none, Bool.false_eq_true, if_false]; omega
      · simp [Frame.inBody]
      · rw [hbit, advance_small r cell hc ht]
        split <;> simp only [rank, pRank, cRank, Frame.inBody, Option.isSome_none, Bool.false_eq_true, if_false] <;> omega
    | next =>
      simp only [frameStep, Option.some.injEq] at h
      have sp := findPriority_spec (s.mem 0) r.prev (r.priority - 1) (by omega) (by omega)
      subst h
      simp only
      cases hf : findPriority (s.mem 0) r.prev (r.priority - 1) with
      | mk new p =>
        rw [hf] at sp
        cases new with
        | none => left; simp only at sp; rw [if_pos sp.1]
        | some new =>
          simp only at sp
          have h1 := sp.1
          have h2 := sp.2.1
          simp only
          rw [if_neg (by omega), if_pos (by omega)]
          refine .inr ⟨_, rfl, ?_⟩
          simp only [rank, pRank, level, Frame.inBody, Option.isSome_none, Bool.false_eq_true, if_false]
          have : (r.priority - 1 - r.prev) * (4 * count + 2) = (p - 1 - r.prev) * (4 * count + 2) + (r.priority - p) * (4 * count + 2) := by
            rw [← Nat.add_mul]; congr 1; omega
          have h3 : 1 * (4 * count + 2) ≤ (r.priority - p) * (4 * count + 2) := Nat.mul_le_mul_right _ (by omega)
          omega
  | clear t p =>
    cases p with
    | none => simp only [frameStep, Option.some.injEq] at h; subst h; exact .inr ⟨_, rfl, by simp [rank, Frame.inBody]⟩
    | some p =>
      simp only [frameStep] at h
      split at h
      · simp only [Option.some.injEq] at h; subst h; exact .inl rfl
      · cases h
  | plain t c =>
    cases c <;> simp only [frameStep, callStep, Option.some.injEq] at h <;> subst h
    · exact .inr ⟨_, rfl, by simp [rank, cRank, Frame.inBody]⟩
    · exact .inr ⟨_, rfl, by simp [rank, cRank, Frame.inBody]⟩
    · exact .inr ⟨_, rfl, by simp [Frame.inBody]⟩
    · exact .inl rfl

theorem ret_pot {count d : Nat} (st : List Frame) : pot count d (ret st) = pot count d st := by
  unfold ret
  split <;> simp only [pot, rank, pRank, cRank]

theorem pot_push {count d : Nat} {f : Frame} {st : List Frame} (h : d < st.length) : pot count d (f :: st) = pot count d st := by
  rw [pot, if_neg (by omega)]

theorem step_pot {count d : Nat} (hc : count ≤ 32) {s s' : State} {a : Act} (i : InvA count s) (hb : d < s.stack.length)
    (h : step count s a = some s') :
    pot count d s'.stack + (if (prog count d).own s a then 1 else 0) ≤ pot count d s.stack := by
  cases a with
  | step =>
    simp only [step] at h
    cases hst : s.stack with
    | nil => rw [hst] at hb; cases hb
    | cons f rest =>
      rw [hst] at h hb
      simp only at h
      have hb : d < rest.length + 1 := hb
      simp only [prog, hst, decide_true, Bool.true_and, List.length_cons, atBody]
      rcases frameStep_rank hc i hst h with e | ⟨g, e, hg⟩
      · rw [e]
        by_cases hd : rest.length = d
        · rw [pot_short (by omega), pot, if_pos hd]
          have := rank_pos (count := count) rest f
          split <;> omega
        · rw [pot, if_neg hd, if_neg (by simp; omega)]
          omega
      · rw [e]
        by_cases hd : rest.length = d
        · rw [pot, if_pos hd, pot, if_pos hd]
          simp only [hd, beq_self_eq_true, Bool.true_and, Bool.not_eq_true']
          cases hin : f.inBody.isSome <;> simp only [hin, Bool.false_eq_true, if_false, if_true, reduceCtorEq] at hg ⊢ <;> omega
        · rw [pot, if_neg hd, pot, if_neg hd, if_neg (by simp; omega)]
          omega
  | ret =>
    simp only [step, Option.some.injEq] at h; subst h
    simp only [prog, ret_pot]
    simp
  | pend t =>
    simp only [step, Option.some.injEq] at h; subst h
    simp only [prog]
    split <;> simp [pot_push hb]
  | preempt =>
    simp only [step, Option.some.injEq] at h; subst h
    simp [prog, pot_push hb]
  | clear t =>
    simp only [step, Option.some.injEq] at h; subst h
    simp only [prog]
    split <;> simp [pot_push hb]
  | enter t =>
    simp only [step, Option.some.injEq] at h; subst h
    simp only [prog]
    split <;> simp [pot_push hb]
  | setPrio t p =>
    simp only [step] at h
    split at h
    · simp only [Option.some.injEq] at h; subst h
      simp [prog]
    · cases h

theorem within {count d : Nat} (hc : count ≤ 32) {s : State} (i : InvA count s) : (prog count d).Within s (pot count d s.stack) := by
  refine within_of_potential (prog count d) (InvA count) (fun s => pot count d s.stack) (fun s a s' i h => step_invA hc i h)
    (fun s i hb => ?_) (fun s a s' i hb h => ?_) s i
  · simp only [prog, decide_eq_true_eq] at hb
    exact pot_pos hb
  · simp only [prog, decide_eq_true_eq] at hb
    exact step_pot hc i hb h

end Verif.Bound.Soft
