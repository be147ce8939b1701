import Verif.Ring.PropsLemmas
/-! # Conditions on schedules of the ring channel -/
namespace Verif.Ring

open Verif.Spsc

variable {k cap : Nat} {τ ε : Type}

theorem Sequential.apart {t : State k τ ε} (h : Sequential t) : Apart t := by
  rcases h with ht | ht
  · refine ⟨fun hf => ?_, fun _ => ?_⟩
    · cases hh : t.spc <;> simp_all [SPc.resting, SPc.freeing]
    · cases hh : t.spc <;> simp_all [SPc.resting, SPc.leaving]
  · refine ⟨fun _ => ?_, fun hf => ?_⟩
    · cases hh : t.rpc <;> simp_all [RPc.resting, RPc.leaving]
    · cases hh : t.rpc <;> simp_all [RPc.resting, RPc.freeing]

theorem resting_slots {rpc : RPc k} (h : rpc.resting = true) : rpc.slots cap = [] := by
  cases rpc <;> simp_all [RPc.resting, RPc.slots]

theorem Sequential.noclash {t : State k τ ε} (h : Sequential t) : ¬Clash cap t := by
  rintro ⟨i, h1, h2⟩
  rcases h with ht | ht
  · simp [resting_slot ht] at h1
  · simp [resting_slots ht] at h2

/-- The slots the receiver works on after a step are those it worked on, or pending
ones. -/
theorem rStep_slots {s s' : State k τ ε} (h : rStep cap s = some s') (hc : cur s.st < cap) :
    s'.spc = s.spc ∧ ∀ i ∈ s'.rpc.slots cap, i ∈ s.rpc.slots cap ∨ (i ∈ slots (cur s.st) (len s.st) cap ∧ rDone s.rpc = false) := by
  obtain ⟨st, buf, err, rxw, txw, freed, spc, rpc, log⟩ := s
  dsimp only at hc
  have hz : 0 < len st → cur st ∈ slots (cur st) (len st) cap := by
    intro h0
    simp only [slots, List.mem_map, List.mem_range]
    refine ⟨0, h0, ?_⟩
    unfold addCursor
    split <;> omega
  cases rpc with
  | idle => simp [rStep, RPc.resting] at h; subst h; exact ⟨rfl, fun i hi => .inl hi⟩
  | gone => simp [rStep, RPc.resting] at h; subst h; exact ⟨rfl, fun i hi => .inl hi⟩
  | drRmw =>
    simp only [rStep, RPc.resting, dropTail, dropLoop, State.emit, Bool.false_eq_true, if_false] at h
    (repeat' split at h) <;> simp only [Option.some.injEq, reduceCtorEq] at h
    all_goals subst h
    all_goals refine ⟨rfl, fun i hi => ?_⟩
    all_goals simp only [RPc.slots, rDel_start] at hi
    all_goals first | (simp at hi; done) | exact .inr ⟨hi, rfl⟩
  | drSlot st' j =>
    simp only [rStep, RPc.resting, dropTail, dropLoop, State.emit, Bool.false_eq_true, if_false] at h
    (repeat' split at h) <;> simp only [Option.some.injEq, reduceCtorEq] at h
    all_goals subst h
    all_goals refine ⟨rfl, fun i hi => ?_⟩
    all_goals simp only [RPc.slots] at hi
    all_goals first
      | (simp at hi; done)
      | (refine .inl ?_
         simp only [RPc.slots]
         rw [rDel_cons (by omega)]
         exact List.mem_cons_of_mem _ hi)
  | _ =>
    simp only [rStep, RPc.resting, takeValue, dropTail, State.emit, State.release, Bool.false_eq_true, if_false] at h
    (repeat' split at h) <;> simp only [Option.some.injEq, reduceCtorEq] at h
    all_goals subst h
    all_goals refine ⟨rfl, fun i hi => ?_⟩
    all_goals simp only [RPc.slots] at hi
    all_goals first
      | (simp at hi; done)
      | (simp only [RPc.slots, rDone]; grind)

/-- A receiver that is not interrupted never works on the sender's slot. -/
theorem Uninterrupted.noclash (h1 : 1 < cap) (hcap : cap < 2 ^ k) {s : State k τ ε} {acts : List (Act τ ε)}
    (g : Inv cap s ∨ Doomed s) (il : InvL cap s) (nc : ¬Clash cap s) (u : Uninterrupted cap s acts) :
    Always cap (fun t => ¬Clash cap t) s acts := by
  induction acts generalizing s with
  | nil => exact nc
  | cons a as ih =>
    refine ⟨nc, fun s' h => ?_⟩
    rcases g with inv | d
    · refine ih (step_good inv h) (step_invL h1 hcap inv il h) ?_ (u.2 s' h)
      cases a with
      | sCall op =>
        have := resting_slots (cap := cap) (u.1 rfl)
        simp only [step] at h
        split at h <;> simp only [Option.some.injEq] at h <;> subst h
        · rintro ⟨i, _, h2⟩
          cases op <;> simp [sCall, State.emit, this] at h2
        · exact nc
      | sStep =>
        have hr := u.1 rfl
        have : s'.rpc = s.rpc := by
          simp only [step, sStep, owMid, errTail, State.emit, State.release] at h
          clear nc hr u inv il ih
          split at h
          · simp at h; subst h; rfl
          split at h
          · simp at h
          split at h <;> (repeat' split at h) <;> simp only [Option.some.injEq, reduceCtorEq] at h <;> subst h <;> rfl
        rintro ⟨i, _, h2⟩
        rw [this, resting_slots hr] at h2
        simp at h2
      | rCall op =>
        simp only [step] at h
        split at h <;> simp only [Option.some.injEq] at h <;> subst h
        · rintro ⟨i, _, h2⟩
          cases op <;> simp [rCall, RPc.slots] at h2
        · exact nc
      | rStep =>
        obtain ⟨e1, e2⟩ := rStep_slots h il.1.cur
        rintro ⟨i, h3, h4⟩
        rw [e1] at h3
        rcases e2 i h4 with q | ⟨q, hd⟩
        · exact nc ⟨i, h3, q⟩
        · have := il.1.slotat i h3 hd
          rw [this.1] at q
          exact not_mem_slots (Nat.le_refl _) this.2 q
    · have := d.step h
      subst this
      exact ih (.inr d) il nc (u.2 _ h)

/-- Without calls of `close` the receiver closes only when it leaves. -/
theorem NoClose.orderly {s : State k τ ε} {acts : List (Act τ ε)} (nc : NoClose acts)
    (h1 : s.rpc ≠ .clRmw) (h2 : Event.closed ∈ s.log → rDone s.rpc = true) : Always cap Orderly s acts := by
  have key : ∀ t : State k τ ε, (Event.closed ∈ t.log → rDone t.rpc = true) → Orderly t := by
    intro t ht i hi hc
    have := ht hc
    rw [hi] at this
    simp [rDone] at this
  induction acts generalizing s with
  | nil => exact key s h2
  | cons a as ih =>
    refine ⟨key s h2, fun s' h => ?_⟩
    have nc' : NoClose as := by
      cases a with
      | rCall op => cases op <;> first | exact nc | exact nc.elim
      | _ => exact nc
    obtain ⟨st, buf, err, rxw, txw, freed, spc, rpc, log⟩ := s
    dsimp only at h1 h2
    refine ih nc' ?_ ?_ <;> clear ih key nc'
    · cases a with
      | sCall op =>
        simp only [step] at h
        split at h <;> simp only [Option.some.injEq] at h <;> subst h
        · cases op <;> exact h1
        · exact h1
      | rCall op =>
        simp only [step] at h
        split at h <;> simp only [Option.some.injEq] at h <;> subst h
        · cases op <;> simp [rCall]
          exact nc
        · exact h1
      | sStep =>
        simp only [step] at h
        cases spc <;>
        · simp only [sStep, SPc.resting, owMid, errTail, State.emit, State.release, Bool.false_eq_true, if_false, if_true] at h
          (repeat' split at h) <;> simp only [Option.some.injEq, reduceCtorEq] at h <;> subst h <;> exact h1
      | rStep =>
        simp only [step] at h
        cases rpc <;>
        · simp only [rStep, RPc.resting, takeValue, dropTail, dropLoop, State.emit, State.release, Bool.false_eq_true, if_false, if_true] at h
          (repeat' split at h) <;> simp only [Option.some.injEq, reduceCtorEq] at h <;> subst h <;> simp
    · cases a with
      | sCall op =>
        simp only [step] at h
        split at h <;> simp only [Option.some.injEq] at h <;> subst h
        · cases op <;> simpa [sCall, State.emit] using h2
        · exact h2
      | rCall op =>
        simp only [step] at h
        split at h <;> simp only [Option.some.injEq] at h <;> subst h
        · rename_i hi
          cases rpc <;> simp [RPc.isIdle] at hi
          intro hc
          have hc : Event.closed ∈ log := by cases op <;> exact hc
          simpa [rDone] using h2 hc
        · exact h2
      | sStep =>
        simp only [step] at h
        cases spc <;>
        · simp only [sStep, SPc.resting, owMid, errTail, closedResult, State.emit, State.release, Bool.false_eq_true, if_false, if_true] at h
          (repeat' split at h) <;> simp only [Option.some.injEq, reduceCtorEq] at h <;> subst h <;>
            (try simp only [List.mem_cons, reduceCtorEq, false_or]) <;> exact h2
      | rStep =>
        simp only [step] at h
        cases rpc <;>
        · simp only [rStep, RPc.resting, takeValue, dropTail, dropLoop, State.emit, State.release, Bool.false_eq_true, if_false, if_true] at h
          (repeat' split at h) <;> simp only [Option.some.injEq, reduceCtorEq] at h <;> subst h <;> simp_all [rDone]

/-- The waker of the running poll of the receiver. -/
def rWk : RPc k → Option Waker
  | .pnRmw w | .pnWrite w | .pnRmw2 w => some w
  | _ => none

/-- The waker of the running poll of the sender. -/
def sPw : SPc k τ ε → Option Waker
  | .pLoad _ w | .pWrite _ w | .pRmw _ w _ => some w
  | _ => none

theorem stored_closedResult (κ : Kind) (l : List (Event τ ε)) :
    rxStored (closedResult κ :: l) = rxStored l ∧ txStored (closedResult κ :: l) = txStored l := by
  cases κ <;> exact ⟨rfl, rfl⟩

/-- Steps of the sender and the wakers of the receiver. -/
theorem sStep_rx {s s' : State k τ ε} (h : sStep cap s = some s') :
    rxStored s'.log = rxStored s.log ∧ s'.rpc = s.rpc ∧
    (∀ u ∈ txStored s'.log, u ∈ txStored s.log ∨ sPw s.spc = some u) ∧ (∀ u, sPw s'.spc = some u → sPw s.spc = some u) := by
  obtain ⟨st, buf, err, rxw, txw, freed, spc, rpc, log⟩ := s
  cases spc <;>
  · simp only [sStep, SPc.resting, owMid, errTail, State.emit, State.release, Bool.false_eq_true, if_false, if_true] at h
    (repeat' split at h) <;> simp only [Option.some.injEq, reduceCtorEq] at h <;> subst h <;>
      first
      | exact ⟨rfl, rfl, fun u hu => .inl hu, by simp [sPw]⟩
      | exact ⟨(stored_closedResult _ _).1, rfl, fun u hu => .inl ((stored_closedResult _ _).2 ▸ hu), by simp [sPw]⟩
      | (simp [txStored, rxStored, sPw, (stored_closedResult _ _).1, (stored_closedResult _ _).2]; done)
      | (simp [txStored, rxStored, sPw, (stored_closedResult _ _).1, (stored_closedResult _ _).2]; grind)

/-- Steps of the receiver and the wakers. -/
theorem rStep_tx {s s' : State k τ ε} (h : rStep cap s = some s') :
    txStored s'.log = txStored s.log ∧ s'.spc = s.spc ∧
    (∀ u ∈ rxStored s'.log, u ∈ rxStored s.log ∨ rWk s.rpc = some u) ∧ (∀ u, rWk s'.rpc = some u → rWk s.rpc = some u) := by
  obtain ⟨st, buf, err, rxw, txw, freed, spc, rpc, log⟩ := s
  cases rpc <;>
  · simp only [rStep, RPc.resting, takeValue, dropTail, dropLoop, State.emit, State.release, Bool.false_eq_true, if_false, if_true] at h
    (repeat' split at h) <;> simp only [Option.some.injEq, reduceCtorEq] at h <;> subst h <;>
      first
      | exact ⟨rfl, rfl, fun u hu => .inl hu, by simp [rWk]⟩
      | (simp [rxStored, txStored, rWk]; done)
      | (simp [rxStored, txStored, rWk]; grind)

theorem rxStored_one {w : Waker} {s s' : State k τ ε} {acts : List (Act τ ε)} (h : run cap s acts = some s')
    (ho : OneRx w acts) (h1 : ∀ u ∈ rxStored s.log, u = w) (h2 : ∀ u, rWk s.rpc = some u → u = w) :
    ∀ u ∈ rxStored s'.log, u = w := by
  induction acts generalizing s with
  | nil => simp [run] at h; subst h; exact h1
  | cons a as ih =>
    simp only [run] at h
    split at h
    · simp at h
    · rename_i t ht
      have ho' : OneRx w as := by
        cases a with
        | rCall op => cases op <;> first | exact ho | exact ho.2
        | _ => exact ho
      cases a with
      | sCall op =>
        simp only [step] at ht
        split at ht <;> simp only [Option.some.injEq] at ht <;> subst ht
        · exact ih h ho' (by cases op <;> exact h1) (by cases op <;> exact h2)
        · exact ih h ho' h1 h2
      | rCall op =>
        simp only [step] at ht
        split at ht <;> simp only [Option.some.injEq] at ht <;> subst ht
        · refine ih h ho' (by cases op <;> exact h1) ?_
          cases op <;> simp [rCall, rWk, OneRx] at * <;> grind
        · exact ih h ho' h1 h2
      | sStep =>
        obtain ⟨e1, e2, -⟩ := sStep_rx ht
        exact ih h ho' (e1 ▸ h1) (e2 ▸ h2)
      | rStep =>
        obtain ⟨-, -, e3, e4⟩ := rStep_tx ht
        exact ih h ho' (fun u hu => (e3 u hu).elim (h1 u) (h2 u)) (fun u hu => h2 u (e4 u hu))

theorem txStored_one {w : Waker} {s s' : State k τ ε} {acts : List (Act τ ε)} (h : run cap s acts = some s')
    (ho : OneTx w acts) (h1 : ∀ u ∈ txStored s.log, u = w) (h2 : ∀ u, sPw s.spc = some u → u = w) :
    ∀ u ∈ txStored s'.log, u = w := by
  induction acts generalizing s with
  | nil => simp [run] at h; subst h; exact h1
  | cons a as ih =>
    simp only [run] at h
    split at h
    · simp at h
    · rename_i t ht
      have ho' : OneTx w as := by
        cases a with
        | sCall op => cases op <;> first | exact ho | exact ho.2
        | _ => exact ho
      cases a with
      | rCall op =>
        simp only [step] at ht
        split at ht <;> simp only [Option.some.injEq] at ht <;> subst ht
        · exact ih h ho' (by cases op <;> exact h1) (by cases op <;> exact h2)
        · exact ih h ho' h1 h2
      | sCall op =>
        simp only [step] at ht
        split at ht <;> simp only [Option.some.injEq] at ht <;> subst ht
        · refine ih h ho' (by cases op <;> exact h1) ?_
          cases op <;> simp [sCall, State.emit, sPw, OneTx] at * <;> grind
        · exact ih h ho' h1 h2
      | rStep =>
        obtain ⟨e1, e2, -⟩ := rStep_tx ht
        exact ih h ho' (e1 ▸ h1) (e2 ▸ h2)
      | sStep =>
        obtain ⟨-, -, e3, e4⟩ := sStep_rx ht
        exact ih h ho' (fun u hu => (e3 u hu).elim (h1 u) (h2 u)) (fun u hu => h2 u (e4 u hu))

end Verif.Ring
