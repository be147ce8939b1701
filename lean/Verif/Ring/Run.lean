import Verif.Ring.InvSend
import Verif.Ring.InvRecv
import Verif.Ring.Slots
/-! # Schedules of the ring channel keep the invariants -/
namespace Verif.Ring

open Verif.Spsc

variable {k cap : Nat} {τ ε : Type}

theorem sCall_inv {s : State k τ ε} (inv : Inv cap s) (h : s.spc.isIdle = true) (op : SOp τ ε) : Inv cap (sCall s op) := by
  obtain ⟨st, buf, err, rxw, txw, freed, spc, rpc, log⟩ := s
  cases spc <;> simp [SPc.isIdle] at h
  unfold Inv at inv
  cases op <;>
    exact ⟨inv.1, inv.2, inv.3, inv.4, inv.5, inv.6, inv.7, inv.8, inv.9, inv.10, inv.11, inv.12, inv.13, inv.14,
      inv.15, inv.16, inv.17, inv.18, inv.19, inv.20, inv.21, inv.22, inv.23, inv.24, inv.25⟩

theorem rCall_inv {s : State k τ ε} (inv : Inv cap s) (h : s.rpc.isIdle = true) (op : ROp) : Inv cap (rCall s op) := by
  obtain ⟨st, buf, err, rxw, txw, freed, spc, rpc, log⟩ := s
  cases rpc <;> simp [RPc.isIdle] at h
  unfold Inv at inv
  cases op <;>
    exact ⟨inv.1, inv.2, inv.3, inv.4, inv.5, inv.6, inv.7, inv.8, inv.9, inv.10, inv.11, inv.12, inv.13, inv.14,
      inv.15, inv.16, inv.17, inv.18, inv.19, inv.20, inv.21, inv.22, inv.23, inv.24, inv.25⟩

/-- Steps keep the invariant unless the object is released under the feet of the
other end. -/
theorem step_inv {s s' : State k τ ε} (inv : Inv cap s) (ap : Apart s) {a : Act τ ε} (h : step cap s a = some s') :
    Inv cap s' := by
  cases a with
  | sCall op =>
    simp only [step] at h
    split at h <;> simp at h <;> subst h
    · exact sCall_inv inv (by assumption) op
    · exact inv
  | rCall op =>
    simp only [step] at h
    split at h <;> simp at h <;> subst h
    · exact rCall_inv inv (by assumption) op
    · exact inv
  | sStep => exact sStep_inv inv ap.sender h
  | rStep => exact rStep_inv inv ap.receiver h

/-- The object was released while one end was still leaving. -/
def Doomed (s : State k τ ε) : Prop :=
  s.freed = true ∧ ((sGone s.spc = true ∧ s.rpc.leaving = true) ∨ (rGone s.rpc = true ∧ s.spc.leaving = true))

/-- Nothing happens any more, or undefined behaviour. -/
theorem Doomed.step {s s' : State k τ ε} (d : Doomed s) {a : Act τ ε} (h : step cap s a = some s') : s' = s := by
  obtain ⟨st, buf, err, rxw, txw, freed, spc, rpc, log⟩ := s
  obtain ⟨d1, d2⟩ := d
  dsimp only at d1 d2
  subst d1
  cases a
  · cases spc <;> simp_all [Verif.Ring.step, SPc.isIdle, sGone, SPc.leaving]
  · cases spc <;> simp_all [Verif.Ring.step, sStep, SPc.resting, sGone, SPc.leaving]
  · cases rpc <;> simp_all [Verif.Ring.step, RPc.isIdle, rGone, RPc.leaving]
  · cases rpc <;> simp_all [Verif.Ring.step, rStep, RPc.resting, rGone, RPc.leaving]

/-- Every step keeps the invariant or dooms the state. -/
theorem step_good {s s' : State k τ ε} (inv : Inv cap s) {a : Act τ ε} (h : step cap s a = some s') :
    Inv cap s' ∨ Doomed s' := by
  by_cases ap0 : Apart s
  · exact .inl (step_inv inv ap0 h)
  · cases a with
    | sCall op =>
      simp only [step] at h
      split at h <;> simp at h <;> subst h
      · exact .inl (sCall_inv inv (by assumption) op)
      · exact .inl inv
    | rCall op =>
      simp only [step] at h
      split at h <;> simp at h <;> subst h
      · exact .inl (rCall_inv inv (by assumption) op)
      · exact .inl inv
    | sStep =>
      by_cases ap : s.spc.freeing = true → s.rpc.leaving = false
      · exact .inl (sStep_inv inv ap h)
      · right
        simp only [Classical.not_imp, Bool.not_eq_false] at ap
        obtain ⟨st, buf, err, rxw, txw, freed, spc, rpc, log⟩ := s
        cases spc <;> simp [SPc.freeing] at ap <;> cases freed <;>
          simp [step, sStep, SPc.resting, State.release, State.emit] at h <;> subst h <;> exact ⟨rfl, .inl ⟨rfl, ap⟩⟩
    | rStep =>
      by_cases ap : s.rpc.freeing = true → s.spc.leaving = false
      · exact .inl (rStep_inv inv ap h)
      · right
        simp only [Classical.not_imp, Bool.not_eq_false] at ap
        obtain ⟨st, buf, err, rxw, txw, freed, spc, rpc, log⟩ := s
        cases rpc <;> simp [RPc.freeing] at ap <;> cases freed <;>
          simp [step, rStep, RPc.resting, State.release, State.emit] at h <;> subst h <;> exact ⟨rfl, .inr ⟨rfl, ap⟩⟩

/-- The invariant about length and cursor. -/
def InvL (cap : Nat) (s : State k τ ε) : Prop := InvW cap s.st s.spc s.rpc s.log ∧ rLoop cap s.rpc = true

theorem step_invL {s s' : State k τ ε} (h1 : 1 < cap) (hcap : cap < 2 ^ k) (inv : Inv cap s) (il : InvL cap s)
    {a : Act τ ε} (h : step cap s a = some s') : InvL cap s' := by
  refine ⟨?_, rLoop_step il.1 il.2 h⟩
  cases a with
  | sCall op =>
    simp only [step] at h
    split at h <;> simp at h <;> subst h
    · exact sCall_invW il.1 (by assumption) op
    · exact il.1
  | rCall op =>
    simp only [step] at h
    split at h <;> simp at h <;> subst h
    · exact rCall_invW il.1 (by assumption) op
    · exact il.1
  | sStep => exact sStep_invW h1 hcap inv il.1 h
  | rStep => exact rStep_invW h1 hcap il.1 h

theorem step_invC {s s' : State k τ ε} (h1 : 1 < cap) (hcap : cap < 2 ^ k) (inv : Inv cap s) (il : InvL cap s)
    (hn : ¬Clash cap s) (ic : InvC cap s) {a : Act τ ε} (h : step cap s a = some s') : InvC cap s' := by
  cases a with
  | sCall op =>
    simp only [step] at h
    split at h <;> simp at h <;> subst h
    · exact sCall_invC ic (by assumption) op
    · exact ic
  | rCall op =>
    simp only [step] at h
    split at h <;> simp at h <;> subst h
    · exact rCall_invC ic (by assumption) op
    · exact ic
  | sStep => exact sStep_invC h1 hcap inv il.1 ic hn h
  | rStep => exact rStep_invC hcap il.2 il.1 ic hn h

theorem init_invL (h1 : 1 < cap) : InvL cap (init k τ ε) := ⟨init_invW h1, rfl⟩

/-- Induction over schedules without undefined behaviour. -/
theorem run_ind (h1 : 1 < cap) (hcap : cap < 2 ^ k) {Q P : State k τ ε → Prop}
    (hP : ∀ s a s', Inv cap s → InvL cap s → Q s → P s → step cap s a = some s' → P s')
    {s s' : State k τ ε} {acts : List (Act τ ε)} (g : Inv cap s ∨ Doomed s) (il : InvL cap s) (p : P s)
    (al : Always cap Q s acts) (h : run cap s acts = some s') : (Inv cap s' ∨ Doomed s') ∧ InvL cap s' ∧ P s' := by
  induction acts generalizing s with
  | nil => simp [run] at h; subst h; exact ⟨g, il, p⟩
  | cons a as ih =>
    simp only [run] at h
    split at h
    · simp at h
    · rename_i s1 h2
      rcases g with inv | d
      · exact ih (step_good inv h2) (step_invL h1 hcap inv il h2) (hP _ _ _ inv il al.1 p h2) (al.2 _ h2) h
      · have := d.step h2
        subst this
        exact ih (.inr d) il p (al.2 _ h2) h

theorem Always.trivial (s : State k τ ε) (acts : List (Act τ ε)) : Always cap (fun _ => True) s acts := by
  induction acts generalizing s with
  | nil => exact True.intro
  | cons a as ih => exact ⟨True.intro, fun s' _ => ih s'⟩

theorem Always.mono {P Q : State k τ ε → Prop} (h : ∀ s, P s → Q s) {s : State k τ ε} {acts : List (Act τ ε)}
    (al : Always cap P s acts) : Always cap Q s acts := by
  induction acts generalizing s with
  | nil => exact h _ al
  | cons a as ih => exact ⟨h _ al.1, fun s' hs => ih (al.2 s' hs)⟩

theorem sStep_progress {s : State k τ ε} (inv : Inv cap s) (il : InvL cap s) (ic : InvC cap s) :
    ∃ s', sStep cap s = some s' := by
  obtain ⟨st, buf, err, rxw, txw, freed, spc, rpc, log⟩ := s
  obtain ⟨iw, -⟩ := il
  obtain ⟨b, -⟩ := ic
  have hsl := iw.slotlt
  clear iw
  unfold Inv at inv
  dsimp only at *
  cases spc with
  | idle => exact ⟨_, rfl⟩
  | gone => exact ⟨_, rfl⟩
  | owRead v i =>
    have : freed = false := by simpa [sGone] using inv.freed
    subst this
    have h1 := hsl i rfl
    have h2 := b.tx
    have h3 : ¬cap ≤ i := by omega
    cases h4 : buf i with
    | none => exfalso; cases h5 : (abs log).tx <;> simp [sOw, h4, h5] at h2
    | some x => exact ⟨_, by simp only [sStep, SPc.resting, Bool.false_eq_true, ↓reduceIte, h3, h4]; rfl⟩
  | wrWrite v i =>
    have : freed = false := by simpa [sGone] using inv.freed
    subst this
    have h1 := hsl i rfl
    have h3 : ¬cap ≤ i := by omega
    exact ⟨_, by simp only [sStep, SPc.resting, Bool.false_eq_true, ↓reduceIte, h3]; rfl⟩
  | wrBack v i =>
    have : freed = false := by simpa [sGone] using inv.freed
    subst this
    have h1 := hsl i rfl
    have h2 := b.hold v i rfl
    have h3 : ¬cap ≤ i := by omega
    exact ⟨_, by simp only [sStep, SPc.resting, Bool.false_eq_true, ↓reduceIte, h3, h2]; rfl⟩
  | _ =>
    have hf : freed = false := by simpa [sGone] using inv.freed
    subst hf
    obtain ⟨half, closed, rtx, sundo, sfail, sbad, rundo, rplain, first1, first2, first3, first3', first4, first5, hfreed,
      rStore, hsWk, hrxw, sStore, skind, rwake, htxw, hdata, dOk, sref⟩ := inv
    clear rtx rundo rplain first1 first2 first3 first3' first4 first5 rwake closed b
    spc_simp
    simp only [sStep, SPc.resting, Bool.false_eq_true, ↓reduceIte]
    repeat' split
    all_goals first | exact ⟨_, rfl⟩ | (exfalso; simp_all; done) | (exfalso; grind)

theorem rStep_progress {s : State k τ ε} (inv : Inv cap s) (il : InvL cap s) (ic : InvC cap s) (od : Orderly s) :
    ∃ s', rStep cap s = some s' := by
  obtain ⟨st, buf, err, rxw, txw, freed, spc, rpc, log⟩ := s
  obtain ⟨iw, lp⟩ := il
  obtain ⟨b, -⟩ := ic
  have hcl := iw.cl
  clear iw
  unfold Inv at inv
  unfold Orderly at od
  dsimp only at *
  cases rpc with
  | idle => exact ⟨_, rfl⟩
  | gone => exact ⟨_, rfl⟩
  | tvWake i =>
    have : freed = false := by simpa [rGone] using inv.freed
    subst this
    have h1 := inv.txw
    have h2 := inv.rwake (.inl rfl)
    have h3 : has st (CLOSED k) = false := by have := od i rfl; grind
    cases txw with
    | none => simp [h2, h3] at h1
    | some w => exact ⟨_, by simp only [rStep, RPc.resting, Bool.false_eq_true, ↓reduceIte]; rfl⟩
  | tvRead i =>
    have : freed = false := by simpa [rGone] using inv.freed
    subst this
    have h1 := (b.rlt i rfl).1
    have h2 := b.rx
    have h3 : ¬cap ≤ i := by omega
    cases h4 : buf i with
    | none => exfalso; cases h5 : (abs log).rx <;> simp [rHold, h4, h5] at h2
    | some x => exact ⟨_, by simp only [rStep, RPc.resting, Bool.false_eq_true, ↓reduceIte, h3, h4]; rfl⟩
  | drSlot st' j =>
    have : freed = false := by simpa [rGone] using inv.freed
    subst this
    simp only [rLoop, Bool.and_eq_true, decide_eq_true_eq] at lp
    have h1 := @addCursor_lt (cur st') j cap lp.2 (by omega)
    have h2 := b.del
    have h3 : ¬cap ≤ addCursor (cur st') j cap := by omega
    simp only [rDel] at h2
    rw [rDel_cons lp.1.1] at h2
    cases h4 : buf (addCursor (cur st') j cap) with
    | none => exfalso; cases h5 : (abs log).del <;> simp [h4, h5] at h2
    | some x => exact ⟨_, by simp only [rStep, RPc.resting, Bool.false_eq_true, ↓reduceIte, h3, h4]; rfl⟩
  | _ =>
    have hf : freed = false := by simpa [rGone] using inv.freed
    subst hf
    obtain ⟨half, closed, rtx, sundo, sfail, sbad, rundo, rplain, first1, first2, first3, first3', first4, first5, hfreed,
      rStore, hsWk, hrxw, sStore, skind, rwake, htxw, hdata, dOk, sref⟩ := inv
    clear sfail sbad first1 first2 first3 first3' first4 first5 rwake b
    rpc_simp
    simp only [rStep, RPc.resting, Bool.false_eq_true, ↓reduceIte]
    repeat' split
    all_goals first | exact ⟨_, rfl⟩ | (exfalso; simp_all; done) | (exfalso; grind)

theorem step_progress {s : State k τ ε} (inv : Inv cap s) (il : InvL cap s) (ic : InvC cap s) (od : Orderly s)
    (a : Act τ ε) : ∃ s', step cap s a = some s' := by
  cases a with
  | sCall op => simp only [step]; split <;> exact ⟨_, rfl⟩
  | rCall op => simp only [step]; split <;> exact ⟨_, rfl⟩
  | sStep => exact sStep_progress inv il ic
  | rStep => exact rStep_progress inv il ic od

/-- The assumptions under which a schedule is free of undefined behaviour. -/
structure Safe (cap : Nat) (s : State k τ ε) : Prop where
  apart : Apart s
  noclash : ¬Clash cap s
  orderly : Orderly s

theorem run_safe (h1 : 1 < cap) (hcap : cap < 2 ^ k) {s : State k τ ε} (inv : Inv cap s) (il : InvL cap s)
    (ic : InvC cap s) {acts : List (Act τ ε)} (al : Always cap (Safe cap) s acts) :
    ∃ s', run cap s acts = some s' ∧ Inv cap s' ∧ InvL cap s' ∧ InvC cap s' := by
  induction acts generalizing s with
  | nil => exact ⟨s, rfl, inv, il, ic⟩
  | cons a as ih =>
    obtain ⟨s1, h2⟩ := step_progress inv il ic al.1.orderly a
    obtain ⟨s2, h3, h4⟩ := ih (step_inv inv al.1.apart h2) (step_invL h1 hcap inv il h2)
      (step_invC h1 hcap inv il al.1.noclash ic h2) (al.2 _ h2)
    exact ⟨s2, by simp [run, h2, h3], h4⟩

end Verif.Ring
