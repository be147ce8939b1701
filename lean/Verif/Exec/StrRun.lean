import Verif.Exec.StrInv
import Verif.Exec.ChanRun
/-! # Tests for concrete histories of tasks that read streams -/
namespace Verif.Exec.Str
open Verif.Exec (upd2)
open Verif.Exec.Chan (Res)

variable {n k : Nat}

def steps (m : Nat) : List (Act n) := List.replicate m .step

def polls (m : Nat) : List (Act n) := List.replicate m .poll

/-- The sender of channel `(q, i)` makes a call of `m` accesses. -/
def calls (q i : Nat) (op : Op n) (m : Nat) : List (Act n) := .call q i op :: List.replicate m (.send q i)

/-- The state after a history. -/
def ran (count : Nat) (s : State n k) (acts : List (Act n)) : State n k := (run count s acts).getD s

theorem run_ran {count : Nat} {s : State n k} {acts : List (Act n)} (h : (run count s acts).isSome = true) :
    run count s acts = some (ran count s acts) := by
  unfold ran
  cases e : run count s acts with
  | none => rw [e] at h; simp at h
  | some s => rfl

/-- A test for `NoSame`. -/
def noSameB (count : Nat) (s : State n k) (a : Act n) : Bool :=
  match wakes count s a with
  | none => true
  | some t => s.soft.stack.all fun f => f.level != some (s.soft.prio t + 1)

theorem noSameB_sound (count : Nat) (s : State n k) (a : Act n) (h : noSameB count s a = true) : NoSame count s a := by
  intro t ht f hf
  simp only [noSameB, ht, List.all_eq_true, bne_iff_ne] at h
  exact h f hf

/-- A test for `AlwaysAct`. -/
def alwaysActB (count : Nat) (P : State n k → Act n → Bool) (s : State n k) : List (Act n) → Bool
  | [] => true
  | a :: as => P s a && (match step count s a with | none => true | some s' => alwaysActB count P s' as)

theorem alwaysActB_sound {count : Nat} {P : State n k → Act n → Bool} {Q : State n k → Act n → Prop} (hPQ : ∀ s a, P s a = true → Q s a) :
    ∀ {acts : List (Act n)} {s : State n k}, alwaysActB count P s acts = true → AlwaysAct count Q s acts
  | [], _, _ => trivial
  | a :: as, s, h => by
    simp only [alwaysActB, Bool.and_eq_true] at h
    refine ⟨hPQ s a h.1, ?_⟩
    intro s' hs
    rw [hs] at h
    exact alwaysActB_sound hPQ h.2

/-- The sender has not made any call. -/
def Ch.Quiet : Ch n k → Prop
  | .oneshot c => c.spc = .idle
  | .pulse c => c.spc = .idle
  | .ring _ c => c.spc = .idle

theorem pulse_spc {c c' : Pulse.State n Nat} (h : Pulse.rStep c = some c') : c'.spc = c.spc := by
  simp only [Pulse.rStep] at h
  split at h
  · simp only [Option.some.injEq] at h; subst h; rfl
  split at h
  · simp at h
  split at h
  all_goals (repeat' (split at h))
  all_goals first
    | (simp at h; done)
    | skip
  all_goals simp only [Option.some.injEq] at h
  all_goals subst h
  all_goals try simp only [Pulse.dropTail, Pulse.gotCount]
  all_goals (repeat' split)
  all_goals rfl

theorem ring_spc {cap : Nat} {c c' : Ring.State k Nat Nat} (h : Ring.rStep cap c = some c') : c'.spc = c.spc := by
  simp only [Ring.rStep] at h
  split at h
  · simp only [Option.some.injEq] at h; subst h; rfl
  split at h
  · simp at h
  split at h
  all_goals (repeat' (split at h))
  all_goals first
    | (simp at h; done)
    | skip
  all_goals simp only [Option.some.injEq] at h
  all_goals subst h
  all_goals try simp only [Ring.dropLoop, Ring.dropTail, Ring.takeValue]
  all_goals (repeat' split)
  all_goals rfl

theorem pulseRecv_spc {t : Nat} {c c' : Pulse.State n Nat} {r : Res} (h : pulseRecv t c = some (c', r)) : c'.spc = c.spc := by
  unfold pulseRecv at h
  split at h
  · simp only [Option.some.injEq, Prod.mk.injEq] at h; rw [← h.1]; rfl
  · split at h
    · simp at h
    · rename_i c1 h1
      have := pulse_spc h1
      repeat' (split at h)
      all_goals (simp only [Option.some.injEq, Prod.mk.injEq] at h; rw [← h.1]; first | exact this | rfl)

theorem ringRecv_spc {cap t : Nat} {c c' : Ring.State k Nat Nat} {r : Res} (h : ringRecv cap t c = some (c', r)) : c'.spc = c.spc := by
  unfold ringRecv at h
  split at h
  · simp only [Option.some.injEq, Prod.mk.injEq] at h; rw [← h.1]; rfl
  · split at h
    · simp at h
    · rename_i c1 h1
      have := ring_spc h1
      repeat' (split at h)
      all_goals (simp only [Option.some.injEq, Prod.mk.injEq] at h; rw [← h.1]; first | exact this | rfl)

theorem recv_quiet {t : Nat} {c c' : Ch n k} {r : Res} {w : Option Nat} (hq : c.Quiet) (h : c.recv t = some (c', r, w)) : c'.Quiet := by
  cases c with
  | oneshot c =>
    obtain ⟨c1, hs, h⟩ := Option.map_eq_some_iff.1 h
    simp only [Prod.mk.injEq] at h
    obtain ⟨rfl, rfl, rfl⟩ := h
    exact (Chan.recvStep_spc hs).trans hq
  | pulse c =>
    obtain ⟨c1, hs, h⟩ := Option.map_eq_some_iff.1 h
    simp only [Prod.mk.injEq] at h
    obtain ⟨rfl, rfl, rfl⟩ := h
    exact (pulseRecv_spc hs).trans hq
  | ring cap c =>
    obtain ⟨c1, hs, h⟩ := Option.map_eq_some_iff.1 h
    simp only [Prod.mk.injEq] at h
    obtain ⟨rfl, rfl, rfl⟩ := h
    exact (ringRecv_spc hs).trans hq

theorem send_quiet {c c' : Ch n k} {w : Option Nat} (hq : c.Quiet) (h : c.send = some (c', w)) : c'.Quiet := by
  cases c with
  | oneshot c =>
    have hq : c.spc = .idle := hq
    simp only [Ch.send, Oneshot.step, Oneshot.sStep, hq, Oneshot.SPc.resting, ↓reduceIte, Option.map_some, Option.some.injEq, Prod.mk.injEq] at h
    rw [← h.1]; exact hq
  | pulse c =>
    have hq : c.spc = .idle := hq
    simp only [Ch.send, Pulse.step, Pulse.sStep, hq, Pulse.SPc.resting, ↓reduceIte, Option.map_some, Option.some.injEq, Prod.mk.injEq] at h
    rw [← h.1]; exact hq
  | ring cap c =>
    have hq : c.spc = .idle := hq
    simp only [Ch.send, Ring.step, Ring.sStep, hq, Ring.SPc.resting, ↓reduceIte, Option.map_some, Option.some.injEq, Prod.mk.injEq] at h
    rw [← h.1]; exact hq

theorem new_quiet (kd : Kind) : (Ch.new n k kd).Quiet := by cases kd <;> rfl

theorem quiet_rests {c : Ch n k} (h : c.Quiet) : c.rests = true := by
  cases c <;> (simp only [Ch.Quiet] at h; simp only [Ch.rests, h]; rfl)

theorem quiet_apart {c : Ch n k} (h : c.Quiet) : c.Apart := by
  cases c with
  | oneshot c => have h : c.spc = .idle := h; exact ⟨by rw [h]; simp [Oneshot.SPc.freeing], by rw [h]; simp [Oneshot.SPc.leaving]⟩
  | pulse c => have h : c.spc = .idle := h; exact ⟨by rw [h]; simp [Pulse.SPc.freeing], by rw [h]; simp [Pulse.SPc.leaving]⟩
  | ring _ c => have h : c.spc = .idle := h; exact ⟨by rw [h]; simp [Ring.SPc.freeing], by rw [h]; simp [Ring.SPc.leaving]⟩

theorem quiet_clash {c : Ch n k} (h : c.Quiet) : c.NoClash := by
  cases c with
  | oneshot c => trivial
  | pulse c => trivial
  | ring cap c =>
    have h : c.spc = .idle := h
    rintro ⟨i, hi, -⟩
    rw [h] at hi
    simp [Ring.SPc.slot] at hi

theorem step_quiet {count : Nat} {s s' : State n k} {a : Act n} {q i : Nat} (hi : (s.chan q i).Quiet) (ha : ∀ op, a ≠ .call q i op)
    (h : step count s a = some s') : (s'.chan q i).Quiet := by
  have key : ∀ m w, act count s a = some (m, w) → (m.chan q i).Quiet := by
    intro m w hm
    cases a with
    | call q' i' op =>
      have hne : ¬ (q = q' ∧ i = i') := by rintro ⟨rfl, rfl⟩; exact ha op rfl
      simp only [act] at hm
      split at hm
      · simp at hm
      · simp only [Option.some.injEq, Prod.mk.injEq] at hm; rw [← hm.1]
        simp only [upd2, hne, ↓reduceIte]; exact hi
    | send q' i' =>
      simp only [act] at hm
      split at hm
      · simp at hm
      · rename_i c' w' hc
        simp only [Option.some.injEq, Prod.mk.injEq] at hm; rw [← hm.1]
        simp only [upd2]
        split
        · rename_i e
          rw [← e.1, ← e.2] at hc
          exact send_quiet hi hc
        · exact hi
    | poll =>
      simp only [act] at hm
      split at hm
      · simp only [Option.some.injEq, Prod.mk.injEq] at hm; rw [← hm.1]; exact hi
      split at hm
      · simp only [Option.some.injEq, Prod.mk.injEq] at hm; rw [← hm.1]; exact hi
      split at hm
      · simp at hm
      split at hm
      · simp only [Option.some.injEq, Prod.mk.injEq] at hm; rw [← hm.1]; exact hi
      · split at hm
        · simp at hm
        all_goals
          rename_i hr
          simp only [Option.some.injEq, Prod.mk.injEq] at hm; rw [← hm.1]
          simp only [upd2]
          split
          · rename_i e; rw [← e.2, ← e.1] at hr; exact recv_quiet hi hr
          · exact hi
    | step =>
      simp only [act] at hm
      split at hm
      · simp at hm
      · split at hm <;> (simp only [Option.some.injEq, Prod.mk.injEq] at hm; rw [← hm.1]; exact hi)
    | ret =>
      simp only [act] at hm
      split at hm
      · simp only [Option.some.injEq, Prod.mk.injEq] at hm; rw [← hm.1]; exact hi
      · split at hm
        · split at hm
          · simp at hm
          · simp only [Option.some.injEq, Prod.mk.injEq] at hm; rw [← hm.1]; exact hi
        · simp only [Option.some.injEq, Prod.mk.injEq] at hm; rw [← hm.1]; exact hi
    | add thr len =>
      simp only [act, Option.some.injEq, Prod.mk.injEq] at hm
      rw [← hm.1]
      split <;> exact hi
    | exec thr len =>
      simp only [act, Option.some.injEq] at hm
      split at hm <;> (simp only [Prod.mk.injEq] at hm; rw [← hm.1]; exact hi)
  simp only [step] at h
  split at h
  · simp at h
  · rename_i m w hm
    rw [wake_chan h]
    exact key m w hm

/-- The channels on which calls of the sender are made are among `l`. -/
def within (l : List (Nat × Nat)) : Act n → Bool
  | .call q i _ => l.contains (q, i)
  | _ => true

theorem within_ne {l : List (Nat × Nat)} {a : Act n} (h : within l a = true) {q i : Nat} (hl : (q, i) ∉ l) (op) : a ≠ .call q i op := by
  rintro rfl
  simp only [within, List.contains_iff_mem] at h
  exact hl h

theorem run_quiet {count : Nat} {l : List (Nat × Nat)} : ∀ {acts : List (Act n)} {s s' : State n k}, acts.all (within l) = true →
    (∀ q i, (q, i) ∉ l → (s.chan q i).Quiet) → run count s acts = some s' → ∀ q i, (q, i) ∉ l → (s'.chan q i).Quiet
  | [], s, s', _, hi, h => by simp only [run, Option.some.injEq] at h; exact h ▸ hi
  | a :: as, s, s', hw, hi, h => by
    simp only [List.all_cons, Bool.and_eq_true] at hw
    simp only [run] at h
    split at h
    · simp at h
    · rename_i m hm
      exact run_quiet hw.2 (fun q i hl => step_quiet (hi q i hl) (within_ne hw.1 hl) hm) h

theorem idle_ran {count : Nat} {prio : Nat → Nat} {kind : Nat → Nat → Kind} {acts : List (Act n)} (l : List (Nat × Nat))
    (hs : (run count (init n k prio kind) acts).isSome = true)
    (hw : acts.all (within l) = true) (h1 : (ran count (init n k prio kind) acts).soft.stack = [])
    (h2 : l.all (fun p => ((ran count (init n k prio kind) acts).chan p.1 p.2).rests) = true) : Idle (ran count (init n k prio kind) acts) := by
  refine ⟨h1, fun q i => ?_⟩
  by_cases hl : (q, i) ∈ l
  · exact List.all_eq_true.1 h2 _ hl
  · exact quiet_rests (run_quiet hw (fun q i _ => new_quiet (kind q i)) (run_ran hs) q i hl)

/-- A test for `Always`: `P` is tested for the channels in `l` only. -/
def alwaysB (count : Nat) (P : Ch n k → Bool) (l : List (Nat × Nat)) (s : State n k) : List (Act n) → Bool
  | [] => l.all fun p => P (s.chan p.1 p.2)
  | a :: as => (l.all fun p => P (s.chan p.1 p.2)) && (match step count s a with | none => true | some s' => alwaysB count P l s' as)

theorem alwaysB_sound {count : Nat} {P : Ch n k → Bool} {Q : Ch n k → Prop} (hPQ : ∀ c, P c = true → Q c) (hQ : ∀ c, c.Quiet → Q c)
    {l : List (Nat × Nat)} : ∀ {acts : List (Act n)} {s : State n k}, acts.all (within l) = true →
    (∀ q i, (q, i) ∉ l → (s.chan q i).Quiet) → alwaysB count P l s acts = true → Always count (fun s => ∀ q i, Q (s.chan q i)) s acts
  | [], s, _, hi, h => fun q i => by
    by_cases hl : (q, i) ∈ l
    · exact hPQ _ (List.all_eq_true.1 h _ hl)
    · exact hQ _ (hi q i hl)
  | a :: as, s, hw, hi, h => by
    simp only [List.all_cons, Bool.and_eq_true] at hw
    simp only [alwaysB, Bool.and_eq_true] at h
    refine ⟨fun q i => ?_, fun s' hs => ?_⟩
    · by_cases hl : (q, i) ∈ l
      · exact hPQ _ (List.all_eq_true.1 h.1 _ hl)
      · exact hQ _ (hi q i hl)
    · have h2 := h.2
      rw [hs] at h2
      exact alwaysB_sound hPQ hQ hw.2 (fun q i hl => step_quiet (hi q i hl) (within_ne hw.1 hl) hs) h2

/-- A test for `Ch.Apart`. -/
def apartB : Ch n k → Bool
  | .oneshot c => (!c.spc.freeing || !c.rpc.leaving) && (!c.rpc.freeing || !c.spc.leaving)
  | .pulse c => (!c.spc.freeing || !c.rpc.leaving) && (!c.rpc.freeing || !c.spc.leaving)
  | .ring _ c => (!c.spc.freeing || !c.rpc.leaving) && (!c.rpc.freeing || !c.spc.leaving)

theorem apartB_sound (c : Ch n k) (h : apartB c = true) : c.Apart := by
  cases c <;> simp only [apartB, Bool.and_eq_true, Bool.or_eq_true, Bool.not_eq_true'] at h <;>
    exact ⟨fun e => h.1.resolve_left (by rw [e]; simp), fun e => h.2.resolve_left (by rw [e]; simp)⟩

/-- A test for `Ch.NoClash`. -/
def noClashB : Ch n k → Bool
  | .ring cap c => match c.spc.slot with
    | none => true
    | some i => !(c.rpc.slots cap).contains i
  | _ => true

theorem noClashB_sound (c : Ch n k) (h : noClashB c = true) : c.NoClash := by
  cases c with
  | oneshot c => trivial
  | pulse c => trivial
  | ring cap c =>
    rintro ⟨i, hi, hm⟩
    simp only [noClashB, hi, Bool.not_eq_true'] at h
    have := List.contains_iff_mem.2 hm
    rw [h] at this
    simp at this

theorem apart_ran {count : Nat} {prio : Nat → Nat} {kind : Nat → Nat → Kind} {acts : List (Act n)} (l : List (Nat × Nat))
    (hw : acts.all (within l) = true) (h : alwaysB count apartB l (init n k prio kind) acts = true) :
    Always count AllApart (init n k prio kind) acts :=
  alwaysB_sound apartB_sound (fun _ => quiet_apart) hw (fun q i _ => new_quiet (kind q i)) h

theorem noClash_ran {count : Nat} {prio : Nat → Nat} {kind : Nat → Nat → Kind} {acts : List (Act n)} (l : List (Nat × Nat))
    (hw : acts.all (within l) = true) (h : alwaysB count noClashB l (init n k prio kind) acts = true) :
    Always count NoClash (init n k prio kind) acts :=
  alwaysB_sound noClashB_sound (fun _ => quiet_clash) hw (fun q i _ => new_quiet (kind q i)) h

end Verif.Exec.Str
