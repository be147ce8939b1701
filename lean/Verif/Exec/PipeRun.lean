import Verif.Exec.PipeMid
import Verif.Exec.StrRun
/-! # Tests for concrete histories of tasks that send to each other -/
namespace Verif.Exec.Pipe
open Verif.Soft (upd)
open Verif.Exec.Chan (Res)
open Verif.Exec.Str (fresh ringWake ringRecv ringRecv_spc)

variable {k : Nat} {g : Cfg}

/-- The threads run on for `m` rounds. -/
def serve (m : Nat) : List Act := (List.replicate m [.step, .poll, .ret]).flatten

/-- The state after a history. -/
def ran (g : Cfg) (s : State k) (acts : List Act) : State k := (run g s acts).getD s

theorem run_ran {s : State k} {acts : List Act} (h : (run g s acts).isSome = true) : run g s acts = some (ran g s acts) := by
  unfold ran
  cases e : run g s acts with
  | none => rw [e] at h; simp at h
  | some s => rfl

/-- A test for `NoSame`. -/
def noSameB (g : Cfg) (s : State k) (a : Act) : Bool :=
  match wakes g s a with
  | none => true
  | some t => s.soft.stack.all fun f => f.level != some (s.soft.prio t + 1)

theorem noSameB_sound (g : Cfg) (s : State k) (a : Act) (h : noSameB g s a = true) : NoSame g s a := by
  intro t ht f hf
  simp only [noSameB, ht, List.all_eq_true, bne_iff_ne] at h
  exact h f hf

/-- A test for `AlwaysAct`. -/
def alwaysActB (g : Cfg) (P : State k → Act → Bool) (s : State k) : List Act → Bool
  | [] => true
  | a :: as => P s a && (match step g s a with | none => true | some s' => alwaysActB g P s' as)

theorem alwaysActB_sound {P : State k → Act → Bool} {Q : State k → Act → Prop} (hPQ : ∀ s a, P s a = true → Q s a) :
    ∀ {acts : List Act} {s : State k}, alwaysActB g P s acts = true → AlwaysAct g Q s acts
  | [], _, _ => trivial
  | a :: as, s, h => by
    simp only [alwaysActB, Bool.and_eq_true] at h
    refine ⟨hPQ s a h.1, ?_⟩
    intro s' hs
    rw [hs] at h
    exact alwaysActB_sound hPQ h.2

/-- Task `q` does not send to channels other than those in `l`. -/
def okTask (l : List Nat) (q : Nat) : Bool := q % 2 == 0 || l.contains (q / 2)

/-- The senders of the channels outside `l` have done nothing. -/
structure Quiet (l : List Nat) (s : State k) : Prop where
  fib : ∀ q ∈ s.fibs, okTask l q = true
  que : ∀ t, ∀ q ∈ s.queue t, okTask l q = true
  spc : ∀ j, j ∉ l → (s.chan j).spc = .idle

theorem init_quiet (l : List Nat) : Quiet l (init k g) := ⟨by simp [init], by simp [init], by simp [init, Ring.init]⟩

/-- The tasks that a history starts. -/
def within (l : List Nat) : Act → Bool
  | .add q | .exec q => okTask l q
  | _ => true

theorem task_quiet {l : List Nat} {s s' : State k} {w : Option Nat} {t q : Nat} {qs : List Nat} (i : Quiet l s) (hq : s.queue t = q :: qs)
    (h : taskStep g s t q qs = some (s', w)) : Quiet l s' := by
  have hok := i.que t q (by rw [hq]; simp)
  have hqs : ∀ u, ∀ x ∈ upd s.queue t qs u, okTask l x = true := by
    intro u x hx
    simp only [upd] at hx
    split at hx
    · exact i.que t x (by rw [hq]; simp [hx])
    · exact i.que u x hx
  simp only [taskStep] at h
  split at h
  · cases hr : ringRecv (g.cap (q / 2)) (g.thr q) (s.chan (q / 2)) with
    | none => rw [hr] at h; simp at h
    | some p =>
      obtain ⟨c, r⟩ := p
      rw [hr] at h
      have hc : ∀ j, j ∉ l → (upd s.chan (q / 2) c j).spc = .idle := by
        intro j hj
        simp only [upd]
        split
        · rename_i e; rw [ringRecv_spc hr, ← e]; exact i.spc j hj
        · exact i.spc j hj
      cases r <;> (simp only [Option.some.injEq, Prod.mk.injEq] at h; obtain ⟨rfl, rfl⟩ := h)
      · exact ⟨i.fib, i.que, hc⟩
      · exact ⟨i.fib, hqs, hc⟩
      · exact ⟨i.fib, hqs, hc⟩
  · rename_i hpar
    have hl : q / 2 ∈ l := by
      simp only [okTask, Bool.or_eq_true, beq_iff_eq, List.contains_iff_mem] at hok
      exact hok.resolve_left hpar
    cases hr : feed (g.cap (q / 2)) (g.thr q) (s.chan (q / 2)) (s.prog (q / 2)) with
    | none => rw [hr] at h; simp at h
    | some p =>
      obtain ⟨c, p', r, w'⟩ := p
      rw [hr] at h
      have hc : ∀ j, j ∉ l → (upd s.chan (q / 2) c j).spc = .idle := by
        intro j hj
        simp only [upd]
        split
        · rename_i e; exact absurd (e ▸ hl) hj
        · exact i.spc j hj
      cases r <;> (simp only [Option.some.injEq, Prod.mk.injEq] at h; obtain ⟨rfl, rfl⟩ := h)
      · exact ⟨i.fib, i.que, hc⟩
      · exact ⟨i.fib, hqs, hc⟩
      · exact ⟨i.fib, hqs, hc⟩

theorem step_quiet {l : List Nat} {s s' : State k} {a : Act} (i : Quiet l s) (ha : within l a = true) (h : step g s a = some s') : Quiet l s' := by
  have key : ∀ m w, act g s a = some (m, w) → Quiet l m := by
    intro m w hm
    have push : ∀ (q : Nat) (lv : Nat → Bool), okTask l q = true → Quiet l { s with fibs := q :: s.fibs, live := lv } := by
      intro q lv hq
      refine ⟨fun x hx => ?_, i.que, i.spc⟩
      rcases List.mem_cons.1 hx with rfl | hx
      · exact hq
      · exact i.fib x hx
    cases a with
    | step =>
      simp only [act] at hm
      split at hm
      · simp at hm
      · split at hm <;> (simp only [Option.some.injEq, Prod.mk.injEq] at hm; rw [← hm.1])
        · refine ⟨i.fib, fun u x hx => ?_, i.spc⟩
          simp only [upd] at hx
          split at hx
          · exact i.fib x (chain_mem.1 hx).1
          · exact i.que u x hx
        · exact ⟨i.fib, i.que, i.spc⟩
    | poll =>
      simp only [act] at hm
      split at hm
      · simp only [Option.some.injEq, Prod.mk.injEq] at hm; rw [← hm.1]; exact i
      split at hm
      · simp only [Option.some.injEq, Prod.mk.injEq] at hm; rw [← hm.1]; exact i
      rename_i hq
      split at hm
      · simp at hm
      · exact task_quiet i hq hm
    | ret =>
      simp only [act] at hm
      repeat' (split at hm)
      all_goals first
        | (simp at hm; done)
        | (simp only [Option.some.injEq, Prod.mk.injEq] at hm; rw [← hm.1]; exact ⟨i.fib, i.que, i.spc⟩)
    | add q =>
      simp only [act, Option.some.injEq, Prod.mk.injEq] at hm
      rw [← hm.1]
      split
      · exact push q s.live ha
      · exact i
    | exec q =>
      simp only [act, Option.some.injEq] at hm
      split at hm <;> (simp only [Prod.mk.injEq] at hm; rw [← hm.1])
      · exact push q _ ha
      · exact i
  simp only [step] at h
  split at h
  · simp at h
  · rename_i m w hm
    obtain ⟨e1, e2, e3, e4⟩ := wake_eq h
    obtain ⟨k1, k2, k3⟩ := key m w hm
    exact ⟨by rw [e2]; exact k1, by rw [e4]; exact k2, by rw [e1]; exact k3⟩

/-- A test for `Always`: `P` is tested for the channels in `l` only. -/
def alwaysB (g : Cfg) (P : Nat → Ring.State k Nat Nat → Bool) (l : List Nat) (s : State k) : List Act → Bool
  | [] => l.all fun j => P j (s.chan j)
  | a :: as => (l.all fun j => P j (s.chan j)) && (match step g s a with | none => true | some s' => alwaysB g P l s' as)

theorem alwaysB_sound {P : Nat → Ring.State k Nat Nat → Bool} {Q : Nat → Ring.State k Nat Nat → Prop} (hPQ : ∀ j c, P j c = true → Q j c)
    (hQ : ∀ j c, c.spc = .idle → Q j c) {l : List Nat} : ∀ {acts : List Act} {s : State k}, acts.all (within l) = true →
    Quiet l s → alwaysB g P l s acts = true → Always g (fun s => ∀ j, Q j (s.chan j)) s acts
  | [], s, _, hi, h => fun j => by
    by_cases hl : j ∈ l
    · exact hPQ _ _ (List.all_eq_true.1 h _ hl)
    · exact hQ _ _ (hi.spc j hl)
  | a :: as, s, hw, hi, h => by
    simp only [List.all_cons, Bool.and_eq_true] at hw
    simp only [alwaysB, Bool.and_eq_true] at h
    refine ⟨fun j => ?_, fun s' hs => ?_⟩
    · by_cases hl : j ∈ l
      · exact hPQ _ _ (List.all_eq_true.1 h.1 _ hl)
      · exact hQ _ _ (hi.spc j hl)
    · have h2 := h.2
      rw [hs] at h2
      exact alwaysB_sound hPQ hQ hw.2 (step_quiet hi hw.1 hs) h2

/-- A test for `Ring.Apart`. -/
def apartB (c : Ring.State k Nat Nat) : Bool := (!c.spc.freeing || !c.rpc.leaving) && (!c.rpc.freeing || !c.spc.leaving)

theorem apartB_sound (c : Ring.State k Nat Nat) (h : apartB c = true) : Ring.Apart c := by
  simp only [apartB, Bool.and_eq_true, Bool.or_eq_true, Bool.not_eq_true'] at h
  exact ⟨fun e => h.1.resolve_left (by rw [e]; simp), fun e => h.2.resolve_left (by rw [e]; simp)⟩

/-- A test for `Ring.Clash`. -/
def noClashB (cap : Nat) (c : Ring.State k Nat Nat) : Bool :=
  match c.spc.slot with
  | none => true
  | some i => !(c.rpc.slots cap).contains i

theorem noClashB_sound (cap : Nat) (c : Ring.State k Nat Nat) (h : noClashB cap c = true) : ¬ Ring.Clash cap c := by
  rintro ⟨i, hi, hm⟩
  simp only [noClashB, hi, Bool.not_eq_true'] at h
  have := List.contains_iff_mem.2 hm
  rw [h] at this
  simp at this

theorem apart_ran {acts : List Act} (l : List Nat) (hw : acts.all (within l) = true)
    (h : alwaysB g (fun _ => apartB) l (init k g) acts = true) : Always g AllApart (init k g) acts :=
  alwaysB_sound (Q := fun _ => Ring.Apart) (fun _ => apartB_sound)
    (fun _ c h => ⟨by rw [h]; simp [Ring.SPc.freeing], by rw [h]; simp [Ring.SPc.leaving]⟩) hw (init_quiet l) h

theorem noClash_ran {acts : List Act} (l : List Nat) (hw : acts.all (within l) = true)
    (h : alwaysB g (fun j => noClashB (g.cap j)) l (init k g) acts = true) : Always g (NoClash g) (init k g) acts :=
  alwaysB_sound (Q := fun j c => ¬ Ring.Clash (g.cap j) c) (fun j => noClashB_sound (g.cap j))
    (fun _ c h => by rintro ⟨i, hi, -⟩; rw [h] at hi; simp [Ring.SPc.slot] at hi) hw (init_quiet l) h

end Verif.Exec.Pipe
