import Verif.Exec.PipeInv
/-! # Receivers that are not preempted by their senders -/
namespace Verif.Exec.Pipe
open Verif.Soft (upd Frame InvA InvI)
open Verif.Exec (entering inside NoOther pend_eq ret_eq frameStep_inside frameStep_other entering_cons Level frameStep_level enter_once CellOk)
open Verif.Exec.Chan (Res)
open Verif.Exec.Str (fresh ringWake ringRecv)

variable {k : Nat} {N : Prop} {g : Cfg}

/-- A thread runs at its level. -/
theorem inside_level {count : Nat} {s : Soft.State} (l : Level count s) {f : Frame} (hf : f ∈ s.stack) {t : Nat} (h : inside [f] = some t) :
    f.level = some (s.prio t + 1) := by
  have lf := l.fr f hf
  cases f with
  | row r pc =>
    cases pc with
    | call thr cell bit c =>
      have lf : s.prio thr + 1 = r.priority ∧ CellOk count s.prio cell r.priority := lf
      cases c <;> simp only [inside, reduceCtorEq, Option.some.injEq] at h
      subst h; simp only [Frame.level, lf.1]
    | _ => simp [inside] at h
  | _ => simp [inside] at h

/-- The running thread has a greater priority than those it has preempted. -/
theorem inside_above {count : Nat} {s : Soft.State} (i : InvA count s) (l : Level count s) {t u : Nat} (ht : inside s.stack = some t)
    {f : Frame} (hf : f ∈ s.stack) (hu : inside [f] = some u) : u = t ∨ s.prio u < s.prio t := by
  have h1 := inside_level l hf hu
  cases hst : s.stack with
  | nil => rw [hst] at hf; simp at hf
  | cons x rest =>
    have hx : inside [x] = some t := by rw [hst] at ht; revert ht; unfold inside; repeat' split; all_goals simp_all
    have h2 := inside_level l (by rw [hst]; simp) hx
    rw [hst] at hf
    rcases List.mem_cons.1 hf with rfl | hf
    · rw [hu] at hx; left; simpa using hx
    · right
      have j := i.ok
      rw [hst] at j
      have hle := Soft.level_le j.2 f hf _ h1
      cases x with
      | row r pc =>
        simp only [Frame.level, Option.some.injEq] at h2
        have := j.1.2.1
        have := j.1.2.2.1
        omega
      | _ => simp [Frame.level] at h2

/-- A receiver is in the middle of a call only while its task is polled; the two ends of no ring work on
the same slot. -/
structure Mid (g : Cfg) (s : State k) : Prop where
  l : Level g.count s.soft
  p : s.soft.prio = g.prio
  mid : ∀ j, (s.chan j).rpc.resting = false → ∃ qs, s.queue (g.thr (2 * j)) = 2 * j :: qs
  nc : NoClash g s

theorem init_mid : Mid g (init k g) :=
  ⟨init_level _ _, rfl, by simp [init, Ring.init, Ring.RPc.resting], by rintro j ⟨i, h, -⟩; simp [init, Ring.init, Ring.SPc.slot] at h⟩

theorem soft_mid {s : State k} (m : Mid g s) {soft : Soft.State} (l : Level g.count soft) (p : soft.prio = s.soft.prio) :
    Mid g { s with soft := soft } := ⟨l, p.trans m.p, m.mid, m.nc⟩

theorem level_push {count : Nat} {s : Soft.State} {t : Nat} (l : Level count s) : Level count { s with stack := .req t .load :: s.stack } := by
  refine ⟨l.bit, ?_⟩
  intro f hf
  rcases List.mem_cons.1 hf with rfl | hf
  · trivial
  · exact l.fr f hf

theorem wake_mid {s s' : State k} {w : Option Nat} (m : Mid g s) (h : wake g s w = some s') : Mid g s' := by
  cases w with
  | none => simp only [wake, Option.some.injEq] at h; subst h; exact m
  | some t =>
    by_cases ht : t < g.count
    · have hs := pend_eq (s := s.soft) ht
      simp only [wake, hs, Option.some.injEq] at h
      subst h
      exact soft_mid m (level_push m.l) rfl
    · simp only [wake, Soft.step, ht, ↓reduceIte, Option.some.injEq] at h
      subst h
      exact soft_mid m m.l rfl

theorem chan_mid {s : State k} (i : Inv N g s none) (m : Mid g s) {t q : Nat} {qs : List Nat} (hq : s.queue t = q :: qs) {c : Ring.State k Nat Nat}
    {lv dn : Nat → Bool} {pr : Nat → Prog} {qu : Nat → List Nat} (hqu : qu = s.queue ∨ qu = upd s.queue t qs)
    (hmid : c.rpc.resting = false → q = 2 * (q / 2) ∧ qu = s.queue ∨ c.rpc = (s.chan (q / 2)).rpc ∧ q ≠ 2 * (q / 2)) (hnc : ¬ Ring.Clash (g.cap (q / 2)) c) :
    Mid g { s with live := lv, chan := upd s.chan (q / 2) c, prog := pr, done := dn, queue := qu } := by
  have ht := (i.que t q (by rw [hq]; simp)).2.1
  refine ⟨m.l, m.p, fun j hj => ?_, fun j => ?_⟩
  · dsimp only at hj ⊢
    by_cases e : j = q / 2
    · simp only [upd, e, ↓reduceIte] at hj
      rcases hmid hj with ⟨h1, rfl⟩ | ⟨h1, h2⟩
      · rw [e, ← h1, ht]; exact ⟨_, hq⟩
      · rw [h1, ← e] at hj
        obtain ⟨rs, hr⟩ := m.mid j hj
        rcases hqu with rfl | rfl
        · exact ⟨rs, hr⟩
        · simp only [upd]
          split
          · rename_i e'
            rw [e', hq] at hr
            simp only [List.cons.injEq] at hr
            exact absurd hr.1 (by rw [e]; exact h2)
          · exact ⟨rs, hr⟩
    · simp only [upd, e, ↓reduceIte] at hj
      obtain ⟨rs, hr⟩ := m.mid j hj
      rcases hqu with rfl | rfl
      · exact ⟨rs, hr⟩
      · simp only [upd]
        split
        · rename_i e'
          rw [e', hq] at hr
          simp only [List.cons.injEq] at hr
          exact absurd hr.1 (by omega)
        · exact ⟨rs, hr⟩
  · dsimp only [upd]
    split
    · rename_i e; rw [e]; exact hnc
    · exact m.nc j

theorem task_mid (hg : g.Valid k) (hd : g.Downward) {s s' : State k} {w : Option Nat} (i : Inv False g s none) (m : Mid g s) {t q : Nat} {qs : List Nat}
    (hin : inside s.soft.stack = some t) (hq : s.queue t = q :: qs) (h : taskStep g s t q qs = some (s', w)) : Mid g s' := by
  obtain ⟨hk, hkt, hkd⟩ := i.que t q (by rw [hq]; simp)
  have hcap := hg.cap (q / 2)
  have f := i.rx (q / 2)
  have e := i.tx (q / 2)
  have hgr := i.gr (q / 2)
  have hgs := i.gs (q / 2)
  simp only [taskStep] at h
  split at h
  · rename_i hpar
    have hev : 2 * (q / 2) = q := by omega
    rw [hev] at hgr
    have hgone : (s.chan (q / 2)).rpc ≠ .gone := fun e => by rw [hgr.2 e] at hkd; simp at hkd
    cases hr : ringRecv (g.cap (q / 2)) (g.thr q) (s.chan (q / 2)) with
    | none => rw [hr] at h; simp at h
    | some p =>
      obtain ⟨c, r⟩ := p
      rw [hr] at h
      rw [hev] at f
      obtain ⟨f1, f2, f3, f4⟩ := Ring.Read.recv_fit hcap.1 hcap.2 f hgone hr False.elim
      have nc := Ring.Feed.recv_apart hcap.1 hcap.2 f (m.nc _) hr
      cases r with
      | more =>
        simp only [Option.some.injEq, Prod.mk.injEq] at h; obtain ⟨rfl, rfl⟩ := h
        exact chan_mid i m hq (.inl rfl) (fun _ => .inl ⟨hev.symm, rfl⟩) nc
      | pending =>
        simp only [Option.some.injEq, Prod.mk.injEq] at h; obtain ⟨rfl, rfl⟩ := h
        exact chan_mid i m hq (.inr rfl) (fun h => by rw [(f2 rfl).idle] at h; simp [Ring.RPc.resting] at h) nc
      | ready =>
        simp only [Option.some.injEq, Prod.mk.injEq] at h; obtain ⟨rfl, rfl⟩ := h
        exact chan_mid i m hq (.inr rfl) (fun h => by rw [f3 rfl] at h; simp [Ring.RPc.resting] at h) nc
  · rename_i hpar
    have hev : 2 * (q / 2) + 1 = q := by omega
    have hne : q ≠ 2 * (q / 2) := by omega
    rw [hev] at hgs
    have hgone : (s.chan (q / 2)).spc ≠ .gone := fun e => by rw [hgs.2 e] at hkd; simp at hkd
    have hrest : (s.chan (q / 2)).rpc.resting = true := by
      cases hb : (s.chan (q / 2)).rpc.resting with
      | true => rfl
      | false =>
        obtain ⟨rs, hrs⟩ := m.mid _ hb
        obtain ⟨x, hx, hxin⟩ := i.bod (g.thr (2 * (q / 2))) (by rw [hrs]; simp)
        rcases inside_above i.a m.l hin hx hxin with e | e
        · rw [e, hq] at hrs
          simp only [List.cons.injEq] at hrs
          exact absurd hrs.1 hne
        · rw [m.p, ← hkt] at e
          have := hd (q / 2)
          rw [hev] at this
          omega
    cases hr : feed (g.cap (q / 2)) (g.thr q) (s.chan (q / 2)) (s.prog (q / 2)) with
    | none => rw [hr] at h; simp at h
    | some p =>
      obtain ⟨c, p', r, w'⟩ := p
      rw [hr] at h
      rw [hev] at e
      obtain ⟨f1, f2, f3, f4, f5, f6, f7⟩ := Ring.Feed.feed_fit hcap.1 hcap.2 f e hgone hr False.elim
      have nc : ¬ Ring.Clash (g.cap (q / 2)) c := by
        apply Ring.Read.noclash_slots
        rw [f7]
        revert hrest
        cases (s.chan (q / 2)).rpc <;> simp [Ring.RPc.resting, Ring.RPc.slots]
      cases r <;> (simp only [Option.some.injEq, Prod.mk.injEq] at h; obtain ⟨rfl, rfl⟩ := h)
      · exact chan_mid i m hq (.inl rfl) (fun _ => .inr ⟨f7, hne⟩) nc
      · exact chan_mid i m hq (.inr rfl) (fun _ => .inr ⟨f7, hne⟩) nc
      · exact chan_mid i m hq (.inr rfl) (fun _ => .inr ⟨f7, hne⟩) nc

theorem act_mid (hg : g.Valid k) (hd : g.Downward) {s s' : State k} {w : Option Nat} {a : Act} (i : Inv False g s none) (m : Mid g s)
    (h : act g s a = some (s', w)) : Mid g s' := by
  cases a with
  | step =>
    simp only [act] at h
    cases hs : Soft.step g.count s.soft .step with
    | none => rw [hs] at h; simp at h
    | some soft =>
      rw [hs] at h
      simp only [Soft.step] at hs
      cases hst : s.soft.stack with
      | nil =>
        rw [hst] at hs h
        simp only [Option.some.injEq] at hs
        subst hs
        simp only [entering, Option.some.injEq, Prod.mk.injEq] at h
        obtain ⟨rfl, rfl⟩ := h
        exact m
      | cons f rest =>
        rw [hst] at hs h
        simp only at hs
        have hnc := (i.o f (by rw [hst]; simp)).1
        have l' := frameStep_level hg.count i.a m.l hst hs hnc
        have hpr := Soft.frameStep_prio hs
        rw [entering_cons] at h
        cases he : entering [f] with
        | none =>
          rw [he] at h
          simp only [Option.some.injEq, Prod.mk.injEq] at h
          obtain ⟨rfl, rfl⟩ := h
          exact soft_mid m l' hpr
        | some t =>
          rw [he] at h
          simp only [Option.some.injEq, Prod.mk.injEq] at h
          obtain ⟨rfl, rfl⟩ := h
          refine ⟨l', hpr.trans m.p, fun j hj => ?_, m.nc⟩
          obtain ⟨rs, hr⟩ := m.mid j hj
          dsimp only [upd]
          split
          · rename_i e
            obtain ⟨x, hx, hin⟩ := i.bod (g.thr (2 * j)) (by rw [hr]; simp)
            exact absurd (by rw [hin, e]) (enter_once i.a m.l hst he x hx)
          · exact ⟨rs, hr⟩
  | poll =>
    simp only [act] at h
    split at h
    · simp only [Option.some.injEq, Prod.mk.injEq] at h; obtain ⟨rfl, rfl⟩ := h; exact m
    rename_i hin
    split at h
    · simp only [Option.some.injEq, Prod.mk.injEq] at h; obtain ⟨rfl, rfl⟩ := h; exact m
    rename_i q qs hq
    split at h
    · simp at h
    exact task_mid hg hd i m hin hq h
  | ret =>
    simp only [act] at h
    cases hin : inside s.soft.stack with
    | none => rw [hin] at h; simp only [Option.some.injEq, Prod.mk.injEq] at h; obtain ⟨rfl, rfl⟩ := h; exact m
    | some t =>
      rw [hin] at h
      simp only at h
      split at h
      · have hs : Soft.step g.count s.soft .ret = some { s.soft with stack := Soft.ret s.soft.stack } := rfl
        rw [hs] at h
        simp only [Option.some.injEq, Prod.mk.injEq] at h
        obtain ⟨rfl, rfl⟩ := h
        obtain ⟨r, cell, bit, p, rest, e1, e2⟩ := ret_eq hin
        refine soft_mid m ⟨m.l.bit, ?_⟩ rfl
        intro f hf
        dsimp only at hf
        rw [e2] at hf
        rcases List.mem_cons.1 hf with rfl | hf
        · exact m.l.fr (.row r (.call t cell bit (.body p))) (by rw [e1]; simp)
        · exact m.l.fr f (by rw [e1]; simp [hf])
      · simp only [Option.some.injEq, Prod.mk.injEq] at h; obtain ⟨rfl, rfl⟩ := h; exact m
  | add q =>
    simp only [act, Option.some.injEq, Prod.mk.injEq] at h
    obtain ⟨rfl, rfl⟩ := h
    split
    · exact ⟨m.l, m.p, m.mid, m.nc⟩
    · exact m
  | exec q =>
    simp only [act, Option.some.injEq] at h
    split at h <;> (simp only [Prod.mk.injEq] at h; obtain ⟨rfl, rfl⟩ := h)
    · exact ⟨m.l, m.p, m.mid, m.nc⟩
    · exact m

theorem step_mid (hg : g.Valid k) (hd : g.Downward) {s s' : State k} {a : Act} (i : Inv False g s none) (m : Mid g s)
    (h : step g s a = some s') : Mid g s' := by
  simp only [step] at h
  split at h
  · simp at h
  · rename_i s1 w hm
    exact wake_mid (act_mid hg hd i m hm) h

theorem always_noClash (hg : g.Valid k) (hd : g.Downward) : ∀ {acts : List Act} {s : State k}, Inv False g s none → Fresh s → Mid g s →
    Always g (NoClash g) s acts
  | [], _, _, _, m => m.nc
  | _ :: _, _, i, fr, m => ⟨m.nc, fun _ hs => always_noClash hg hd (step_inv hg i fr False.elim hs).1 (step_inv hg i fr False.elim hs).2 (step_mid hg hd i m hs)⟩

end Verif.Exec.Pipe
