import Verif.Exec.PipeLemmas
import Verif.Exec.Rest
import Verif.Ring.FeedPot
/-! # The tasks that send to each other come to rest -/
namespace Verif.Exec.Pipe
open Verif.Soft (upd Frame)
open Verif.Exec (entering inside)
open Verif.Exec.Chan (Res)
open Verif.Exec.Str (fresh ringWake ringRecv)
open Verif.Exec.Rest

variable {k : Nat} {g : Cfg}

/-- A call on the stack weighs more than resuming all fibers. -/
def wB (n : Nat) : Nat := 9 * n + 1

/-- Progress of a channel weighs more than the wake it causes. -/
def wG (g : Cfg) (n : Nat) : Nat := wB n * push g.count + 9

/-- What channel `j` has left. -/
def cpot (G : Nat) (c : Ring.State k Nat Nat) (p : Prog) : Nat := G * Ring.Feed.hi c p + Ring.Feed.sLo c.spc + Ring.Feed.rLo c.rpc

/-- What is left to do. -/
def pot (g : Cfg) (m : Nat) (s : State k) : Nat :=
  wB s.fibs.length * spot g.count s.soft.stack + 9 * tok g.count s.queue +
    sumTo (fun j => cpot (wG g s.fibs.length) (s.chan j) (s.prog j)) m

/-- The element of the history that makes progress. -/
def due (s : State k) : Option Act :=
  if s.soft.stack = [] then none
  else
    match inside s.soft.stack with
    | none => some .step
    | some t => if s.queue t = [] then some .ret else some .poll

/-- An access of the software threads or of a task they run. -/
def Own (a : Act) : Prop := a = .step ∨ a = .poll ∨ a = .ret

theorem due_own {s : State k} {a : Act} (h : due s = some a) : Own a := by
  unfold due at h
  repeat' (split at h)
  all_goals first
    | (simp at h; done)
    | (simp only [Option.some.injEq] at h; subst h; simp [Own])

theorem due_none {s : State k} : due s = none ↔ s.soft.stack = [] := by
  unfold due
  repeat' split
  all_goals simp_all

theorem due_of {s : State k} {a : Act} (h : s.soft.stack ≠ []) : due s = some a ↔
    (match inside s.soft.stack with
    | none => some Act.step
    | some t => if s.queue t = [] then some .ret else some .poll) = some a := by simp only [due, h, ↓reduceIte]

/-- Channel `j` has less left, or its task waits; with the wake. -/
theorem chan_pot {B P l' l h h' o : Nat} {r : Res} {w : Option Nat} (hl : Ring.Feed.Less h h' l l' r w) (h8 : l' ≤ 8) :
    (B * P + 9) * h' + l' + o + (if w = none then 0 else B * P) < (B * P + 9) * h + l + o + (if r = .pending then 9 else 0) := by
  have hm : ∀ a b : Nat, a ≤ b → (B * P + 9) * a ≤ (B * P + 9) * b := fun a b h => Nat.mul_le_mul_left _ h
  rcases hl with e | ⟨rfl, e, rfl⟩ | ⟨e, rfl, rfl⟩
  · have := hm (h' + 1) h e
    rw [Nat.mul_add] at this
    split <;> omega
  · simp only [↓reduceIte]; omega
  · have := hm _ _ e
    simp only [↓reduceIte]; omega

theorem wake_pot {s s' : State k} {w : Option Nat} (h : wake g s w = some s') :
    spot g.count s'.soft.stack ≤ spot g.count s.soft.stack + (if w = none then 0 else push g.count) ∧
      s'.queue = s.queue ∧ s'.chan = s.chan ∧ s'.prog = s.prog ∧ s'.fibs = s.fibs := by
  cases w with
  | none => simp only [wake, Option.some.injEq] at h; subst h; simp
  | some t =>
    simp only [wake] at h
    cases hs : Soft.step g.count s.soft (.pend t) with
    | none => rw [hs] at h; simp at h
    | some x =>
      rw [hs] at h
      simp only [Option.some.injEq] at h
      subst h
      exact ⟨by simpa using spot_pend hs, rfl, rfl, rfl, rfl⟩

/-- A task goes on. -/
theorem task_pot (hg : g.Valid k) {s s1 s' : State k} {w : Option Nat} (i : Inv False g s none) {m t q : Nat} {qs : List Nat}
    (hm : ∀ q ∈ s.fibs, q / 2 < m) (hq : s.queue t = q :: qs) (h : taskStep g s t q qs = some (s1, w)) (h' : wake g s1 w = some s') :
    pot g m s' < pot g m s := by
  obtain ⟨hk, hkt, hkd⟩ := i.que t q (by rw [hq]; simp)
  have hcap := hg.cap (q / 2)
  have hj := hm q hk
  have ht : t < g.count := hkt ▸ i.thr q hk
  have hpop := tok_pop hq ht
  obtain ⟨w1, w2, w3, w4, w5⟩ := wake_pot h'
  -- the state after the task, apart from the queue
  suffices hs : ∃ c p r, s1.chan = upd s.chan (q / 2) c ∧ s1.prog = upd s.prog (q / 2) p ∧ s1.soft = s.soft ∧ s1.fibs = s.fibs ∧
      s1.queue = (if r = Res.more then s.queue else upd s.queue t qs) ∧
      cpot (wG g s.fibs.length) c p + (if w = none then 0 else wB s.fibs.length * push g.count) <
        cpot (wG g s.fibs.length) (s.chan (q / 2)) (s.prog (q / 2)) + (if r = .pending then 9 else 0) by
    obtain ⟨c, p, r, e1, e2, e3, e4, e5, e6⟩ := hs
    unfold pot
    rw [w2, w3, w4, w5, e1, e2, e4, e5]
    have hsum := sumTo_one (f := fun j => cpot (wG g s.fibs.length) (s.chan j) (s.prog j))
      (f' := fun j => cpot (wG g s.fibs.length) (upd s.chan (q / 2) c j) (upd s.prog (q / 2) p j)) (j := q / 2)
      (fun x hx => by simp [upd, hx]) hj
    simp only [upd, ↓reduceIte] at hsum
    rw [e3] at w1
    have hmul : wB s.fibs.length * spot g.count s'.soft.stack ≤
        wB s.fibs.length * spot g.count s.soft.stack + (if w = none then 0 else wB s.fibs.length * push g.count) := by
      have := Nat.mul_le_mul_left (wB s.fibs.length) w1
      rw [Nat.mul_add] at this
      split <;> simp_all
    have htok : tok g.count (if r = Res.more then s.queue else upd s.queue t qs) + (if r = .pending then 1 else 0) ≤ tok g.count s.queue := by
      cases r <;> simp <;> omega
    simp only [upd]
    cases r <;> simp only [reduceCtorEq, ↓reduceIte] at e6 htok ⊢ <;> omega
  simp only [taskStep] at h
  have f := i.rx (q / 2)
  have e := i.tx (q / 2)
  have hcur := (Ring.Read.reach_inv hcap.1 hcap.2 f.reach).2.1.1.cur
  have hgr := i.gr (q / 2)
  have hgs := i.gs (q / 2)
  split at h
  · have hev : 2 * (q / 2) = q := by omega
    rw [hev] at hgr
    have hgone : (s.chan (q / 2)).rpc ≠ .gone := fun e => by rw [hgr.2 e] at hkd; simp at hkd
    cases hr : ringRecv (g.cap (q / 2)) (g.thr q) (s.chan (q / 2)) with
    | none => rw [hr] at h; simp at h
    | some p =>
      obtain ⟨c, r⟩ := p
      rw [hr] at h
      obtain ⟨l1, l2⟩ := Ring.Feed.recv_pot hcap.2 (s.prog (q / 2)) hcur f.oth hgone hr
      have := chan_pot (B := wB s.fibs.length) (P := push g.count) (o := Ring.Feed.sLo (s.chan (q / 2)).spc) l2 (Ring.Feed.rLo_le _)
      refine ⟨c, s.prog (q / 2), r, ?_⟩
      have hp : s.prog = upd s.prog (q / 2) (s.prog (q / 2)) := by funext x; simp only [upd]; split <;> simp_all
      cases r <;> simp only [Option.some.injEq, Prod.mk.injEq] at h <;> obtain ⟨rfl, rfl⟩ := h <;> refine ⟨rfl, hp, rfl, rfl, rfl, ?_⟩ <;>
        (simp only [cpot, wG, l1, reduceCtorEq, ↓reduceIte] at this ⊢; omega)
  · have hev : 2 * (q / 2) + 1 = q := by omega
    rw [hev] at hgs
    have hgone : (s.chan (q / 2)).spc ≠ .gone := fun e => by rw [hgs.2 e] at hkd; simp at hkd
    cases hr : feed (g.cap (q / 2)) (g.thr q) (s.chan (q / 2)) (s.prog (q / 2)) with
    | none => rw [hr] at h; simp at h
    | some p =>
      obtain ⟨c, p', r, w'⟩ := p
      rw [hr] at h
      obtain ⟨l1, l2⟩ := Ring.Feed.feed_pot e.oth hgone hr
      have := chan_pot (B := wB s.fibs.length) (P := push g.count) (o := Ring.Feed.rLo (s.chan (q / 2)).rpc) l2 (Ring.Feed.sLo_le _)
      refine ⟨c, p', r, ?_⟩
      cases r <;> simp only [Option.some.injEq, Prod.mk.injEq] at h <;> obtain ⟨rfl, rfl⟩ := h <;> refine ⟨rfl, rfl, rfl, rfl, rfl, ?_⟩ <;>
        (simp only [cpot, wG, l1, reduceCtorEq, ↓reduceIte] at this ⊢; omega)

/-- An access, with the wake. -/
theorem step_pot (hg : g.Valid k) {s s' : State k} {a : Act} (i : Inv False g s none) {m : Nat} (hm : ∀ q ∈ s.fibs, q / 2 < m) (ha : Own a)
    (h : step g s a = some s') : pot g m s' < pot g m s ∨ s' = s ∧ due s ≠ some a := by
  simp only [step] at h
  cases hs : act g s a with
  | none => rw [hs] at h; simp at h
  | some p =>
    obtain ⟨s1, w⟩ := p
    rw [hs] at h
    simp only at h
    rcases ha with rfl | rfl | rfl
    · simp only [act] at hs
      cases hst : Soft.step g.count s.soft .step with
      | none => rw [hst] at hs; simp at hs
      | some soft =>
        rw [hst] at hs
        simp only at hs
        rcases spot_step hg.count i.a i.o hst with ⟨e, -, -⟩ | ⟨rfl, e1, e2⟩
        · left
          have hB : wB s.fibs.length * spot g.count soft.stack + wB s.fibs.length ≤ wB s.fibs.length * spot g.count s.soft.stack := by
            have := Nat.mul_le_mul_left (wB s.fibs.length) e
            rw [Nat.mul_succ] at this; exact this
          have hwB : wB s.fibs.length = 9 * s.fibs.length + 1 := rfl
          split at hs <;> simp only [Option.some.injEq, Prod.mk.injEq] at hs <;> obtain ⟨rfl, rfl⟩ := hs <;>
            simp only [wake, Option.some.injEq] at h <;> subst h
          · rename_i t _
            have := tok_set g.count (queue := s.queue) (t := t) (l := chain g s t) (n := s.fibs.length) (List.length_filter_le _ _)
            simp only [pot]; omega
          · simp only [pot]; omega
        · right
          rw [e1] at hs
          simp only [Option.some.injEq, Prod.mk.injEq] at hs
          obtain ⟨rfl, rfl⟩ := hs
          simp only [wake, Option.some.injEq] at h
          refine ⟨h.symm, ?_⟩
          by_cases e0 : s.soft.stack = []
          · rw [due_none.2 e0]; simp
          · rw [ne_eq, due_of e0]
            rcases e2 with e2 | e2
            · exact absurd e2 e0
            · split
              · contradiction
              · split <;> simp
    · simp only [act] at hs
      cases hin : inside s.soft.stack with
      | none =>
        rw [hin] at hs
        simp only [Option.some.injEq, Prod.mk.injEq] at hs
        obtain ⟨rfl, rfl⟩ := hs
        simp only [wake, Option.some.injEq] at h
        refine .inr ⟨h.symm, ?_⟩
        simp only [due, hin]
        split <;> simp
      | some t =>
        rw [hin] at hs
        simp only at hs
        split at hs
        · rename_i hq
          simp only [Option.some.injEq, Prod.mk.injEq] at hs
          obtain ⟨rfl, rfl⟩ := hs
          simp only [wake, Option.some.injEq] at h
          refine .inr ⟨h.symm, ?_⟩
          simp only [due, hin, hq]
          split <;> simp
        · rename_i q qs hq
          split at hs
          · simp at hs
          · exact .inl (task_pot hg i hm hq hs h)
    · simp only [act] at hs
      cases hin : inside s.soft.stack with
      | none =>
        rw [hin] at hs
        simp only [Option.some.injEq, Prod.mk.injEq] at hs
        obtain ⟨rfl, rfl⟩ := hs
        simp only [wake, Option.some.injEq] at h
        refine .inr ⟨h.symm, ?_⟩
        simp only [due, hin]
        split <;> simp
      | some t =>
        rw [hin] at hs
        simp only at hs
        split at hs
        · simp only [Soft.step, Option.some.injEq, Prod.mk.injEq] at hs
          obtain ⟨rfl, rfl⟩ := hs
          simp only [wake, Option.some.injEq] at h
          subst h
          left
          have := Nat.mul_le_mul_left (wB s.fibs.length) (spot_ret (count := g.count) hin)
          rw [Nat.mul_succ] at this
          have hwB : wB s.fibs.length = 9 * s.fibs.length + 1 := rfl
          simp only [pot]; omega
        · rename_i hq
          simp only [Option.some.injEq, Prod.mk.injEq] at hs
          obtain ⟨rfl, rfl⟩ := hs
          simp only [wake, Option.some.injEq] at h
          refine .inr ⟨h.symm, ?_⟩
          simp only [due, hin, hq]
          split <;> simp

theorem own_fibs {s s' : State k} {a : Act} (ha : Own a) (h : step g s a = some s') : s'.fibs = s.fibs ∧ ∀ q, s.live q = true → s'.live q = true := by
  simp only [step] at h
  split at h
  · simp at h
  · rename_i s1 w hs
    obtain ⟨-, e1, e2, -⟩ := wake_eq h
    rw [e1, e2]
    clear h e1 e2
    rcases ha with rfl | rfl | rfl <;> simp only [act, taskStep] at hs
    all_goals (repeat' (split at hs))
    all_goals first
      | (simp at hs; done)
      | (simp only [Option.some.injEq, Prod.mk.injEq] at hs; obtain ⟨rfl, -⟩ := hs; refine ⟨rfl, fun q hq => ?_⟩; first | exact hq | (simp only [upd]; split <;> first | rfl | exact hq))

/-- When nothing runs, nothing happens. -/
theorem idle_act {s : State k} {a : Act} (e : s.soft.stack = []) (ha : Own a) : act g s a = some (s, none) := by
  have ein : inside s.soft.stack = none := by rw [e]; rfl
  rcases ha with rfl | rfl | rfl <;> simp only [act, ein]
  simp only [Soft.step, e, entering]

theorem idle_step {s s' : State k} {a : Act} (e : s.soft.stack = []) (ha : Own a) (h : step g s a = some s') : s' = s := by
  simp only [step, idle_act e ha, wake, Option.some.injEq] at h
  exact h.symm

theorem idle_noSame : ∀ {as : List Act} {s : State k}, s.soft.stack = [] → (∀ a ∈ as, Own a) → AlwaysAct g (NoSame g) s as
  | [], _, _, _ => trivial
  | a :: as, s, e, h =>
    ⟨fun t ht => by simp [wakes, idle_act e (h a (by simp))] at ht,
      fun s' hs => idle_step e (h a (by simp)) hs ▸ idle_noSame e fun x hx => h x (by simp [hx])⟩

theorem idle_always {P : State k → Prop} : ∀ {as : List Act} {s : State k}, s.soft.stack = [] → (∀ a ∈ as, Own a) → P s → Always g P s as
  | [], _, _, _, p => p
  | a :: as, s, e, h, p =>
    ⟨p, fun s' hs => idle_step e (h a (by simp)) hs ▸ idle_always e (fun x hx => h x (by simp [hx])) p⟩

theorem alwaysAct_append {P : State k → Act → Prop} : ∀ {as bs : List Act} {s : State k}, AlwaysAct g P s as →
    (∀ s', run g s as = some s' → AlwaysAct g P s' bs) → AlwaysAct g P s (as ++ bs)
  | [], _, _, _, h => h _ rfl
  | a :: as, bs, s, h, h' => ⟨h.1, fun s1 hs => alwaysAct_append (h.2 s1 hs) fun s' hr => h' s' (by simp [run, hs, hr])⟩

theorem always_append {P : State k → Prop} : ∀ {as bs : List Act} {s : State k}, Always g P s as →
    (∀ s', run g s as = some s' → Always g P s' bs) → Always g P s (as ++ bs)
  | [], _, _, _, h => h _ rfl
  | a :: as, bs, s, h, h' => ⟨h.1, fun s1 hs => always_append (h.2 s1 hs) fun s' hr => h' s' (by simp [run, hs, hr])⟩

theorem run_append : ∀ {as bs : List Act} {s s' : State k}, run g s as = some s' → run g s (as ++ bs) = run g s' bs
  | [], _, _, _, h => by simp only [run, Option.some.injEq] at h; rw [h]; rfl
  | a :: as, bs, s, s', h => by
    simp only [run] at h
    split at h
    · simp at h
    · rename_i s1 hs
      simp only [List.cons_append, run, hs]
      exact run_append h

theorem always_last {P : State k → Prop} : ∀ {as : List Act} {s s' : State k}, Always g P s as → run g s as = some s' → P s'
  | [], _, _, a, h => by simp only [run, Option.some.injEq] at h; exact h ▸ a
  | a :: as, s, s', al, h => by
    simp only [run] at h
    split at h
    · simp at h
    · rename_i s1 hs; exact always_last (al.2 s1 hs) h

theorem run_fresh (hg : g.Valid k) : ∀ {acts : List Act} {s s' : State k}, Inv False g s none → Fresh s →
    run g s acts = some s' → Inv False g s' none ∧ Fresh s'
  | [], s, s', i, f, h => by simp only [run, Option.some.injEq] at h; exact h ▸ ⟨i, f⟩
  | a :: as, s, s', i, fr, h => by
    simp only [run] at h
    split at h
    · simp at h
    · rename_i s1 hm
      obtain ⟨i1, f1⟩ := step_inv hg i fr False.elim hm
      exact run_fresh hg i1 f1 h

theorem run_runs : ∀ (as : List Act) (s : State k), run g s as = runs (step g) s as
  | [], _ => rfl
  | a :: as, s => by
    simp only [run, runs]
    cases step g s a with
    | none => rfl
    | some s1 => exact run_runs as s1

theorem round_fibs : ∀ {as : List Act} {s s' : State k}, (∀ a ∈ as, Own a) → run g s as = some s' →
    s'.fibs = s.fibs ∧ ∀ q, s.live q = true → s'.live q = true
  | [], s, s', _, h => by simp only [run, Option.some.injEq] at h; subst h; exact ⟨rfl, fun _ => id⟩
  | a :: as, s, s', ha, h => by
    simp only [run] at h
    split at h
    · simp at h
    · rename_i s1 hs
      obtain ⟨a1, a2⟩ := own_fibs (ha a (by simp)) hs
      obtain ⟨b1, b2⟩ := round_fibs (fun x hx => ha x (by simp [hx])) h
      exact ⟨b1.trans a1, fun q hq => b2 q (a2 q hq)⟩

theorem round_own {r : List Act} (h : Round r) : (∀ a, Own a → a ∈ r) ∧ ∀ a ∈ r, Own a :=
  ⟨by
    rintro a (rfl | rfl | rfl)
    · exact h.1.1
    · exact h.1.2.1
    · exact h.1.2.2, h.2⟩

theorem rounds_own {rounds : List (List Act)} (h : ∀ r ∈ rounds, Round r) : ∀ a ∈ rounds.flatten, Own a := fun a ha => by
  obtain ⟨r, hr, h'⟩ := List.mem_flatten.1 ha
  exact (h r hr).2 a h'

/-- After that many rounds nothing runs. -/
theorem rests (hg : g.Valid k) {s : State k} (i : Inv False g s none) (fr : Fresh s) : ∃ m, ∀ (rounds : List (List Act)) (s' : State k),
    (∀ r ∈ rounds, Round r) → m ≤ rounds.length → run g s rounds.flatten = some s' → s'.soft.stack = [] := by
  obtain ⟨M, hM⟩ := above s.fibs
  refine ⟨pot g M s + 1, fun rounds s' hr hl h => due_none.1 ?_⟩
  rw [run_runs] at h
  refine settles (step g) Own (fun x => Inv False g x none ∧ Fresh x ∧ ∀ q ∈ x.fibs, q / 2 < M) (pot g M) due ?_ ?_ ?_ ⟨i, fr, hM⟩ (fun r hx => round_own (hr r hx)) h hl
  · rintro x a x' ⟨i, f, hm⟩ ha h
    obtain ⟨i1, f1⟩ := step_inv hg i f False.elim h
    exact ⟨⟨i1, f1, by rw [(own_fibs ha h).1]; exact hm⟩, step_pot hg i hm ha h⟩
  · rintro x a x' - ha hd h
    exact idle_step (due_none.1 hd) ha h
  · rintro x a - h
    exact due_own h

end Verif.Exec.Pipe
