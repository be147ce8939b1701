import Verif.Exec.LockInv
import Verif.Exec.Rest
/-! # The tasks that share a mutex come to rest -/
namespace Verif.Exec.Lock
open Verif.Soft (upd Frame)
open Verif.Exec (Task upd2 entering inside)
open Verif.Mutex (Pc Client pstep call upd_apply)
open Verif.Exec.Rest

/-- How far a critical section is from its end. -/
def lo (c : Client) : Nat :=
  match c.pc with
  | .idle => if c.fut then (if c.guards = 0 then 19 else 12) else (if c.guards = 0 then 20 else 11)
  | .p1 _ => 18
  | .pchk _ _ => 17
  | .ppush _ => 16
  | .p2 => 15
  | .p1take _ => 14
  | .p1read _ => 13
  | .ulLoad | .ulDrain _ | .ulCut _ _ | .ulHead | .ulScan _ => 10
  | .ulRead _ => 9
  | .ulStore _ => 8
  | .ulWake _ _ => 7
  | .tl | .dTake _ | .dRead _ | .dTry => 0

theorem lo_le (c : Client) : lo c ≤ 20 := by
  unfold lo
  split <;> (repeat' split) <;> omega

/-- How far a traversal of the list is from its end, if lists have at most `L` elements. -/
def tr (L : Nat) : Pc → Nat
  | .ulLoad => 3 * L + 5
  | .ulDrain l => 2 * l.length + L + 3
  | .ulCut _ l => 2 * l.length + L + 4
  | .ulHead => L + 2
  | .ulScan l => l.length + 1
  | _ => 0

/-- The nodes that a traversal has in front of it. -/
def seen : Pc → Nat
  | .ulDrain l | .ulScan l => l.length
  | .ulCut _ l => l.length + 1
  | _ => 0

theorem tr_le {L : Nat} {pc : Pc} (h : seen pc ≤ L) : tr L pc ≤ 3 * L + 5 := by
  cases pc <;> simp only [tr, seen] at * <;> omega

/-- What an access of a task in a call leads to. -/
structure Less (L : Nat) (m m' : Mutex.State) (p : Nat) : Prop where
  list : m'.list.length ≤ m.list.length + 1
  seen : seen (m'.client p).pc ≤ L
  work : (m'.client p).pc ≠ .idle → waking (m.client p).pc = none ∧ (lo (m'.client p) < lo (m.client p) ∨
    lo (m'.client p) = lo (m.client p) ∧ tr L (m'.client p).pc < tr L (m.client p).pc ∧ m'.list.length ≤ m.list.length)
  poll : (m'.client p).pc = .idle → (m'.client p).fut = true → waking (m.client p).pc = none ∧
    ((m'.client p).guards ≠ 0 → lo (m'.client p) < lo (m.client p))

theorem pstep_less {m m' : Mutex.State} {p L : Nat} (hs : Shape (m.client p)) (hn : (m.client p).pc ≠ .idle)
    (hl : m.list.length ≤ L) (hse : seen (m.client p).pc ≤ L) (h : pstep m p = some m') : Less L m m' p := by
  obtain ⟨s1, s2, s3⟩ := hs
  unfold pstep at h
  simp only at h
  cases hpc : (m.client p).pc <;> simp only [hpc] at h
  case idle => exact absurd hpc hn
  all_goals
    simp only [hpc, Pc.polling, Pc.taking, Pc.unl, ne_eq, reduceCtorEq, not_false_eq_true, true_implies, seen] at s1 s2 hse
    (try simp only [Mutex.State.goto, Mutex.State.setC, Mutex.State.emit, Mutex.State.setN, Mutex.acquire, Mutex.acquirePoll, Mutex.swapTaken, Mutex.dropWaker] at h)
    (repeat' split at h) <;> simp only [Option.some.injEq, reduceCtorEq] at h <;> (try subst h) <;>
    (refine ⟨?_, ?_, ?_, ?_⟩ <;>
      simp only [upd_apply, ↓reduceIte, hpc, lo, tr, seen, waking] <;> grind [List.length_erase_le])

/-- A call on the stack weighs more than resuming all fibers. -/
def wB (n : Nat) : Nat := 21 * n + 1

/-- A critical section weighs more than the wake at its end. -/
def wG (count n : Nat) : Nat := wB n * push count + 21

/-- What task `k` has left, without the traversals of the list. -/
def tpot (G : Nat) (x : Task) (c : Client) : Nat := G * (x.len - x.pos) + lo c

/-- What is left to do, without the traversals of the list. -/
def big (count : Nat) (s : State) : Nat :=
  wB s.made * spot count s.soft.stack + 21 * tok count s.queue +
    sumTo (fun k => tpot (wG count s.made) (s.task k) (s.mutex.client (me k))) s.made

/-- What the traversals have left. -/
def small (L : Nat) (s : State) : Nat := sumTo (fun k => tr L (s.mutex.client (me k)).pc) s.made

/-- What is left to do. -/
def pot (count L : Nat) (s : State) : Nat := (3 * L + 6) * big count s + small L s

/-- No list is longer than `L`, now and later. -/
structure Short (count L : Nat) (s : State) : Prop where
  list : s.mutex.list.length + big count s ≤ L
  seen : ∀ k, k < s.made → seen (s.mutex.client (me k)).pc ≤ L

/-- The element of the history that makes progress. -/
def due (s : State) : Option Act :=
  if s.soft.stack = [] then none
  else
    match inside s.soft.stack with
    | none => some .step
    | some t => if s.queue t = [] then some .ret else some .poll

/-- An access of the software threads or of a task they run. -/
def Own (a : Act) : Prop := a = .step ∨ a = .poll ∨ a = .ret

theorem due_own {s : State} {a : Act} (h : due s = some a) : Own a := by
  unfold due at h
  repeat' (split at h)
  all_goals first
    | (simp at h; done)
    | (simp only [Option.some.injEq] at h; subst h; simp [Own])

theorem due_none {s : State} : due s = none ↔ s.soft.stack = [] := by
  unfold due
  repeat' split
  all_goals simp_all

theorem due_of {s : State} {a : Act} (h : s.soft.stack ≠ []) : due s = some a ↔
    (match inside s.soft.stack with
    | none => some Act.step
    | some t => if s.queue t = [] then some .ret else some .poll) = some a := by simp only [due, h, ↓reduceIte]

theorem wake_pot {count : Nat} {s s' : State} {w : Option Nat} (h : wake count s w = some s') :
    spot count s'.soft.stack ≤ spot count s.soft.stack + (if w = none then 0 else push count) ∧
      s'.queue = s.queue ∧ s'.mutex = s.mutex ∧ s'.task = s.task ∧ s'.made = s.made ∧ s'.fired = s.fired := by
  cases w with
  | none => simp only [wake, Option.some.injEq] at h; subst h; simp
  | some t =>
    simp only [wake] at h
    cases hs : Soft.step count s.soft (.pend t) with
    | none => rw [hs] at h; simp at h
    | some x =>
      rw [hs] at h
      simp only [Option.some.injEq] at h
      subst h
      exact ⟨by simpa using spot_pend hs, rfl, rfl, rfl, rfl, rfl⟩

/-- An access of the software threads only. -/
theorem soft_pot {count L : Nat} {s s' : State} (sh : Short count L s) (h1 : s'.mutex = s.mutex) (h2 : s'.made = s.made)
    (h : big count s' < big count s) : pot count L s' < pot count L s ∧ Short count L s' := by
  refine ⟨?_, ?_, ?_⟩
  · have := Nat.mul_lt_mul_of_pos_left h (show 0 < 3 * L + 6 by omega)
    simp only [pot, small, h1, h2]; omega
  · have := sh.list
    rw [h1]; omega
  · rw [h1, h2]; exact sh.seen

/-- What task `k` and the mutex do in an access, with a wake or not, and with or without giving up the fiber. -/
def Progress (count L : Nat) (s : State) (k : Nat) (x : Task) (m : Mutex.State) (w : Option Nat) (pop : Bool) : Prop :=
  m.list.length ≤ s.mutex.list.length + 1 ∧ seen (m.client (me k)).pc ≤ L ∧
    (tpot (wG count s.made) x (m.client (me k)) + (if w = none then 0 else wB s.made * push count) <
        tpot (wG count s.made) (s.task k) (s.mutex.client (me k)) + (if pop then 21 else 0) ∨
      tpot (wG count s.made) x (m.client (me k)) = tpot (wG count s.made) (s.task k) (s.mutex.client (me k)) ∧ w = none ∧ pop = false ∧
        tr L (m.client (me k)).pc < tr L (s.mutex.client (me k)).pc ∧ m.list.length ≤ s.mutex.list.length)

theorem progress_pot {count L : Nat} {s s1 s' : State} {w : Option Nat} {t k : Nat} {ks : List Nat} {x : Task} {m : Mutex.State} {pop : Bool}
    (h' : wake count s1 w = some s') (sh : Short count L s) (hk : k < s.made) (ht : t < count) (hq : s.queue t = k :: ks)
    (hm : ∀ p, p ≠ me k → m.client p = s.mutex.client p) (hp : Progress count L s k x m w pop)
    (e1 : s1.task = upd s.task k x) (e2 : s1.mutex = m) (e3 : s1.queue = if pop then upd s.queue t ks else s.queue) (e4 : s1.soft = s.soft)
    (e5 : s1.made = s.made) : pot count L s' < pot count L s ∧ Short count L s' := by
  obtain ⟨w1, w2, w3, w4, w5, -⟩ := wake_pot h'
  have hpop := tok_pop hq ht
  obtain ⟨p1, p2, p3⟩ := hp
  have hm' : ∀ j, j ≠ k → m.client (me j) = s.mutex.client (me j) := fun j hj => hm _ fun e => hj (me_inj e)
  have hsum := sumTo_one (f := fun j => tpot (wG count s.made) (s.task j) (s.mutex.client (me j)))
    (f' := fun j => tpot (wG count s.made) (upd s.task k x j) (m.client (me j))) (j := k)
    (fun j hj => by simp [upd, hj, hm' j hj]) hk
  have htr := sumTo_one (f := fun j => tr L (s.mutex.client (me j)).pc) (f' := fun j => tr L (m.client (me j)).pc) (j := k)
    (fun j hj => by simp [hm' j hj]) hk
  simp only [upd, ↓reduceIte] at hsum
  rw [e4] at w1
  have hmul : wB s.made * spot count s'.soft.stack ≤
      wB s.made * spot count s.soft.stack + (if w = none then 0 else wB s.made * push count) := by
    have := Nat.mul_le_mul_left (wB s.made) w1
    rw [Nat.mul_add] at this
    split <;> simp_all
  have hb : big count s' = wB s.made * spot count s'.soft.stack + 21 * tok count (if pop then upd s.queue t ks else s.queue) +
      sumTo (fun j => tpot (wG count s.made) (upd s.task k x j) (m.client (me j))) s.made := by
    unfold big
    rw [w2, w3, w4, w5, e1, e2, e3, e5]
  have hsm : small L s' = sumTo (fun j => tr L (m.client (me j)).pc) s.made := by
    unfold small
    rw [w3, w5, e2, e5]
  have htok : tok count (if pop then upd s.queue t ks else s.queue) + (if pop then 1 else 0) = tok count s.queue := by
    cases pop <;> simp <;> omega
  have hlt := tr_le p2
  have hL := sh.list
  have hseen : ∀ j, j < s'.made → seen (s'.mutex.client (me j)).pc ≤ L := by
    rw [w3, w5, e2, e5]
    intro j hj
    by_cases e : j = k
    · subst e; exact p2
    · rw [hm' j e]; exact sh.seen j hj
  have hbs : big count s = wB s.made * spot count s.soft.stack + 21 * tok count s.queue +
    sumTo (fun k => tpot (wG count s.made) (s.task k) (s.mutex.client (me k))) s.made := rfl
  have hss : small L s = sumTo (fun k => tr L (s.mutex.client (me k)).pc) s.made := rfl
  simp only [upd] at hb
  rcases p3 with p3 | ⟨p3, rfl, rfl, p4, p5⟩
  · have hlt' : big count s' < big count s := by
      cases pop <;> simp only [Bool.false_eq_true, ↓reduceIte] at p3 htok hb <;> omega
    refine ⟨?_, ?_, hseen⟩
    · have := Nat.mul_le_mul_left (3 * L + 6) hlt'
      rw [Nat.mul_succ] at this
      simp only [pot]; omega
    · rw [w3, e2]; omega
  · simp only [Bool.false_eq_true, ↓reduceIte] at htok hb hmul
    have hle : big count s' ≤ big count s := by omega
    refine ⟨?_, ?_, hseen⟩
    · have := Nat.mul_le_mul_left (3 * L + 6) hle
      simp only [pot]; omega
    · rw [w3, e2]; omega

/-- A task goes on. -/
theorem task_pot {count L : Nat} {s s1 s' : State} {w : Option Nat} (i : Inv count s none) (sh : Short count L s) {t k : Nat} {ks : List Nat}
    (hq : s.queue t = k :: ks) (h : taskStep s t k ks = some (s1, w)) (h' : wake count s1 w = some s') :
    pot count L s' < pot count L s ∧ Short count L s' := by
  obtain ⟨hk, hkt, hkd⟩ := i.que t k (by rw [hq]; simp)
  have ht : t < count := hkt ▸ i.thr k hk
  have hl : s.mutex.list.length ≤ L := Nat.le_trans (Nat.le_add_right _ _) sh.list
  have hse := sh.seen k hk
  have hshp := i.shp k hk
  have hrnd := i.rnd k hk
  have call_list : ∀ op, (call s.mutex (me k) op).list.length ≤ s.mutex.list.length + 1 := by
    intro op
    unfold call
    simp only
    split
    · omega
    · cases op <;> simp only <;> (repeat' split) <;> exact Nat.le_succ _
  simp only [taskStep] at h
  split at h
  · rename_i hn
    cases hm : pstep s.mutex (me k) with
    | none => rw [hm] at h; simp at h
    | some m =>
      rw [hm] at h
      simp only at h
      have le := pstep_less hshp hn hl hse hm
      have mo := pstep_moved i.reach.inv hshp hn hm
      have ho : ∀ p, p ≠ me k → m.client p = s.mutex.client p := fun p hp => Mutex.pstep_other hm hp
      have hw : waking (s.mutex.client (me k)).pc = none → wokenBy s (me k) = none := fun e => by simp [wokenBy, e]
      split at h
      · rename_i hn'
        simp only [Option.some.injEq, Prod.mk.injEq] at h
        obtain ⟨rfl, rfl⟩ := h
        obtain ⟨l1, l2⟩ := le.work hn'
        rw [hw l1] at h'
        refine progress_pot (pop := false) h' sh hk ht hq ho ⟨le.list, le.seen, ?_⟩ rfl rfl rfl rfl rfl
        simp only [tpot, ↓reduceIte]
        rcases l2 with l2 | ⟨l2, l3, l4⟩
        · left; simp only [Bool.false_eq_true, ↓reduceIte]; omega
        · right; simp only [true_and]; exact ⟨by omega, l3, l4⟩
      · rename_i hn'
        have hn' : (m.client (me k)).pc = .idle := Classical.not_not.1 hn'
        split at h
        · simp only [Option.some.injEq, Prod.mk.injEq] at h
          obtain ⟨rfl, rfl⟩ := h
          refine progress_pot (pop := false) h' sh hk ht hq ho ⟨le.list, le.seen, .inl ?_⟩ rfl rfl rfl rfl rfl
          have hr := hrnd (.inl hn)
          have h20 := lo_le (m.client (me k))
          have : (s.task k).len - (s.task k).pos = (s.task k).len - ((s.task k).pos + 1) + 1 := by omega
          simp only [tpot, this, Nat.mul_succ]
          have hG : wG count s.made = wB s.made * push count + 21 := rfl
          generalize wG count s.made * ((s.task k).len - ((s.task k).pos + 1)) = z
          split <;> simp only [Bool.false_eq_true, ↓reduceIte] <;> omega
        · rename_i hf
          have hf : (m.client (me k)).fut = true := by simpa using hf
          obtain ⟨l1, l2⟩ := le.poll hn' hf
          split at h
          · simp only [Option.some.injEq, Prod.mk.injEq] at h
            obtain ⟨rfl, rfl⟩ := h
            rw [hw l1] at h'
            refine progress_pot (pop := true) h' sh hk ht hq ho ⟨le.list, le.seen, .inl ?_⟩ rfl rfl rfl rfl rfl
            have h20 := lo_le (m.client (me k))
            simp only [tpot, ↓reduceIte]; omega
          · rename_i hg
            simp only [Option.some.injEq, Prod.mk.injEq] at h
            obtain ⟨rfl, rfl⟩ := h
            rw [hw l1] at h'
            refine progress_pot (pop := false) h' sh hk ht hq ho ⟨le.list, le.seen, .inl ?_⟩ rfl rfl rfl rfl rfl
            have := l2 hg
            simp only [tpot, ↓reduceIte, Bool.false_eq_true]; omega
  · rename_i hid
    have hid : (s.mutex.client (me k)).pc = .idle := Classical.not_not.1 hid
    split at h
    · rename_i hf
      split at h <;> rename_i hg <;> simp only [Option.some.injEq, Prod.mk.injEq] at h <;> obtain ⟨rfl, rfl⟩ := h
      · have hc := (called_poll (me k) hid hf).client
        refine progress_pot (pop := false) h' sh hk ht hq (fun p hp => Mutex.call_other hp) ⟨call_list (.poll (me k)), ?_, .inl ?_⟩ rfl rfl rfl rfl rfl
        · rw [hc]; simp [seen]
        · simp only [tpot, hc, lo, hid, hf, hg, ↓reduceIte, Bool.false_eq_true]; omega
      · have hc := (called_dropFut hid hf (hshp.hold hg)).client
        refine progress_pot (pop := false) h' sh hk ht hq (fun p hp => Mutex.call_other hp) ⟨call_list .dropFut, ?_, .inl ?_⟩ rfl rfl rfl rfl rfl
        · rw [hc]; simp [seen, hid]
        · simp only [tpot, hc, lo, hid, hf, hg, ↓reduceIte, Bool.false_eq_true]; omega
    · rename_i hf
      have hf : (s.mutex.client (me k)).fut = false := by simpa using hf
      split at h
      · rename_i hg
        split at h <;> simp only [Option.some.injEq, Prod.mk.injEq] at h <;> obtain ⟨rfl, rfl⟩ := h
        · have hc := (called_unlock hid hg).client
          refine progress_pot (pop := false) h' sh hk ht hq (fun p hp => Mutex.call_other hp) ⟨call_list .unlock, ?_, .inl ?_⟩ rfl rfl rfl rfl rfl
          · rw [hc]; simp [seen]
          · simp only [tpot, hc, lo, hid, hf, hg, ↓reduceIte, Bool.false_eq_true]; omega
        · refine progress_pot (pop := true) h' sh hk ht hq (fun _ _ => rfl) ⟨by omega, hse, .inl ?_⟩ rfl rfl rfl rfl rfl
          simp only [tpot, ↓reduceIte]; omega
      · rename_i hg
        have hg : (s.mutex.client (me k)).guards = 0 := Classical.not_not.1 hg
        split at h <;> simp only [Option.some.injEq, Prod.mk.injEq] at h <;> obtain ⟨rfl, rfl⟩ := h
        · refine progress_pot (pop := true) h' sh hk ht hq (fun _ _ => rfl) ⟨by omega, hse, .inl ?_⟩ rfl rfl rfl rfl rfl
          simp only [tpot, ↓reduceIte]; omega
        · have hc := (called_lock hid hf).client
          refine progress_pot (pop := false) h' sh hk ht hq (fun p hp => Mutex.call_other hp) ⟨call_list .lock, ?_, .inl ?_⟩ rfl rfl rfl rfl rfl
          · rw [hc]; simp [seen, hid]
          · simp only [tpot, hc, lo, hid, hf, hg, ↓reduceIte, Bool.false_eq_true]; omega

/-- An access, with the wake. -/
theorem step_pot {count L : Nat} (hcn : count ≤ 32) {s s' : State} {a : Act} (i : Inv count s none) (sh : Short count L s) (ha : Own a)
    (h : step count s a = some s') : pot count L s' < pot count L s ∧ Short count L s' ∨ s' = s ∧ due s ≠ some a := by
  simp only [step] at h
  cases hs : act count s a with
  | none => rw [hs] at h; simp at h
  | some p =>
    obtain ⟨s1, w⟩ := p
    rw [hs] at h
    simp only at h
    rcases ha with rfl | rfl | rfl
    · simp only [act] at hs
      cases hst : Soft.step count s.soft .step with
      | none => rw [hst] at hs; simp at hs
      | some soft =>
        rw [hst] at hs
        simp only at hs
        rcases spot_step hcn i.a i.o hst with ⟨e, -, -⟩ | ⟨rfl, e1, e2⟩
        · left
          have hB : wB s.made * spot count soft.stack + wB s.made ≤ wB s.made * spot count s.soft.stack := by
            have := Nat.mul_le_mul_left (wB s.made) e
            rw [Nat.mul_succ] at this; exact this
          have hwB : wB s.made = 21 * s.made + 1 := rfl
          split at hs <;> simp only [Option.some.injEq, Prod.mk.injEq] at hs <;> obtain ⟨rfl, rfl⟩ := hs <;>
            simp only [wake, Option.some.injEq] at h <;> subst h
          · rename_i t _
            have := tok_set count (queue := s.queue) (t := t) (l := chain s t) (n := s.made)
              (Nat.le_trans (List.length_filter_le _ _) (by simp))
            refine soft_pot sh rfl rfl ?_
            simp only [big]; omega
          · refine soft_pot sh rfl rfl ?_
            simp only [big]; omega
        · right
          rw [e1] at hs
          simp only [Option.some.injEq, Prod.mk.injEq] at hs
          obtain ⟨rfl, rfl⟩ := hs
          simp only [wake, Option.some.injEq] at h
          refine ⟨h.symm, ?_⟩
          by_cases e0 : s.soft.stack = []
          · rw [due_none.2 e0]; simp
          · rw [ne_eq, due_of e0]
            rcases e2 with e2 | e2
            · exact absurd e2 e0
            · split
              · contradiction
              · split <;> simp
    · simp only [act] at hs
      cases hin : inside s.soft.stack with
      | none =>
        rw [hin] at hs
        simp only [Option.some.injEq, Prod.mk.injEq] at hs
        obtain ⟨rfl, rfl⟩ := hs
        simp only [wake, Option.some.injEq] at h
        refine .inr ⟨h.symm, ?_⟩
        simp only [due, hin]
        split <;> simp
      | some t =>
        rw [hin] at hs
        simp only at hs
        split at hs
        · rename_i hq
          simp only [Option.some.injEq, Prod.mk.injEq] at hs
          obtain ⟨rfl, rfl⟩ := hs
          simp only [wake, Option.some.injEq] at h
          refine .inr ⟨h.symm, ?_⟩
          simp only [due, hin, hq]
          split <;> simp
        · rename_i q qs hq
          split at hs
          · simp at hs
          · exact .inl (task_pot i sh hq hs h)
    · simp only [act] at hs
      cases hin : inside s.soft.stack with
      | none =>
        rw [hin] at hs
        simp only [Option.some.injEq, Prod.mk.injEq] at hs
        obtain ⟨rfl, rfl⟩ := hs
        simp only [wake, Option.some.injEq] at h
        refine .inr ⟨h.symm, ?_⟩
        simp only [due, hin]
        split <;> simp
      | some t =>
        rw [hin] at hs
        simp only at hs
        split at hs
        · simp only [Soft.step, Option.some.injEq, Prod.mk.injEq] at hs
          obtain ⟨rfl, rfl⟩ := hs
          simp only [wake, Option.some.injEq] at h
          subst h
          left
          have := Nat.mul_le_mul_left (wB s.made) (spot_ret (count := count) hin)
          rw [Nat.mul_succ] at this
          have hwB : wB s.made = 21 * s.made + 1 := rfl
          refine soft_pot sh rfl rfl ?_
          simp only [big]; omega
        · rename_i hq
          simp only [Option.some.injEq, Prod.mk.injEq] at hs
          obtain ⟨rfl, rfl⟩ := hs
          simp only [wake, Option.some.injEq] at h
          refine .inr ⟨h.symm, ?_⟩
          simp only [due, hin, hq]
          split <;> simp

/-- Rounds create no tasks and no signals, and do not touch the other clients. -/
structure Kept (s s' : State) : Prop where
  made : s'.made = s.made
  fired : s'.fired = s.fired
  len : ∀ k, (s'.task k).len = (s.task k).len
  live : ∀ k, (s.task k).live = true → (s'.task k).live = true
  ext : ∀ p, s'.mutex.client (ext p) = s.mutex.client (ext p)

theorem Kept.refl (s : State) : Kept s s := ⟨rfl, rfl, fun _ => rfl, fun _ => id, fun _ => rfl⟩

theorem Kept.trans {s s1 s' : State} (h : Kept s s1) (h' : Kept s1 s') : Kept s s' :=
  ⟨h'.made.trans h.made, h'.fired.trans h.fired, fun k => (h'.len k).trans (h.len k), fun k e => h'.live k (h.live k e), fun p => (h'.ext p).trans (h.ext p)⟩

theorem own_kept {count : Nat} {s s' : State} {a : Act} (ha : Own a) (h : step count s a = some s') : Kept s s' := by
  simp only [step] at h
  split at h
  · simp at h
  · rename_i s1 w hs
    obtain ⟨-, -, e1, e2, e3, e4⟩ := wake_pot h
    suffices hk : Kept s s1 from ⟨e3.trans hk.made, e4.trans hk.fired, by rw [e2]; exact hk.len, by rw [e2]; exact hk.live, by rw [e1]; exact hk.ext⟩
    clear h e1 e2 e3 e4
    have hcall : ∀ k op p, (call s.mutex (me k) op).client (ext p) = s.mutex.client (ext p) := fun k op p => Mutex.call_other (fun e => me_ext k p e.symm)
    have hstep : ∀ k m p, pstep s.mutex (me k) = some m → m.client (ext p) = s.mutex.client (ext p) := fun k m p h => Mutex.pstep_other h (fun e => me_ext k p e.symm)
    rcases ha with rfl | rfl | rfl <;> simp only [act, taskStep] at hs
    all_goals (repeat' (split at hs))
    all_goals first
      | (simp at hs; done)
      | (simp only [Option.some.injEq, Prod.mk.injEq] at hs; obtain ⟨rfl, -⟩ := hs
         refine ⟨rfl, rfl, fun q => ?_, fun q hq => ?_, fun p => ?_⟩
         · first | rfl | (simp only [upd]; split <;> simp_all)
         · first | exact hq | (simp only [upd]; split <;> simp_all)
         · first | rfl | exact hcall _ _ _ | (apply hstep; assumption))

/-- When nothing runs, nothing happens. -/
theorem idle_act {count : Nat} {s : State} {a : Act} (e : s.soft.stack = []) (ha : Own a) : act count s a = some (s, none) := by
  have ein : inside s.soft.stack = none := by rw [e]; rfl
  rcases ha with rfl | rfl | rfl <;> simp only [act, ein]
  simp only [Soft.step, e, entering]

theorem idle_step {count : Nat} {s s' : State} {a : Act} (e : s.soft.stack = []) (ha : Own a) (h : step count s a = some s') : s' = s := by
  simp only [step, idle_act e ha, wake, Option.some.injEq] at h
  exact h.symm

theorem run_runs {count : Nat} : ∀ (as : List Act) (s : State), run count s as = runs (step count) s as
  | [], _ => rfl
  | a :: as, s => by
    simp only [run, runs]
    cases step count s a with
    | none => rfl
    | some s1 => exact run_runs as s1

theorem run_append {count : Nat} : ∀ {as bs : List Act} {s s' : State}, run count s as = some s' → run count s (as ++ bs) = run count s' bs
  | [], _, _, _, h => by simp only [run, Option.some.injEq] at h; rw [h]; rfl
  | a :: as, bs, s, s', h => by
    simp only [run] at h
    split at h
    · simp at h
    · rename_i s1 hs
      simp only [List.cons_append, run, hs]
      exact run_append h

theorem round_kept {count : Nat} : ∀ {as : List Act} {s s' : State}, (∀ a ∈ as, Own a) → run count s as = some s' → Kept s s'
  | [], s, s', _, h => by simp only [run, Option.some.injEq] at h; subst h; exact .refl _
  | a :: as, s, s', ha, h => by
    simp only [run] at h
    split at h
    · simp at h
    · rename_i s1 hs
      exact (own_kept (ha a (by simp)) hs).trans (round_kept (fun x hx => ha x (by simp [hx])) h)

theorem round_own {r : List Act} (h : Round r) : (∀ a, Own a → a ∈ r) ∧ ∀ a ∈ r, Own a :=
  ⟨by
    rintro a (rfl | rfl | rfl)
    · exact h.1.1
    · exact h.1.2.1
    · exact h.1.2.2, h.2⟩

theorem rounds_own {rounds : List (List Act)} (h : ∀ r ∈ rounds, Round r) : ∀ a ∈ rounds.flatten, Own a := fun a ha => by
  obtain ⟨r, hr, h'⟩ := List.mem_flatten.1 ha
  exact (h r hr).2 a h'

/-- Lists have a length. -/
theorem short {count : Nat} (s : State) : ∃ L, Short count L s := by
  refine ⟨s.mutex.list.length + big count s + sumTo (fun k => seen (s.mutex.client (me k)).pc) s.made, by omega, fun k hk => ?_⟩
  have : ∀ {m : Nat} (f : Nat → Nat), k < m → f k ≤ sumTo f m := by
    intro m f hk
    induction m with
    | zero => omega
    | succ m ih =>
      simp only [sumTo]
      by_cases e : k = m
      · subst e; omega
      · have := ih (by omega); omega
  have := this (fun k => seen (s.mutex.client (me k)).pc) hk
  omega

/-- After that many rounds nothing runs. -/
theorem rests {count : Nat} (hc : count ≤ 32) {s : State} (i : Inv count s none) : ∃ m, ∀ (rounds : List (List Act)) (s' : State),
    (∀ r ∈ rounds, Round r) → m ≤ rounds.length → run count s rounds.flatten = some s' → s'.soft.stack = [] := by
  obtain ⟨L, hL⟩ := short (count := count) s
  refine ⟨pot count L s + 1, fun rounds s' hr hl h => due_none.1 ?_⟩
  rw [run_runs] at h
  refine settles (step count) Own (fun x => Inv count x none ∧ Short count L x) (pot count L) due ?_ ?_ ?_ ⟨i, hL⟩ (fun r hx => round_own (hr r hx)) h hl
  · rintro x a x' ⟨i, sh⟩ ha h
    have i1 := step_inv hc i h
    rcases step_pot hc i sh ha h with ⟨e1, e2⟩ | ⟨rfl, e⟩
    · exact ⟨⟨i1, e2⟩, .inl e1⟩
    · exact ⟨⟨i1, sh⟩, .inr ⟨rfl, e⟩⟩
  · rintro x a x' - ha hd h
    exact idle_step (due_none.1 hd) ha h
  · rintro x a - h
    exact due_own h

/-- While nothing runs, nobody acts. -/
theorem idle_always {count : Nat} {P : State → Act → Prop} (hP : ∀ s a, s.soft.stack = [] → Own a → P s a) : ∀ {as : List Act} {s : State},
    s.soft.stack = [] → (∀ a ∈ as, Own a) → Always count P s as
  | [], _, _, _ => trivial
  | a :: as, s, e, h =>
    ⟨hP s a e (h a (by simp)), fun s' hs => idle_step e (h a (by simp)) hs ▸ idle_always hP e fun x hx => h x (by simp [hx])⟩

theorem idle_noSame {count : Nat} (s : State) (a : Act) (e : s.soft.stack = []) (h : Own a) : NoSame count s a := fun t ht => by
  simp [wakes, idle_act e h] at ht

theorem idle_acting (s : State) (a : Act) (e : s.soft.stack = []) (h : Own a) : acting s a = none := by
  have ein : inside s.soft.stack = none := by rw [e]; rfl
  rcases h with rfl | rfl | rfl <;> simp only [acting, ein]

theorem always_append {count : Nat} {P : State → Act → Prop} : ∀ {as bs : List Act} {s : State}, Always count P s as →
    (∀ s', run count s as = some s' → Always count P s' bs) → Always count P s (as ++ bs)
  | [], _, _, _, h => h _ rfl
  | a :: as, bs, s, h, h' => ⟨h.1, fun s1 hs => always_append (h.2 s1 hs) fun s' hr => h' s' (by simp [run, hs, hr])⟩

end Verif.Exec.Lock
