import Verif.Soft.OrderServe
/-!
# C82: memory orderings of the software threads
-/
namespace Verif.Soft.Order

open Verif.Order

/-- What the other contexts write before they set a thread pending can be read by the thread that is resumed. -/
theorem C82_data (count : Nat) (prio : Nat → Nat) (tr : List Ev) (ht : (machine count prio ords).Trace tr) (i j : Nat) : ¬ Race tr i j :=
  no_races rfl rfl ht i j

/-- The level of thread 0 is higher. -/
def prio2 (thr : Nat) : Nat := if thr = 0 then 1 else 0

/-- Context `t` sets `thr` pending. -/
def request (t thr : Nat) : List (PAct Op) := [.call (.pend t thr), .step t 0, .step t 0, .step t 0, .step t 0]

/-- Context 1 sets thread 0 pending, and the core takes its level from the header. -/
def oneSched : List (PAct Op) := request 1 0 ++ [.call (.act .preempt), .step 0 0]

def oneTrace (o : Ords) : List Ev :=
  [⟨1, 5, .write⟩, ⟨1, 1, .load o.prioRead 0⟩, ⟨1, 78, .rmw o.setCell.acq o.setCell.rel⟩, ⟨1, 0, .rmw o.setHead.acq o.setHead.rel⟩,
    ⟨0, 0, .rmw o.startCas.acq o.startCas.rel⟩]

theorem one_run (o : Ords) : ∃ s tr, (machine 2 prio2 o).Reaches oneSched s tr ∧ tr = oneTrace o ∧ s.task = none ∧
    s.base.stack = [.row ⟨26, 2, 0⟩ (.load 0)] ∧ s.said 1 = some (0, 1) ∧ s.started 1 = true ∧ s.gone 1 = false := by
  have h : ((machine 2 prio2 o).prun (machine 2 prio2 o).pinit oneSched).map (fun p => (p.tr, p.s.task, p.s.base.stack, p.s.said 1, p.s.started 1, p.s.gone 1)) =
      some (oneTrace o, none, [.row ⟨26, 2, 0⟩ (.load 0)], some (0, 1), true, false) := by
    cbv
  obtain ⟨p, hp, e⟩ := Option.map_eq_some_iff.1 h
  simp only [Prod.mk.injEq] at e
  exact ⟨p.s, p.tr, ⟨p, hp, rfl, rfl⟩, e⟩

/-- Then the core loads the cell and reads its initial value. -/
theorem one_next (o : Ords) : ∃ s tr, (machine 2 prio2 o).Reaches (oneSched ++ [.step 0 0]) s tr ∧ tr = oneTrace o ++ [⟨0, 78, .load o.cellRead 0⟩] ∧
    s.base.stack = [.row ⟨26, 2, 0⟩ .next] := by
  have h : ((machine 2 prio2 o).prun (machine 2 prio2 o).pinit (oneSched ++ [.step 0 0])).map (fun p => (p.tr, p.s.base.stack)) =
      some (oneTrace o ++ [⟨0, 78, .load o.cellRead 0⟩], [.row ⟨26, 2, 0⟩ .next]) := by
    cbv
  obtain ⟨p, hp, e⟩ := Option.map_eq_some_iff.1 h
  simp only [Prod.mk.injEq] at e
  exact ⟨p.s, p.tr, ⟨p, hp, rfl, rfl⟩, e⟩

theorem one_coherent {o : Ords} (h : o.setHead.rel = false ∨ o.startCas.acq = false) : Coherent (oneTrace o ++ [⟨0, 78, .load o.cellRead 0⟩]) := by
  intro j f a k hf hk i e he hw hlt hb
  have hij := hb.lt
  have hj : j < 6 := hij.2
  have hcase : j = 1 ∨ j = 5 := by
    match j, hj with
    | 0, _ | 2, _ | 3, _ | 4, _ => cases hf; cases hk
    | 1, _ => exact .inl rfl
    | 5, _ => exact .inr rfl
  rcases hcase with rfl | rfl
  · have : i = 0 := by omega
    subst this
    cases hf; cases he
    cases hw
  · cases hf
    have hi : i = 2 := by
      match i, hij.1 with
      | 0, _ | 1, _ | 3, _ | 4, _ => cases he; simp [Ev.writes] at hw
      | 2, _ => rfl
    subst hi
    cases he
    refine not_hb (tr := oneTrace o ++ [⟨0, 78, .load o.cellRead 0⟩]) (i := 2) (j := 5) rfl rfl (by simp) (fun m g h1 h2 hg ht ha => ?_) hb
    match m, h1, h2 with
    | 3, _, _ => cases hg; cases ht
    | 5, _, _ => cases hg; exact .inl rfl
    | 4, _, _ =>
      cases hg
      rcases h with h | h
      · refine .inr fun c x hx hw => ?_
        match c with
        | 0 | 1 | 2 => cases hx; simp [Ev.writes] at hw
        | 3 => cases hx; exact h
        | c + 4 => simp [oneTrace] at hx
      · simp only [Ev.acq] at ha
        rw [h] at ha; cases ha

/-- Context 1 sets thread 0 pending; the core takes its level from the header and resumes it. Context 2 sets thread 1 pending; then the core
takes its level from the header. -/
def twoSched : List (PAct Op) :=
  oneSched ++ [.step 0 1, .step 0 0, .call .turn, .call .turn, .call (.act .ret), .call .turn, .call .turn] ++ request 2 1 ++ [.step 0 0]

def twoTrace (o : Ords) : List Ev :=
  oneTrace o ++ [⟨0, 78, .load o.cellRead 1⟩, ⟨0, 78, .rmw o.run.acq o.run.rel⟩, ⟨2, 8, .write⟩, ⟨2, 4, .load o.prioRead 0⟩,
    ⟨2, 81, .rmw o.setCell.acq o.setCell.rel⟩, ⟨2, 0, .rmw o.setHead.acq o.setHead.rel⟩, ⟨0, 0, .rmw o.next.acq o.next.rel⟩]

theorem two_run (o : Ords) : ∃ s tr, (machine 2 prio2 o).Reaches twoSched s tr ∧ tr = twoTrace o ∧ s.task = none ∧
    s.base.stack = [.row ⟨27, 1, 0⟩ (.load 0)] ∧ s.said 2 = some (1, 0) ∧ s.nexted 2 = true ∧ s.gone 2 = false := by
  have h : ((machine 2 prio2 o).prun (machine 2 prio2 o).pinit twoSched).map (fun p => (p.tr, p.s.task, p.s.base.stack, p.s.said 2, p.s.nexted 2, p.s.gone 2)) =
      some (twoTrace o, none, [.row ⟨27, 1, 0⟩ (.load 0)], some (1, 0), true, false) := by
    cbv
  obtain ⟨p, hp, e⟩ := Option.map_eq_some_iff.1 h
  simp only [Prod.mk.injEq] at e
  exact ⟨p.s, p.tr, ⟨p, hp, rfl, rfl⟩, e⟩

/-- Then it loads the cell and reads its initial value. -/
theorem two_next (o : Ords) : ∃ s tr, (machine 2 prio2 o).Reaches (twoSched ++ [.step 0 0]) s tr ∧ tr = twoTrace o ++ [⟨0, 81, .load o.cellRead 0⟩] ∧
    s.base.stack = [.row ⟨27, 1, 0⟩ .next] := by
  have h : ((machine 2 prio2 o).prun (machine 2 prio2 o).pinit (twoSched ++ [.step 0 0])).map (fun p => (p.tr, p.s.base.stack)) =
      some (twoTrace o ++ [⟨0, 81, .load o.cellRead 0⟩], [.row ⟨27, 1, 0⟩ .next]) := by
    cbv
  obtain ⟨p, hp, e⟩ := Option.map_eq_some_iff.1 h
  simp only [Prod.mk.injEq] at e
  exact ⟨p.s, p.tr, ⟨p, hp, rfl, rfl⟩, e⟩

theorem two_coherent {o : Ords} (h : o.next.acq = false) : Coherent (twoTrace o ++ [⟨0, 81, .load o.cellRead 0⟩]) := by
  intro j f a k hf hk i e he hw hlt hb
  have hij := hb.lt
  have hj : j < 13 := hij.2
  have hcase : j = 1 ∨ j = 5 ∨ j = 8 ∨ j = 12 := by
    match j, hj with
    | 0, _ | 2, _ | 3, _ | 4, _ | 6, _ | 7, _ | 9, _ | 10, _ | 11, _ => cases hf; cases hk
    | 1, _ => simp
    | 5, _ => simp
    | 8, _ => simp
    | 12, _ => simp
  rcases hcase with rfl | rfl | rfl | rfl
  · cases hf
    match i, hij.1 with
    | 0, _ => cases he; simp [Ev.writes] at hw
  · cases hf; cases hk
    match i, hij.1 with
    | 0, _ | 1, _ | 3, _ | 4, _ => cases he; simp [Ev.writes] at hw
    | 2, _ => simp [cnt, twoTrace, oneTrace, Ev.writes] at hlt
  · cases hf
    match i, hij.1 with
    | 0, _ | 1, _ | 2, _ | 3, _ | 4, _ | 5, _ | 6, _ | 7, _ => cases he; simp [Ev.writes] at hw
  · cases hf
    have hi : i = 9 := by
      match i, hij.1 with
      | 0, _ | 1, _ | 2, _ | 3, _ | 4, _ | 5, _ | 6, _ | 7, _ | 8, _ | 10, _ | 11, _ => cases he; simp [Ev.writes] at hw
      | 9, _ => rfl
    subst hi
    cases he
    refine not_hb (tr := twoTrace o ++ [⟨0, 81, .load o.cellRead 0⟩]) (i := 9) (j := 12) rfl rfl (by simp) (fun m g h1 h2 hg ht ha => ?_) hb
    match m, h1, h2 with
    | 10, _, _ => cases hg; cases ht
    | 11, _, _ =>
      cases hg
      simp only [Ev.acq] at ha
      rw [h] at ha; cases ha
    | 12, _, _ => cases hg; exact .inl rfl

/-- The orderings that matter for finding requests. -/
structure Enough (o : Ords) : Prop where
  setHead : o.setHead.rel = true
  startCas : o.startCas.acq = true
  next : o.next.acq = true

/-- The scheduler finds the requests of a level that it has taken in `row_start`. Missing: levels taken in `row_next`, where it is false
(`C82_lost`). -/
theorem C82_found_partial (count : Nat) (prio : Nat → Nat) : Found SState.started count prio ords :=
  found_of fun h t x ht hx => h.started rfl rfl t x ht hx

/-- The scheduler finds all requests if and only if `set_pending` releases the header and both `row_start` and `row_next` acquire it. -/
theorem C82_found_exact (o : Ords) :
    (∀ count prio, Found SState.started count prio o ∧ Found SState.nexted count prio o) ↔ Enough o := by
  constructor
  · intro h
    obtain ⟨h1, h2⟩ := h 2 prio2
    have hone : ¬ (o.setHead.rel = false ∨ o.startCas.acq = false) := by
      intro hc
      obtain ⟨s, tr, hr, rfl, htk, hst, hsd, hsr, hg⟩ := one_run o
      obtain ⟨s', tr', hr', rfl, hst'⟩ := one_next o
      obtain ⟨cell, e, -⟩ := h1 oneSched 0 s _ s' _ hr hr' (one_coherent hc) (by simp) htk _ _ _ hst 1 0 1 hsd hsr hg (by decide)
      rw [hst'] at e; cases e
    refine ⟨by simpa using fun e => hone (.inl e), by simpa using fun e => hone (.inr e), ?_⟩
    cases hc : o.next.acq
    · obtain ⟨s, tr, hr, rfl, htk, hst, hsd, hsr, hg⟩ := two_run o
      obtain ⟨s', tr', hr', rfl, hst'⟩ := two_next o
      obtain ⟨cell, e, -⟩ := h2 twoSched 0 s _ s' _ hr hr' (two_coherent hc) (by simp) htk _ _ _ hst 2 1 0 hsd hsr hg (by decide)
      rw [hst'] at e; cases e
    · rfl
  · intro h count prio
    exact ⟨found_of fun hI t x ht hx => hI.started h.setHead h.startCas t x ht hx, found_of fun hI t x ht hx => hI.nexted h.setHead h.next t x ht hx⟩

/-- With `AcqRel` in `row_next` they would be enough. -/
example : Enough { ords with next := ⟨true, true⟩ } ∧ ¬ Enough ords := ⟨⟨rfl, rfl, rfl⟩, fun h => nomatch h.next⟩

/-- No request gets lost, if its level is not taken in `row_next`. Missing: levels taken in `row_next`, where it is false (`C82_lost`). -/
theorem C82_served_partial (count : Nat) (prio : Nat → Nat) (hc : count ≤ 32) (hp : ∀ t, prio t < 27) (as : List (PAct Op)) (s : SState) (tr : List Ev)
    (hr : (machine count prio ords).Reaches as s tr) (hco : Coherent tr) (hst : s.base.stack = []) (t u p : Nat) (hs : s.said t = some (u, p))
    (hd : s.due t = true) (hn : s.nexted t = false) : s.gone t = true ∨ (s.base.mem 0).getLsbD p = true := by
  rcases served_of hc hp rfl rfl hr hco hst hs hd with h | h | ⟨h, -⟩
  · exact .inl h
  · exact .inr h
  · rw [hn] at h; cases h

/-- Context 1 sets thread 0 pending, and the core resumes it. -/
example : ∃ as s tr, (machine 2 prio2 ords).Reaches as s tr ∧ Coherent tr ∧ s.base.stack = [] ∧ s.said 1 = some (0, 1) ∧ s.due 1 = true ∧
    s.nexted 1 = false ∧ s.gone 1 = true ∧ s.served 1 = true := by
  have h : ((machine 2 prio2 ords).prun (machine 2 prio2 ords).pinit
      (oneSched ++ [.step 0 1, .step 0 0, .call .turn, .call .turn, .call (.act .ret), .call .turn, .call .turn, .step 0 0])).map (fun p =>
      decide ((∀ j < p.tr.length, loadOk p.tr j = true) ∧ p.s.base.stack = [] ∧ p.s.said 1 = some (0, 1) ∧ p.s.due 1 = true ∧
      p.s.nexted 1 = false ∧ p.s.gone 1 = true ∧ p.s.served 1 = true)) = some true := by
    decide +kernel
  obtain ⟨p, hp, e⟩ := Option.map_eq_some_iff.1 h
  have e := of_decide_eq_true e
  exact ⟨_, p.s, p.tr, ⟨p, hp, rfl, rfl⟩, coherent_of e.1, e.2⟩

/-- After the stale load the core removes the level and returns. -/
theorem one_last (o : Ords) : ∃ s tr, (machine 2 prio2 o).Reaches (oneSched ++ [.step 0 0, .step 0 0]) s tr ∧
    tr = (oneTrace o ++ [⟨0, 78, .load o.cellRead 0⟩]) ++ [⟨0, 0, .rmw o.next.acq o.next.rel⟩] ∧
    s.base.stack = [] ∧ s.said 1 = some (0, 1) ∧ s.due 1 = true ∧ s.gone 1 = false ∧ s.base.mem 0 = 0 := by
  have h : ((machine 2 prio2 o).prun (machine 2 prio2 o).pinit (oneSched ++ [.step 0 0, .step 0 0])).map (fun p =>
      (p.tr, p.s.base.stack, p.s.said 1, p.s.due 1, p.s.gone 1, p.s.base.mem 0)) =
      some ((oneTrace o ++ [⟨0, 78, .load o.cellRead 0⟩]) ++ [⟨0, 0, .rmw o.next.acq o.next.rel⟩], [], some (0, 1), true, false, 0) := by
    cbv
  obtain ⟨p, hp, e⟩ := Option.map_eq_some_iff.1 h
  simp only [Prod.mk.injEq] at e
  exact ⟨p.s, p.tr, ⟨p, hp, rfl, rfl⟩, e⟩

theorem two_last (o : Ords) : ∃ s tr, (machine 2 prio2 o).Reaches (twoSched ++ [.step 0 0, .step 0 0]) s tr ∧
    tr = (twoTrace o ++ [⟨0, 81, .load o.cellRead 0⟩]) ++ [⟨0, 0, .rmw o.next.acq o.next.rel⟩] ∧
    s.base.stack = [] ∧ s.said 2 = some (1, 0) ∧ s.due 2 = true ∧ s.gone 2 = false ∧ s.base.mem 0 = 0 := by
  have h : ((machine 2 prio2 o).prun (machine 2 prio2 o).pinit (twoSched ++ [.step 0 0, .step 0 0])).map (fun p =>
      (p.tr, p.s.base.stack, p.s.said 2, p.s.due 2, p.s.gone 2, p.s.base.mem 0)) =
      some ((twoTrace o ++ [⟨0, 81, .load o.cellRead 0⟩]) ++ [⟨0, 0, .rmw o.next.acq o.next.rel⟩], [], some (1, 0), true, false, 0) := by
    cbv
  obtain ⟨p, hp, e⟩ := Option.map_eq_some_iff.1 h
  simp only [Prod.mk.injEq] at e
  exact ⟨p.s, p.tr, ⟨p, hp, rfl, rfl⟩, e⟩

/-- No request gets lost if and only if `set_pending` releases the header and both `row_start` and `row_next` acquire it. -/
theorem C82_served_exact (o : Ords) : (∀ count prio, count ≤ 32 → (∀ t, prio t < 27) → Served count prio o) ↔ Enough o := by
  constructor
  · intro h
    have h := h 2 prio2 (by decide) (fun t => by unfold prio2; split <;> omega)
    have hone : ¬ (o.setHead.rel = false ∨ o.startCas.acq = false) := by
      intro hc
      obtain ⟨s, tr, hr, rfl, hst, hsd, hd, hg, hm⟩ := one_last o
      rcases h _ s _ hr (coherent_snoc (one_coherent hc) (by simp)) hst 1 0 1 hsd hd with e | e
      · rw [hg] at e; cases e
      · rw [hm] at e; simp at e
    refine ⟨by simpa using fun e => hone (.inl e), by simpa using fun e => hone (.inr e), ?_⟩
    cases hc : o.next.acq
    · obtain ⟨s, tr, hr, rfl, hst, hsd, hd, hg, hm⟩ := two_last o
      rcases h _ s _ hr (coherent_snoc (two_coherent hc) (by simp)) hst 2 1 0 hsd hd with e | e
      · rw [hg] at e; cases e
      · rw [hm] at e; simp at e
    · rfl
  · intro h count prio hc hp as s tr hr hco hst t u p hs hd
    rcases served_of hc hp h.setHead h.startCas hr hco hst hs hd with e | e | ⟨-, e⟩
    · exact .inl e
    · exact .inr e
    · rw [h.next] at e; cases e

/-- As above; the core misses thread 1 and returns. Context 3 sets thread 1 pending, and the core calls `preempt`. -/
def lostSched : List (PAct Op) :=
  twoSched ++ [.step 0 0, .step 0 0] ++ request 3 1 ++ [.call (.act .preempt), .call (.choose true), .step 0 5]

/-- With the orderings of the source, a request can get lost. Thread 1 is pending and its level was taken from the header, but it was not
resumed; the core is idle. Another request has returned `false`, and another call of `preempt` has found nothing. -/
theorem C82_lost : ∃ s tr, (machine 2 prio2 ords).Reaches lostSched s tr ∧ Coherent tr ∧ s.base.stack = [] ∧ s.base.mem 0 = 0 ∧
    isPending 2 s.base 1 = true ∧ s.said 2 = some (1, 0) ∧ s.due 2 = true ∧ s.nexted 2 = true ∧ s.gone 2 = false ∧ s.served 2 = false ∧
    s.ctx 3 = .done false ∧ s.base.log.contains (.run 1 0) = false := by
  have h : ((machine 2 prio2 ords).prun (machine 2 prio2 ords).pinit lostSched).map (fun p => decide ((∀ j < p.tr.length, loadOk p.tr j = true) ∧
      p.s.base.stack = [] ∧ p.s.base.mem 0 = 0 ∧ isPending 2 p.s.base 1 = true ∧ p.s.said 2 = some (1, 0) ∧ p.s.due 2 = true ∧ p.s.nexted 2 = true ∧
      p.s.gone 2 = false ∧ p.s.served 2 = false ∧ p.s.ctx 3 = .done false ∧ p.s.base.log.contains (.run 1 0) = false)) = some true := by
    decide +kernel
  obtain ⟨p, hp, e⟩ := Option.map_eq_some_iff.1 h
  have e := of_decide_eq_true e
  exact ⟨p.s, p.tr, ⟨p, hp, rfl, rfl⟩, coherent_of e.1, e.2⟩

/-- Context 1 sets thread 0 pending. The core starts and loads the cell; then context 2 sets thread 1 pending, which is on the same level, but
does not come to the header. The core resumes both and reads the message of context 2. -/
def joinSched : List (PAct Op) :=
  request 1 0 ++ [.call (.act .preempt), .step 0 0, .step 0 1] ++ [.call (.pend 2 1), .step 2 0, .step 2 0, .step 2 0] ++
  [.step 0 0, .call .turn, .call .turn, .call (.act .ret), .call .turn, .step 0 0, .call (.read 2), .step 0 0]

def joinTrace (o : Ords) : List Ev :=
  [⟨1, 5, .write⟩, ⟨1, 1, .load o.prioRead 0⟩, ⟨1, 81, .rmw o.setCell.acq o.setCell.rel⟩, ⟨1, 0, .rmw o.setHead.acq o.setHead.rel⟩,
    ⟨0, 0, .rmw o.startCas.acq o.startCas.rel⟩, ⟨0, 81, .load o.cellRead 1⟩, ⟨2, 8, .write⟩, ⟨2, 4, .load o.prioRead 0⟩,
    ⟨2, 81, .rmw o.setCell.acq o.setCell.rel⟩, ⟨0, 81, .rmw o.run.acq o.run.rel⟩, ⟨0, 81, .rmw o.run.acq o.run.rel⟩, ⟨0, 8, .read⟩]

theorem join_trace (o : Ords) : (machine 2 (fun _ => 0) o).Trace (joinTrace o) := by
  have h : ((machine 2 (fun _ => 0) o).prun (machine 2 (fun _ => 0) o).pinit joinSched).map (·.tr) = some (joinTrace o) := by cbv
  obtain ⟨p, hp, e⟩ := Option.map_eq_some_iff.1 h
  exact ⟨_, p, hp, e⟩

/-- There are no data races if and only if `set_pending` releases the cell and `row_run` acquires it. The other orderings do not matter for
this. -/
theorem C82_data_exact (o : Ords) : (∀ count prio tr, (machine count prio o).Trace tr → ∀ i j, ¬ Race tr i j) ↔
    o.setCell.rel = true ∧ o.run.acq = true := by
  constructor
  · intro h
    have h1 := h 2 (fun _ => 0) _ (join_trace o) 6 11
    have c : Conflict ⟨2, 8, .write⟩ ⟨0, 8, .read⟩ := ⟨by simp, .inr (.inr ⟨rfl, by simp, by simp [Kind.atomic]⟩)⟩
    constructor
    · cases hb : o.setCell.rel
      · exact absurd (race_rel 6 11 (by decide) rfl rfl c (by simp [joinTrace, Ev.rel, hb])) h1
      · rfl
    · cases hb : o.run.acq
      · exact absurd (race_acq 6 11 (by decide) rfl rfl c (by simp [joinTrace, Ev.acq, hb])) h1
      · rfl
  · rintro ⟨o1, o2⟩ count prio tr ht
    exact no_races o1 o2 ht

/-- The trace of this schedule with the orderings of the source: the read of the message happens after the write. -/
example : (machine 2 (fun _ => 0) ords).Trace (joinTrace ords) ∧ (joinTrace ords)[6]? = some ⟨2, 8, .write⟩ ∧
    (joinTrace ords)[11]? = some ⟨0, 8, .read⟩ := ⟨join_trace ords, rfl, rfl⟩

/-- A case of `Found`: the core has taken the level of thread 0 in `row_start` and is about to load its cell; it reads the last value. -/
example : ∃ s tr s' tr', (machine 2 prio2 ords).Reaches oneSched s tr ∧ (machine 2 prio2 ords).Reaches (oneSched ++ [.step 0 1]) s' tr' ∧ Coherent tr' ∧
    tr' ≠ tr ∧ s.task = none ∧ s.base.stack = [.row ⟨26, 2, 0⟩ (.load 0)] ∧ s.said 1 = some (0, 1) ∧ s.started 1 = true ∧ s.gone 1 = false ∧
    s'.base.stack = [.row ⟨26, 2, 0⟩ (.bits 0 1 1)] := by
  obtain ⟨s, tr, hr, rfl, h⟩ := one_run ords
  have h' : ((machine 2 prio2 ords).prun (machine 2 prio2 ords).pinit (oneSched ++ [.step 0 1])).map (fun p => (decide (∀ j < p.tr.length, loadOk p.tr j = true),
      p.tr.length, p.s.base.stack)) = some (true, 6, [.row ⟨26, 2, 0⟩ (.bits 0 1 1)]) := by decide +kernel
  obtain ⟨p, hp, e⟩ := Option.map_eq_some_iff.1 h'
  simp only [Prod.mk.injEq, decide_eq_true_eq] at e
  refine ⟨s, _, p.s, p.tr, hr, ⟨p, hp, rfl, rfl⟩, coherent_of e.1, fun e' => ?_, h.1, h.2.1, h.2.2.1, h.2.2.2.1, h.2.2.2.2, e.2.2⟩
  have := e.2.1
  rw [e'] at this; cases this

/-- The schedules of `Verif.Soft` where priorities do not change are among those that are meant here. -/
theorem C82_covers (count : Nat) (prio : Nat → Nat) (o : Ords) (acts : List Act) (hn : NoSet acts) (b : State)
    (h : run count (init prio) acts = some b) :
    ∃ as p, (machine count prio o).prun (machine count prio o).pinit as = some p ∧ p.s.base = b :=
  cover acts (p := (machine count prio o).pinit) ⟨fun _ => rfl, fun _ _ => Nat.zero_lt_one⟩ rfl hn h

/-- A thread is set pending and resumed; while it runs, another one is set pending. -/
example : NoSet [.pend 0, .step, .step, .step, .step, .step, .step, .step, .step, .pend 1, .step] ∧
    (run 2 (init prio2) [.pend 0, .step, .step, .step, .step, .step, .step, .step, .step, .pend 1, .step]).map (fun s => (s.current, s.stack)) =
      some (1, [.req 1 (.cell 0), .row ⟨26, 2, 0⟩ (.call 0 1 1 (.body 0))]) := by
  refine ⟨fun thr p h => by simp at h, by decide +kernel⟩

end Verif.Soft.Order
