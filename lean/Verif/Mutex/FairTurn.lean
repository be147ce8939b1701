import Verif.Mutex.FairLemmas
/-! # C87: two clients that hand the lock to each other while a third one waits -/
namespace Verif.Mutex

/-- Client `x` has the guard, its node `m` is still in the list; client `y` does nothing; client 1 waits with node 0. -/
structure Turn (s : State) (x y m : Nat) : Prop where
  ne : x ≠ y ∧ x ≠ 1 ∧ y ≠ 1
  locked : s.locked = true
  list : s.list = [m, 0]
  next : 0 < m ∧ m < s.next
  nodeM : s.node m = ⟨true, none, false⟩
  node0 : s.node 0 = ⟨false, some 1, false⟩
  cx : s.client x = ⟨.idle, true, none, 1⟩
  cy : s.client y = ⟨.idle, false, none, 0⟩
  waits : waits 1 s.log = true ∧ wokenSince 1 1 s.log = false

theorem upd_same {α : Type} (f : Nat → α) (i : Nat) (x : α) : upd f i x i = x := by simp [upd]

theorem upd_ne {α : Type} (f : Nat → α) {i j : Nat} (x : α) (h : j ≠ i) : upd f i x j = f j := by simp [upd, h]

theorem upd_upd {α : Type} (f : Nat → α) (i : Nat) (x y : α) : upd (upd f i x) i y = upd f i y := by
  funext j; simp only [upd]; split <;> rfl

/-- Client `y` asks for the lock. -/
def ask (y : Nat) : List Act := [.call y .lock, .call y (.poll y), .step y, .step y, .step y]

/-- Client `x` gives the lock back. -/
def giveUp (x : Nat) : List Act := [.call x .dropFut, .call x .unlock] ++ List.replicate 11 (.step x)

/-- Client `y` is polled. -/
def getIt (y : Nat) : List Act := [.call y (.poll y), .step y, .step y]

theorem ask_run {s : State} {x y m : Nat} (h : Turn s x y m) : run s (ask y) = some
    { s with
      list := s.next :: s.list, node := upd s.node s.next ⟨false, some y, false⟩, next := s.next + 1,
      client := upd s.client y ⟨.idle, true, some s.next, 0⟩,
      log := .pending y :: .store s.next y :: .callPoll y y :: .newFut y :: s.log } := by
  obtain ⟨_, h1, h2, h3, h4, h5, h6, h7, _⟩ := h
  simp [ask, run, step, call, pstep, State.goto, State.setC, State.emit, State.setN, h7, h1, upd_same, upd_upd]

theorem giveUp_run {s : State} {x y m k : Nat} (hx : s.client x = ⟨.idle, true, none, 1⟩) (hl : s.list = [k, m, 0]) (hkm : m < k) (hm : 0 < m)
    (nk : s.node k = ⟨false, some y, false⟩) (nm : s.node m = ⟨true, none, false⟩) (n0 : s.node 0 = ⟨false, some 1, false⟩) :
    ∃ node, run s (giveUp x) = some
      { s with
        locked := false, list := [k, 0], node := node, client := upd s.client x ⟨.idle, false, none, 0⟩,
        log := .woke k y :: .freed m :: .released x :: .dropFut x :: s.log } ∧
      node k = ⟨true, none, false⟩ ∧ node 0 = ⟨false, some 1, false⟩ := by
  have e1 : k ≠ m := by omega
  have e2 : k ≠ 0 := by omega
  have e3 : m ≠ 0 := by omega
  refine ⟨upd (upd s.node m ⟨true, none, true⟩) k ⟨true, none, false⟩, ?_, by simp [upd_same], ?_⟩
  · simp [giveUp, List.replicate, run, step, call, pstep, swapTaken, State.goto, State.setC, State.emit, State.setN, hx, upd_same, upd_upd, hl, nk, nm, n0,
      upd_ne _ _ e1, upd_ne _ _ e1.symm, upd_ne _ _ e2, upd_ne _ _ e2.symm, upd_ne _ _ e3, upd_ne _ _ e3.symm, List.erase_cons, e1, e1.symm, e2, e2.symm, e3, e3.symm]
  · rw [upd_ne _ _ e2.symm, upd_ne _ _ e3.symm, n0]

theorem getIt_run {s : State} {y k : Nat} (hy : s.client y = ⟨.idle, true, some k, 0⟩) (hl : s.locked = false) (nk : s.node k = ⟨true, none, false⟩) :
    run s (getIt y) = some
      { s with locked := true, client := upd s.client y ⟨.idle, true, none, 1⟩, log := .acquired y :: .callPoll y y :: s.log } := by
  simp [getIt, run, step, call, pstep, swapTaken, acquirePoll, State.goto, State.setC, State.emit, hy, hl, nk, upd_same, upd_upd]

/-- The lock goes from `x` to `y`. -/
def cycle (x y : Nat) : List Act := ask y ++ giveUp x ++ getIt y

theorem seq_phase {p : Nat} : ∀ {acts : List Act} {s : State}, (∀ q, q ≠ p → (s.client q).pc = .idle) → (∀ a ∈ acts, a.who = p) → Always Sequential s acts
  | [], _, _, _ => trivial
  | a :: as, s, h, ha => by
    have hw := ha a (by simp)
    refine ⟨?_, fun t ht => seq_phase (p := p) ?_ (fun b hb => ha b (by simp [hb]))⟩
    · cases a <;> cases hw <;> exact h
    · intro q hq
      cases a with
      | call r op => cases hw; simp only [step, Option.some.injEq] at ht; subst ht; rw [call_other (p := r) hq]; exact h q hq
      | step r => cases hw; rw [pstep_other (p := r) ht hq]; exact h q hq

theorem cycle_run {s : State} {x y m : Nat} (h : Turn s x y m) (hq : Quiet s) :
    Always Sequential s (cycle x y) ∧ ∃ s' L, run s (cycle x y) = some s' ∧ Turn s' y x s.next ∧ Quiet s' ∧ s'.log = L ++ s.log ∧
      wakes L = [(s.next, y)] ∧ Event.acquired y ∈ L := by
  obtain ⟨⟨hxy, hx1, hy1⟩, h1, h2, h3, h4, h5, h6, h7, h8⟩ := id h
  have r1 := ask_run h
  obtain ⟨node, r2, hk, h0⟩ := giveUp_run (s := { s with
      list := s.next :: s.list, node := upd s.node s.next ⟨false, some y, false⟩, next := s.next + 1,
      client := upd s.client y ⟨.idle, true, some s.next, 0⟩,
      log := .pending y :: .store s.next y :: .callPoll y y :: .newFut y :: s.log }) (x := x) (y := y) (m := m) (k := s.next)
    (by simp only; rw [upd_ne _ _ hxy, h6]) (by simp only [h2]) h3.2 h3.1 (by simp only [upd_same])
    (by simp only; rw [upd_ne _ _ (by omega), h4]) (by simp only; rw [upd_ne _ _ (by omega), h5])
  have r3 := getIt_run (s := { s with
      locked := false, list := [s.next, 0], node := node, next := s.next + 1,
      client := upd (upd s.client y ⟨.idle, true, some s.next, 0⟩) x ⟨.idle, false, none, 0⟩,
      log := .woke s.next y :: .freed m :: .released x :: .dropFut x :: .pending y :: .store s.next y :: .callPoll y y :: .newFut y :: s.log })
    (y := y) (k := s.next) (by simp only; rw [upd_ne _ _ hxy.symm, upd_same]) rfl hk
  have q1 : ∀ q, ((upd s.client y ⟨.idle, true, some s.next, 0⟩ q : Client)).pc = .idle := by
    intro q; rw [upd_apply]; split
    · rfl
    · exact hq q
  have q2 : ∀ q, ((upd (upd s.client y ⟨.idle, true, some s.next, 0⟩) x ⟨.idle, false, none, 0⟩ q : Client)).pc = .idle := by
    intro q; rw [upd_apply]; split
    · rfl
    · exact q1 q
  refine ⟨?_, ?_⟩
  · refine Always.append (Always.append (seq_phase (p := y) (fun q _ => hq q) (by simp [ask, Act.who])) ?_) ?_
    · intro t ht
      rw [r1] at ht
      cases ht
      exact seq_phase (p := x) (fun q _ => q1 q) (by simp [giveUp, List.replicate, Act.who])
    · intro t ht
      rw [run_append r1, r2] at ht
      cases ht
      exact seq_phase (p := y) (fun q _ => q2 q) (by simp [getIt, Act.who])
  · refine ⟨_, [.acquired y, .callPoll y y, .woke s.next y, .freed m, .released x, .dropFut x, .pending y, .store s.next y, .callPoll y y, .newFut y],
      by rw [cycle, run_append ((run_append r1).trans r2)]; exact r3, ?_, ?_, rfl, rfl, by simp⟩
    · refine ⟨⟨hxy.symm, hy1, hx1⟩, rfl, rfl, ⟨by omega, Nat.lt_succ_self _⟩, hk, h0, ?_, ?_, ?_, ?_⟩
      · simp only [upd_same]
      · simp only; rw [upd_ne _ _ hxy, upd_same]
      · simp [waits, hx1, hy1, h8.1]
      · simp [wokenSince, hy1, h8.2]
    · intro q
      simp only
      rw [upd_apply]; split
      · rfl
      · exact q2 q

/-- The lock goes to and fro `k` times. -/
def cycles (x y : Nat) : Nat → List Act
  | 0 => []
  | k + 1 => cycle x y ++ cycles y x k

theorem cycles_run (k : Nat) : ∀ {s : State} {x y m : Nat}, Turn s x y m → Quiet s →
    Always Sequential s (cycles x y k) ∧ ∃ s' L, run s (cycles x y k) = some s' ∧ Quiet s' ∧ s'.log = L ++ s.log ∧ (wakes L).length = k ∧
      (s'.node 0).taken = false ∧ waits 1 s'.log = true ∧ wokenSince 1 1 s'.log = false := by
  induction k with
  | zero => intro s x y m h hq; exact ⟨trivial, s, [], rfl, hq, rfl, rfl, by rw [h.node0], h.waits⟩
  | succ k ih =>
    intro s x y m h hq
    obtain ⟨a1, s1, L1, r1, t1, q1, e1, w1, _⟩ := cycle_run h hq
    obtain ⟨a2, s2, L2, r2, q2, e2, w2, n2, ws2⟩ := ih t1 q1
    refine ⟨Always.append a1 (fun t ht => ?_), s2, L2 ++ L1, ?_, q2, by rw [e2, e1, List.append_assoc], ?_, n2, ws2⟩
    · rw [r1] at ht; cases ht; exact a2
    · rw [cycles, run_append r1]; exact r2
    · rw [wakes_append, List.length_append, w1, w2]; rfl

theorem cycles_who (k : Nat) : ∀ {x y : Nat}, x < 3 → y < 3 → (∀ a ∈ cycles x y k, a.who < 3) ∧ OwnWaker (cycles x y k) := by
  induction k with
  | zero => intro x y _ _; simp [cycles, OwnWaker]
  | succ k ih =>
    intro x y hx hy
    obtain ⟨h1, h2⟩ := ih hy hx
    constructor
    · intro a ha
      rw [cycles, List.mem_append] at ha
      rcases ha with ha | ha
      · simp only [cycle, ask, giveUp, getIt, List.replicate, List.mem_append, List.mem_cons, List.not_mem_nil, or_false, or_self] at ha
        rcases ha with ((ha | ha) | ha) <;> grind [Act.who]
      · exact h1 a ha
    · intro p w ha
      rw [cycles, List.mem_append] at ha
      rcases ha with ha | ha
      · simp only [cycle, ask, giveUp, getIt, List.replicate, List.mem_append, List.mem_cons, List.not_mem_nil, or_false, or_self] at ha
        grind
      · exact h2 p w ha

end Verif.Mutex
