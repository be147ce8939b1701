import Verif.Mutex.Log
/-! # Invariants of the mutex: release of nodes and wakers -/
namespace Verif.Mutex

/-- Releases of nodes; what becomes of the wakers. -/
structure InvM (s : State) : Prop where
  fl : ∀ n, n < s.next → ((s.node n).freed = true ↔ n ∉ s.list)
  fr : ∀ n, n ∈ freedNodes s.log ↔ n < s.next ∧ n ∉ s.list
  fd : (freedNodes s.log).Nodup
  sd : ((stored s.log).map Prod.fst).Nodup
  sl : ∀ n, (∃ w, (n, w) ∈ stored s.log) ↔ n < s.next
  cd : ((consumed s.log).map Prod.fst).Nodup
  cn : ∀ n w, (n, w) ∈ consumed s.log → (n, w) ∈ stored s.log ∧ (s.node n).waker = none ∧
    ∀ q v, (s.client q).pc.hand ≠ some (n, v)
  nw : ∀ n w, n < s.next → (s.node n).waker = some w → (n, w) ∈ stored s.log
  hn : ∀ q n w, (s.client q).pc.hand = some (n, w) → (n, w) ∈ stored s.log ∧ (s.node n).waker = none
  hu : ∀ q r n v w, (s.client q).pc.hand = some (n, v) → (s.client r).pc.hand = some (n, w) → q = r
  al : ∀ n, n < s.next → (s.node n).waker = none → (∃ w, (n, w) ∈ consumed s.log) ∨ ∃ q w, (s.client q).pc.hand = some (n, w)

theorem init_invM : InvM init := by
  constructor <;> simp [init, freedNodes, stored, consumed, Pc.hand]

theorem invM_same {s s' : State} (m : InvM s) (p : Nat) {c : Client} (hc : s'.client = upd s.client p c)
    (hh : c.pc.hand = (s.client p).pc.hand) (hl : s'.list = s.list) (hx : s'.next = s.next)
    (hf : ∀ n, (s'.node n).freed = (s.node n).freed) (hw : ∀ n, (s'.node n).waker = (s.node n).waker)
    (l1 : freedNodes s'.log = freedNodes s.log) (l2 : stored s'.log = stored s.log) (l3 : consumed s'.log = consumed s.log) :
    InvM s' := by
  have hh' : ∀ q, (s'.client q).pc.hand = (s.client q).pc.hand := by
    intro q; rw [hc, upd_apply]; split
    · subst q; exact hh
    · rfl
  obtain ⟨m1, m2, m3, m4, m5, m6, m7, m8, m9, m10, m11⟩ := m
  constructor <;> simp only [hh', hl, hx, hf, hw, l1, l2, l3] <;> assumption

theorem call_invM {s : State} (m : InvM s) (p : Nat) (op : Op) : InvM (call s p op) := by
  unfold call
  simp only
  split
  · exact m
  · rename_i hi
    simp only [Classical.not_not] at hi
    cases op <;> simp only <;> (repeat' split) <;>
      first
      | exact m
      | (refine invM_same m p rfl ?_ rfl rfl (fun _ => rfl) (fun _ => rfl) rfl rfl rfl
         simp [hi, Pc.hand, State.goto, State.setC])

/-- A waker is consumed. -/
theorem invM_drop {s s' : State} (m : InvM s) (p : Nat) {c : Client} {n : Nat} {w : Waker} (hc : s'.client = upd s.client p c)
    (hh : c.pc.hand = (s.client p).pc.hand) (hl : s'.list = s.list) (hx : s'.next = s.next) (hlt : n < s.next)
    (hnw : (s.node n).waker = some w) (hN : s'.node = upd s.node n { s.node n with waker := none })
    (hlog : s'.log = .dropWaker n w :: s.log) : InvM s' := by
  have hh' : ∀ q, (s'.client q).pc.hand = (s.client q).pc.hand := by
    intro q; rw [hc, upd_apply]; split
    · subst q; exact hh
    · rfl
  obtain ⟨m1, m2, m3, m4, m5, m6, m7, m8, m9, m10, m11⟩ := m
  constructor <;> simp only [hh', hl, hx, hN, hlog, freedNodes, stored, consumed, upd_apply] <;> first | assumption | grind

/-- A waker is taken to be woken. -/
theorem invM_take {s s' : State} (m : InvM s) (p : Nat) {c : Client} {n : Nat} {w : Waker} (hc : s'.client = upd s.client p c)
    (hh : c.pc.hand = some (n, w)) (hp : (s.client p).pc.hand = none) (hl : s'.list = s.list) (hx : s'.next = s.next) (hlt : n < s.next)
    (hnw : (s.node n).waker = some w) (hN : s'.node = upd s.node n { s.node n with waker := none })
    (hlog : s'.log = s.log) : InvM s' := by
  have hh' : ∀ q, (s'.client q).pc.hand = if q = p then some (n, w) else (s.client q).pc.hand := by
    intro q; rw [hc, upd_apply]; split
    · exact hh
    · rfl
  obtain ⟨m1, m2, m3, m4, m5, m6, m7, m8, m9, m10, m11⟩ := m
  constructor <;> simp only [hh', hl, hx, hN, hlog, upd_apply] <;> first | assumption | grind

/-- A waker is woken. -/
theorem invM_wake {s s' : State} (m : InvM s) (p : Nat) {c : Client} {n : Nat} {w : Waker} (hc : s'.client = upd s.client p c)
    (hh : c.pc.hand = none) (hp : (s.client p).pc.hand = some (n, w)) (hl : s'.list = s.list) (hx : s'.next = s.next)
    (hN : s'.node = s.node) (hlog : s'.log = .woke n w :: s.log) : InvM s' := by
  have hh' : ∀ q, (s'.client q).pc.hand = if q = p then none else (s.client q).pc.hand := by
    intro q; rw [hc, upd_apply]; split
    · exact hh
    · rfl
  obtain ⟨m1, m2, m3, m4, m5, m6, m7, m8, m9, m10, m11⟩ := m
  constructor <;> simp only [hh', hl, hx, hN, hlog, freedNodes, stored, consumed] <;> first | assumption | grind

/-- A node is created. -/
theorem invM_push {s s' : State} (i : InvN s) (m : InvM s) (p : Nat) {c : Client} {w : Waker} (hc : s'.client = upd s.client p c)
    (hh : c.pc.hand = (s.client p).pc.hand) (hl : s'.list = s.next :: s.list) (hx : s'.next = s.next + 1)
    (hN : s'.node = upd s.node s.next ⟨false, some w, false⟩) (hlog : s'.log = .store s.next w :: s.log) : InvM s' := by
  have hh' : ∀ q, (s'.client q).pc.hand = (s.client q).pc.hand := by
    intro q; rw [hc, upd_apply]; split
    · subst q; exact hh
    · rfl
  have hlive := i.live
  obtain ⟨m1, m2, m3, m4, m5, m6, m7, m8, m9, m10, m11⟩ := m
  have hst : ∀ n w, (n, w) ∈ stored s.log → n < s.next := fun n w h => (m5 n).1 ⟨w, h⟩
  have hst' : ∀ n, (∃ v, (n, v) ∈ (s.next, w) :: stored s.log) ↔ n < s.next + 1 := by
    intro n
    constructor
    · rintro ⟨v, h⟩; grind
    · intro h
      by_cases e : n = s.next
      · exact ⟨w, by simp [e]⟩
      · obtain ⟨v, hv⟩ := (m5 n).2 (by omega)
        exact ⟨v, by simp [hv]⟩
  clear i
  constructor <;> simp only [hh', hl, hx, hN, hlog, freedNodes, stored, consumed, upd_apply] <;> first | assumption | grind

/-- A node is released. -/
theorem invM_cut {s s' : State} (i : InvN s) (m : InvM s) (p : Nat) {c : Client} {n : Nat} (hc : s'.client = upd s.client p c)
    (hh : c.pc.hand = (s.client p).pc.hand) (hl : s'.list = s.list.erase n) (hx : s'.next = s.next) (hm : n ∈ s.list)
    (hN : s'.node = upd s.node n { s.node n with freed := true }) (hlog : s'.log = .freed n :: s.log) : InvM s' := by
  have hh' : ∀ q, (s'.client q).pc.hand = (s.client q).pc.hand := by
    intro q; rw [hc, upd_apply]; split
    · subst q; exact hh
    · rfl
  have hlive := i.live
  have he : ∀ a, a ∈ s.list.erase n ↔ a ≠ n ∧ a ∈ s.list := fun a => i.nodup.mem_erase_iff
  obtain ⟨m1, m2, m3, m4, m5, m6, m7, m8, m9, m10, m11⟩ := m
  clear i
  constructor <;> simp only [hh', hl, hx, hN, hlog, freedNodes, stored, consumed, upd_apply, he] <;> first | assumption | grind

set_option maxHeartbeats 1000000 in
theorem pstep_invM {s s' : State} (i : InvN s) (m : InvM s) {p : Nat} (hs : pstep s p = some s') : InvM s' := by
  obtain ⟨c1, c2, c3, c4, c5, c6, c7, c8, c9, c10, c11⟩ := i.cl p
  have hlv := i.live
  clear c1 c2 c3 c4 c5 c6 c9 c11
  unfold pstep at hs
  simp only at hs
  cases hpc : (s.client p).pc <;> simp only [hpc] at hs <;> simp only [hpc, Pc.rest, Pc.read] at c7 c8 c10 <;>
    step_cases <;>
    simp only [Option.some.injEq, reduceCtorEq] at hs <;> (try subst hs) <;>
      first
      | exact m
      | (refine invM_same m p rfl ?_ rfl rfl ?_ ?_ rfl rfl rfl
         · simp [hpc, Pc.hand]
         · intro n; first | rfl | (simp only [upd_apply]; split <;> simp_all)
         · intro n; first | rfl | (simp only [upd_apply]; split <;> simp_all))
      | (refine invM_drop m p rfl ?_ rfl rfl (c7 _ rfl).1 ?_ rfl rfl
         · simp [hpc, Pc.hand]
         · assumption)
      | (refine invM_take m p rfl rfl ?_ rfl rfl (c7 _ rfl).1 ?_ rfl rfl
         · simp [hpc, Pc.hand]
         · assumption)
      | (refine invM_wake m p rfl rfl ?_ rfl rfl rfl rfl
         simp [hpc, Pc.hand])
      | (refine invM_push i m p rfl ?_ rfl rfl rfl rfl
         simp [hpc, Pc.hand])
      | (refine invM_cut i m p rfl ?_ rfl rfl (suffix_mem c8).1 rfl rfl
         simp [hpc, Pc.hand])

/-- No future refers to a node that was released. -/
def InvP (s : State) : Prop := ∀ q n, Refers (s.client q) n → (s.node n).freed = false

theorem init_invP : InvP init := by intro q n h; simp [init, Refers] at h

theorem call_invP {s : State} (m : InvP s) (p : Nat) (op : Op) : InvP (call s p op) := by
  have mp := m p
  unfold call
  simp only
  split
  · exact m
  · rename_i hi
    simp only [Classical.not_not] at hi
    cases op <;> simp only <;> (repeat' split) <;>
      first
      | exact m
      | (intro q n
         have mq := m q n
         simp only [State.goto, State.setC, State.emit, upd_apply]
         split <;> grind [Refers])

set_option maxHeartbeats 1000000 in
theorem pstep_invP {s s' : State} (m : InvP s) {p : Nat} (hp : Prompt s (.step p)) (hs : pstep s p = some s') : InvP s' := by
  have mp := m p
  unfold pstep at hs
  simp only at hs
  cases hpc : (s.client p).pc <;> simp only [hpc] at hs <;> simp only [Prompt, hpc] at hp <;>
    step_cases <;>
    simp only [Option.some.injEq, reduceCtorEq] at hs <;> (try subst hs) <;>
      first
      | exact m
      | (intro q n
         have mq := m q n
         simp only [upd_apply]
         by_cases e : q = p <;> grind [Refers])

/-- A call that touches no released node is defined. -/
theorem pstep_some {s : State} (i : InvN s) (m : InvP s) (p : Nat) : ∃ s', pstep s p = some s' := by
  obtain ⟨c1, c2, c3, c4, c5, c6, c7, c8, c9, c10, c11⟩ := i.cl p
  have hlv := i.live
  have mp := m p
  clear m i c1 c2 c5 c6 c9 c11
  unfold pstep swapTaken dropWaker
  simp only
  cases hpc : (s.client p).pc <;> simp only [hpc, Pc.rest, Pc.read] at c3 c4 c7 c8 c10 <;> simp only [Refers, hpc] at mp <;>
    simp only <;> (repeat' split) <;> first | exact ⟨_, rfl⟩ | (have := @suffix_mem; grind)

/-- A node that was taken and not read is about to be read. -/
def InvT (s : State) : Prop :=
  ∀ n w, n < s.next → (s.node n).taken = true → (s.node n).waker = some w → ∃ q, (s.client q).pc.read = some n

theorem init_invT : InvT init := by intro n w h; simp [init] at h

theorem call_invT {s : State} (m : InvT s) (p : Nat) (op : Op) : InvT (call s p op) := by
  have key : ∀ c : Client, (s.client p).pc = .idle → InvT { s with client := upd s.client p c } := by
    intro c hi n w h1 h2 h3
    obtain ⟨q, hq⟩ := m n w h1 h2 h3
    refine ⟨q, ?_⟩
    have : q ≠ p := by intro e; subst e; simp [hi, Pc.read] at hq
    simp only [upd_apply, this, ↓reduceIte]; exact hq
  unfold call
  simp only
  split
  · exact m
  · rename_i hi
    simp only [Classical.not_not] at hi
    cases op <;> simp only <;> (repeat' split) <;> first | exact m | exact key _ hi

theorem invT_mono {s s' : State} (m : InvT s) (p : Nat) {c : Client} (hc : s'.client = upd s.client p c)
    (hn : ∀ n w, n < s'.next → (s'.node n).taken = true → (s'.node n).waker = some w →
      c.pc.read = some n ∨ (n < s.next ∧ (s.node n).taken = true ∧ (s.node n).waker = some w ∧ (s.client p).pc.read ≠ some n)) :
    InvT s' := by
  intro n w h1 h2 h3
  rcases hn n w h1 h2 h3 with h | ⟨a, b, d, e⟩
  · exact ⟨p, by simp [hc, upd_apply, h]⟩
  · obtain ⟨q, hq⟩ := m n w a b d
    refine ⟨q, ?_⟩
    have : q ≠ p := by intro e'; subst e'; exact e hq
    simp only [hc, upd_apply, this, ↓reduceIte]; exact hq

theorem pstep_invT {s s' : State} (m : InvT s) {p : Nat} (hs : pstep s p = some s') : InvT s' := by
  unfold pstep at hs
  simp only at hs
  cases hpc : (s.client p).pc <;> simp only [hpc] at hs <;>
    step_cases <;>
    simp only [Option.some.injEq, reduceCtorEq] at hs <;> (try subst hs) <;>
      first
      | exact m
      | (refine invT_mono m p rfl ?_
         intro n w
         simp only [upd_apply, hpc, Pc.read]
         grind)

/-! ## The drop of the mutex -/

theorem filterMap_congr' {α β : Type} {f g : α → Option β} {l : List α} (h : ∀ x ∈ l, f x = g x) :
    l.filterMap f = l.filterMap g := by
  induction l with
  | nil => rfl
  | cons a l ih =>
    simp only [List.filterMap_cons, h a (by simp), ih fun x hx => h x (by simp [hx])]

theorem dropNodes_spec (l : List Nat) : ∀ (s : State), l.Nodup → (∀ n ∈ l, (s.node n).freed = false) →
    (∀ n ∈ l, (s.node n).taken = false → ∃ w, (s.node n).waker = some w) →
    (∀ n ∈ l, (s.node n).taken = true → (s.node n).waker = none) →
    ∃ s', dropNodes s l = some s' ∧ freedNodes s'.log = l.reverse ++ freedNodes s.log ∧ stored s'.log = stored s.log ∧
      consumed s'.log = (l.filterMap fun n => (s.node n).waker.map fun w => (n, w)).reverse ++ consumed s.log := by
  induction l with
  | nil => intro s _ _ _ _; exact ⟨s, rfl, by simp, rfl, by simp⟩
  | cons n rest ih =>
    intro s h1 h2 h3 h4
    have hn : ∀ m ∈ rest, m ≠ n := by intro m hm e; subst e; exact (List.nodup_cons.1 h1).1 hm
    have h1' := (List.nodup_cons.1 h1).2
    have f0 := h2 n (by simp)
    simp only [dropNodes, f0, Bool.false_eq_true, ↓reduceIte]
    cases ht : (s.node n).taken
    · obtain ⟨w, hw⟩ := h3 n (by simp) ht
      simp only [hw, Bool.false_eq_true, ↓reduceIte]
      obtain ⟨s', e1, e2, e3, e4⟩ := ih (((s.setN n ⟨(s.node n).taken, none, true⟩).emit (.dropWaker n w)).emit (.freed n)) h1'
        (by intro m hm; simp only [State.setN, State.emit, upd_apply, hn m hm, ↓reduceIte]; exact h2 m (by simp [hm]))
        (by intro m hm; simp only [State.setN, State.emit, upd_apply, hn m hm, ↓reduceIte]; exact h3 m (by simp [hm]))
        (by intro m hm; simp only [State.setN, State.emit, upd_apply, hn m hm, ↓reduceIte]; exact h4 m (by simp [hm]))
      rw [ht] at e1
      refine ⟨s', e1, ?_, e3, ?_⟩
      · rw [e2]; simp [State.emit, State.setN, freedNodes]
      · rw [e4]
        have : (rest.filterMap fun m => ((upd s.node n ⟨(s.node n).taken, none, true⟩) m).waker.map fun v => (m, v)) =
            rest.filterMap fun m => (s.node m).waker.map fun v => (m, v) := by
          refine filterMap_congr' fun m hm => ?_
          simp [upd_apply, hn m hm]
        simp only [State.emit, State.setN, consumed, this, List.filterMap_cons, hw, Option.map_some, List.reverse_cons,
          List.append_assoc, List.cons_append, List.nil_append]
    · simp only [↓reduceIte]
      obtain ⟨s', e1, e2, e3, e4⟩ := ih ((s.setN n ⟨(s.node n).taken, (s.node n).waker, true⟩).emit (.freed n)) h1'
        (by intro m hm; simp only [State.setN, State.emit, upd_apply, hn m hm, ↓reduceIte]; exact h2 m (by simp [hm]))
        (by intro m hm; simp only [State.setN, State.emit, upd_apply, hn m hm, ↓reduceIte]; exact h3 m (by simp [hm]))
        (by intro m hm; simp only [State.setN, State.emit, upd_apply, hn m hm, ↓reduceIte]; exact h4 m (by simp [hm]))
      rw [ht] at e1
      refine ⟨s', e1, ?_, e3, ?_⟩
      · rw [e2]; simp [State.emit, State.setN, freedNodes]
      · rw [e4]
        have : (rest.filterMap fun m => ((upd s.node n ⟨(s.node n).taken, (s.node n).waker, true⟩) m).waker.map fun v => (m, v)) =
            rest.filterMap fun m => (s.node m).waker.map fun v => (m, v) := by
          refine filterMap_congr' fun m hm => ?_
          simp [upd_apply, hn m hm]
        simp only [State.emit, State.setN, consumed, this, List.filterMap_cons]
        simp only [h4 n (by simp) ht, Option.map_none]

end Verif.Mutex
