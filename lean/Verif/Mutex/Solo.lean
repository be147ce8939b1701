import Verif.Mutex.Mem
/-! # One client running alone -/
namespace Verif.Mutex

/-- `k` steps of client `p`. -/
def solo (p : Nat) : Nat → State → Option State
  | 0, s => some s
  | k + 1, s =>
    match pstep s p with
    | none => none
    | some s => solo p k s

theorem solo_run (p : Nat) (k : Nat) : ∀ s, run s (List.replicate k (.step p)) = solo p k s := by
  induction k with
  | zero => intro s; rfl
  | succ k ih =>
    intro s
    rw [List.replicate_succ]
    simp only [run, solo, step]
    cases pstep s p
    · rfl
    · exact ih _

theorem solo_add (p : Nat) (k l : Nat) : ∀ {s s' s'' : State}, solo p k s = some s' → solo p l s' = some s'' → solo p (k + l) s = some s'' := by
  induction k with
  | zero => intro s s' s'' h1 h2; simp only [solo, Option.some.injEq] at h1; subst h1; rw [Nat.zero_add]; exact h2
  | succ k ih =>
    intro s s' s'' h1 h2
    rw [Nat.succ_add]
    simp only [solo] at h1 ⊢
    cases h : pstep s p with
    | none => rw [h] at h1; simp at h1
    | some t => rw [h] at h1; exact ih h1 h2

theorem solo_one {p : Nat} {s s' : State} (h : pstep s p = some s') : solo p 1 s = some s' := by
  simp only [solo, h]

/-- What the solo run of an `unlock` keeps. -/
structure Kept (p : Nat) (s s' : State) : Prop where
  oth : ∀ q, q ≠ p → s'.client q = s.client q
  fut : (s'.client p).fut = (s.client p).fut ∧ (s'.client p).waiter = (s.client p).waiter ∧ (s'.client p).guards = (s.client p).guards
  lck : s'.locked = s.locked
  tw : ∀ n, (s'.node n).taken = (s.node n).taken ∧ (s'.node n).waker = (s.node n).waker
  flt : s'.list.filter (fun n => !(s.node n).taken) = s.list.filter (fun n => !(s.node n).taken)
  hld : holders s'.log = holders s.log
  wts : ∀ q, waits q s'.log = waits q s.log
  wkd : ∀ q w, wokenSince q w s'.log = wokenSince q w s.log
  fre : ∀ n ∈ s'.list, (s'.node n).freed = false

theorem filter_erase_taken {f : Nat → Bool} {l : List Nat} {n : Nat} (h : f n = false) : (l.erase n).filter f = l.filter f := by
  induction l with
  | nil => rfl
  | cons a l ih =>
    rw [List.erase_cons]
    by_cases e : a = n
    · subst e; simp [h]
    · simp only [beq_iff_eq, e, ↓reduceIte, List.filter_cons, ih]

theorem drain_solo (p : Nat) (l : List Nat) : ∀ (s : State), (s.client p).pc = .ulDrain l → (∀ n ∈ s.list, (s.node n).freed = false) →
    s.list.Nodup → l <:+ s.list → ∃ k s', solo p k s = some s' ∧ (s'.client p).pc = .ulHead ∧ Kept p s s' := by
  induction l with
  | nil =>
    intro s hp hf hd hs
    refine ⟨1, s.goto p .ulHead, solo_one (by simp [pstep, hp]), by simp [State.goto, State.setC, upd_apply], ?_⟩
    constructor <;> simp +contextual [State.goto, State.setC, upd_apply]
    exact hf
  | cons n rest ih =>
    intro s hp hf hd hs
    have hm := suffix_mem hs
    have f0 := hf n hm.1
    cases ht : (s.node n).taken
    · have h1 : pstep s p = some (s.goto p (.ulDrain rest)) := by simp [pstep, hp, f0, ht]
      obtain ⟨k, s', e1, e2, e3⟩ := ih (s.goto p (.ulDrain rest)) (by simp [State.goto, State.setC, upd_apply]) hf hd hm.2
      refine ⟨1 + k, s', solo_add p 1 k (solo_one h1) e1, e2, ?_⟩
      obtain ⟨a1, a2, a3, a4, a5, a6, a7, a8, a9⟩ := e3
      constructor
      · intro q hq; rw [a1 q hq]; simp [State.goto, State.setC, upd_apply, hq]
      · simpa [State.goto, State.setC, upd_apply] using a2
      · exact a3
      · exact a4
      · exact a5
      · exact a6
      · exact a7
      · exact a8
      · exact a9
    · have h1 : pstep s p = some (s.goto p (.ulCut n rest)) := by simp [pstep, hp, f0, ht]
      have hne : ∀ m ∈ s.list.erase n, m ≠ n ∧ m ∈ s.list := fun m hm => (hd.mem_erase_iff).1 hm
      obtain ⟨s2, hs2⟩ : ∃ s2, s2 = ((({ s with list := s.list.erase n }.setN n { s.node n with freed := true }).goto p (.ulDrain rest)).emit (.freed n)) := ⟨_, rfl⟩
      have h2 : pstep (s.goto p (.ulCut n rest)) p = some s2 := by
        subst hs2
        simp only [pstep, State.goto, State.setC, upd_apply, ↓reduceIte, f0, Bool.false_eq_true, State.setN, State.emit, Option.some.injEq, State.mk.injEq,
          true_and, and_true]
        funext q; simp only [upd_apply]; split <;> rfl
      obtain ⟨k, s', e1, e2, e3⟩ := ih s2
        (by subst hs2; simp [State.goto, State.setC, upd_apply, State.emit])
        (by
          subst hs2
          intro m hm
          have := hne m hm
          simp only [State.goto, State.setC, State.emit, State.setN, upd_apply, this.1, ↓reduceIte]
          exact hf m this.2)
        (by subst hs2; exact hd.erase n)
        (by subst hs2; exact suffix_erase hs hd)
      refine ⟨1 + (1 + k), s', solo_add p 1 (1 + k) (solo_one h1) (solo_add p 1 k (solo_one h2) e1), e2, ?_⟩
      have htw : ∀ m, (s2.node m).taken = (s.node m).taken ∧ (s2.node m).waker = (s.node m).waker := by
        intro m; subst hs2; simp only [State.goto, State.setC, State.emit, State.setN, upd_apply]; split <;> simp [*]
      obtain ⟨a1, a2, a3, a4, a5, a6, a7, a8, a9⟩ := e3
      simp only [(htw _).1] at a5
      constructor
      · intro q hq; rw [a1 q hq]; subst hs2; simp [State.goto, State.setC, State.emit, State.setN, upd_apply, hq]
      · subst hs2; simpa [State.goto, State.setC, State.emit, State.setN, upd_apply] using a2
      · rw [a3]; subst hs2; rfl
      · intro m; rw [(a4 m).1, (a4 m).2, (htw m).1, (htw m).2]; exact ⟨rfl, rfl⟩
      · rw [a5]; subst hs2; exact filter_erase_taken (by simp [ht])
      · rw [a6]; subst hs2; rfl
      · intro q; rw [a7]; subst hs2; rfl
      · intro q w; rw [a8]; subst hs2; rfl
      · exact a9

/-- What happens when nobody is to be woken / when `m` is. -/
def Woke (s s' : State) : Option Nat → Prop
  | none => (∀ n, (s'.node n).taken = (s.node n).taken) ∧ s'.log = s.log
  | some m => (∀ n, (s'.node n).taken = (decide (n = m) || (s.node n).taken)) ∧
      ∃ w, (s.node m).waker = some w ∧ s'.log = .woke m w :: s.log

theorem scan_solo (p : Nat) (l : List Nat) : ∀ (s : State), (s.client p).pc = .ulScan l →
    (∀ n ∈ l, (s.node n).freed = false ∧ ((s.node n).taken = false → ∃ w, (s.node n).waker = some w)) →
    ∃ k s', solo p k s = some s' ∧ (s'.client p).pc = .idle ∧ s'.locked = false ∧ (∀ q, q ≠ p → s'.client q = s.client q) ∧
      ((s'.client p).fut = (s.client p).fut ∧ (s'.client p).waiter = (s.client p).waiter ∧ (s'.client p).guards = (s.client p).guards) ∧
      Woke s s' (l.filter fun n => !(s.node n).taken).head? := by
  induction l with
  | nil =>
    intro s hp _
    refine ⟨1 + 1, { s with locked := false }.goto p .idle, solo_add p 1 1 (s' := s.goto p (.ulStore none)) (solo_one ?_) (solo_one ?_), ?_, rfl, ?_, ?_, ?_, ?_⟩
    · simp [pstep, hp]
    · simp only [pstep, State.goto, State.setC, upd_apply, ↓reduceIte, Option.some.injEq, State.mk.injEq, true_and, and_true]
      funext q; simp only [upd_apply]; split <;> rfl
    · simp [State.goto, State.setC, upd_apply]
    · intro q hq; simp [State.goto, State.setC, upd_apply, hq]
    · simp [State.goto, State.setC, upd_apply]
    · intro n; rfl
    · rfl
  | cons n rest ih =>
    intro s hp hl
    obtain ⟨f0, hw⟩ := hl n (by simp)
    cases ht : (s.node n).taken
    · obtain ⟨w, hw⟩ := hw ht
      refine ⟨1 + (1 + (1 + 1)), ((({ s with locked := false }.setN n ⟨true, none, false⟩).goto p .idle).emit (.woke n w)),
        solo_add p _ _ (s' := (s.setN n ⟨true, some w, false⟩).goto p (.ulRead n)) (solo_one ?_)
          (solo_add p _ _ (s' := (s.setN n ⟨true, none, false⟩).goto p (.ulStore (some (n, w)))) (solo_one ?_)
            (solo_add p _ _ (s' := ({ s with locked := false }.setN n ⟨true, none, false⟩).goto p (.ulWake n w)) (solo_one ?_) (solo_one ?_))),
        ?_, rfl, ?_, ?_, ?_⟩
      · simp [pstep, hp, swapTaken, f0, ht, hw]
      · simp only [pstep, State.goto, State.setC, State.setN, upd_apply, ↓reduceIte, Bool.false_eq_true, Option.some.injEq, State.mk.injEq, true_and, and_true]
        refine ⟨?_, ?_⟩ <;> (funext q; simp only [upd_apply]; split <;> rfl)
      · simp only [pstep, State.goto, State.setC, State.setN, upd_apply, ↓reduceIte, Option.some.injEq, State.mk.injEq, true_and, and_true]
        funext q; simp only [upd_apply]; split <;> rfl
      · simp only [pstep, State.goto, State.setC, State.setN, State.emit, upd_apply, ↓reduceIte, Option.some.injEq, State.mk.injEq, true_and, and_true]
        funext q; simp only [upd_apply]; split <;> rfl
      · simp [State.goto, State.setC, State.emit, upd_apply]
      · intro q hq; simp [State.goto, State.setC, State.emit, State.setN, upd_apply, hq]
      · simp [State.goto, State.setC, State.emit, State.setN, upd_apply]
      · simp only [List.filter_cons, ht, Bool.not_false, ↓reduceIte, List.head?_cons, Woke]
        refine ⟨?_, w, hw, rfl⟩
        intro m
        simp only [State.goto, State.setC, State.emit, State.setN, upd_apply]
        split <;> simp_all
    · have h1 : pstep s p = some (s.goto p (.ulScan rest)) := by simp [pstep, hp, swapTaken, f0, ht]
      obtain ⟨k, s', e1, e2, e3, e4, e5, e6⟩ := ih (s.goto p (.ulScan rest)) (by simp [State.goto, State.setC, upd_apply])
        (fun m hm => hl m (by simp [hm]))
      refine ⟨1 + k, s', solo_add p 1 k (solo_one h1) e1, e2, e3, ?_, ?_, ?_⟩
      · intro q hq; rw [e4 q hq]; simp [State.goto, State.setC, upd_apply, hq]
      · simpa [State.goto, State.setC, upd_apply] using e5
      · simp only [List.filter_cons, ht, Bool.not_true, Bool.false_eq_true, ↓reduceIte]
        exact e6

end Verif.Mutex
