import Verif.Mutex.Solo
/-! # Runs of the mutex -/
namespace Verif.Mutex

/-! ## Invariants along a run -/

/-- The invariants that hold in every run. -/
structure Inv (s : State) : Prop where
  o : InvO s
  n : InvN s
  g : InvG s
  m : InvM s
  t : InvT s

theorem init_inv : Inv init := ⟨init_invO, init_invN, init_invG, init_invM, init_invT⟩

theorem step_inv {s s' : State} (i : Inv s) {a : Act} (h : step s a = some s') : Inv s' := by
  obtain ⟨o, n, g, m, t⟩ := i
  cases a with
  | call p op =>
    simp only [step, Option.some.injEq] at h
    subst h
    exact ⟨call_invO o p op, call_invN n p op, call_invG n g p op, call_invM m p op, call_invT t p op⟩
  | step p => exact ⟨pstep_invO o h, pstep_invN o n h, pstep_invG n g h, pstep_invM n m h, pstep_invT t h⟩

theorem run_inv {acts : List Act} : ∀ {s s' : State}, Inv s → run s acts = some s' → Inv s' := by
  induction acts with
  | nil => intro s s' i h; simp only [run, Option.some.injEq] at h; exact h ▸ i
  | cons a as ih =>
    intro s s' i h
    simp only [run] at h
    split at h
    · simp at h
    · rename_i t ht; exact ih (step_inv i ht) h

theorem run_append {acts acts' : List Act} : ∀ {s s' : State}, run s acts = some s' → run s (acts ++ acts') = run s' acts' := by
  induction acts with
  | nil => intro s s' h; simp only [run, Option.some.injEq] at h; subst h; rfl
  | cons a as ih =>
    intro s s' h
    simp only [run, List.cons_append] at h ⊢
    split at h
    · simp at h
    · exact ih h

theorem run_wake {acts : List Act} : ∀ {s s' : State}, Inv s → InvJ s → InvK s → OwnWaker acts → Always Timely s acts →
    run s acts = some s' → InvJ s' ∧ InvK s' := by
  induction acts with
  | nil => intro s s' _ j k _ _ h; simp only [run, Option.some.injEq] at h; exact h ▸ ⟨j, k⟩
  | cons a as ih =>
    intro s s' i j k hw ht h
    simp only [run] at h
    split at h
    · simp at h
    · rename_i t hst
      have ho : OwnWaker as := fun p w h => hw p w (by simp [h])
      refine ih (step_inv i hst) ?_ ?_ ho (ht.2 t hst) h
      · cases a with
        | call p op => simp only [step, Option.some.injEq] at hst; subst hst; exact call_invJ i.n j p op
        | step p => exact pstep_invJ i.o i.n j ht.1 hst
      · cases a with
        | call p op =>
          simp only [step, Option.some.injEq] at hst; subst hst
          exact call_invK i.n k p op (fun w e => hw p w (by simp [e]))
        | step p => exact pstep_invK i.o i.n k hst

theorem run_prompt {acts : List Act} : ∀ {s : State}, Inv s → InvP s → Always Prompt s acts →
    ∃ s', run s acts = some s' ∧ InvP s' := by
  induction acts with
  | nil => intro s _ m _; exact ⟨s, rfl, m⟩
  | cons a as ih =>
    intro s i m ht
    have : ∃ t, step s a = some t ∧ InvP t := by
      cases a with
      | call p op => exact ⟨_, rfl, call_invP m p op⟩
      | step p =>
        obtain ⟨t, h⟩ := pstep_some i.n m p
        exact ⟨t, h, pstep_invP m ht.1 h⟩
    obtain ⟨t, h, mt⟩ := this
    obtain ⟨s', h1, h2⟩ := ih (step_inv i h) mt (ht.2 t h)
    exact ⟨s', by simp only [run, h]; exact h1, h2⟩

theorem pstep_other {s s' : State} {p q : Nat} (h : pstep s p = some s') (hq : q ≠ p) : s'.client q = s.client q := by
  unfold pstep at h
  simp only at h
  cases hpc : (s.client p).pc <;> simp only [hpc] at h <;>
    ((try simp only [State.goto, State.setC, State.emit, State.setN, acquire, acquirePoll, swapTaken, dropWaker] at h); (repeat' split at h) <;>
      simp only [Option.some.injEq, reduceCtorEq] at h <;> (try subst h) <;> simp [upd_apply, hq])

theorem call_other {s : State} {p q : Nat} {op : Op} (hq : q ≠ p) : (call s p op).client q = s.client q := by
  unfold call
  simp only
  split
  · rfl
  · cases op <;> simp only <;> (repeat' split) <;> simp [State.goto, State.setC, State.emit, upd_apply, hq]

/-- The client of an element of a schedule. -/
def Act.who : Act → Nat
  | .call p _ => p
  | .step p => p

theorem run_other {q : Nat} {acts : List Act} : ∀ {s s' : State}, (∀ a ∈ acts, a.who ≠ q) → run s acts = some s' →
    s'.client q = s.client q := by
  induction acts with
  | nil => intro s s' _ h; simp only [run, Option.some.injEq] at h; rw [h]
  | cons a as ih =>
    intro s s' hn h
    simp only [run] at h
    split at h
    · simp at h
    · rename_i t ht
      rw [ih (fun b hb => hn b (by simp [hb])) h]
      have := hn a (by simp)
      cases a with
      | call p op => simp only [step, Option.some.injEq] at ht; subst ht; exact call_other (Ne.symm this)
      | step p => exact pstep_other ht (Ne.symm this)

/-- All clients are between calls if those below `k` are, and the others do nothing. -/
theorem quiet_of {acts : List Act} {s : State} (h : run init acts = some s) (k : Nat) (hk : ∀ a ∈ acts, a.who < k)
    (hq : ∀ p < k, (s.client p).pc = .idle) : Quiet s := by
  intro p
  by_cases e : p < k
  · exact hq p e
  · rw [run_other (fun a ha => by have := hk a ha; omega) h]; rfl

theorem length_le_one {l : List Nat} (h1 : ∀ p, l.count p ≤ 1) (h2 : ∀ p q, p ∈ l → q ∈ l → p = q) : l.length ≤ 1 := by
  match l with
  | [] => simp
  | [a] => simp
  | a :: b :: l =>
    have := h2 a b (by simp) (by simp)
    subst this
    have := h1 a
    simp at this

theorem waits_waiter {s : State} (i : Inv s) (hq : Quiet s) {p : Nat} : waits p s.log = true ↔ ∃ n, (s.client p).waiter = some n := by
  rw [i.g.wt p, hq p]
  simp [Pc.polling, Option.isSome_iff_exists]

theorem Always.imp {P Q : State → Act → Prop} (hpq : ∀ s a, P s a → Q s a) : ∀ {acts : List Act} {s : State},
    Always P s acts → Always Q s acts
  | [], _, _ => trivial
  | _ :: _, _, h => ⟨hpq _ _ h.1, fun t ht => Always.imp hpq (h.2 t ht)⟩


theorem run_own {acts : List Act} : ∀ {s s' : State}, Inv s → InvK s → OwnWaker acts → run s acts = some s' → InvK s' := by
  induction acts with
  | nil => intro s s' _ k _ h; simp only [run, Option.some.injEq] at h; exact h ▸ k
  | cons a as ih =>
    intro s s' i k hw h
    simp only [run] at h
    split at h
    · simp at h
    · rename_i t hst
      refine ih (step_inv i hst) ?_ (fun p w h => hw p w (by simp [h])) h
      cases a with
      | call p op =>
        simp only [step, Option.some.injEq] at hst; subst hst
        exact call_invK i.n k p op (fun w e => hw p w (by simp [e]))
      | step p => exact pstep_invK i.o i.n k hst

theorem Always.append {P : State → Act → Prop} : ∀ {acts acts' : List Act} {s : State}, Always P s acts →
    (∀ s', run s acts = some s' → Always P s' acts') → Always P s (acts ++ acts')
  | [], _, _, _, h => h _ rfl
  | a :: as, _, _, h1, h => ⟨h1.1, fun t ht => Always.append (h1.2 t ht) fun s' hs => h s' (by simp only [run, ht]; exact hs)⟩

/-- `Always`, decided for the clients below `k`. -/
def alwaysB (P : State → Act → Bool) (k : Nat) (s : State) : List Act → Bool
  | [] => true
  | a :: as => P s a && decide (a.who < k) &&
    match step s a with
    | none => true
    | some s => alwaysB P k s as

theorem alwaysB_sound {P : State → Act → Bool} {Q : State → Act → Prop} {k : Nat}
    (hPQ : ∀ s a, (∀ q, k ≤ q → (s.client q).pc = .idle) → a.who < k → P s a = true → Q s a) :
    ∀ (acts : List Act) (s : State), (∀ q, k ≤ q → (s.client q).pc = .idle) → alwaysB P k s acts = true → Always Q s acts := by
  intro acts
  induction acts with
  | nil => intro s _ _; trivial
  | cons a as ih =>
    intro s hi h
    simp only [alwaysB, Bool.and_eq_true, decide_eq_true_eq] at h
    refine ⟨hPQ s a hi h.1.2 h.1.1, ?_⟩
    intro t ht
    rw [ht] at h
    refine ih t ?_ h.2
    intro q hq
    have hne : q ≠ a.who := by omega
    cases a with
    | call p op => simp only [step, Option.some.injEq] at ht; subst ht; rw [call_other (p := p) hne]; exact hi q hq
    | step p => rw [pstep_other (p := p) ht hne]; exact hi q hq

/-- `Sequential`, decided for the clients below `k`. -/
def seqB (k : Nat) (s : State) (a : Act) : Bool :=
  (List.range k).all fun q => decide (q = a.who) || decide ((s.client q).pc = .idle)

theorem seqB_sound {k : Nat} {acts : List Act} (h : alwaysB (seqB k) k init acts = true) : Always Sequential init acts := by
  refine alwaysB_sound ?_ acts init (fun _ _ => rfl) h
  intro s a hi _ h
  have : ∀ q, q ≠ a.who → (s.client q).pc = .idle := by
    intro q hq
    by_cases e : q < k
    · have := List.all_eq_true.1 h q (List.mem_range.2 e)
      simpa [hq] using this
    · exact hi q (by omega)
  cases a <;> exact this

/-- `Timely`, decided for the clients below `k`. -/
def timelyB (k : Nat) (s : State) (a : Act) : Bool :=
  match a with
  | .step p => (decide ((s.client p).pc ≠ .p2) && decide ((s.client p).pc ≠ .dTry)) || (List.range k).all fun q => !(s.client q).pc.scanning
  | .call _ _ => true

theorem timelyB_sound {k : Nat} {acts : List Act} (h : alwaysB (timelyB k) k init acts = true) : Always Timely init acts := by
  refine alwaysB_sound ?_ acts init (fun _ _ => rfl) h
  intro s a hi _ h
  cases a with
  | call => trivial
  | step p =>
    intro hp q
    simp only [timelyB, Bool.or_eq_true, Bool.and_eq_true, decide_eq_true_eq] at h
    rcases h with h | h
    · rcases hp with hp | hp
      · exact absurd hp h.1
      · exact absurd hp h.2
    · by_cases e : q < k
      · have := List.all_eq_true.1 h q (List.mem_range.2 e)
        simpa using this
      · simp [hi q (by omega), Pc.scanning]

theorem nodup_rev {l : List Nat} (h : l.Nodup) : l.reverse.Nodup := by
  rw [List.Nodup, List.pairwise_reverse]
  exact List.Pairwise.imp Ne.symm h

/-- `OwnWaker`, decided. -/
def ownB (acts : List Act) : Bool :=
  acts.all fun a =>
    match a with
    | .call p (.poll w) => decide (w = p)
    | _ => true

theorem ownB_sound {acts : List Act} (h : ownB acts = true) : OwnWaker acts := by
  intro p w hm
  have := List.all_eq_true.1 h _ hm
  simpa using this

/-- The state after a schedule. -/
def ran (acts : List Act) : State := (run init acts).getD init

theorem run_ran {acts : List Act} (h : (run init acts).isSome = true) : run init acts = some (ran acts) := by
  unfold ran
  cases h' : run init acts
  · rw [h'] at h; simp at h
  · rfl

/-- `Prompt`, decided for the clients below `k`. -/
def promptB (k : Nat) (s : State) (a : Act) : Bool :=
  match a with
  | .step p =>
    match (s.client p).pc with
    | .ulCut n _ => (List.range k).all fun q => decide ((s.client q).waiter ≠ some n) && decide ((s.client q).pc.own ≠ some n)
    | _ => true
  | .call _ _ => true

theorem promptB_sound {acts : List Act} : ∀ {s : State} {k : Nat}, Inv s → (∀ q, k ≤ q → s.client q = ⟨.idle, false, none, 0⟩) →
    alwaysB (promptB k) k s acts = true → Always Prompt s acts := by
  induction acts with
  | nil => intro s k _ _ _; trivial
  | cons a as ih =>
    intro s k i hi h
    simp only [alwaysB, Bool.and_eq_true, decide_eq_true_eq] at h
    refine ⟨?_, ?_⟩
    · cases a with
      | call => trivial
      | step p =>
        intro n rest hp q hr
        have h1 := h.1.1
        simp only [promptB, hp] at h1
        rw [refers_iff] at hr
        by_cases e : q < k
        · have := List.all_eq_true.1 h1 q (List.mem_range.2 e)
          simp only [Bool.and_eq_true, decide_eq_true_eq] at this
          rcases hr with hr | hr
          · exact this.1 hr
          · exact this.2 hr
        · rw [hi q (by omega)] at hr; simp [Pc.own] at hr
    · intro t ht
      rw [ht] at h
      refine ih (step_inv i ht) ?_ h.2
      intro q hq
      have hne : q ≠ a.who := by omega
      cases a with
      | call p op => simp only [step, Option.some.injEq] at ht; subst ht; rw [call_other (p := p) hne]; exact hi q hq
      | step p => rw [pstep_other (p := p) ht hne]; exact hi q hq

/-! ## A drop that runs alone -/

/-- The drop of a future whose node was not taken. -/
theorem drop_solo_untaken {s : State} (i : Inv s) (hq : Quiet s) {p n : Nat} (hn : (s.client p).waiter = some n)
    (ht : (s.node n).taken = false) (hf : (s.node n).freed = false) :
    ∃ k s', run s (.call p .dropFut :: List.replicate k (.step p)) = some s' ∧ (s'.client p).pc = .idle := by
  have hfut : (s.client p).fut = true := by
    cases h : (s.client p).fut
    · rw [(i.n.cl p).fut h] at hn; simp at hn
    · rfl
  obtain ⟨_, ⟨w, hw⟩, _⟩ := i.n.unt n ((i.n.cl p).wlt n hn) ht
  have key : ∀ o : Option State, (∀ s', o = some s' → (s'.client p).pc = .idle) → o ≠ none → ∃ s', o = some s' ∧ (s'.client p).pc = .idle := by
    intro o h1 h2
    cases o with
    | none => exact absurd rfl h2
    | some s' => exact ⟨s', rfl, h1 s' rfl⟩
  refine ⟨2, key _ ?_ ?_⟩ <;>
  · simp only [run, step, List.replicate]
    simp only [call, hq p, ne_eq, not_true_eq_false, ↓reduceIte, hfut, hn]
    simp +contextual [pstep, State.setC, State.emit, upd_apply, swapTaken, ht, hf, State.setN, State.goto, dropWaker, hw]
    try (intro s' h; subst h; simp [upd_apply])

/-- The drop of a future whose node was taken, while the lock is free. -/
theorem drop_solo_taken {s : State} (i : Inv s) (hq : Quiet s) (hl : s.locked = false) {p n : Nat}
    (hn : (s.client p).waiter = some n) (ht : (s.node n).taken = true) (hf : (s.node n).freed = false) :
    ∃ k s', run s (.call p .dropFut :: List.replicate k (.step p)) = some s' ∧ Quiet s' ∧ s'.locked = false ∧
      (∀ q, q ≠ p → s'.client q = s.client q) ∧
      match (s.list.filter fun m => !(s.node m).taken).head? with
      | none => True
      | some m => ∃ w es, (s.node m).waker = some w ∧ s'.log = .woke m w :: es ∧ ∀ q, q ≠ p → waits q es = waits q s.log := by
  have hfut : (s.client p).fut = true := by
    cases h : (s.client p).fut
    · rw [(i.n.cl p).fut h] at hn; simp at hn
    · rfl
  have e0 : call s p .dropFut = (s.setC p ⟨.dTake n, false, none, (s.client p).guards⟩).emit (.dropFut p) := by
    simp only [call, hq p, ne_eq, not_true_eq_false, ↓reduceIte, hfut, hn]
  obtain ⟨s3, hs3⟩ : ∃ s3 : State, s3 = { s with locked := true, client := upd s.client p ⟨.ulDrain s.list, false, none, (s.client p).guards⟩, log := .released p :: .acquired p :: .dropFut p :: s.log } := ⟨_, rfl⟩
  have e1 : solo p (1 + (1 + 1)) (call s p .dropFut) = some s3 := by
    rw [e0]
    subst hs3
    simp only [solo, pstep, State.setC, State.emit, upd_apply, ↓reduceIte, swapTaken, ht, hf, Bool.false_eq_true, State.goto, hl,
      Option.some.injEq, State.mk.injEq, true_and, and_true]
    funext q; simp only [upd_apply]; split <;> rfl
  obtain ⟨k1, s4, f1, f2, f3⟩ := drain_solo p s.list s3 (by subst hs3; simp [upd_apply]) (by subst hs3; exact fun m hm => (i.n.live m hm).2)
    (by subst hs3; exact i.n.nodup) (by subst hs3; exact List.suffix_refl _)
  have hs3l : s3.list = s.list := by subst hs3; rfl
  have hs3n : s3.node = s.node := by subst hs3; rfl
  have h5 : pstep s4 p = some (s4.goto p (.ulScan s4.list)) := by simp [pstep, f2]
  have hsub : ∀ m ∈ s4.list, (s4.node m).taken = false → m ∈ s.list ∧ (s.node m).taken = false := by
    intro m hm h
    rw [(f3.tw m).1, hs3n] at h
    have : m ∈ s4.list.filter fun m => !(s3.node m).taken := List.mem_filter.2 ⟨hm, by simp [hs3n, h]⟩
    rw [f3.flt, hs3l] at this
    exact ⟨(List.mem_filter.1 this).1, h⟩
  obtain ⟨k2, s6, g1, g2, g3, g4, g5, g6⟩ := scan_solo p s4.list (s4.goto p (.ulScan s4.list)) (by simp [State.goto, State.setC, upd_apply])
    (by
      intro m hm
      refine ⟨f3.fre m hm, fun h => ?_⟩
      obtain ⟨a, b⟩ := hsub m hm h
      obtain ⟨_, ⟨w, hw⟩, _⟩ := i.n.unt m (i.n.live m a).1 b
      exact ⟨w, by show (s4.node m).waker = _; rw [(f3.tw m).2, hs3n]; exact hw⟩)
  have hoth : ∀ q, q ≠ p → s6.client q = s.client q := by
    intro q hne
    rw [g4 q hne]
    simp only [State.goto, State.setC, upd_apply, hne, ↓reduceIte]
    rw [f3.oth q hne]
    subst hs3; simp [upd_apply, hne]
  refine ⟨(1 + (1 + 1)) + (k1 + (1 + k2)), s6, ?_, ?_, g3, hoth, ?_⟩
  · simp only [run, step]
    rw [solo_run]
    exact solo_add p _ _ e1 (solo_add p _ _ f1 (solo_add p _ _ (solo_one h5) g1))
  · intro q
    by_cases e : q = p
    · subst e; exact g2
    · rw [hoth q e]; exact hq q
  · have hfl : (s4.list.filter fun m => !((s4.goto p (.ulScan s4.list)).node m).taken) = s.list.filter fun m => !(s.node m).taken := by
      have : (fun m => !((s4.goto p (.ulScan s4.list)).node m).taken) = fun m => !(s3.node m).taken := by
        funext m; show (!(s4.node m).taken) = _; rw [(f3.tw m).1]
      rw [this, f3.flt, hs3l, hs3n]
    rw [hfl] at g6
    split
    · trivial
    · rename_i m hm
      rw [hm] at g6
      obtain ⟨_, w, hw, hlog⟩ := g6
      refine ⟨w, s4.log, ?_, hlog, ?_⟩
      · rw [← hs3n, ← (f3.tw m).2]; exact hw
      · intro q hne
        rw [f3.wts q]; subst hs3; simp [waits, Ne.symm hne]

end Verif.Mutex
