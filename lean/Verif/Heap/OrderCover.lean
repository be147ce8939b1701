import Verif.Heap.OrderSteps
import Verif.Heap.ConcProps
/-! # Schedules of `ConcModel.lean` are schedules with memory orderings -/
namespace Verif.Heap.Conc.Order

open Verif.Heap.Conc
open Verif.Order

variable {address size count : Nat} {link : Nat → Nat} {may : Nat → Bool} {o : Ords} {r : Nat}

local notation "M" => machine address size count link may o

theorem set_word (s : HState) (l : Nat) : (M).setWord s l ((M).word s l) = s := by
  simp only [machine]
  by_cases h : l = 0
  · simp [h]
  · by_cases h1 : l = 1
    · simp [h1]
    · simp [h, h1]

theorem call_word (s : HState) (a : Op) : (M).word ((M).call s a) = (M).word s := by
  funext l
  cases a <;> simp only [machine, stepHw, call] <;> (repeat' split) <;> rfl

theorem step_word {t : Nat} {s s' : HState} {a : Acc} (ha : (M).acc t s = some a) (hs : (M).step t s = some s') (l : Nat)
    (hl : a.wr ≠ some l) : (M).word s' l = (M).word s l := by
  have key : ∀ {l' cur old rd d}, cas (s.flag t) l' cur old rd d = some a → s.flag t = true ∨ (a = .rmw l' d ∧ cur = old) := by
    intro l' cur old rd d h
    unfold cas at h
    split at h
    · left; assumption
    · split at h
      · rename_i e; exact .inr ⟨(Option.some.inj h).symm, e⟩
      · cases h
  by_cases ht : s.task t = .none
  · simp only [machine, ht, if_true, Option.some.injEq] at ha hs
    subst hs
    have w : ∀ {x : State} {ow}, x.free = s.base.free ∨ l ≠ 0 → x.uninit = s.base.uninit ∨ l ≠ 1 →
        (M).word { s with base := x, own := ow } l = (M).word s l := by
      intro x ow h1 h2
      simp only [machine]
      split
      · rename_i e; exact h1.resolve_right fun h => h e
      · split
        · rename_i e; exact h2.resolve_right fun h => h e
        · rfl
    refine w ?_ ?_
    all_goals
      cases hpc : s.base.pc t <;> simp only [hpc, accOf] at ha <;> simp only [stepHw, hpc]
      all_goals try (cases ha; done)
      all_goals first | (left; rfl) | skip
      all_goals first | (left; simp only [afAfter]; split <;> rfl) | (left; simp only [auAfter]; split <;> rfl) | skip
      all_goals
        rcases key ha with hfl | ⟨rfl, hcur⟩
        · left; simp only [hfl, Bool.true_eq_false, and_false, if_false]
          first | rfl | (simp only [afAfter]; split <;> rfl) | (simp only [auAfter]; split <;> rfl)
        · first
            | (right; rintro rfl; exact hl rfl)
            | (left; split <;> first | rfl | (simp only [afAfter]; split <;> rfl) | (simp only [auAfter]; split <;> rfl))
  · simp only [machine, ht, if_false, Option.some.injEq] at ha hs
    subst hs
    cases hw : s.task t <;> simp only [taskStep, machine]
    rename_i q v
    simp only [stepHw, call]
    by_cases h : q ∈ s.base.held <;> simp [h]

theorem frame : (M).Frame := ⟨call_word, set_word, step_word⟩

/-- One more step. -/
theorem go_on {p p' : PState HState Nat} {as : List (PAct Op)} {b : PAct Op} {q : PState HState Nat} (h : (M).prun q as = some p)
    (hs : (M).pstep p b = some p') : (M).prun q (as ++ [b]) = some p' := by
  induction as generalizing q with
  | nil =>
    simp only [Machine.prun, Option.some.injEq] at h
    subst h
    simp only [List.nil_append, Machine.prun, hs]
  | cons a as ih =>
    simp only [Machine.prun] at h
    simp only [List.cons_append, Machine.prun]
    split at h
    · cases h
    · exact ih h

/-- Reached by a schedule, and the contexts have seen all. -/
def At' (address size count : Nat) (link : Nat → Nat) (may : Nat → Bool) (o : Ords) (s : HState) : Prop :=
  ∃ as p, (machine address size count link may o).prun (machine address size count link may o).pinit as = some p ∧ p.s = s ∧
    Fresh (machine address size count link may o) p

theorem reach_call {s : HState} (h : At' address size count link may o s) (a : Op) : At' address size count link may o ((M).call s a) := by
  obtain ⟨as, p, h1, rfl, h3⟩ := h
  exact ⟨as ++ [.call a], _, go_on h1 rfl, rfl, fresh_call frame h3 a⟩

theorem reach_step {s s' : HState} (h : At' address size count link may o s) {t : Nat} {a : Acc} (ha : (M).acc t s = some a)
    (hs : (M).step t s = some s') : At' address size count link may o s' := by
  obtain ⟨as, p, h1, rfl, h3⟩ := h
  obtain ⟨n, p', k1, k2, -, k4⟩ := fresh_go frame h3 ha hs
  exact ⟨as ++ [.step t n], p', go_on h1 k1, k2, k4⟩

/-- A context does something outside of the pool. -/
theorem reach_work {s : HState} (h : At' address size count link may o s) {t : Nat} {w : Task} (hw : w ≠ .none) (hf : w.fits s.own t)
    (hpc : s.base.pc t = .idle) (ht : s.task t = .none) :
    At' address size count link may o (taskStep { s with task := fun u => if u = t then w else s.task u } t w) := by
  have h1 := reach_call h (.work t w)
  have e : (M).call s (.work t w) = { s with task := fun u => if u = t then w else s.task u } := by
    simp only [machine, hpc, ht, hf, and_self, if_true]
  rw [e] at h1
  have : ∃ a, accTask w = some a := by cases w <;> first | exact absurd rfl hw | exact ⟨_, rfl⟩
  obtain ⟨a, ha⟩ := this
  exact reach_step h1 (t := t) (a := a) (by simp only [machine, if_true, hw, if_false]; exact ha) (by simp only [machine, if_true, hw, if_false])

/-- The state of the schedule: the blocks that are handed out are being passed on. -/
def Lazy (s : HState) : Prop := (∀ q ∈ s.base.held, s.own q = .sent) ∧ (∀ t, s.task t = .none)

/-- The flag with which the machine does the step. -/
def flagFor (s : State) (t : Nat) (b : Bool) : Bool := match s.pc t with
  | .afCas old _ | .deCas _ old => b || decide (s.free ≠ old)
  | .auCas old => b || decide (s.uninit ≠ old)
  | _ => b

theorem flagFor_step (s : State) (t : Nat) (b : Bool) : stepHw s (.step t (flagFor s t b)) = stepHw s (.step t b) := by
  have key : ∀ x old : Nat, (x = old ∧ (b || decide (x ≠ old)) = false) ↔ (x = old ∧ b = false) := by
    intro x old
    by_cases h : x = old <;> simp [h]
  unfold flagFor
  cases hpc : s.pc t <;> try rfl
  all_goals simp only [stepHw, hpc, key]

theorem flagFor_acc (s : State) (t : Nat) (b : Bool) : s.pc t = .idle ∨ ∃ a, accOf o (flagFor s t b) s (s.pc t) = some a := by
  have key : ∀ l x old rd d, ∃ a, cas (b || decide (x ≠ old)) l x old rd d = some a := by
    intro l x old rd d
    unfold cas
    by_cases h : x = old
    · cases b <;> simp [h]
    · simp [h]
  unfold flagFor
  cases hpc : s.pc t <;> first | exact .inl rfl | (right; simp only [accOf]; first | exact ⟨_, rfl⟩ | exact key _ _ _ _ _)

theorem idle_above (acts : List Act) : ∃ n, ∀ u, n ≤ u → (run stepHw (init address size count link) acts).pc u = .idle := by
  have key : ∀ (acts : List Act) (s : State) (n : Nat), (∀ u, n ≤ u → s.pc u = .idle) →
      ∃ n, ∀ u, n ≤ u → (run stepHw s acts).pc u = .idle := by
    intro acts
    induction acts with
    | nil => exact fun s n h => ⟨n, h⟩
    | cons a acts ih =>
      intro s n h
      have go : ∀ t pc u, max n (t + 1) ≤ u → (s.goto t pc).pc u = .idle := by
        intro t pc u hu
        simp only [State.goto]
        have : u ≠ t := by omega
        rw [if_neg this, h u (by omega)]
      have st : ∀ t u, max n (t + 1) ≤ u → s.pc u = .idle := fun t u hu => h u (by omega)
      cases a with
      | alloc t =>
        refine ih _ (max n (t + 1)) fun u hu => ?_
        simp only [stepHw, call]; split
        · exact go _ _ u hu
        · exact st t u hu
      | dealloc t p =>
        refine ih _ (max n (t + 1)) fun u hu => ?_
        simp only [stepHw, call]; split
        · exact go _ _ u hu
        · exact st t u hu
      | write p v =>
        refine ih _ n fun u hu => ?_
        simp only [stepHw, call]; split <;> exact h u hu
      | step t b =>
        refine ih _ (max n (t + 1)) fun u hu => ?_
        have af : ∀ old, (afAfter s t old).pc u = .idle := by
          intro old; unfold afAfter; split <;> exact go _ _ u hu
        have au : ∀ old, (auAfter s t old).pc u = .idle := by
          intro old; unfold auAfter; split <;> exact go _ _ u hu
        simp only [stepHw]
        split <;> first | exact st t u hu | exact af _ | exact au _ | exact go _ _ u hu | skip
        all_goals split <;> first | exact af _ | exact au _ | exact go _ _ u hu
  exact key acts _ 0 fun u _ => rfl

/-- A block is passed on. -/
theorem reach_give {s : HState} (h : At' address size count link may o s) (hl : ∀ t, s.task t = .none) {t q : Nat} (hq : s.own q = .ctx t)
    (hpc : s.base.pc t = .idle) :
    At' address size count link may o { s with own := fun x => if x = q then .sent else s.own x } := by
  have := reach_work h (t := t) (w := .give q) (by simp) hq hpc (hl t)
  have e : (fun u => if u = t then Task.none else if u = t then .give q else s.task u) = s.task := by
    funext u; split <;> simp [hl]
  simp only [taskStep, e] at this
  exact this

theorem reach_take {s : HState} (h : At' address size count link may o s) (hl : ∀ t, s.task t = .none) {t q : Nat} (hq : s.own q = .sent)
    (hpc : s.base.pc t = .idle) :
    At' address size count link may o { s with own := fun x => if x = q then .ctx t else s.own x } := by
  have := reach_work h (t := t) (w := .take q) (by simp) trivial hpc (hl t)
  have e : (fun u => if u = t then Task.none else if u = t then .take q else s.task u) = s.task := by
    funext u; split <;> simp [hl]
  simp only [taskStep, e, hq, and_true] at this
  exact this

theorem reach_write {s : HState} (h : At' address size count link may o s) (hl : ∀ t, s.task t = .none) {t q v : Nat} (hq : s.own q = .ctx t)
    (hpc : s.base.pc t = .idle) :
    At' address size count link may o { s with base := stepHw s.base (.write q v) } := by
  have := reach_work h (t := t) (w := .write q v) (by simp) hq hpc (hl t)
  have e : (fun u => if u = t then Task.none else if u = t then .write q v else s.task u) = s.task := by
    funext u; split <;> simp [hl]
  simp only [taskStep, e] at this
  exact this

/-- A step in the pool. -/
theorem reach_pool {s : HState} (h : At' address size count link may o s) (hl : ∀ t, s.task t = .none) (t : Nat) (b : Bool)
    (hi : s.base.pc t ≠ .idle) : ∃ fl, At' address size count link may o
      { s with base := stepHw s.base (.step t b), own := ownStep s.base (flagFor s.base t b) s.own t, flag := fl } := by
  have h1 := reach_call h (.choose t (flagFor s.base t b))
  obtain ⟨a, ha⟩ := (flagFor_acc (o := o) s.base t b).resolve_left hi
  refine ⟨fun u => if u = t then flagFor s.base t b else s.flag u, reach_step h1 (t := t) (a := a) ?_ ?_⟩
  · simp only [machine, hl, if_true]; exact ha
  · simp only [machine, hl, if_true, flagFor_step]

theorem run_snoc (s : State) (acts : List Act) (a : Act) : run stepHw s (acts ++ [a]) = stepHw (run stepHw s acts) a := by
  simp only [run, List.foldl_append, List.foldl_cons, List.foldl_nil]

theorem cover (ha : 0 < address) (hz : 0 < size) (hr : may r = true) (acts : List Act) (h1 : OnlyAllocator r acts) :
    ∃ s, At' address size count link may o s ∧ s.base = run stepHw (init address size count link) acts ∧ Lazy s := by
  rw [← List.reverse_reverse acts] at h1 ⊢
  generalize acts.reverse = l at h1 ⊢
  induction l with
  | nil =>
    exact ⟨_, ⟨[], _, rfl, rfl, ⟨fun l => rfl, fun t l => by simp [Machine.pinit]⟩⟩, rfl, fun q hq => (by cases hq), fun t => rfl⟩
  | cons a rev ih =>
    rw [List.reverse_cons] at h1 ⊢
    generalize rev.reverse = acts at h1 ih ⊢
    have ho : OnlyAllocator r acts := fun u hu => h1 u (List.mem_append_left _ hu)
    obtain ⟨s, hs, hb, hown, htask⟩ := ih ho
    obtain ⟨fl, k, inv⟩ := hw_run ha hz acts (Conc.init_inv address size count link) (by intro t; simp [init]) (single_apart address size count link r acts ho)
    obtain ⟨n, hn⟩ := idle_above (address := address) (size := size) (count := count) (link := link) acts
    rw [← hb] at inv hn
    have hnd := (List.nodup_append.mp inv.nodup).1
    rw [run_snoc, ← hb]
    cases a with
    | alloc t =>
      have ht : t = r := h1 t (by simp)
      subst ht
      refine ⟨{ s with base := stepHw s.base (.alloc t) }, ?_, rfl, ?_, htask⟩
      · have := reach_call hs (.alloc t)
        simp only [machine, hr, htask, and_self, if_true] at this
        exact this
      · intro q hq
        refine hown q ?_
        simp only [stepHw, call] at hq
        split at hq <;> exact hq
    | dealloc t p =>
      by_cases hc : s.base.pc t = .idle ∧ p ∈ s.base.held
      · have g1 := reach_take hs htask (t := t) (hown p hc.2) hc.1
        have g2 := reach_call g1 (.dealloc t p)
        simp only [machine, htask, if_true, and_self] at g2
        refine ⟨_, g2, rfl, ?_, htask⟩
        intro q hq
        simp only [stepHw, call, hc, and_self, if_true] at hq
        obtain ⟨e1, e2⟩ := (List.Nodup.mem_erase_iff hnd).1 hq
        simp only [if_neg e1]
        exact hown q e2
      · refine ⟨s, hs, ?_, hown, htask⟩
        simp only [stepHw, call, hc, if_false]
    | write p v =>
      by_cases hc : p ∈ s.base.held
      · have g1 := reach_take hs htask (t := n) (hown p hc) (hn n (Nat.le_refl n))
        have g2 := reach_write g1 htask (t := n) (q := p) (v := v) (by simp) (hn n (Nat.le_refl n))
        have g3 := reach_give g2 htask (t := n) (q := p) (by simp) (by simp only [stepHw, call, hc, if_true]; exact hn n (Nat.le_refl n))
        refine ⟨_, g3, rfl, ?_, htask⟩
        intro q hq
        simp only [stepHw, call, hc, if_true] at hq
        by_cases e : q = p
        · simp [e]
        · simp only [if_neg e]; exact hown q hq
      · refine ⟨s, hs, ?_, hown, htask⟩
        simp only [stepHw, call, hc, if_false]
    | step t b =>
      by_cases hi : s.base.pc t = .idle
      · refine ⟨s, hs, ?_, hown, htask⟩
        simp only [stepHw, hi]
      · obtain ⟨fg, g⟩ := reach_pool hs htask t b hi
        have fl_eq : ∀ x old : Nat, (x = old ∧ (b || decide (x ≠ old)) = false) ↔ (x = old ∧ b = false) := by
          intro x old
          by_cases h : x = old <;> simp [h]
        -- a step that leaves the owners and the blocks handed out alone
        have quiet : ownStep s.base (flagFor s.base t b) s.own t = s.own → (stepHw s.base (.step t b)).held = s.base.held →
            ∃ s', At' address size count link may o s' ∧ s'.base = stepHw s.base (.step t b) ∧ Lazy s' := by
          intro e1 e2
          refine ⟨_, g, rfl, ?_, htask⟩
          intro q hq
          simp only [e1]
          simp only [e2] at hq
          exact hown q hq
        have af : ∀ old, (afAfter s.base t old).held = s.base.held := by intro old; unfold afAfter; split <;> rfl
        have au : ∀ old, (auAfter s.base t old).held = s.base.held := by intro old; unfold auAfter; split <;> rfl
        have got : ∀ old, ownStep s.base (flagFor s.base t b) s.own t = (fun p => if p = old then .ctx t else s.own p) →
            (stepHw s.base (.step t b)).held = old :: s.base.held → (stepHw s.base (.step t b)).pc t = .idle →
            ∃ s', At' address size count link may o s' ∧ s'.base = stepHw s.base (.step t b) ∧ Lazy s' := by
          intro old e1 e2 e3
          have g2 := reach_give g htask (t := t) (q := old) (by simp only [e1, if_true]) e3
          refine ⟨_, g2, rfl, ?_, htask⟩
          intro q hq
          simp only [e2, List.mem_cons] at hq
          by_cases e : q = old
          · simp [e]
          · simp only [e1, if_neg e]; exact hown q (hq.resolve_left e)
        cases hpc : s.base.pc t with
        | idle => exact absurd hpc hi
        | afLoad => exact quiet (by simp only [ownStep, hpc]) (by simp only [stepHw, hpc, af])
        | afRead old => exact quiet (by simp only [ownStep, hpc]) (by simp only [stepHw, hpc]; rfl)
        | auLoad => exact quiet (by simp only [ownStep, hpc]) (by simp only [stepHw, hpc, au])
        | deLoad q => exact quiet (by simp only [ownStep, hpc]) (by simp only [stepHw, hpc]; rfl)
        | deWrite q old => exact quiet (by simp only [ownStep, hpc]) (by simp only [stepHw, hpc]; rfl)
        | afCas old next =>
          by_cases hc : s.base.free = old ∧ b = false
          · refine got old (by simp only [ownStep, hpc, flagFor, fl_eq]; rw [if_pos hc]) ?_ ?_
            · simp only [stepHw, hpc, hc, and_self, if_true]
            · simp only [stepHw, hpc, hc, and_self, if_true, State.goto]
          · refine quiet (by simp only [ownStep, hpc, flagFor, fl_eq, hc, if_false]) ?_
            simp only [stepHw, hpc, hc, if_false, af]
        | auCas old =>
          by_cases hc : s.base.uninit = old ∧ b = false
          · refine got old (by simp only [ownStep, hpc, flagFor, fl_eq]; rw [if_pos hc]) ?_ ?_
            · simp only [stepHw, hpc, hc, and_self, if_true]
            · simp only [stepHw, hpc, hc, and_self, if_true, State.goto]
          · refine quiet (by simp only [ownStep, hpc, flagFor, fl_eq, hc, if_false]) ?_
            simp only [stepHw, hpc, hc, if_false, au]
        | deCas p old =>
          by_cases hc : s.base.free = old ∧ b = false
          · refine ⟨_, g, rfl, ?_, htask⟩
            intro q hq
            have hq' : q ∈ s.base.held := by
              simp only [stepHw, hpc, hc, and_self, if_true] at hq; exact hq
            have hne : q ≠ p := by
              rintro rfl
              exact (inv.rel t q (by rw [hpc]; rfl)).1 (List.mem_append_left _ hq')
            simp only [ownStep, hpc, flagFor, fl_eq]
            rw [if_pos hc]
            simp only [if_neg hne]
            exact hown q hq'
          · refine quiet (by simp only [ownStep, hpc, flagFor, fl_eq, hc, if_false]) ?_
            simp only [stepHw, hpc, hc, if_false]; rfl

end Verif.Heap.Conc.Order
