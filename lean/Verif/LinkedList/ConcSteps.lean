import Verif.LinkedList.ConcLemmas
/-! # The invariant of the concurrent list is kept by every step -/
namespace Verif.LinkedList.Conc

variable {α : Type} [DecidableEq α]

omit [DecidableEq α] in
/-- Without atomics no context is ever between the accesses of a pop. -/
theorem soft_step {s s' : State α} {a : Act α} {e : List (Event α)}
    (h : step false s a = some (s', e)) (hs : ∀ u, PopMid (s.pc u) = false) :
    ∀ u, PopMid (s'.pc u) = false := by
  have key : ∀ (r : State α) (t : Tid) (pc : Pc), r.pc = s.pc → PopMid pc = false →
      ∀ u, PopMid ((r.goto t pc).pc u) = false := by
    intro r t pc hr hp u
    by_cases e : u = t
    · subst e; rw [goto_pc_self]; exact hp
    · rw [goto_pc_ne _ _ e, hr]; exact hs u
  have dr : ∀ (r : State α) (t : Tid) (p c : Nat), r.pc = s.pc →
      ∀ u, PopMid ((drTest r t p c).1.pc u) = false := by
    intro r t p c hr
    unfold drTest
    split
    · exact key r t _ hr rfl
    · exact key r t _ hr rfl
  cases a with
  | push t a v =>
    simp only [step] at h
    split at h <;> simp only [Option.some.injEq, Prod.mk.injEq] at h <;> obtain ⟨rfl, rfl⟩ := h
    · exact key _ _ _ rfl rfl
    · exact hs
  | pop t =>
    simp only [step] at h
    split at h <;> simp only [Option.some.injEq, Prod.mk.injEq] at h <;> obtain ⟨rfl, rfl⟩ := h
    · exact key _ _ _ rfl rfl
    · exact hs
  | drain t =>
    simp only [step] at h
    split at h <;> simp only [Option.some.injEq, Prod.mk.injEq] at h <;> obtain ⟨rfl, rfl⟩ := h
    · exact key _ _ _ rfl rfl
    · exact hs
  | step t b =>
    have ht := hs t
    cases hpc : s.pc t with
    | popRead old => rw [hpc] at ht; simp [PopMid] at ht
    | popCas old next => rw [hpc] at ht; simp [PopMid] at ht
    | _ =>
      simp only [step, hpc, cutAfter, Bool.false_eq_true, ↓reduceIte] at h
      repeat' split at h
      all_goals first
        | (simp at h; done)
        | skip
      all_goals simp only [Option.some.injEq, Prod.mk.injEq] at h
      all_goals obtain ⟨rfl, rfl⟩ := h
      all_goals first
        | exact hs
        | exact dr _ _ _ _ rfl
        | exact key _ _ _ rfl rfl

/-- What one step must achieve. -/
def Good (sp : Spec α) (r : Res α) : Prop :=
  ∃ s' e sp' F' K' C' T', r = some (s', e) ∧ sp.run e = some sp' ∧ Inv s' sp' F' K' C' T' none

theorem Spec.run_append (sp : Spec α) (e e' : List (Event α)) :
    sp.run (e ++ e') = (sp.run e).bind (fun sp' => sp'.run e') := by
  induction e generalizing sp with
  | nil => rfl
  | cons x e ih =>
    simp only [List.cons_append, Spec.run]
    cases sp.step x with
    | none => rfl
    | some sp' => exact ih sp'

/-- `pop_raw` after a load of the head. -/
theorem good_popAfter {s : State α} {sp : Spec α} {F K C T : List (Nat × α)}
    (inv : Inv s sp F K C T none) (t : Tid) (h1 : owns (s.pc t) = none)
    (h2 : Draining (s.pc t) = false) (ha : sp.active = false) (hk : sp.taken t = none) :
    Good sp (some (popAfter s t s.head)) := by
  obtain ⟨rfl, rfl, rfl, _, _⟩ := inv.inactive ha
  unfold popAfter
  by_cases h0 : s.head = 0
  · rw [if_pos h0]
    have hF : F = [] := by
      have := inv.holds
      rw [h0] at this
      simpa using this.nil
    subst hF
    refine ⟨_, _, sp, [], [], [], [], rfl, ?_, inv.goto t _ (by rw [h1]; rfl) (by rw [h2]; rfl) (by simp) trivial⟩
    have : sp.contents = [] := by simp [Spec.contents, inv.front, inv.kept, inv.todo]
    simp [Spec.run, Spec.step, this, hk]
  · rw [if_neg h0]
    obtain ⟨v, L', hL⟩ := inv.holds.top h0
    refine ⟨_, _, sp, F, [], [], [], rfl, rfl, inv.goto t _ (by rw [h1]; rfl) (by rw [h2]; rfl) (by simp) ?_⟩
    refine ⟨v, ?_⟩
    have : F = (s.head, v) :: L' := by simpa using hL
    rw [this]; simp

/-- `cut_out` after a load of the head. -/
theorem good_cutAfter {s : State α} {sp : Spec α} {F T : List (Nat × α)} {c next : Nat} {v : α}
    (inv : Inv s sp F [] [(c, v)] T none) (t : Tid) (h1 : owns (s.pc t) = none)
    (h2 : Draining (s.pc t) = true) (hc : sp.cutting = some v) (hn : s.node c = some (next, v)) :
    Good sp (some (cutAfter s t s.head c next, [])) := by
  unfold cutAfter
  by_cases h : s.head = c
  · rw [if_pos h]
    exact ⟨_, _, sp, F, [], [(c, v)], T, rfl, rfl, inv.goto t _ (by rw [h1]; rfl) (by rw [h2]; rfl) (by simp)
      ⟨rfl, v, rfl, hc, hn⟩⟩
  · rw [if_neg h]
    have hF : ∃ w, (s.head, w) ∈ F := by
      cases F with
      | nil => exact absurd (by simpa using inv.holds.1) h
      | cons x F =>
        obtain ⟨a, w⟩ := x
        have : s.head = a := inv.holds.1
        exact ⟨w, by rw [this]; simp⟩
    exact ⟨_, _, sp, F, [], [(c, v)], T, rfl, rfl, inv.goto t _ (by rw [h1]; rfl) (by rw [h2]; rfl) (by simp)
      ⟨rfl, ⟨v, rfl, hc, hn⟩, hF⟩⟩

/-- The node at the head is cut out. -/
theorem good_cutHead {s : State α} {sp : Spec α} {F T : List (Nat × α)} {c next : Nat} {v : α}
    (inv : Inv s sp F [] [(c, v)] T none) (ha : sp.active = true) (t : Tid)
    (h1 : owns (s.pc t) = none) (h2 : Draining (s.pc t) = true) (hc : sp.cutting = some v)
    (hn : s.node c = some (next, v)) (hh : s.head = c)
    (hsolo : ∀ u, u ≠ t → Draining (s.pc u) = false) (hpop : ∀ u, PopMid (s.pc u) = false) :
    Good sp (some ({ s.goto t (.drFree 0 c next) with head := next }, [])) := by
  have hF : F = [] := by
    cases F with
    | nil => rfl
    | cons x F =>
      obtain ⟨a, w⟩ := x
      have h : s.head = a := inv.holds.1
      have := (List.nodup_cons.mp inv.nodup).1
      rw [← h, hh] at this
      simp at this
  subst hF
  obtain ⟨_, ⟨nx, h3, h4⟩, _⟩ := Holds.split (A := []) inv.holds
  rw [hn] at h3
  simp only [Option.some.injEq, Prod.mk.injEq, and_true] at h3
  subst h3
  have := inv.unlink (s' := { s with head := next }) (t := t) (prev := 0) (next := next) ha rfl h1 h2
    h4 (fun _ => Iff.rfl) h4 (Or.inl ⟨rfl, rfl⟩) (fun _ _ _ => rfl) ⟨next, hn⟩ hc hsolo hpop
  exact ⟨_, _, sp, [], [], [], T, rfl, rfl, this⟩

theorem step_good (hw : Bool) {s : State α} {sp : Spec α} {F K C T : List (Nat × α)}
    (inv : Inv s sp F K C T none) (hsoft : hw = false → ∀ u, PopMid (s.pc u) = false)
    (htk : ∀ t, sp.taken t ≠ none → ∃ p, s.pc t = .popFree p) (ap : Apart s) (a : Act α) (ap' : ∀ s' e, step hw s a = some (s', e) → Apart s') :
    Good sp (step hw s a) := by
  have stay : Good sp (some (s, [])) := ⟨s, [], sp, F, K, C, T, rfl, rfl, inv⟩
  cases a with
  | push t a v =>
    simp only [step]
    split
    · rename_i h
      exact ⟨_, _, sp, F, K, C, T, rfl, rfl, inv.allocate t a v h.1 h.2.1 (by simpa using h.2.2)⟩
    · exact stay
  | pop t =>
    simp only [step]
    split
    · rename_i h
      exact ⟨_, _, sp, F, K, C, T, rfl, rfl, inv.goto t _ (by rw [h]; rfl) (by rw [h]; rfl) (by simp) trivial⟩
    · exact stay
  | drain t =>
    simp only [step]
    split
    · rename_i h
      exact ⟨_, _, sp, F, K, C, T, rfl, rfl, inv.goto t _ (by rw [h]; rfl) (by rw [h]; rfl) (by simp) trivial⟩
    · exact stay
  | step t b =>
    have hok := inv.ok t (by simp)
    -- a context inside a drain is alone
    have solo : Draining (s.pc t) = true → sp.active = true ∧
        (∀ u, u ≠ t → Draining (s.pc u) = false) ∧ ∀ u, PopMid (s.pc u) = false := by
      intro hd
      refine ⟨?_, ?_, ?_⟩
      · cases ha : sp.active with
        | true => rfl
        | false => have := (inv.inactive ha).2.2.2.2 t; rw [hd] at this; simp at this
      · intro u hu
        cases h : Draining (s.pc u) with
        | false => rfl
        | true => exact absurd (ap.drains t u hd (Or.inl h)).symm hu
      · intro u
        have := ap.drainPop t u hd
        cases h : s.pc u <;> rw [h] at this <;> simp [Popping] at this <;> rfl
    have untaken : Popping (s.pc t) = true → sp.taken t = none := by
      intro hp
      cases hk : sp.taken t with
      | none => rfl
      | some v =>
        obtain ⟨p, h⟩ := htk t (by rw [hk]; simp)
        rw [h] at hp
        simp [Popping] at hp
    have nopop : Popping (s.pc t) = true → sp.active = false := by
      intro hp
      cases ha : sp.active with
      | false => rfl
      | true =>
        obtain ⟨u, hu⟩ := inv.active ha
        exact absurd hp (ap.drainPop u t hu)
    cases hpc : s.pc t with
    | idle => simp only [step, hpc]; exact stay
    | pushLoad n =>
      obtain ⟨o1, o2, o3⟩ := inv.own t n (by rw [hpc]; rfl)
      cases hw with
      | true =>
        simp only [step, hpc, ↓reduceIte]
        exact ⟨_, _, sp, F, K, C, T, rfl, rfl, inv.goto t _ (by rw [hpc]; rfl) (by rw [hpc]; rfl) (by simp) trivial⟩
      | false =>
        simp only [step, hpc, Bool.false_eq_true, ↓reduceIte]
        cases hn : s.node n with
        | none => exact absurd hn o2
        | some x =>
          obtain ⟨_, v⟩ := x
          have h := inv.putOwn t n s.head v (.pushCas n s.head) (by rw [hpc]; rfl) rfl (by rw [hpc]; rfl) rfl
            ⟨v, by simp [State.put]⟩
          have h' := h.push t n v (by rw [goto_pc_self]; rfl) (by rw [goto_pc_self]; rfl)
            (by simp [State.goto, State.put])
          rw [goto_goto] at h'
          exact ⟨_, _, _, _, _, _, _, rfl, rfl, h'⟩
    | pushWrite n old =>
      obtain ⟨o1, o2, o3⟩ := inv.own t n (by rw [hpc]; rfl)
      simp only [step, hpc]
      cases hn : s.node n with
      | none => exact absurd hn o2
      | some x =>
        obtain ⟨_, v⟩ := x
        exact ⟨_, _, sp, F, K, C, T, rfl, rfl, inv.putOwn t n old v (.pushCas n old) (by rw [hpc]; rfl) rfl
          (by rw [hpc]; rfl) rfl ⟨v, by simp [State.put]⟩⟩
    | pushCas n old =>
      rw [hpc] at hok
      obtain ⟨v, hn⟩ := hok
      simp only [step, hpc]
      split
      · rename_i h
        rw [hn]
        have h' := inv.push t n v (by rw [hpc]; rfl) (by rw [hpc]; rfl) (by rw [h.1]; exact hn)
        exact ⟨_, _, _, _, _, _, _, rfl, rfl, h'⟩
      · exact ⟨_, _, sp, F, K, C, T, rfl, rfl, inv.goto t _ (by rw [hpc]; rfl) (by rw [hpc]; rfl) (by simp) trivial⟩
    | popLoad =>
      have ha := nopop (by rw [hpc]; rfl)
      cases hw with
      | true =>
        simp only [step, hpc, ↓reduceIte]
        exact good_popAfter inv t (by rw [hpc]; rfl) (by rw [hpc]; rfl) ha (untaken (by rw [hpc]; rfl))
      | false =>
        simp only [step, hpc, Bool.false_eq_true, ↓reduceIte]
        obtain ⟨rfl, rfl, rfl, _, _⟩ := inv.inactive ha
        by_cases h0 : s.head = 0
        · have := good_popAfter inv t (by rw [hpc]; rfl) (by rw [hpc]; rfl) ha (untaken (by rw [hpc]; rfl))
          rw [popAfter, if_pos h0] at this
          rw [if_pos h0]
          exact this
        · rw [if_neg h0]
          obtain ⟨v, L', hL⟩ := inv.holds.top h0
          simp only [List.append_nil] at hL
          subst hL
          obtain ⟨_, _, nx, hn, _⟩ := inv.holds
          rw [hn]
          have h' := inv.pop ha t (by rw [hpc]; rfl) hn (fun u _ => hsoft rfl u)
          refine ⟨_, _, _, _, _, _, _, rfl, ?_, h'⟩
          simp [Spec.run, Spec.step, ha, inv.front, untaken (by rw [hpc]; rfl)]
    | popRead old =>
      have ha := nopop (by rw [hpc]; rfl)
      rw [hpc] at hok
      obtain ⟨v, hv⟩ := hok
      obtain ⟨_, nx, hn⟩ := inv.holds.mem (List.mem_append_left _ hv)
      simp only [step, hpc, hn]
      exact ⟨_, _, sp, F, K, C, T, rfl, rfl, inv.goto t _ (by rw [hpc]; rfl) (by rw [hpc]; rfl) (by simp)
        ⟨v, hv, hn⟩⟩
    | popCas old next =>
      have ha := nopop (by rw [hpc]; rfl)
      rw [hpc] at hok
      obtain ⟨v, hv, hn⟩ := hok
      simp only [step, hpc]
      split
      · rename_i h
        obtain ⟨rfl, rfl, rfl, _, _⟩ := inv.inactive ha
        rw [hn]
        obtain ⟨ho0, _⟩ := inv.holds.mem (List.mem_append_left _ hv)
        obtain ⟨w, L', hL⟩ := inv.holds.top (by rw [h.1]; exact ho0)
        simp only [List.append_nil] at hL
        subst hL
        obtain ⟨_, _, nx, hn', _⟩ := inv.holds
        rw [h.1, hn] at hn'
        simp only [Option.some.injEq, Prod.mk.injEq] at hn'
        obtain ⟨rfl, rfl⟩ := hn'
        rw [h.1] at inv
        have h' := inv.pop ha t (by rw [hpc]; rfl) hn (fun u hu => by
          cases h : PopMid (s.pc u) with
          | false => rfl
          | true => exact absurd (ap.pops u t h (by rw [hpc]; rfl)) hu)
        refine ⟨_, _, _, _, _, _, _, rfl, ?_, h'⟩
        simp [Spec.run, Spec.step, ha, inv.front, untaken (by rw [hpc]; rfl)]
      · exact good_popAfter inv t (by rw [hpc]; rfl) (by rw [hpc]; rfl) ha (untaken (by rw [hpc]; rfl))
    | popFree p =>
      rw [hpc] at hok
      obtain ⟨nx, v, hn, htk⟩ := hok
      simp only [step, hpc, hn]
      have h' := inv.freeOwn (sp' := { sp with taken := fun u => if u = t then none else sp.taken u }) t p .idle
        (by rw [hpc]; rfl) rfl (by rw [hpc]; rfl) rfl rfl rfl rfl (Or.inl rfl) (fun u hu => by
          have := inv.ok u (by simp)
          cases hq : s.pc u with
          | popFree q =>
            rw [hq] at this
            obtain ⟨nx, v, g1, g2⟩ := this
            exact ⟨nx, v, g1, by simp [hu, g2]⟩
          | _ => rw [hq] at this; exact this)
      have h'' := h'.goto t .idle (by rw [goto_pc_self]) (by rw [goto_pc_self])
        (by intro u hu; simpa using hu.symm) trivial
      rw [goto_goto] at h''
      refine ⟨_, _, _, _, _, _, _, rfl, ?_, h''⟩
      simp [Spec.run, Spec.step, htk]
    | drLoad =>
      have ha : sp.active = false := by
        cases ha : sp.active with
        | false => rfl
        | true =>
          obtain ⟨u, hu⟩ := inv.active ha
          have := ap.drains u t hu (Or.inr hpc)
          subst this
          rw [hpc] at hu
          simp [Draining] at hu
      obtain ⟨rfl, rfl, rfl, i4, i5⟩ := inv.inactive ha
      have hpop : ∀ u, PopMid (s.pc u) = false := by
        intro u
        by_cases h0 : s.head = 0
        · have hF : F = [] := by
            have := inv.holds
            rw [h0] at this
            simpa using this.nil
          subst hF
          have := inv.ok u (by simp)
          cases hq : s.pc u with
          | popRead old => rw [hq] at this; obtain ⟨v, hv⟩ := this; simp at hv
          | popCas old nx => rw [hq] at this; obtain ⟨v, hv, _⟩ := this; simp at hv
          | _ => rfl
        · have h' : Apart (s.goto t (.drNext 0 s.head)) := by
            apply ap' _ [.drainStart]
            simp [step, hpc, drTest, h0]
          by_cases e : u = t
          · subst e; rw [hpc]; rfl
          · have := h'.drainPop t u (by rw [goto_pc_self]; rfl)
            rw [goto_pc_ne _ _ e] at this
            cases h : s.pc u <;> rw [h] at this <;> simp [Popping] at this <;> rfl
      have h1 := inv.start ha t (by rw [hpc]; rfl) hpop
      have hx : (drTest (s.goto t (.drNext 0 s.head)) t 0 s.head) = drTest s t 0 s.head := by
        simp only [drTest, goto_goto]
      obtain ⟨sp', F', K', T', g1, g2⟩ := h1.drTest t rfl (by rw [goto_pc_self]; rfl)
        (by rw [goto_pc_self]; rfl) i4 (prev := 0) (curr := s.head) (Or.inl ⟨rfl, rfl⟩)
        (by show Holds s.node s.head F; simpa using inv.holds) (fun u hu => by rw [goto_pc_ne _ _ hu]; exact i5 u)
        (fun u => by
          by_cases e : u = t
          · subst e; rw [goto_pc_self]; rfl
          · rw [goto_pc_ne _ _ e]; exact hpop u)
      rw [hx] at g1 g2
      refine ⟨(drTest s t 0 s.head).1, .drainStart :: (drTest s t 0 s.head).2, sp', F', K', [], T', ?_, ?_, g2⟩
      · simp only [step, hpc]
      · simp only [Spec.run, Spec.step, ha, ↓reduceIte]
        have hk : sp.kept = [] := by rw [inv.kept]; rfl
        have ht : sp.todo = [] := by rw [inv.todo]; rfl
        have hcon : sp.contents = sp.front := by simp [Spec.contents, hk, ht]
        rw [hk] at g1; rw [hcon]
        exact g1
    | drNext prev curr =>
      rw [hpc] at hok
      obtain ⟨g1, rfl, g3, v, T', rfl⟩ := hok
      have hh : Holds s.node s.head ((F ++ K) ++ (curr, v) :: T') := by simpa using inv.holds
      obtain ⟨_, ⟨nx, hn, hr⟩, _⟩ := hh.split
      simp only [step, hpc, hn]
      exact ⟨_, _, sp, F, K, [], _, rfl, rfl, inv.goto t _ (by rw [hpc]; rfl) (by rw [hpc]; rfl) (by simp)
        ⟨g1, rfl, g3, v, T', rfl, hn⟩⟩
    | drFilter prev curr next =>
      obtain ⟨ha, hsolo, hpop⟩ := solo (by rw [hpc]; rfl)
      rw [hpc] at hok
      obtain ⟨g1, rfl, g3, v, T', rfl, hn⟩ := hok
      have hh : Holds s.node s.head ((F ++ K) ++ (curr, v) :: T') := by simpa using inv.holds
      obtain ⟨hc0, ⟨nx, hn', hr⟩, _⟩ := hh.split
      rw [hn] at hn'
      simp only [Option.some.injEq, Prod.mk.injEq, and_true] at hn'
      subst hn'
      have htodo : sp.todo = v :: T'.map Prod.snd := by simp [inv.todo]
      cases b with
      | false =>
        have h1 := inv.keep t ha hsolo hpop
        obtain ⟨sp', F', K', T'', q1, q2⟩ := h1.drTest t ha (by rw [hpc]; rfl) (by rw [hpc]; rfl) g1
          (prev := curr) (curr := next) (Or.inr ⟨hc0, v, by rw [← List.append_assoc]; simp⟩) hr hsolo hpop
        refine ⟨(drTest s t curr next).1, .visit v false :: (drTest s t curr next).2, sp', F', K', [], T'', ?_, ?_, q2⟩
        · simp [step, hpc, hn]
        · simp only [Spec.run, Spec.step, ha, g1, htodo, List.head?_cons]
          simpa [htodo, ha, g1] using q1
      | true =>
        have h1 := inv.select t ha hsolo hpop
        simp only [step, hpc, hn, ↓reduceIte]
        by_cases hp : prev = 0
        · rw [if_pos hp]
          have hK : K = [] := by
            rcases g3 with ⟨_, h⟩ | ⟨h, _⟩
            · exact h
            · exact absurd hp h
          subst hK
          have h2 := h1.goto t (.cutLoad curr next) (by rw [hpc]; rfl) (by rw [hpc]; rfl)
            (by intro u hu; simpa using hu.symm) ⟨rfl, v, rfl, rfl, hn⟩
          refine ⟨_, _, _, _, _, _, _, rfl, ?_, h2⟩
          simp [Spec.run, Spec.step, ha, g1, htodo]
        · rw [if_neg hp]
          have hl : ∃ w, (F ++ K).getLast? = some (prev, w) := by
            rcases g3 with ⟨h, _⟩ | ⟨_, h⟩
            · exact absurd h hp
            · exact h
          have h2 := h1.goto t (.cutWrite prev curr next) (by rw [hpc]; rfl) (by rw [hpc]; rfl)
            (by intro u hu; simpa using hu.symm) ⟨⟨v, rfl, rfl, hn⟩, hl⟩
          refine ⟨_, _, _, _, _, _, _, rfl, ?_, h2⟩
          simp [Spec.run, Spec.step, ha, g1, htodo]
    | cutLoad curr next =>
      obtain ⟨ha, hsolo, hpop⟩ := solo (by rw [hpc]; rfl)
      rw [hpc] at hok
      obtain ⟨rfl, v, rfl, hc, hn⟩ := hok
      cases hw with
      | true =>
        simp only [step, hpc, ↓reduceIte]
        exact good_cutAfter inv t (by rw [hpc]; rfl) (by rw [hpc]; rfl) hc hn
      | false =>
        simp only [step, hpc, Bool.false_eq_true, ↓reduceIte]
        by_cases h : s.head = curr
        · rw [if_pos h]
          exact good_cutHead inv ha t (by rw [hpc]; rfl) (by rw [hpc]; rfl) hc hn h hsolo hpop
        · have := good_cutAfter inv t (by rw [hpc]; rfl) (by rw [hpc]; rfl) hc hn
          rw [cutAfter, if_neg h] at this
          rw [if_neg h]
          exact this
    | cutCas curr next =>
      obtain ⟨ha, hsolo, hpop⟩ := solo (by rw [hpc]; rfl)
      rw [hpc] at hok
      obtain ⟨rfl, v, rfl, hc, hn⟩ := hok
      simp only [step, hpc]
      split
      · rename_i h
        exact good_cutHead inv ha t (by rw [hpc]; rfl) (by rw [hpc]; rfl) hc hn h.1 hsolo hpop
      · exact good_cutAfter inv t (by rw [hpc]; rfl) (by rw [hpc]; rfl) hc hn
    | cutWalk p curr next =>
      rw [hpc] at hok
      obtain ⟨rfl, ⟨v, rfl, hc, hn⟩, w, hp⟩ := hok
      obtain ⟨_, nx, hnp⟩ := inv.holds.mem (List.mem_append_left _ hp)
      simp only [step, hpc, hnp]
      have hh : Holds s.node s.head (F ++ (curr, v) :: T) := by simpa using inv.holds
      have hnd : (addrs (F ++ (curr, v) :: T)).Nodup := by simpa using inv.nodup
      rcases hh.walk hnd hp hnp with ⟨rfl, hl⟩ | ⟨hne, w'', hw'⟩
      · rw [if_pos rfl]
        exact ⟨_, _, sp, F, [], [(nx, v)], T, rfl, rfl, inv.goto t _ (by rw [hpc]; rfl) (by rw [hpc]; rfl)
          (by simp) ⟨⟨v, rfl, hc, hn⟩, w, by simpa using hl⟩⟩
      · rw [if_neg hne]
        exact ⟨_, _, sp, F, [], [(curr, v)], T, rfl, rfl, inv.goto t _ (by rw [hpc]; rfl) (by rw [hpc]; rfl)
          (by simp) ⟨rfl, ⟨v, rfl, hc, hn⟩, w'', hw'⟩⟩
    | cutWrite p curr next =>
      obtain ⟨ha, hsolo, hpop⟩ := solo (by rw [hpc]; rfl)
      rw [hpc] at hok
      obtain ⟨⟨v, rfl, hc, hn⟩, w, hl⟩ := hok
      have hh : Holds s.node s.head ((F ++ K) ++ (curr, v) :: T) := by simpa using inv.holds
      have hnd : (addrs ((F ++ K) ++ (curr, v) :: T)).Nodup := by simpa using inv.nodup
      have hpm := getLast?_mem' hl
      obtain ⟨hp0, nx, hnp⟩ := hh.mem (List.mem_append_left _ hpm)
      simp only [step, hpc, hnp]
      obtain ⟨_, ⟨nx', hn', hr⟩, _⟩ := hh.split
      rw [hn] at hn'
      simp only [Option.some.injEq, Prod.mk.injEq, and_true] at hn'
      subst hn'
      have hdis := List.nodup_append.mp (by simpa [addrs] using hnd : (addrs (F ++ K) ++ addrs ((curr, v) :: T)).Nodup)
      have hpa : p ∈ addrs (F ++ K) := List.mem_map.mpr ⟨(p, w), hpm, rfl⟩
      have hnT : ∀ b ∈ addrs T, b ≠ p := by
        intro b hb e
        exact hdis.2.2 p hpa b (List.mem_cons_of_mem _ hb) e.symm
      have hcp : curr ≠ p := fun e => hdis.2.2 p hpa curr (by simp) e.symm
      have hrel := Holds.relink (s := s) hh hnd hl hr hnT
      have hnode : ∀ b, b ≠ p → (s.put p (some (next, w))).node b = s.node b := by
        intro b hb; simp [State.put, hb]
      have h' := inv.unlink (s' := s.put p (some (next, w))) (t := t) (prev := p) (next := next) ha rfl
        (by rw [hpc]; rfl) (by rw [hpc]; rfl) (by show Holds _ s.head _; simpa using hrel)
        (fun a => by
          by_cases e : a = p
          · subst e; simp [State.put, hnp]
          · rw [hnode a e])
        (hr.congr (fun b hb => hnode b (hnT b hb)))
        (Or.inr ⟨hp0, w, hl⟩)
        (fun u a hu => hnode a (fun e => (inv.own u a hu).2.2 (by
          rw [e]
          refine List.mem_map.mpr ⟨(p, w), ?_, rfl⟩
          rw [← List.append_assoc]
          exact List.mem_append_left _ hpm)))
        ⟨next, by rw [hnode curr hcp]; exact hn⟩ hc hsolo hpop
      exact ⟨_, _, sp, F, K, [], T, rfl, rfl, h'⟩
    | drFree prev curr next =>
      obtain ⟨ha, hsolo, hpop⟩ := solo (by rw [hpc]; rfl)
      rw [hpc] at hok
      obtain ⟨rfl, g3, ⟨nx, v, hn, hc⟩, hr⟩ := hok
      obtain ⟨o1, o2, o3⟩ := inv.own t curr (by rw [hpc]; rfl)
      have h1 := inv.freeOwn (sp' := { sp with cutting := none }) t curr (.drNext prev next)
        (by rw [hpc]; rfl) rfl (by rw [hpc]; rfl) rfl rfl rfl rfl (Or.inr ha)
        (fun u hu => (inv.ok u (by simp)).nonrem (hsolo u hu) (hpop u) (fun _ _ => rfl) rfl)
      have hx : drTest ((s.put curr none).goto t (.drNext prev next)) t prev next =
          drTest (s.put curr none) t prev next := by
        simp only [drTest, goto_goto]
      obtain ⟨sp', F', K', T', q1, q2⟩ := h1.drTest t ha (by rw [goto_pc_self]; rfl) (by rw [goto_pc_self]; rfl)
        rfl (prev := prev) (curr := next) g3
        (hr.congr (fun b hb => by
          have : b ≠ curr := fun e => o3 (by
            rw [← e]
            simp only [addrs, List.map_append, List.mem_append]
            exact Or.inr (Or.inr (Or.inr hb)))
          simp [State.goto, State.put, this]))
        (fun u hu => by rw [goto_pc_ne _ _ hu]; exact hsolo u hu)
        (fun u => by
          by_cases e : u = t
          · subst e; rw [goto_pc_self]; rfl
          · rw [goto_pc_ne _ _ e]; exact hpop u)
      rw [hx] at q1 q2
      refine ⟨(drTest (s.put curr none) t prev next).1, .yield v :: (drTest (s.put curr none) t prev next).2,
        sp', F', K', [], T', ?_, ?_, q2⟩
      · simp [step, hpc, hn]
      · simp only [Spec.run, Spec.step, hc, ↓reduceIte]
        exact q1

omit [DecidableEq α] in
/-- Taken elements as a function of the log alone. -/
def takenAfter (tk : Tid → Option α) : List (Event α) → Tid → Option α
  | [] => tk
  | .popped t v :: es => takenAfter (fun u => if u = t then some v else tk u) es
  | .popRet t _ :: es => takenAfter (fun u => if u = t then none else tk u) es
  | _ :: es => takenAfter tk es

theorem Spec.run_taken : ∀ {e : List (Event α)} {sp sp' : Spec α}, sp.run e = some sp' →
    sp'.taken = takenAfter sp.taken e
  | [], sp, sp', h => by simp only [Spec.run, Option.some.injEq] at h; rw [← h]; rfl
  | x :: e, sp, sp', h => by
    simp only [Spec.run] at h
    cases hs : sp.step x with
    | none => rw [hs] at h; simp at h
    | some sp1 =>
      rw [hs] at h
      rw [Spec.run_taken h]
      cases x <;> simp only [Spec.step] at hs
      all_goals repeat' split at hs
      all_goals simp only [Option.some.injEq, reduceCtorEq] at hs
      all_goals (subst hs; rfl)

omit [DecidableEq α] in
/-- Only a context about to release its node holds a taken element. -/
theorem taken_step {hw : Bool} {s s' : State α} {a : Act α} {e : List (Event α)} {tk : Tid → Option α}
    (h : step hw s a = some (s', e)) (hs : ∀ t, tk t ≠ none → ∃ p, s.pc t = .popFree p) :
    ∀ t, takenAfter tk e t ≠ none → ∃ p, s'.pc t = .popFree p := by
  have key : ∀ (r : State α) (t : Tid) (pc : Pc), r.pc = s.pc → (∀ p, s.pc t ≠ .popFree p) →
      ∀ u, tk u ≠ none → ∃ p, (r.goto t pc).pc u = .popFree p := by
    intro r t pc hr hp u hu
    obtain ⟨p, h⟩ := hs u hu
    have : u ≠ t := by rintro rfl; exact hp p h
    exact ⟨p, by rw [goto_pc_ne _ _ this, hr]; exact h⟩
  have dr : ∀ (r : State α) (t : Tid) (p c : Nat), r.pc = s.pc → (∀ p, s.pc t ≠ .popFree p) →
      ∀ u, takenAfter tk (drTest r t p c).2 u ≠ none → ∃ q, (drTest r t p c).1.pc u = .popFree q := by
    intro r t p c hr hp
    unfold drTest
    split
    · exact key r t _ hr hp
    · exact key r t _ hr hp
  have pa : ∀ (t : Tid) (c : Nat), (∀ p, s.pc t ≠ .popFree p) →
      ∀ u, takenAfter tk (popAfter s t c).2 u ≠ none → ∃ q, (popAfter s t c).1.pc u = .popFree q := by
    intro t c hp
    unfold popAfter
    split
    · exact key s t _ rfl hp
    · exact key s t _ rfl hp
  have pop : ∀ (r : State α) (t : Tid) (p : Nat) (v : α), r.pc = s.pc → (∀ p, s.pc t ≠ .popFree p) →
      ∀ u, takenAfter tk [.popped t v] u ≠ none → ∃ q, (r.goto t (.popFree p)).pc u = .popFree q := by
    intro r t p v hr hp u hu
    by_cases e : u = t
    · subst e; exact ⟨p, goto_pc_self ..⟩
    · simp only [takenAfter, if_neg e] at hu
      exact key r t _ hr hp u hu
  cases a with
  | push t a v =>
    simp only [step] at h
    split at h <;> simp only [Option.some.injEq, Prod.mk.injEq] at h <;> obtain ⟨rfl, rfl⟩ := h
    · rename_i g
      exact key _ _ _ rfl (by rw [g.1]; simp)
    · exact hs
  | pop t =>
    simp only [step] at h
    split at h <;> simp only [Option.some.injEq, Prod.mk.injEq] at h <;> obtain ⟨rfl, rfl⟩ := h
    · rename_i g
      exact key _ _ _ rfl (by rw [g]; simp)
    · exact hs
  | drain t =>
    simp only [step] at h
    split at h <;> simp only [Option.some.injEq, Prod.mk.injEq] at h <;> obtain ⟨rfl, rfl⟩ := h
    · rename_i g
      exact key _ _ _ rfl (by rw [g]; simp)
    · exact hs
  | step t b =>
    cases hpc : s.pc t with
    | popFree p =>
      simp only [step, hpc] at h
      split at h
      · simp at h
      · simp only [Option.some.injEq, Prod.mk.injEq] at h
        obtain ⟨rfl, rfl⟩ := h
        intro u hu
        have e : u ≠ t := by rintro rfl; simp [takenAfter] at hu
        simp only [takenAfter, if_neg e] at hu
        obtain ⟨q, h⟩ := hs u hu
        exact ⟨q, by rw [goto_pc_ne _ _ e]; exact h⟩
    | _ =>
      simp only [step, hpc, cutAfter] at h
      repeat' split at h
      all_goals first
        | (simp at h; done)
        | skip
      all_goals simp only [Option.some.injEq, Prod.mk.injEq] at h
      all_goals first
        | (obtain ⟨rfl, rfl⟩ := h)
        | (rw [← (show (popAfter s t s.head).1 = s' from by rw [h]), ← (show (popAfter s t s.head).2 = e from by rw [h])])
      all_goals first
        | exact hs
        | exact pa _ _ (by rw [hpc]; simp)
        | exact pop _ _ _ _ rfl (by rw [hpc]; simp)
        | exact dr _ _ _ _ rfl (by rw [hpc]; simp)
        | exact key _ _ _ rfl (by rw [hpc]; simp)

/-- All schedules. -/
theorem run_good (hw : Bool) : ∀ (acts : List (Act α)) {s : State α} {sp : Spec α}
    {F K C T : List (Nat × α)}, Inv s sp F K C T none → (hw = false → ∀ u, PopMid (s.pc u) = false) →
    (∀ t, sp.taken t ≠ none → ∃ p, s.pc t = .popFree p) → Always hw Apart s acts →
    ∃ s' e sp' F' K' C' T', run hw s acts = some (s', e) ∧ sp.run e = some sp' ∧
      Inv s' sp' F' K' C' T' none ∧ (∀ t, sp'.taken t ≠ none → ∃ p, s'.pc t = .popFree p)
  | [], s, sp, F, K, C, T, inv, _, htk, _ => ⟨s, [], sp, F, K, C, T, rfl, rfl, inv, htk⟩
  | a :: as, s, sp, F, K, C, T, inv, hsoft, htk, hal => by
    obtain ⟨s', e, sp', F', K', C', T', h1, h2, h3⟩ := step_good hw inv hsoft htk hal.1 a
      (fun s' e h => by
        have := hal.2 s' e h
        cases as with
        | nil => exact this
        | cons b bs => exact this.1)
    obtain ⟨s'', es, sp'', F'', K'', C'', T'', g1, g2, g3, g4⟩ := run_good hw as h3
      (fun hf => by subst hf; exact soft_step h1 (hsoft rfl))
      (fun t ht => by rw [Spec.run_taken h2] at ht; exact taken_step h1 htk t ht) (hal.2 s' e h1)
    refine ⟨s'', e ++ es, sp'', F'', K'', C'', T'', by simp [run, h1, g1], ?_, g3, g4⟩
    rw [Spec.run_append, h2]
    exact g2

end Verif.LinkedList.Conc
