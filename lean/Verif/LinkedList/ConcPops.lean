import Verif.LinkedList.ConcSpecLemmas
/-! # Overlapping pops in the build with atomics

The contexts inside a pop are hidden (`blur`), so that the invariant of the other contexts
can be used again; what pops know is kept apart. -/
namespace Verif.LinkedList.Conc

variable {α : Type} [DecidableEq α]

/-- Hide that a context has read the head or the link. -/
def blurPc (pc : Pc) : Pc := if PopMid pc then .popLoad else pc

/-- Hide what the pops have read. -/
def blur (s : State α) : State α := { s with pc := fun u => blurPc (s.pc u) }

theorem blurPc_self {pc : Pc} (h : PopMid pc = false) : blurPc pc = pc := by simp [blurPc, h]

omit [DecidableEq α] in
theorem blur_goto (s : State α) (t : Tid) (pc : Pc) : blur (s.goto t pc) = (blur s).goto t (blurPc pc) := by
  simp only [blur, State.goto, State.mk.injEq, true_and]
  funext u
  split <;> rfl

/-- What the pops know. -/
structure PopsOk (s : State α) (L : List (Nat × α)) : Prop where
  read : ∀ t old, s.pc t = .popRead old → old ≠ 0 ∧ s.node old ≠ none
  cas : ∀ t old next, s.pc t = .popCas old next → old ≠ 0 ∧
    (old ∈ addrs L → ∃ v, s.node old = some (next, v))

omit [DecidableEq α] in
/-- A context that is not inside a pop afterwards moves; links in the list do not change. -/
theorem PopsOk.move {s s' : State α} {L L' : List (Nat × α)} (h : PopsOk s L) (t : Tid) (pc : Pc)
    (hpc : s'.pc = (s.goto t pc).pc) (hp : PopMid pc = false)
    (hread : ∀ u old, u ≠ t → s.pc u = .popRead old → s.node old ≠ none → s'.node old ≠ none)
    (hcas : ∀ u old next, u ≠ t → s.pc u = .popCas old next → old ∈ addrs L' →
      old ∈ addrs L ∧ s'.node old = s.node old) : PopsOk s' L' := by
  refine ⟨fun u old hu => ?_, fun u old next hu => ?_⟩
  · rw [hpc] at hu
    by_cases e : u = t
    · subst e; rw [goto_pc_self] at hu; subst hu; simp [PopMid] at hp
    · rw [goto_pc_ne _ _ e] at hu
      obtain ⟨h1, h2⟩ := h.read u old hu
      exact ⟨h1, hread u old e hu h2⟩
  · rw [hpc] at hu
    by_cases e : u = t
    · subst e; rw [goto_pc_self] at hu; subst hu; simp [PopMid] at hp
    · rw [goto_pc_ne _ _ e] at hu
      obtain ⟨h1, h2⟩ := h.cas u old next hu
      refine ⟨h1, fun hm => ?_⟩
      obtain ⟨h3, h4⟩ := hcas u old next e hu hm
      rw [h4]
      exact h2 h3

/-- What one step must achieve. -/
def GoodP (sp : Spec α) (r : Res α) : Prop :=
  ∃ s' e sp' L', r = some (s', e) ∧ sp.run e = some sp' ∧ sp'.active = false ∧
    Inv (blur s') sp' L' [] [] [] none ∧ PopsOk s' L'

theorem goodP_popAfter {s : State α} {sp : Spec α} {L : List (Nat × α)}
    (inv : Inv (blur s) sp L [] [] [] none) (po : PopsOk s L) (t : Tid) (h1 : owns (blurPc (s.pc t)) = none)
    (h2 : Draining (blurPc (s.pc t)) = false) (ha : sp.active = false) (hk : sp.taken t = none) :
    GoodP sp (some (popAfter s t s.head)) := by
  unfold popAfter
  by_cases h0 : s.head = 0
  · rw [if_pos h0]
    have hL : L = [] := by
      have : Holds s.node s.head (L ++ ([] ++ ([] ++ []))) := inv.holds
      rw [h0] at this
      simpa using this.nil
    subst hL
    refine ⟨_, _, sp, [], rfl, ?_, ha, ?_, po.move t .idle rfl rfl (fun _ _ _ _ h => h) (by simp)⟩
    · have : sp.contents = [] := by simp [Spec.contents, inv.front, inv.kept, inv.todo]
      simp [Spec.run, Spec.step, this, hk]
    · rw [blur_goto]
      exact inv.goto t _ (by simp only [blur]; rw [h1]; rfl) (by simp only [blur]; rw [h2]; rfl) (by simp) trivial
  · rw [if_neg h0]
    refine ⟨_, _, sp, L, rfl, rfl, ha, ?_, ?_⟩
    · rw [blur_goto]
      exact inv.goto t _ (by simp only [blur]; rw [h1]; rfl) (by simp only [blur]; rw [h2]; rfl) (by simp) trivial
    · refine ⟨fun u old hu => ?_, fun u old next hu => ?_⟩
      · by_cases e : u = t
        · subst e
          rw [goto_pc_self] at hu
          simp only [Pc.popRead.injEq] at hu
          subst hu
          obtain ⟨v, L', hL⟩ := inv.holds.top (show (blur s).head ≠ 0 from h0)
          obtain ⟨_, nx, hn⟩ := inv.holds.mem (a := s.head) (v := v) (by rw [hL]; exact List.mem_cons_self ..)
          exact ⟨h0, by show s.node s.head ≠ none; rw [show s.node s.head = _ from hn]; simp⟩
        · rw [goto_pc_ne _ _ e] at hu
          exact po.read u old hu
      · by_cases e : u = t
        · subst e
          rw [goto_pc_self] at hu
          simp at hu
        · rw [goto_pc_ne _ _ e] at hu
          exact po.cas u old next hu

theorem step_goodP {s : State α} {sp : Spec α} {L : List (Nat × α)}
    (inv : Inv (blur s) sp L [] [] [] none) (po : PopsOk s L) (ha : sp.active = false)
    (htk : ∀ t, sp.taken t ≠ none → ∃ p, s.pc t = .popFree p) (a : Act α) (hnd : ∀ t, a ≠ .drain t)
    (hdl : ∀ t, s.pc t ≠ .drLoad) (hs : Safe s a) : GoodP sp (step true s a) := by
  have stay : GoodP sp (some (s, [])) := ⟨s, [], sp, L, rfl, rfl, ha, inv, po⟩
  have nod : ∀ t, Draining (blurPc (s.pc t)) = false := (inv.inactive ha).2.2.2.2
  have hL : addrs (L ++ ([] ++ ([] ++ []))) = addrs L := by simp
  cases a with
  | drain t => exact absurd rfl (hnd t)
  | push t a v =>
    simp only [step]
    split
    · rename_i h
      have hnone : s.node a = none := by simpa using h.2.2
      refine ⟨_, _, sp, L, rfl, rfl, ha, ?_, po.move t (.pushLoad a) rfl rfl ?_ ?_⟩
      · rw [blur_goto]
        exact inv.allocate t a v (by simp only [blur, h.1]; rfl) h.2.1 hnone
      · intro u old _ _ hn
        simp only [State.goto, State.put]
        split
        · simp
        · exact hn
      · intro u old next _ _ hm
        refine ⟨hm, ?_⟩
        have : old ≠ a := by
          rintro rfl
          obtain ⟨x, hx, rfl⟩ := List.mem_map.mp hm
          obtain ⟨_, nx, hn⟩ := inv.holds.mem (a := x.1) (v := x.2) (by simpa using hx)
          rw [show s.node x.1 = _ from hn] at hnone
          simp at hnone
        simp [State.goto, State.put, this]
    · exact stay
  | pop t =>
    simp only [step]
    split
    · rename_i h
      refine ⟨_, _, sp, L, rfl, rfl, ha, ?_, po.move t .popLoad rfl rfl (fun _ _ _ _ h => h) (fun _ _ _ _ _ h => ⟨h, rfl⟩)⟩
      rw [blur_goto]
      exact inv.goto t _ (by simp only [blur, h]; rfl) (by simp only [blur, h]; rfl) (by simp) trivial
    · exact stay
  | step t b =>
    have hok := inv.ok t (by simp)
    have untaken : Popping (s.pc t) = true → sp.taken t = none := by
      intro hp
      cases hk : sp.taken t with
      | none => rfl
      | some v =>
        obtain ⟨p, h⟩ := htk t (by rw [hk]; simp)
        rw [h] at hp
        simp [Popping] at hp
    have hd := nod t
    -- a node of another context is not in the list
    have ownL : ∀ n, owns (blurPc (s.pc t)) = some n → n ∉ addrs L := by
      intro n hn
      have := (inv.own t n hn).2.2
      rwa [hL] at this
    cases hpc : s.pc t with
    | idle => simp only [step, hpc]; exact stay
    | pushLoad n =>
      simp only [step, hpc, ↓reduceIte]
      refine ⟨_, _, sp, L, rfl, rfl, ha, ?_, po.move t (.pushWrite n s.head) rfl rfl (fun _ _ _ _ h => h) (fun _ _ _ _ _ h => ⟨h, rfl⟩)⟩
      rw [blur_goto]
      exact inv.goto t _ (by simp only [blur, hpc]; rfl) (by simp only [blur, hpc]; rfl) (by simp) trivial
    | pushWrite n old =>
      have hown : owns (blurPc (s.pc t)) = some n := by rw [hpc]; rfl
      obtain ⟨o1, o2, o3⟩ := inv.own t n hown
      simp only [step, hpc]
      cases hn : s.node n with
      | none => exact absurd hn o2
      | some x =>
        obtain ⟨_, v⟩ := x
        refine ⟨_, _, sp, L, rfl, rfl, ha, ?_, po.move t (.pushCas n old) rfl rfl ?_ ?_⟩
        · rw [blur_goto]
          exact inv.putOwn t n old v (.pushCas n old) hown rfl (by simp only [blur, hpc]; rfl) rfl
            ⟨v, by simp [State.put]⟩
        · intro u o _ _ h
          simp only [State.goto, State.put]
          split
          · simp
          · exact h
        · intro u o next _ _ hm
          refine ⟨hm, ?_⟩
          have : o ≠ n := by rintro rfl; exact ownL o hown hm
          simp [State.goto, State.put, this]
    | pushCas n old =>
      have hown : owns (blurPc (s.pc t)) = some n := by rw [hpc]; rfl
      simp only [blur, hpc] at hok
      obtain ⟨v, hn⟩ := hok
      have hn : s.node n = some (old, v) := hn
      simp only [step, hpc]
      split
      · rename_i h
        rw [hn]
        have h' := inv.push t n v hown (by simp only [blur, hpc]; rfl) (by show s.node n = some (s.head, v); rw [h.1]; exact hn)
        refine ⟨_, _, { sp with front := v :: sp.front }, (n, v) :: L, rfl, rfl, ha, ?_, ?_⟩
        · have e : blur { s.goto t .idle with head := n } = { (blur s).goto t .idle with head := n } := by
            have := blur_goto s t .idle
            simp only [blur, State.goto, State.mk.injEq, true_and] at this ⊢
            exact this
          rw [e]
          exact h'
        · refine po.move t .idle rfl rfl (fun _ _ _ _ h => h) (fun u o next _ hu hm => ?_)
          simp only [addrs, List.map_cons, List.mem_cons] at hm
          rcases hm with rfl | hm
          · simp only [Safe, hpc] at hs
            exact absurd hu (hs h.1 h.2 u next)
          · exact ⟨hm, rfl⟩
      · refine ⟨_, _, sp, L, rfl, rfl, ha, ?_, po.move t (.pushWrite n s.head) rfl rfl (fun _ _ _ _ h => h) (fun _ _ _ _ _ h => ⟨h, rfl⟩)⟩
        rw [blur_goto]
        exact inv.goto t _ (by simp only [blur, hpc]; rfl) (by simp only [blur, hpc]; rfl) (by simp) trivial
    | popLoad =>
      simp only [step, hpc, ↓reduceIte]
      exact goodP_popAfter inv po t (by rw [hpc]; rfl) (by rw [hpc]; rfl) ha (untaken (by rw [hpc]; rfl))
    | popRead old =>
      obtain ⟨h0, h1⟩ := po.read t old hpc
      simp only [step, hpc]
      cases hn : s.node old with
      | none => exact absurd hn h1
      | some x =>
        obtain ⟨next, v⟩ := x
        refine ⟨_, _, sp, L, rfl, rfl, ha, ?_, ?_⟩
        · rw [blur_goto]
          exact inv.goto t _ (by simp only [blur, hpc]; rfl) (by simp only [blur, hpc]; rfl) (by simp) trivial
        · refine ⟨fun u o hu => ?_, fun u o nx hu => ?_⟩
          · by_cases e : u = t
            · subst e; rw [goto_pc_self] at hu; simp at hu
            · rw [goto_pc_ne _ _ e] at hu
              exact po.read u o hu
          · by_cases e : u = t
            · subst e
              rw [goto_pc_self] at hu
              simp only [Pc.popCas.injEq] at hu
              obtain ⟨rfl, rfl⟩ := hu
              exact ⟨h0, fun _ => ⟨v, hn⟩⟩
            · rw [goto_pc_ne _ _ e] at hu
              exact po.cas u o nx hu
    | popCas old next =>
      obtain ⟨h0, h1⟩ := po.cas t old next hpc
      simp only [step, hpc]
      split
      · rename_i h
        obtain ⟨w, L', hL'⟩ := inv.holds.top (show s.head ≠ 0 by rw [h.1]; exact h0)
        simp only [List.append_nil] at hL'
        have hL' : L = (old, w) :: L' := by rw [hL']; simp only [blur]; rw [h.1]
        subst hL'
        obtain ⟨v, hn⟩ := h1 (by simp [addrs])
        obtain ⟨_, _, nx, hn', _⟩ := inv.holds
        have hn' : s.node old = some (nx, w) := hn'
        rw [hn] at hn'
        simp only [Option.some.injEq, Prod.mk.injEq] at hn'
        obtain ⟨rfl, rfl⟩ := hn'
        rw [hn]
        have h' := inv.pop ha t (by simp only [blur, hpc]; rfl) hn (fun u _ => by
          simp only [blur, blurPc]
          cases h : PopMid (s.pc u) with
          | false => simpa using h
          | true => rfl)
        refine ⟨_, _, { sp with front := sp.front.tail, taken := fun u => if u = t then some v else sp.taken u },
          L', rfl, ?_, ha, ?_, ?_⟩
        · simp [Spec.run, Spec.step, ha, inv.front, untaken (by rw [hpc]; rfl)]
        · have e : blur { s.goto t (.popFree old) with head := next } = { (blur s).goto t (.popFree old) with head := next } := by
            have := blur_goto s t (.popFree old)
            simp only [blur, State.goto, State.mk.injEq, true_and] at this ⊢
            exact this
          rw [e]
          exact h'
        · exact po.move t (.popFree old) rfl rfl (fun _ _ _ _ h => h)
            (fun _ _ _ _ _ h => ⟨List.mem_cons_of_mem _ h, rfl⟩)
      · exact goodP_popAfter inv po t (by rw [hpc]; rfl) (by rw [hpc]; rfl) ha (untaken (by rw [hpc]; rfl))
    | popFree p =>
      have hown : owns (blurPc (s.pc t)) = some p := by rw [hpc]; rfl
      have hok' := hok
      simp only [blur, hpc] at hok'
      obtain ⟨nx, v, hn, htk⟩ := hok'
      have hn : s.node p = some (nx, v) := hn
      simp only [step, hpc, hn]
      have h' := inv.freeOwn (sp' := { sp with taken := fun u => if u = t then none else sp.taken u }) t p .idle
        hown rfl (by simp only [blur, hpc]; rfl) rfl rfl rfl rfl (Or.inl rfl) (fun u hu => by
          have := inv.ok u (by simp)
          cases hq : (blur s).pc u with
          | popFree q =>
            rw [hq] at this
            obtain ⟨nx, v, g1, g2⟩ := this
            exact ⟨nx, v, g1, by simp [hu, g2]⟩
          | _ => rw [hq] at this; exact this)
      have h'' := h'.goto t .idle (by rw [goto_pc_self]) (by rw [goto_pc_self])
        (by intro u hu; simpa using hu.symm) trivial
      rw [goto_goto] at h''
      refine ⟨_, _, { sp with taken := fun u => if u = t then none else sp.taken u }, L, rfl, ?_, ha, ?_,
        po.move t .idle rfl rfl ?_ ?_⟩
      · simp [Spec.run, Spec.step, htk]
      · rw [blur_goto]; exact h''
      · intro u o _ hu hn
        have : o ≠ p := by
          rintro rfl
          simp only [Safe, hpc] at hs
          exact hs u hu
        simpa [State.goto, State.put, this] using hn
      · intro u o next _ _ hm
        refine ⟨hm, ?_⟩
        have : o ≠ p := by rintro rfl; exact ownL o hown hm
        simp [State.goto, State.put, this]
    | drLoad => exact absurd hpc (hdl t)
    | _ => rw [hpc] at hd; simp [blurPc, PopMid, Draining] at hd

omit [DecidableEq α] in
/-- Without calls of `drain` no context is about to start one. -/
theorem drLoad_step {s s' : State α} {a : Act α} {e : List (Event α)} (ha : ∀ t, a ≠ .drain t)
    (h : step true s a = some (s', e)) (hd : ∀ t, s.pc t ≠ .drLoad) : ∀ t, s'.pc t ≠ .drLoad := by
  have key : ∀ (r : State α) (t : Tid) (pc : Pc), r.pc = s.pc → pc ≠ .drLoad →
      ∀ u, (r.goto t pc).pc u ≠ .drLoad := by
    intro r t pc hr h1 u
    by_cases e : u = t
    · subst e; rw [goto_pc_self]; exact h1
    · rw [goto_pc_ne _ _ e, hr]; exact hd u
  cases a with
  | drain t => exact absurd rfl (ha t)
  | push t a v =>
    simp only [step] at h
    split at h <;> simp only [Option.some.injEq, Prod.mk.injEq] at h <;> obtain ⟨rfl, rfl⟩ := h
    · exact key _ _ _ rfl (by simp)
    · exact hd
  | pop t =>
    simp only [step] at h
    split at h <;> simp only [Option.some.injEq, Prod.mk.injEq] at h <;> obtain ⟨rfl, rfl⟩ := h
    · exact key _ _ _ rfl (by simp)
    · exact hd
  | step t b =>
    have hdt := hd t
    cases hpc : s.pc t
    all_goals
      simp only [step, hpc, popAfter, drTest, cutAfter] at h
      repeat' split at h
    all_goals first
      | (simp at h; done)
      | skip
    all_goals simp only [Option.some.injEq, Prod.mk.injEq] at h
    all_goals obtain ⟨rfl, rfl⟩ := h
    all_goals first
      | exact hd
      | exact key _ _ _ rfl (by simp)

theorem run_goodP : ∀ (acts : List (Act α)) {s : State α} {sp : Spec α} {L : List (Nat × α)},
    Inv (blur s) sp L [] [] [] none → PopsOk s L → sp.active = false →
    (∀ t, sp.taken t ≠ none → ∃ p, s.pc t = .popFree p) → NoDrain acts →
    (∀ t, s.pc t ≠ .drLoad) → AlwaysSafe s acts →
    ∃ s' e sp' L', run true s acts = some (s', e) ∧ sp.run e = some sp' ∧
      Inv (blur s') sp' L' [] [] [] none ∧ (∀ t, sp'.taken t ≠ none → ∃ p, s'.pc t = .popFree p)
  | [], s, sp, L, inv, _, _, htk, _, _, _ => ⟨s, [], sp, L, rfl, rfl, inv, htk⟩
  | a :: as, s, sp, L, inv, po, hact, htk, hn, hdl, hal => by
    have ha : ∀ t, a ≠ .drain t := by rintro t rfl; exact hn
    have hn' : NoDrain as := by cases a <;> first | exact hn | exact hn.elim
    obtain ⟨s', e, sp', L', h1, h2, h3, h4, h5⟩ := step_goodP inv po hact htk a ha hdl hal.1
    obtain ⟨s'', es, sp'', L'', g1, g2, g3, g4⟩ := run_goodP as h4 h5 h3
      (fun t ht => by rw [Spec.run_taken h2] at ht; exact taken_step h1 htk t ht) hn'
      (drLoad_step ha h1 hdl) (hal.2 s' e h1)
    refine ⟨s'', e ++ es, sp'', L'', by simp [run, h1, g1], ?_, g3, g4⟩
    rw [Spec.run_append, h2]
    exact g2

end Verif.LinkedList.Conc
