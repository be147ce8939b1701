import Verif.LinkedList.ConcSteps
/-! # Consequences of a log being accepted -/
namespace Verif.LinkedList.Conc

variable {α : Type} [DecidableEq α]

omit [DecidableEq α] in
theorem pushes_append (a b : List (Event α)) : pushes (a ++ b) = pushes a ++ pushes b := by
  induction a with
  | nil => rfl
  | cons x a ih => cases x <;> simp [pushes, ih]

omit [DecidableEq α] in
theorem yields_append (a b : List (Event α)) : yields (a ++ b) = yields a ++ yields b := by
  induction a with
  | nil => rfl
  | cons x a ih => cases x <;> simp [yields, ih]

omit [DecidableEq α] in
theorem visits_append (a b : List (Event α)) : visits (a ++ b) = visits a ++ visits b := by
  induction a with
  | nil => rfl
  | cons x a ih => cases x <;> simp [visits, ih]

omit [DecidableEq α] in
theorem returned_eq (es : List (Event α)) : returned es = (returnedBy es).map Prod.snd := by
  induction es with
  | nil => rfl
  | cons x a ih => cases x <;> simp [returned, returnedBy, ih]

theorem Spec.run_split {sp sp' : Spec α} {a b : List (Event α)} (h : sp.run (a ++ b) = some sp') :
    ∃ m, sp.run a = some m ∧ m.run b = some sp' := by
  rw [Spec.run_append] at h
  cases hm : sp.run a with
  | none => rw [hm] at h; simp at h
  | some m => rw [hm] at h; exact ⟨m, rfl, h⟩

/-- Everything pushed is in the list, selected, yielded or taken. -/
theorem Spec.conserve (x : α) : ∀ {e : List (Event α)} {sp sp' : Spec α}, sp.run e = some sp' →
    (pushes e).count x + sp.contents.count x + sp.cutting.toList.count x =
      sp'.contents.count x + sp'.cutting.toList.count x + (yields e).count x +
        ((takenBy e).map Prod.snd).count x
  | [], sp, sp', h => by
    simp only [Spec.run, Option.some.injEq] at h
    subst h
    simp [pushes, yields, takenBy]
  | ev :: e, sp, sp', h => by
    simp only [Spec.run] at h
    cases hs : sp.step ev with
    | none => rw [hs] at h; simp at h
    | some sp1 =>
      rw [hs] at h
      have ih := Spec.conserve x h
      cases ev with
      | pushed v =>
        simp only [Spec.step, Option.some.injEq] at hs
        subst hs
        simp only [Spec.contents, pushes, yields, takenBy, List.count_append, List.count_cons] at ih ⊢
        omega
      | popped t v =>
        simp only [Spec.step] at hs
        split at hs
        · rename_i g
          simp only [Option.some.injEq] at hs
          subst hs
          cases hf : sp.front with
          | nil => rw [hf] at g; simp at g
          | cons y f =>
            rw [hf] at g
            simp only [List.head?_cons, Option.some.injEq] at g
            obtain ⟨_, rfl, _⟩ := g
            simp only [hf, List.tail_cons, Spec.contents, pushes, yields, takenBy, List.count_append, List.map_cons, List.count_cons] at ih ⊢
            omega
        · simp at hs
      | popRet t v =>
        simp only [Spec.step] at hs
        split at hs
        · simp only [Option.some.injEq] at hs
          subst hs
          simpa [Spec.contents, pushes, yields, takenBy] using ih
        · simp at hs
      | popEmpty t =>
        simp only [Spec.step] at hs
        split at hs
        · simp only [Option.some.injEq] at hs
          subst hs
          simpa [Spec.contents, pushes, yields, takenBy] using ih
        · simp at hs
      | drainStart =>
        simp only [Spec.step] at hs
        split at hs
        · simp only [Option.some.injEq] at hs
          rename_i g
          subst hs
          simp only [Spec.contents, pushes, yields, takenBy, List.count_append, List.count_nil] at ih ⊢
          omega
        · simp at hs
      | visit v b =>
        simp only [Spec.step] at hs
        split at hs
        · rename_i g
          obtain ⟨g1, g2, g3⟩ := g
          cases ht : sp.todo with
          | nil => rw [ht] at g3; simp at g3
          | cons y td =>
            rw [ht] at g3 hs
            simp only [List.head?_cons, Option.some.injEq] at g3
            subst g3
            cases b with
            | true =>
              simp only [↓reduceIte, Option.some.injEq] at hs
              subst hs
              simp only [g2, ht, Option.toList, List.tail_cons, Spec.contents, pushes, yields, takenBy, List.count_append, List.count_cons, List.count_nil] at ih ⊢
              omega
            | false =>
              simp only [Bool.false_eq_true, ↓reduceIte, Option.some.injEq] at hs
              subst hs
              simp only [ht, List.tail_cons, Spec.contents, pushes, yields, takenBy, List.count_append, List.count_cons, List.count_nil] at ih ⊢
              omega
        · simp at hs
      | yield v =>
        simp only [Spec.step] at hs
        split at hs
        · rename_i g
          simp only [Option.some.injEq] at hs
          subst hs
          simp only [g, Option.toList, Spec.contents, pushes, yields, takenBy, List.count_append, List.count_cons, List.count_nil] at ih ⊢
          omega
        · simp at hs
      | drainEnd =>
        simp only [Spec.step] at hs
        split at hs
        · rename_i g
          simp only [Option.some.injEq] at hs
          subst hs
          simp only [g.2.2, Spec.contents, pushes, yields, takenBy, List.count_append, List.count_nil] at ih ⊢
          omega
        · simp at hs


/-- A selected element stays selected until it is yielded. -/
theorem Spec.cut_mono (x : α) : ∀ {e : List (Event α)} {sp sp' : Spec α}, sp.run e = some sp' →
    sp.cutting.toList.count x ≤ sp'.cutting.toList.count x + (yields e).count x
  | [], sp, sp', h => by
    simp only [Spec.run, Option.some.injEq] at h
    subst h
    simp [yields]
  | ev :: e, sp, sp', h => by
    simp only [Spec.run] at h
    cases hs : sp.step ev with
    | none => rw [hs] at h; simp at h
    | some sp1 =>
      rw [hs] at h
      have ih := Spec.cut_mono x h
      cases ev <;> simp only [Spec.step] at hs
      case visit v b =>
        split at hs
        · rename_i g
          rw [g.2.1]
          simp
        · simp at hs
      case yield v =>
        split at hs
        · rename_i g
          simp only [Option.some.injEq] at hs
          subst hs
          simp only [g, Option.toList, yields, List.count_cons, List.count_nil] at ih ⊢
          omega
        · simp at hs
      all_goals (try split at hs)
      all_goals simp only [Option.some.injEq, reduceCtorEq] at hs
      all_goals (subst hs; simpa [yields] using ih)

/-- Each context returns what it took, in order. -/
theorem Spec.alternate (t : Tid) : ∀ {e : List (Event α)} {sp sp' : Spec α}, sp.run e = some sp' →
    (sp.taken t).toList ++ ((takenBy e).filter (·.1 = t)).map Prod.snd =
      ((returnedBy e).filter (·.1 = t)).map Prod.snd ++ (sp'.taken t).toList
  | [], sp, sp', h => by
    simp only [Spec.run, Option.some.injEq] at h
    subst h
    simp [takenBy, returnedBy]
  | ev :: e, sp, sp', h => by
    simp only [Spec.run] at h
    cases hs : sp.step ev with
    | none => rw [hs] at h; simp at h
    | some sp1 =>
      rw [hs] at h
      have ih := Spec.alternate t h
      cases ev <;> simp only [Spec.step] at hs
      case visit v b =>
        split at hs
        · split at hs <;> simp only [Option.some.injEq] at hs <;> (subst hs; simpa [takenBy, returnedBy] using ih)
        · simp at hs
      case popped u v =>
        split at hs
        · rename_i g
          simp only [Option.some.injEq] at hs
          subst hs
          by_cases e : t = u
          · subst e
            simp only [g.2.2, ↓reduceIte, Option.toList] at ih ⊢
            simpa [takenBy, returnedBy] using ih
          · have e' : ¬ u = t := fun h => e h.symm
            simpa [takenBy, returnedBy, e, e'] using ih
        · simp at hs
      case popRet u v =>
        split at hs
        · rename_i g
          simp only [Option.some.injEq] at hs
          subst hs
          by_cases e : t = u
          · subst e
            simp only [g, ↓reduceIte, Option.toList] at ih ⊢
            simpa [takenBy, returnedBy] using ih
          · have e' : ¬ u = t := fun h => e h.symm
            simpa [takenBy, returnedBy, e, e'] using ih
        · simp at hs
      all_goals (try split at hs)
      all_goals simp only [Option.some.injEq, reduceCtorEq] at hs
      all_goals (subst hs; simpa [takenBy, returnedBy] using ih)

/-- A part of a log inside one drain. -/
theorem Spec.drain_part : ∀ {e : List (Event α)} {sp sp' : Spec α}, sp.active = true →
    .drainEnd ∉ e → sp.run e = some sp' →
    sp'.active = true ∧ sp.todo = (visits e).map Prod.fst ++ sp'.todo ∧
      sp'.kept = sp.kept ++ unselected e ∧ sp'.front = (pushes e).reverse ++ sp.front ∧
      sp.cutting.toList ++ selected e = yields e ++ sp'.cutting.toList ∧ takenBy e = []
  | [], sp, sp', ha, _, h => by
    simp only [Spec.run, Option.some.injEq] at h
    subst h
    simp [ha, visits, unselected, pushes, selected, yields, takenBy]
  | ev :: e, sp, sp', ha, hne, h => by
    simp only [Spec.run] at h
    have hne' : Event.drainEnd ∉ e := fun h => hne (List.mem_cons_of_mem _ h)
    cases hs : sp.step ev with
    | none => rw [hs] at h; simp at h
    | some sp1 =>
      rw [hs] at h
      cases ev <;> simp only [Spec.step] at hs
      case drainEnd => simp at hne
      case visit v b =>
        split at hs
        · rename_i g
          cases ht : sp.todo with
          | nil => rw [ht] at g; simp at g
          | cons y td =>
            rw [ht] at g hs
            simp only [List.head?_cons, Option.some.injEq] at g
            obtain ⟨_, g2, rfl⟩ := g
            cases b with
            | true =>
              simp only [↓reduceIte, Option.some.injEq] at hs
              subst hs
              obtain ⟨i1, i2, i3, i4, i5, i6⟩ := Spec.drain_part (by exact ha) hne' h
              refine ⟨i1, ?_, ?_, ?_, ?_, i6⟩
              · simpa [visits] using i2
              · simpa [unselected, visits] using i3
              · simpa [pushes] using i4
              · simpa [g2, selected, visits, yields] using i5
            | false =>
              simp only [Bool.false_eq_true, ↓reduceIte, Option.some.injEq] at hs
              subst hs
              obtain ⟨i1, i2, i3, i4, i5, i6⟩ := Spec.drain_part (by exact ha) hne' h
              refine ⟨i1, ?_, ?_, ?_, ?_, i6⟩
              · simpa [visits] using i2
              · simpa [unselected, visits] using i3
              · simpa [pushes] using i4
              · simpa [g2, selected, visits, yields] using i5
        · simp at hs
      case yield v =>
        split at hs
        · rename_i g
          simp only [Option.some.injEq] at hs
          subst hs
          obtain ⟨i1, i2, i3, i4, i5, i6⟩ := Spec.drain_part (by exact ha) hne' h
          refine ⟨i1, i2, i3, i4, ?_, i6⟩
          simpa [g, selected, visits, yields] using i5
        · simp at hs
      case pushed v =>
        simp only [Option.some.injEq] at hs
        subst hs
        obtain ⟨i1, i2, i3, i4, i5, i6⟩ := Spec.drain_part (by exact ha) hne' h
        refine ⟨i1, i2, i3, ?_, i5, i6⟩
        simpa [pushes] using i4
      all_goals (split at hs)
      all_goals first
        | (simp at hs; done)
        | (simp only [Option.some.injEq] at hs; subst hs)
      all_goals first
        | (rename_i g; rw [ha] at g; simp at g; done)
        | (obtain ⟨i1, i2, i3, i4, i5, i6⟩ := Spec.drain_part (by exact ha) hne' h
           exact ⟨i1, i2, i3, i4, i5, i6⟩)

/-- A whole drain. -/
theorem Spec.drain_whole {sp sp' : Spec α} {mid : List (Event α)} (hne : .drainEnd ∉ mid)
    (hk : sp.cutting = none) (h : sp.run (.drainStart :: mid ++ [.drainEnd]) = some sp') :
    (visits mid).map Prod.fst = sp.contents ∧ yields mid = selected mid ∧
      sp'.contents = (pushes mid).reverse ++ unselected mid ∧ takenBy mid = [] := by
  simp only [List.cons_append, Spec.run] at h
  cases hs : sp.step .drainStart with
  | none => rw [hs] at h; simp at h
  | some sp1 =>
    rw [hs] at h
    simp only [Spec.step] at hs
    split at hs
    · simp only [Option.some.injEq] at hs
      subst hs
      obtain ⟨m, h1, h2⟩ := Spec.run_split h
      obtain ⟨i1, i2, i3, i4, i5, i6⟩ := Spec.drain_part (by rfl) hne h1
      simp only [Spec.run] at h2
      cases hs : m.step .drainEnd with
      | none => rw [hs] at h2; simp at h2
      | some m' =>
        rw [hs] at h2
        simp only [Option.some.injEq] at h2
        subst h2
        simp only [Spec.step] at hs
        split at hs
        · rename_i g
          simp only [Option.some.injEq] at hs
          subst hs
          obtain ⟨_, g2, g3⟩ := g
          rw [g3] at i2
          rw [g2] at i5
          simp only [List.append_nil] at i2 i4
          refine ⟨i2.symm, ?_, ?_, i6⟩
          · simpa [hk] using i5.symm
          · simp only [Spec.contents, i3, i4, g3]
            simp
        · simp at hs
    · simp at hs

/-- Between drains nothing is selected. -/
theorem Spec.idle_cut : ∀ {e : List (Event α)} {sp sp' : Spec α},
    (sp.active = false → sp.cutting = none) → sp.run e = some sp' →
    (sp'.active = false → sp'.cutting = none)
  | [], sp, sp', hi, h => by
    simp only [Spec.run, Option.some.injEq] at h
    subst h
    exact hi
  | ev :: e, sp, sp', hi, h => by
    simp only [Spec.run] at h
    cases hs : sp.step ev with
    | none => rw [hs] at h; simp at h
    | some sp1 =>
      rw [hs] at h
      refine Spec.idle_cut ?_ h
      cases ev <;> simp only [Spec.step] at hs
      case visit v b =>
        split at hs
        · rename_i g
          split at hs <;> simp only [Option.some.injEq] at hs <;> (subst hs; intro h; simp [g.1] at h)
        · simp at hs
      all_goals (try split at hs)
      all_goals simp only [Option.some.injEq, reduceCtorEq] at hs
      all_goals subst hs
      all_goals first
        | exact hi
        | (intro h; first | (simp at h; done) | rfl | (rename_i g _; exact g.2.1))

/-- All contexts returned what they took. -/
theorem Spec.returned_all {e : List (Event α)} {sp' : Spec α} (h : (Spec.init α).run e = some sp')
    (hn : ∀ t, sp'.taken t = none) : (takenBy e).Perm (returnedBy e) := by
  rw [List.perm_iff_count]
  rintro ⟨t, v⟩
  have ha := Spec.alternate t h
  rw [hn] at ha
  simp only [Spec.init, Option.toList, List.nil_append, List.append_nil] at ha
  have cnt : ∀ l : List (Tid × α), l.count (t, v) = ((l.filter (·.1 = t)).map Prod.snd).count v := by
    intro l
    induction l with
    | nil => rfl
    | cons x l ih =>
      obtain ⟨u, w⟩ := x
      by_cases e : u = t
      · subst e
        simp [List.count_cons, ih]
      · simp [ih, e]
  rw [cnt, cnt, ha]

omit [DecidableEq α] in
theorem takenBy_append (a b : List (Event α)) : takenBy (a ++ b) = takenBy a ++ takenBy b := by
  induction a with
  | nil => rfl
  | cons x a ih => cases x <;> simp [takenBy, ih]

/-- Without pops the list is what was pushed, newest first, without what was
yielded or is selected. -/
theorem Spec.order : ∀ {e : List (Event α)} {sp sp' : Spec α} {P Y : List α}, sp.run e = some sp' →
    takenBy e = [] → (P ++ pushes e).Nodup → (∀ x ∈ Y ++ sp.cutting.toList, x ∈ P) →
    sp.contents = P.reverse.filter (fun v => v ∉ Y ++ sp.cutting.toList) →
    sp'.contents = (P ++ pushes e).reverse.filter (fun v => v ∉ Y ++ yields e ++ sp'.cutting.toList)
  | [], sp, sp', P, Y, h, _, _, _, hc => by
    simp only [Spec.run, Option.some.injEq] at h
    subst h
    simpa [pushes, yields] using hc
  | ev :: e, sp, sp', P, Y, h, ht, hn, hy, hc => by
    simp only [Spec.run] at h
    cases hs : sp.step ev with
    | none => rw [hs] at h; simp at h
    | some sp1 =>
      rw [hs] at h
      cases ev <;> simp only [Spec.step] at hs
      case pushed v =>
        simp only [Option.some.injEq] at hs
        subst hs
        have hv : v ∉ P := by
          intro hm
          have := (List.nodup_append.mp hn).2.2 v hm v (by simp [pushes])
          exact this rfl
        have := Spec.order (P := P ++ [v]) (Y := Y) h ht (by simpa [pushes] using hn)
          (fun x hx => List.mem_append_left _ (hy x hx)) (by
            have hv' : v ∉ Y ++ sp.cutting.toList := fun h => hv (hy v h)
            simp only [Spec.contents, List.cons_append, List.reverse_append, List.reverse_cons, List.reverse_nil,
              List.nil_append] at hc ⊢
            rw [List.filter_cons_of_pos (by simpa using hv'), hc])
        simpa [pushes, yields] using this
      case popped u v => simp [takenBy] at ht
      case visit v b =>
        split at hs
        · rename_i g
          obtain ⟨_, g2, g3⟩ := g
          cases htd : sp.todo with
          | nil => rw [htd] at g3; simp at g3
          | cons y td =>
            rw [htd] at g3 hs
            simp only [List.head?_cons, Option.some.injEq] at g3
            subst g3
            cases b with
            | false =>
              simp only [Bool.false_eq_true, ↓reduceIte, Option.some.injEq] at hs
              subst hs
              have := Spec.order (P := P) (Y := Y) h ht hn hy (by
                rw [← hc]
                simp [Spec.contents, htd])
              simpa [pushes, yields] using this
            | true =>
              simp only [↓reduceIte, Option.some.injEq] at hs
              subst hs
              have hym : y ∈ P := by
                have : y ∈ sp.contents := by simp [Spec.contents, htd]
                rw [hc] at this
                simpa using (List.mem_filter.mp this).1
              have hnd : sp.contents.Nodup := by
                rw [hc]
                exact ((List.reverse_perm P).nodup_iff.mpr (List.nodup_append.mp hn).1).filter _
              have hcont : sp.contents = sp.front ++ sp.kept ++ y :: td := by simp [Spec.contents, htd]
              have := Spec.order (P := P) (Y := Y) h ht hn
                (fun x hx => by
                  simp only [Option.toList, List.mem_append, List.mem_singleton] at hx
                  rcases hx with hx | rfl
                  · exact hy x (List.mem_append_left _ hx)
                  · exact hym) (by
                have h1 : sp.front ++ sp.kept ++ td = sp.contents.filter (fun v => v ≠ y) := by
                  rw [hcont] at hnd ⊢
                  rw [List.filter_append, List.filter_cons_of_neg (by simp)]
                  have hd := List.nodup_append.mp hnd
                  rw [List.filter_eq_self.mpr, List.filter_eq_self.mpr]
                  · intro a ha
                    have := (List.nodup_cons.mp hd.2.1).1
                    simp only [decide_eq_true_eq]
                    rintro rfl
                    exact this ha
                  · intro a ha
                    simp only [decide_eq_true_eq]
                    exact fun e => hd.2.2 a ha y (by simp) e
                show sp.front ++ sp.kept ++ td = _
                rw [h1, hc, List.filter_filter]
                congr 1
                funext v
                simp [g2, Bool.and_comm])
              simpa [pushes, yields] using this
        · simp at hs
      case yield v =>
        split at hs
        · rename_i g
          simp only [Option.some.injEq] at hs
          subst hs
          have := Spec.order (P := P) (Y := Y ++ [v]) h ht hn
            (fun x hx => hy x (by simpa [g] using hx)) (by
              simpa [Spec.contents, g] using hc)
          simpa [pushes, yields] using this
        · simp at hs
      case drainStart =>
        split at hs
        · simp only [Option.some.injEq] at hs
          subst hs
          have := Spec.order (P := P) (Y := Y) h ht hn hy (by
            rw [← hc]; simp [Spec.contents])
          simpa [pushes, yields] using this
        · simp at hs
      case drainEnd =>
        split at hs
        · simp only [Option.some.injEq] at hs
          subst hs
          have := Spec.order (P := P) (Y := Y) h ht hn hy (by
            rw [← hc]; simp [Spec.contents])
          simpa [pushes, yields] using this
        · simp at hs
      all_goals
        split at hs
        · simp only [Option.some.injEq] at hs
          subst hs
          have := Spec.order (P := P) (Y := Y) h ht hn hy hc
          simpa [pushes, yields] using this
        · simp at hs

end Verif.LinkedList.Conc
