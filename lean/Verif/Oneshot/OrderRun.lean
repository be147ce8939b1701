import Verif.Oneshot.OrderSteps
/-! # Schedules of the oneshot channel with memory orderings -/
namespace Verif.Oneshot

open Verif.Spsc Verif.Order

variable {α : Type}

theorem s_load {o : Ords} {s s' : State α} (inv : Inv s) {v : BitVec 8} (hv : has v TX = has s.st TX)
    (hs : sStep { s with st := v } = some s') (ha : sAcc o s.spc = some .load) {k : Nat} {tr : List Ev} (h : OF tr (flags s)) :
    Inv { s' with st := s.st } ∧ OF (tr ++ [⟨0, 0, .load false k⟩]) (flags { s' with st := s.st }) ∧ s'.freed = s.freed := by
  obtain ⟨st, data, rxw, txw, freed, spc, rpc, log⟩ := s
  unfold Inv at inv
  dsimp only at *
  unfold sStep at hs
  cases spc <;> simp only [sAcc, Option.some.injEq, reduceCtorEq] at ha <;>
    simp only [SPc.resting, Bool.false_eq_true, if_false] at hs <;> cases freed <;>
    simp only [if_true, Bool.false_eq_true, if_false, reduceCtorEq] at hs
  all_goals
    obtain ⟨half, closed, rtx, sundo, sfail, sbad, rundo, rplain, first1, first2, first3, first3', first4, first5, hfreed,
      rStore, hsWk, hrxw, sStore, htxw, hdata, dOk⟩ := inv
    (try simp only [State.emit] at hs) <;> (repeat' (split at hs)) <;>
    simp only [Option.some.injEq] at hs <;> subst hs
    all_goals
      refine ⟨?_, h.atomic rfl (by simp) (fun h => nomatch h) ?_ ?_ ?_ ?_ ?_ ?_ ?_ ?_ ?_, rfl⟩
      · unfold Inv; constructor <;> (try spc_simp) <;> grind
      all_goals simp only [flags] <;> (try spc_simp) <;> grind

theorem r_load {o : Ords} {s s' : State α} (inv : Inv s) {v : BitVec 8}
    (hs : rStep { s with st := v } = some s') (ha : rAcc o s.rpc = some .load) {k : Nat} {tr : List Ev} (h : OF tr (flags s)) :
    Inv { s' with st := s.st } ∧ OF (tr ++ [⟨1, 0, .load false k⟩]) (flags { s' with st := s.st }) ∧ s'.freed = s.freed := by
  obtain ⟨st, data, rxw, txw, freed, spc, rpc, log⟩ := s
  unfold Inv at inv
  dsimp only at *
  unfold rStep at hs
  cases rpc <;> simp only [rAcc, Option.some.injEq, reduceCtorEq] at ha <;>
    simp only [RPc.resting, Bool.false_eq_true, if_false] at hs <;> cases freed <;>
    simp only [if_true, Bool.false_eq_true, if_false, reduceCtorEq] at hs
  obtain ⟨half, closed, rtx, sundo, sfail, sbad, rundo, rplain, first1, first2, first3, first3', first4, first5, hfreed,
      rStore, hsWk, hrxw, sStore, htxw, hdata, dOk⟩ := inv
  simp only [State.emit, Option.some.injEq] at hs
  subst hs
  refine ⟨?_, h.atomic rfl (by simp) (fun h => nomatch h) ?_ ?_ ?_ ?_ ?_ ?_ ?_ ?_ ?_, rfl⟩
  · unfold Inv; constructor <;> (try rpc_simp) <;> grind
  all_goals simp only [flags] <;> (try rpc_simp) <;> grind

/-- Only the sender sets `TX_WAKER_STORED`. -/
theorem r_tx {o : Ords} {s s' : State α} (hs : rStep s = some s') {w : Ord} (ha : rAcc o s.rpc = some (.rmw w)) :
    has s'.st TX = has s.st TX ∧ s'.freed = s.freed := by
  obtain ⟨st, data, rxw, txw, freed, spc, rpc, log⟩ := s
  unfold rStep at hs
  cases rpc <;> simp only [rAcc, Option.some.injEq, Acc.rmw.injEq, reduceCtorEq] at ha <;>
    simp only [RPc.resting, Bool.false_eq_true, if_false] at hs <;> cases freed <;>
    simp only [if_true, Bool.false_eq_true, if_false, reduceCtorEq] at hs
  all_goals
    (try simp only [dropTail, State.emit] at hs) <;> (repeat' (split at hs)) <;>
    simp only [Option.some.injEq] at hs <;> subst hs <;> refine ⟨?_, rfl⟩ <;> flag_simp

theorem s_freed {o : Ords} {s s' : State α} (hs : sStep s = some s') {w : Ord} (ha : sAcc o s.spc = some (.rmw w)) :
    s'.freed = s.freed := by
  obtain ⟨st, data, rxw, txw, freed, spc, rpc, log⟩ := s
  unfold sStep at hs
  cases spc <;> simp only [sAcc, Option.some.injEq, Acc.rmw.injEq, reduceCtorEq] at ha <;>
    simp only [SPc.resting, Bool.false_eq_true, if_false] at hs <;> cases freed <;>
    simp only [if_true, Bool.false_eq_true, if_false, reduceCtorEq] at hs
  all_goals
    (try simp only [sendTail, State.emit] at hs) <;> (repeat' (split at hs)) <;>
    simp only [Option.some.injEq] at hs <;> subst hs <;> rfl

theorem s_nofree {o : Ords} {s s' : State α} (hs : sStep s = some s') {l : Nat} {k : Kind} (hk : k ≠ .free)
    (ha : sAcc o s.spc = some (.other l k)) : s'.freed = s.freed := by
  obtain ⟨st, data, rxw, txw, freed, spc, rpc, log⟩ := s
  unfold sStep at hs
  cases spc <;> simp only [sAcc, Option.some.injEq, Acc.other.injEq, reduceCtorEq] at ha <;> obtain ⟨rfl, rfl⟩ := ha <;>
    simp only [SPc.resting, Bool.false_eq_true, if_false] at hs <;> cases freed <;>
    simp only [if_true, Bool.false_eq_true, if_false, reduceCtorEq] at hs
  all_goals
    (try simp only [sendTail, State.emit] at hs) <;> (repeat' (split at hs)) <;>
    simp only [Option.some.injEq, reduceCtorEq] at hs <;> subst hs <;> first | rfl | exact absurd rfl hk

theorem r_nofree {o : Ords} {s s' : State α} (hs : rStep s = some s') {l : Nat} {k : Kind} (hk : k ≠ .free)
    (ha : rAcc o s.rpc = some (.other l k)) : s'.freed = s.freed := by
  obtain ⟨st, data, rxw, txw, freed, spc, rpc, log⟩ := s
  unfold rStep at hs
  cases rpc <;> simp only [rAcc, Option.some.injEq, Acc.other.injEq, reduceCtorEq] at ha <;> obtain ⟨rfl, rfl⟩ := ha <;>
    simp only [RPc.resting, Bool.false_eq_true, if_false] at hs <;> cases freed <;>
    simp only [if_true, Bool.false_eq_true, if_false, reduceCtorEq] at hs
  all_goals
    (try simp only [dropTail, State.emit] at hs) <;> (repeat' (split at hs)) <;>
    simp only [Option.some.injEq, reduceCtorEq] at hs <;> subst hs <;> first | rfl | exact absurd rfl hk

/-- With an access due, the object is there. -/
theorem s_alive {o : Ords} {s s' : State α} (hs : sStep s = some s') {a : Acc} (ha : sAcc o s.spc = some a) : s.freed = false := by
  obtain ⟨st, data, rxw, txw, freed, spc, rpc, log⟩ := s
  cases spc <;> cases freed <;> simp_all [sStep, SPc.resting, sAcc]

theorem r_alive {o : Ords} {s s' : State α} (hs : rStep s = some s') {a : Acc} (ha : rAcc o s.rpc = some a) : s.freed = false := by
  obtain ⟨st, data, rxw, txw, freed, spc, rpc, log⟩ := s
  cases rpc <;> cases freed <;> simp_all [rStep, RPc.resting, rAcc]

/-- The values of the state word. -/
structure Words (p : PState α) : Prop where
  len : p.hist.length = cnt p.tr 0 + 1
  last : p.hist.getLast? = some p.s.st
  seenS : p.seenS < p.hist.length
  seenR : p.seenR < p.hist.length
  tx : ∀ (k : Nat) (v : BitVec 8), p.seenS ≤ k → p.hist[k]? = some v → has v TX = has p.s.st TX

structure PInv (p : PState α) : Prop where
  sane : ∀ (i : Nat) (e : Ev), p.tr[i]? = some e → Sane e
  races : ∀ i j, Race p.tr i j → ∃ f, p.tr[j]? = some f ∧ f.kind = .free
  words : Words p
  base : (Inv p.s ∧ OF p.tr (flags p.s) ∧ (p.s.freed = false → Nones p.tr (fun e => e.kind = .free))) ∨ Doomed p.s

theorem pinit_inv : PInv (pinit α) := by
  refine ⟨(fun i e h => nomatch h), fun i j h => ?_, ⟨rfl, rfl, by simp [pinit], by simp [pinit], fun k v hk h => ?_⟩,
    .inl ⟨init_inv α, ⟨fun _ i e h => ?_, fun _ i e h => ?_, fun _ i e h => ?_, fun _ i e h => ?_, fun _ i e h => ?_,
      fun _ i e h => ?_, fun _ i e h => ?_, fun _ i e h => ?_, fun _ i e h => ?_⟩, fun _ i e h => ?_⟩⟩ <;>
    try (simp only [pinit, List.getElem?_nil, reduceCtorEq] at h)
  · obtain ⟨-, e, f, h, -⟩ := h
    simp [pinit] at h
  · rcases k with _ | k
    · simp only [pinit, List.getElem?_cons_zero, Option.some.injEq] at h
      rw [← h]; rfl
    · simp [pinit] at h

theorem sane_append {tr : List Ev} (h : ∀ (i : Nat) (e : Ev), tr[i]? = some e → Sane e) {f : Ev} (hf : Sane f) :
    ∀ (i : Nat) (e : Ev), (tr ++ [f])[i]? = some e → Sane e := by
  intro i e he
  rcases get_append he with he | ⟨-, rfl⟩
  · exact h i e he
  · exact hf

/-- The races stay, and new ones need a conflict. -/
theorem races_append {tr : List Ev} (h : ∀ i j, Race tr i j → ∃ f, tr[j]? = some f ∧ f.kind = .free) {e : Ev}
    (hc : ∀ (i : Nat) (x : Ev), tr[i]? = some x → Conflict x e → Know tr e.tid i ∨ e.kind = .free) :
    ∀ i j, Race (tr ++ [e]) i j → ∃ f, (tr ++ [e])[j]? = some f ∧ f.kind = .free := by
  refine no_race (P := fun i j => ∃ f, (tr ++ [e])[j]? = some f ∧ f.kind = .free) (fun i j hr => ?_) fun i x hx hc' => ?_
  · obtain ⟨f, hf, hk⟩ := h i j hr
    exact ⟨f, by rw [List.getElem?_append_left (List.getElem?_eq_some_iff.1 hf).1]; exact hf, hk⟩
  · exact (hc i x hx hc').imp id fun hk => ⟨e, by simp, hk⟩

/-- Accesses of the state word conflict with nothing but the release. -/
theorem atomic_conflict {tr : List Ev} (hsane : ∀ (i : Nat) (e : Ev), tr[i]? = some e → Sane e)
    (hnf : Nones tr (fun e => e.kind = .free)) {e : Ev} (he : e.loc = 0) (ha : e.kind.atomic = true) :
    ∀ (i : Nat) (x : Ev), tr[i]? = some x → Conflict x e → Know tr e.tid i ∨ e.kind = .free := by
  intro i x hx ⟨_, hc⟩
  rcases hc with hc | hc | ⟨hl, -, haa⟩
  · exact absurd hc (hnf i x hx)
  · exact .inr hc
  · rcases (hsane i x hx).2 with ⟨-, h, -⟩ | ⟨-, h⟩ | ⟨h, -⟩
    · exact absurd ⟨h, ha⟩ haa
    · exact absurd h (hnf i x hx)
    · omega

theorem nofree_append {tr : List Ev} {e : Ev} (h : Nones tr (fun e => e.kind = .free)) (he : e.kind ≠ .free) :
    Nones (tr ++ [e]) (fun e => e.kind = .free) := h.append he

theorem pstep_inv {o : Ords} (en : Enough o) {p p' : PState α} (h : PInv p) {a : PAct α} (hs : pstep o p a = some p') :
    PInv p' := by
  obtain ⟨sane, races, words, base⟩ := h
  rcases base with ⟨inv, of, nf⟩ | d
  · cases a with
    | sCall op =>
      simp only [pstep] at hs
      split at hs <;> simp only [Option.some.injEq] at hs <;> subst hs
      · rename_i hi
        refine ⟨sane, races, ⟨words.len, ?_, words.seenS, words.seenR, ?_⟩, .inl ⟨sCall_inv inv hi op, ?_, ?_⟩⟩
        · cases op <;> exact words.last
        · cases op <;> exact words.tx
        · obtain ⟨⟨st, data, rxw, txw, freed, spc, rpc, log⟩, hist, seenS, seenR, tr⟩ := p
          cases spc <;> simp only [SPc.isIdle, reduceCtorEq] at hi
          cases op <;> exact of.mono (by simp [flags, sCall, State.emit, sDone]) rfl rfl rfl id
            (by simp [flags, sCall, State.emit, sWk]) id
        · cases op <;> exact nf
      · exact ⟨sane, races, words, .inl ⟨inv, of, nf⟩⟩
    | rCall op =>
      simp only [pstep] at hs
      split at hs <;> simp only [Option.some.injEq] at hs <;> subst hs
      · rename_i hi
        refine ⟨sane, races, ⟨words.len, ?_, words.seenS, words.seenR, ?_⟩, .inl ⟨rCall_inv inv hi op, ?_, ?_⟩⟩
        · cases op <;> exact words.last
        · cases op <;> exact words.tx
        · obtain ⟨⟨st, data, rxw, txw, freed, spc, rpc, log⟩, hist, seenS, seenR, tr⟩ := p
          cases rpc <;> simp only [RPc.isIdle, reduceCtorEq] at hi
          cases op <;> exact of.mono id rfl rfl rfl (by simp [flags, rCall, rRead]) id
            (by simp [flags, rCall, rTx])
        · cases op <;> exact nf
      · exact ⟨sane, races, words, .inl ⟨inv, of, nf⟩⟩
    | sStep k =>
      simp only [pstep, Option.map_eq_some_iff] at hs
      obtain ⟨⟨q, n⟩, hg, rfl⟩ := hs
      match ha : sAcc o p.s.spc with
      | none =>
        simp only [ha, PState.go, Option.some.injEq, Prod.mk.injEq] at hg
        obtain ⟨rfl, rfl⟩ := hg
        exact ⟨sane, races, words, .inl ⟨inv, of, nf⟩⟩
      | some .load =>
        simp only [ha, PState.go] at hg
        split at hg
        · rename_i hk
          split at hg
          · simp only [Option.some.injEq, Prod.mk.injEq] at hg
            obtain ⟨rfl, rfl⟩ := hg
            exact ⟨sane, races, words, .inl ⟨inv, of, nf⟩⟩
          · rename_i v hv
            split at hg
            · cases hg
            · rename_i s' hs'
              simp only [Option.some.injEq, Prod.mk.injEq] at hg
              obtain ⟨rfl, rfl⟩ := hg
              obtain ⟨h1, h2, h3⟩ := s_load inv (words.tx k v hk hv) hs' ha (k := k) of
              have hf := nf (s_alive (s := { p.s with st := v }) hs' ha)
              refine ⟨sane_append sane ⟨.inl rfl, .inl ⟨rfl, rfl, by simp⟩⟩,
                races_append races (atomic_conflict sane hf rfl rfl), ⟨?_, words.last, ?_, words.seenR, ?_⟩,
                .inl ⟨h1, h2, fun _ => nofree_append hf (by simp)⟩⟩
              · rw [cnt_append]; simp [Ev.writes, words.len]
              · exact (List.getElem?_eq_some_iff.1 hv).1
              · exact fun k' v' hk' hv' => words.tx k' v' (Nat.le_trans hk hk') hv'
        · simp only [Option.some.injEq, Prod.mk.injEq] at hg
          obtain ⟨rfl, rfl⟩ := hg
          exact ⟨sane, races, words, .inl ⟨inv, of, nf⟩⟩
      | some (.rmw w) =>
        simp only [ha, PState.go] at hg
        split at hg
        · cases hg
        · rename_i s' hs'
          simp only [Option.some.injEq, Prod.mk.injEq] at hg
          obtain ⟨rfl, rfl⟩ := hg
          have hf := nf (s_alive hs' ha)
          refine ⟨sane_append sane ⟨.inl rfl, .inl ⟨rfl, rfl, by simp⟩⟩,
            races_append races (atomic_conflict sane hf rfl rfl), ⟨?_, by simp, by simp, ?_, ?_⟩, ?_⟩
          · rw [cnt_append]; simp [Ev.writes, words.len]
          · have := words.seenR; simp; omega
          · intro k' v' hk' hv'
            rcases Nat.lt_or_ge k' (p.hist.length + 1) with hlt | hge
            · have : k' = p.hist.length := by dsimp only at hk'; omega
              subst this
              simp only [List.getElem?_append_right (Nat.le_refl _), Nat.sub_self, List.getElem?_cons_zero, Option.some.injEq] at hv'
              rw [← hv']
            · rw [List.getElem?_eq_none (by simp; omega)] at hv'; cases hv'
          · rcases step_good inv (a := .sStep) hs' with h | h
            · exact .inl ⟨h, s_rmw en hs' ha of, fun _ => nofree_append hf (by simp)⟩
            · exact .inr h
      | some (.other l kd) =>
        simp only [ha, PState.go] at hg
        split at hg
        · cases hg
        · rename_i s' hs'
          simp only [Option.some.injEq, Prod.mk.injEq] at hg
          obtain ⟨rfl, rfl⟩ := hg
          have hf := nf (s_alive hs' ha)
          obtain ⟨h1, h2, h3, h4, h5, h6⟩ := s_other inv hs' ha of
          refine ⟨sane_append sane h3,
            races_append races (conflict_cases of sane hf h3 h2.h1 h2.h2 h2.h3 h2.h4 h2.h5 h2.h6),
            ⟨?_, by rw [h6]; exact words.last, words.seenS, words.seenR, by rw [h6]; exact words.tx⟩, ?_⟩
          · rw [cnt_append]
            have : (Ev.mk 0 l kd).writes 0 = false := by
              unfold Ev.writes
              cases kd <;> simp_all [Kind.atomic]
            rw [this]; exact words.len
          · rcases step_good inv (a := .sStep) hs' with h | h
            · refine .inl ⟨h, h1, fun hfr => nofree_append hf fun hk => ?_⟩
              rw [h5 hk] at hfr; cases hfr
            · exact .inr h
    | rStep k =>
      simp only [pstep, Option.map_eq_some_iff] at hs
      obtain ⟨⟨q, n⟩, hg, rfl⟩ := hs
      match ha : rAcc o p.s.rpc with
      | none =>
        simp only [ha, PState.go, Option.some.injEq, Prod.mk.injEq] at hg
        obtain ⟨rfl, rfl⟩ := hg
        exact ⟨sane, races, words, .inl ⟨inv, of, nf⟩⟩
      | some .load =>
        simp only [ha, PState.go] at hg
        split at hg
        · rename_i hk
          split at hg
          · simp only [Option.some.injEq, Prod.mk.injEq] at hg
            obtain ⟨rfl, rfl⟩ := hg
            exact ⟨sane, races, words, .inl ⟨inv, of, nf⟩⟩
          · rename_i v hv
            split at hg
            · cases hg
            · rename_i s' hs'
              simp only [Option.some.injEq, Prod.mk.injEq] at hg
              obtain ⟨rfl, rfl⟩ := hg
              obtain ⟨h1, h2, h3⟩ := r_load inv hs' ha (k := k) of
              have hf := nf (r_alive (s := { p.s with st := v }) hs' ha)
              refine ⟨sane_append sane ⟨.inr rfl, .inl ⟨rfl, rfl, by simp⟩⟩,
                races_append races (atomic_conflict sane hf rfl rfl), ⟨?_, words.last, words.seenS, ?_, words.tx⟩,
                .inl ⟨h1, h2, fun _ => nofree_append hf (by simp)⟩⟩
              · rw [cnt_append]; simp [Ev.writes, words.len]
              · exact (List.getElem?_eq_some_iff.1 hv).1
        · simp only [Option.some.injEq, Prod.mk.injEq] at hg
          obtain ⟨rfl, rfl⟩ := hg
          exact ⟨sane, races, words, .inl ⟨inv, of, nf⟩⟩
      | some (.rmw w) =>
        simp only [ha, PState.go] at hg
        split at hg
        · cases hg
        · rename_i s' hs'
          simp only [Option.some.injEq, Prod.mk.injEq] at hg
          obtain ⟨rfl, rfl⟩ := hg
          have hf := nf (r_alive hs' ha)
          obtain ⟨htx, -⟩ := r_tx hs' ha
          refine ⟨sane_append sane ⟨.inr rfl, .inl ⟨rfl, rfl, by simp⟩⟩,
            races_append races (atomic_conflict sane hf rfl rfl), ⟨?_, by simp, ?_, by simp, ?_⟩, ?_⟩
          · rw [cnt_append]; simp [Ev.writes, words.len]
          · have := words.seenS; simp; omega
          · intro k' v' hk' hv'
            dsimp only at hk' ⊢
            rw [htx]
            rcases Nat.lt_or_ge k' p.hist.length with hlt | hge
            · rw [List.getElem?_append_left hlt] at hv'
              exact words.tx k' v' hk' hv'
            · rcases Nat.lt_or_ge k' (p.hist.length + 1) with hlt | hge
              · have : k' = p.hist.length := by omega
                subst this
                simp only [List.getElem?_append_right (Nat.le_refl _), Nat.sub_self, List.getElem?_cons_zero, Option.some.injEq] at hv'
                rw [← hv', htx]
              · rw [List.getElem?_eq_none (by simp; omega)] at hv'; cases hv'
          · rcases step_good inv (a := .rStep) hs' with h | h
            · exact .inl ⟨h, r_rmw en hs' ha of, fun _ => nofree_append hf (by simp)⟩
            · exact .inr h
      | some (.other l kd) =>
        simp only [ha, PState.go] at hg
        split at hg
        · cases hg
        · rename_i s' hs'
          simp only [Option.some.injEq, Prod.mk.injEq] at hg
          obtain ⟨rfl, rfl⟩ := hg
          have hf := nf (r_alive hs' ha)
          obtain ⟨h1, h2, h3, h4, h5, h6⟩ := r_other inv hs' ha of
          refine ⟨sane_append sane h3,
            races_append races (conflict_cases of sane hf h3 h2.h1 h2.h2 h2.h3 h2.h4 h2.h5 h2.h6),
            ⟨?_, by rw [h6]; exact words.last, words.seenS, words.seenR, by rw [h6]; exact words.tx⟩, ?_⟩
          · rw [cnt_append]
            have : (Ev.mk 1 l kd).writes 0 = false := by
              unfold Ev.writes
              cases kd <;> simp_all [Kind.atomic]
            rw [this]; exact words.len
          · rcases step_good inv (a := .rStep) hs' with h | h
            · refine .inl ⟨h, h1, fun hfr => nofree_append hf fun hk => ?_⟩
              rw [h5 hk] at hfr; cases hfr
            · exact .inr h
  · -- nothing happens any more
    suffices p' = p by subst this; exact ⟨sane, races, words, .inr d⟩
    obtain ⟨⟨st, data, rxw, txw, freed, spc, rpc, log⟩, hist, seenS, seenR, tr⟩ := p
    obtain ⟨d1, d2⟩ := d
    dsimp only at d1 d2
    subst d1
    cases a
    · cases spc <;> simp_all [pstep, SPc.isIdle, sGone, SPc.leaving]
    · cases spc <;> simp_all [pstep, sAcc, PState.go, sStep, SPc.resting, sGone, SPc.leaving]
    · cases rpc <;> simp_all [pstep, RPc.isIdle, rGone, RPc.leaving]
    · cases rpc <;> simp_all [pstep, rAcc, PState.go, rStep, RPc.resting, rGone, RPc.leaving]

theorem prun_inv {o : Ords} (en : Enough o) {p p' : PState α} (h : PInv p) {as : List (PAct α)}
    (hs : prun o p as = some p') : PInv p' := by
  induction as generalizing p with
  | nil => simp only [prun, Option.some.injEq] at hs; exact hs ▸ h
  | cons a as ih =>
    simp only [prun] at hs
    split at hs
    · cases hs
    · rename_i q hq
      exact ih (pstep_inv en h hq) hs

end Verif.Oneshot
