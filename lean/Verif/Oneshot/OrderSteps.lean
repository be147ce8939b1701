import Verif.Oneshot.OrderLemmas
/-! # The accesses of the oneshot channel, one by one -/
namespace Verif.Oneshot

open Verif.Spsc Verif.Order

variable {α : Type}

set_option maxHeartbeats 4000000 in
theorem s_rmw {o : Ords} (en : Enough o) {s s' : State α} (hs : sStep s = some s') {w : Ord}
    (ha : sAcc o s.spc = some (.rmw w)) {tr : List Ev} (h : OF tr (flags s)) :
    OF (tr ++ [⟨0, 0, .rmw w.acq w.rel⟩]) (flags s') := by
  obtain ⟨st, data, rxw, txw, freed, spc, rpc, log⟩ := s
  obtain ⟨e1, e2, e3, e4, e5, e6, e7, e8⟩ := en
  unfold sStep at hs
  cases spc <;> simp only [sAcc, Option.some.injEq, Acc.rmw.injEq, reduceCtorEq] at ha <;> subst ha <;>
    simp only [SPc.resting, Bool.false_eq_true, if_false] at hs <;> cases freed <;>
    simp only [if_true, Bool.false_eq_true, if_false, reduceCtorEq] at hs
  · cases h1 : has st RX <;> cases h2 : has st CLOSED <;>
      simp only [h1, h2, if_true, if_false, Bool.false_eq_true, sendTail, State.emit, Option.some.injEq] at hs <;> subst hs <;>
      refine h.atomic rfl (by simp) (fun _ => rfl) ?_ ?_ ?_ ?_ ?_ ?_ ?_ ?_ ?_ <;>
      simp only [flags, sDone, sFail, sWk, Ev.writes, Ev.rel, Ev.acq] <;> (try flag_simp) <;> simp_all
  · cases h2 : has st CLOSED <;>
      simp only [h2, if_true, if_false, Bool.false_eq_true, sendTail, State.emit, Option.some.injEq] at hs <;> subst hs <;>
      refine h.atomic rfl (by simp) (fun _ => rfl) ?_ ?_ ?_ ?_ ?_ ?_ ?_ ?_ ?_ <;>
      simp only [flags, sDone, sFail, sWk, Ev.writes, Ev.rel, Ev.acq] <;> (try flag_simp) <;> simp_all
  · cases h1 : has st RX <;> cases h2 : has st HALF <;>
      simp only [h1, h2, if_true, if_false, Bool.false_eq_true, sendTail, State.emit, Option.some.injEq] at hs <;> subst hs <;>
      refine h.atomic rfl (by simp) (fun _ => rfl) ?_ ?_ ?_ ?_ ?_ ?_ ?_ ?_ ?_ <;>
      simp only [flags, sDone, sFail, sWk, Ev.writes, Ev.rel, Ev.acq] <;> (try flag_simp) <;> simp_all

set_option maxHeartbeats 4000000 in
theorem r_rmw {o : Ords} (en : Enough o) {s s' : State α} (hs : rStep s = some s') {w : Ord}
    (ha : rAcc o s.rpc = some (.rmw w)) {tr : List Ev} (h : OF tr (flags s)) :
    OF (tr ++ [⟨1, 0, .rmw w.acq w.rel⟩]) (flags s') := by
  obtain ⟨st, data, rxw, txw, freed, spc, rpc, log⟩ := s
  obtain ⟨e1, e2, e3, e4, e5, e6, e7, e8⟩ := en
  unfold rStep at hs
  cases rpc <;> simp only [rAcc, Option.some.injEq, Acc.rmw.injEq, reduceCtorEq] at ha <;> subst ha <;>
    simp only [RPc.resting, Bool.false_eq_true, if_false] at hs <;> cases freed <;>
    simp only [if_true, Bool.false_eq_true, if_false, reduceCtorEq] at hs
  · cases h1 : has st CLOSED <;> cases h2 : has st TX <;>
      simp only [h1, h2, if_true, if_false, Bool.false_eq_true, State.emit, Option.some.injEq, Bool.not_true, Bool.not_false,
        Bool.and_true, Bool.true_and, Bool.false_and, Bool.and_false] at hs <;> subst hs <;>
      refine h.atomic rfl (by simp) (fun _ => rfl) ?_ ?_ ?_ ?_ ?_ ?_ ?_ ?_ ?_ <;>
      simp only [flags, rRead, rTx, Ev.writes, Ev.rel, Ev.acq] <;> (try flag_simp) <;> simp_all
  · cases h1 : has st DATA <;> cases h2 : (has st HALF || has st CLOSED) <;>
      simp only [h1, h2, if_true, if_false, Bool.false_eq_true, State.emit, Option.some.injEq] at hs <;> subst hs <;>
      refine h.atomic rfl (by simp) (fun _ => rfl) ?_ ?_ ?_ ?_ ?_ ?_ ?_ ?_ ?_ <;>
      simp only [flags, rRead, rTx, Ev.writes, Ev.rel, Ev.acq] <;> (try flag_simp) <;> simp_all
  · cases h1 : has st DATA <;> cases h2 : (has st HALF || has st CLOSED) <;> cases h3 : has st RX <;>
      simp only [h1, h2, h3, if_true, if_false, Bool.false_eq_true, State.emit, Option.some.injEq] at hs <;> subst hs <;>
      refine h.atomic rfl (by simp) (fun _ => rfl) ?_ ?_ ?_ ?_ ?_ ?_ ?_ ?_ ?_ <;>
      simp only [flags, rRead, rTx, Ev.writes, Ev.rel, Ev.acq] <;> (try flag_simp) <;> simp_all
  · cases h1 : has st DATA <;> cases h2 : has st HALF <;>
      simp only [h1, h2, if_true, if_false, Bool.false_eq_true, State.emit, Option.some.injEq] at hs <;> subst hs <;>
      refine h.atomic rfl (by simp) (fun _ => rfl) ?_ ?_ ?_ ?_ ?_ ?_ ?_ ?_ ?_ <;>
      simp only [flags, rRead, rTx, Ev.writes, Ev.rel, Ev.acq] <;> (try flag_simp) <;> simp_all
  · cases h1 : has st DATA <;> cases h2 : has st HALF <;> cases h3 : has st CLOSED <;> cases h4 : has st TX <;>
      simp only [h1, h2, h3, h4, dropTail, if_true, if_false, Bool.false_eq_true, State.emit, Option.some.injEq, Bool.not_true, Bool.not_false,
        Bool.and_true, Bool.true_and, Bool.false_and, Bool.and_false] at hs <;> subst hs <;>
      refine h.atomic rfl (by simp) (fun _ => rfl) ?_ ?_ ?_ ?_ ?_ ?_ ?_ ?_ ?_ <;>
      simp only [flags, rRead, rTx, Ev.writes, Ev.rel, Ev.acq] <;> (try flag_simp) <;> simp_all

/-- What the other accesses need. -/
structure Needs (f : Fl) (e : Ev) : Prop where
  h1 : By 0 lData e → f.early = true
  h2 : By 1 lData e → f.rread = true
  h3 : By 0 lRxw e → f.swk = true
  h4 : ByW 1 lRxw e → f.rx = false
  h5 : By 1 lTxw e → f.rtx = true
  h6 : ByW 0 lTxw e → f.tx = false

set_option maxHeartbeats 4000000 in
theorem s_other {o : Ords} {s s' : State α} (inv : Inv s) (hs : sStep s = some s') {l : Nat} {k : Kind}
    (ha : sAcc o s.spc = some (.other l k)) {tr : List Ev} (h : OF tr (flags s)) :
    OF (tr ++ [⟨0, l, k⟩]) (flags s') ∧ Needs (flags s) ⟨0, l, k⟩ ∧ Sane ⟨0, l, k⟩ ∧ k.atomic = false ∧
      (k = .free → s'.freed = true) ∧ s'.st = s.st := by
  obtain ⟨st, data, rxw, txw, freed, spc, rpc, log⟩ := s
  unfold Inv at inv
  obtain ⟨half, closed, rtx, sundo, sfail, sbad, rundo, rplain, first1, first2, first3, first3', first4, first5, hfreed,
    rStore, hsWk, hrxw, sStore, htxw, hdata, dOk⟩ := inv
  dsimp only at *
  unfold sStep at hs
  cases spc <;> simp only [sAcc, Option.some.injEq, Acc.other.injEq, reduceCtorEq] at ha <;> obtain ⟨rfl, rfl⟩ := ha <;>
    simp only [SPc.resting, Bool.false_eq_true, if_false] at hs <;> cases freed <;>
    simp only [if_true, Bool.false_eq_true, if_false, reduceCtorEq] at hs
  all_goals
    (try simp only [sendTail, State.emit, State.release] at hs) <;> (repeat' (split at hs)) <;>
    simp only [Option.some.injEq, reduceCtorEq] at hs <;> subst hs <;>
    refine ⟨h.other ?_ ?_ rfl rfl rfl ?_ ?_ ?_ ?_ ?_ ?_ ?_ ?_ ?_, ⟨?_, ?_, ?_, ?_, ?_, ?_⟩, ?_, rfl, ?_, rfl⟩ <;>
    simp only [flags, By, ByW, Sane, Kind.atomic] <;> (try spc_simp) <;> grind

set_option maxHeartbeats 4000000 in
theorem r_other {o : Ords} {s s' : State α} (inv : Inv s) (hs : rStep s = some s') {l : Nat} {k : Kind}
    (ha : rAcc o s.rpc = some (.other l k)) {tr : List Ev} (h : OF tr (flags s)) :
    OF (tr ++ [⟨1, l, k⟩]) (flags s') ∧ Needs (flags s) ⟨1, l, k⟩ ∧ Sane ⟨1, l, k⟩ ∧ k.atomic = false ∧
      (k = .free → s'.freed = true) ∧ s'.st = s.st := by
  obtain ⟨st, data, rxw, txw, freed, spc, rpc, log⟩ := s
  unfold Inv at inv
  obtain ⟨half, closed, rtx, sundo, sfail, sbad, rundo, rplain, first1, first2, first3, first3', first4, first5, hfreed,
    rStore, hsWk, hrxw, sStore, htxw, hdata, dOk⟩ := inv
  dsimp only at *
  unfold rStep at hs
  cases rpc <;> simp only [rAcc, Option.some.injEq, Acc.other.injEq, reduceCtorEq] at ha <;> obtain ⟨rfl, rfl⟩ := ha <;>
    simp only [RPc.resting, Bool.false_eq_true, if_false] at hs <;> cases freed <;>
    simp only [if_true, Bool.false_eq_true, if_false, reduceCtorEq] at hs
  all_goals
    (try simp only [dropTail, State.emit, State.release] at hs) <;> (repeat' (split at hs)) <;>
    simp only [Option.some.injEq, reduceCtorEq] at hs <;> subst hs <;>
    refine ⟨h.other ?_ ?_ rfl rfl rfl ?_ ?_ ?_ ?_ ?_ ?_ ?_ ?_ ?_, ⟨?_, ?_, ?_, ?_, ?_, ?_⟩, ?_, rfl, ?_, rfl⟩ <;>
    simp only [flags, By, ByW, Sane, Kind.atomic] <;> (try rpc_simp) <;> grind

end Verif.Oneshot
