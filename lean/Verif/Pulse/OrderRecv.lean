import Verif.Pulse.OrderSend
/-! # The accesses of the receiver of the pulse channel -/
namespace Verif.Pulse

open Verif.Spsc Verif.Order

variable {n : Nat} {ε : Type}

/-- With an access due, the object is there. -/
theorem r_alive {o : Ords} {s s' : State n ε} (hs : rStep s = some s') {a : Acc} (ha : rAcc o s.rpc = some a) : s.freed = false := by
  obtain ⟨st, data, rxw, txw, freed, spc, rpc, log⟩ := s
  cases rpc <;> cases freed <;> simp_all [rStep, RPc.resting, rAcc]

set_option maxHeartbeats 8000000 in
theorem r_rmw {o : Ords} (en : Enough o) {s s' : State n ε} (inv : Inv s) (hs : rStep s = some s') {l : Nat} {w : Ord}
    (ha : rAcc o s.rpc = some (.rmw l w)) :
    l = 0 ∧ TransA (flags s) (flags s') ⟨1, l, .rmw w.acq w.rel⟩ ∧
    (DropsRelease o → StepD (dn s) (kn s) (dn s') (kn s') ⟨1, l, .rmw w.acq w.rel⟩) := by
  have hf := r_alive hs ha
  have hhalf := inv.half
  have hcl := inv.closed
  have hplain := inv.rplain
  obtain ⟨st, data, rxw, txw, freed, spc, rpc, log⟩ := s
  obtain ⟨e1, e2, e3, e4, e5, e6, e7, e8, e9, e10⟩ := en
  dsimp only at hf hhalf hcl hplain
  subst hf
  unfold rStep at hs
  cases rpc <;> simp only [rAcc, Option.some.injEq, Acc.rmw.injEq, reduceCtorEq] at ha <;> obtain ⟨rfl, rfl⟩ := ha <;>
    simp only [RPc.resting, Bool.false_eq_true, if_false] at hs <;>
    (try simp only [gotCount, dropTail, State.emit] at hs)
  all_goals
    (repeat' (split at hs)) <;> simp only [Option.some.injEq] at hs <;> subst hs <;>
      refine ⟨rfl, ⟨?_, ?_, ?_, ?_, ?_, ?_, ?_, ?_, ?_⟩, fun dr => ⟨?_, ?_, ?_, ?_, ?_⟩⟩ <;>
      first
        | (intro u hu; rcases u with _ | _ | u <;> first | exact absurd rfl hu | exact ⟨rfl, rfl⟩)
        | ((try have dr2 := dr.2)
           simp only [flags, rDone, rRead, rTx, rPlain, Ev.writes, Ev.rel, Ev.acq, dn, kn, rSt] at *
           (try flag_simp)
           first | grind | simp_all)

set_option maxHeartbeats 4000000 in
theorem r_other {o : Ords} {s s' : State n ε} (inv : Inv s) (hs : rStep s = some s') {l : Nat} {k : Kind}
    (ha : rAcc o s.rpc = some (.other l k)) :
    Sane false ⟨1, l, k⟩ ∧ k.atomic = false ∧ (k = .free → s'.freed = true) ∧ s'.st = s.st ∧
    TransO (flags s) (flags s') ⟨1, l, k⟩ ∧ StepD (dn s) (kn s) (dn s') (kn s') ⟨1, l, k⟩ := by
  have hf := r_alive hs ha
  obtain ⟨st, data, rxw, txw, freed, spc, rpc, log⟩ := s
  unfold Inv at inv
  obtain ⟨half, closed, rtx, sundo, sfail, sbad, rundo, rplain, first1, first2, first3, first3', first4, first5, hfreed,
    rStore, hsWk, hrxw, sStore, htxw, hdata, dOk, sref, arg⟩ := inv
  dsimp only at *
  subst hf
  unfold rStep at hs
  cases rpc <;> simp only [rAcc, Option.some.injEq, Acc.other.injEq, reduceCtorEq] at ha <;> obtain ⟨rfl, rfl⟩ := ha <;>
    simp only [RPc.resting, Bool.false_eq_true, if_false] at hs
  all_goals
    (try simp only [dropTail, State.emit, State.release] at hs) <;> (repeat' (split at hs)) <;>
    simp only [Option.some.injEq, reduceCtorEq] at hs <;> subst hs <;>
    refine ⟨?_, rfl, ?_, rfl, ⟨⟨?_, ?_, rfl, rfl, ?_, ?_, ?_⟩, ?_, ?_, ?_, ?_, ?_, ?_⟩, ⟨fun _ => rfl, ?_, ?_, ?_, ?_⟩⟩ <;>
    first
      | (intro u hu; rcases u with _ | _ | u <;> first | exact absurd rfl hu | exact ⟨rfl, rfl⟩)
      | (simp only [flags, By, ByW, Sane, Kind.atomic, dn, kn] <;> (try rpc_simp) <;> grind)

theorem r_load {o : Ords} {s s' : State n ε} (inv : Inv s) {l : Nat} {a : Bool} {v : Word n}
    (hs : rStep { s with st := v } = some s') (ha : rAcc o s.rpc = some (.load l a)) (k : Nat) :
    l = 0 ∧ a = false ∧ Inv { s' with st := s.st } ∧ TransA (flags s) (flags { s' with st := s.st }) ⟨1, l, .load a k⟩ ∧
    StepD (dn s) (kn s) (dn { s' with st := s.st }) (kn { s' with st := s.st }) ⟨1, l, .load a k⟩ := by
  have hf := r_alive (s := { s with st := v }) hs ha
  obtain ⟨st, data, rxw, txw, freed, spc, rpc, log⟩ := s
  unfold Inv at inv
  obtain ⟨half, closed, rtx, sundo, sfail, sbad, rundo, rplain, first1, first2, first3, first3', first4, first5, hfreed,
    rStore, hsWk, hrxw, sStore, htxw, hdata, dOk, sref, arg⟩ := inv
  dsimp only at *
  subst hf
  unfold rStep at hs
  cases rpc <;> simp only [rAcc, Option.some.injEq, Acc.load.injEq, reduceCtorEq] at ha <;> obtain ⟨rfl, rfl⟩ := ha <;>
    simp only [RPc.resting, Bool.false_eq_true, if_false] at hs
  all_goals
    (try simp only [State.emit] at hs) <;> (repeat' (split at hs)) <;>
    simp only [Option.some.injEq] at hs <;> subst hs
    all_goals
      refine ⟨rfl, rfl, ?_, ⟨?_, ?_, ?_, ?_, ?_, ?_, ?_, ?_, ?_⟩, ⟨?_, ?_, ?_, ?_, ?_⟩⟩
      · unfold Inv; constructor <;> (try rpc_simp) <;> grind
      all_goals
        first
          | (intro u hu; rcases u with _ | _ | u <;> first | exact absurd rfl hu | exact ⟨rfl, rfl⟩)
          | (simp only [flags, dn, kn] <;> (try rpc_simp) <;> grind)

/-- Only the sender sets `TX_WAKER_STORED`. -/
theorem r_tx {o : Ords} {s s' : State n ε} (hs : rStep s = some s') {l : Nat} {w : Ord} (ha : rAcc o s.rpc = some (.rmw l w)) :
    has s'.st (TX n) = has s.st (TX n) ∧ s'.freed = s.freed := by
  obtain ⟨st, data, rxw, txw, freed, spc, rpc, log⟩ := s
  unfold rStep at hs
  cases rpc <;> simp only [rAcc, Option.some.injEq, Acc.rmw.injEq, reduceCtorEq] at ha <;>
    simp only [RPc.resting, Bool.false_eq_true, if_false] at hs <;> cases freed <;>
    simp only [if_true, Bool.false_eq_true, if_false, reduceCtorEq] at hs
  all_goals
    (try simp only [gotCount, dropTail, State.emit] at hs) <;> (repeat' (split at hs)) <;>
    simp only [Option.some.injEq] at hs <;> subst hs <;> refine ⟨?_, rfl⟩ <;> flag_simp

end Verif.Pulse
