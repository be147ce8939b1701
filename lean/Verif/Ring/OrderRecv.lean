import Verif.Ring.OrderSend
/-! # The accesses of the receiver of the ring channel -/
namespace Verif.Ring

open Verif.Spsc Verif.Order

variable {k cap : Nat} {τ ε : Type}

/-- With an access due, the object is there. -/
theorem r_alive {o : Ords} {s s' : State k τ ε} (hs : rStep cap s = some s') {a : Acc} (ha : rAcc o cap s.rpc = some a) : s.freed = false := by
  obtain ⟨st, buf, err, rxw, txw, freed, spc, rpc, log⟩ := s
  cases rpc <;> cases freed <;> simp_all [rStep, RPc.resting, rAcc]

theorem shouldWake_tx {st : Word k} (h : shouldWake cap st = true) : hasWaker st = true := by
  unfold shouldWake at h
  unfold hasWaker
  simp only [hasKind] at h
  cases h1 : has st (READY k) <;> cases h2 : has st (FLUSH k) <;> simp_all

set_option maxHeartbeats 16000000 in
theorem r_rmw {o : Ords} (en : Enough o) {s s' : State k τ ε} (inv : Inv cap s) (hs : rStep cap s = some s') {l : Nat} {w : Ord}
    (ha : rAcc o cap s.rpc = some (.rmw l w)) :
    l = 0 ∧ TransA (flags cap s) (flags cap s') ⟨1, l, .rmw w.acq w.rel⟩ ∧
    (DropsRelease o → StepD (dn s) (kn s) (dn s') (kn s') ⟨1, l, .rmw w.acq w.rel⟩) := by
  have hf := r_alive hs ha
  have hhalf := inv.half
  have hcl := inv.closed
  have hplain := inv.rplain
  have hwake := inv.rwake
  have hsw := @shouldWake_tx k cap s.st
  obtain ⟨st, buf, err, rxw, txw, freed, spc, rpc, log⟩ := s
  obtain ⟨e1, e2, e3, e4, e5, e6, e7, e8, e9⟩ := en
  dsimp only at hf hhalf hcl hplain hwake hsw
  subst hf
  unfold rStep at hs
  cases rpc <;> simp only [rAcc, Option.some.injEq, Acc.rmw.injEq, reduceCtorEq] at ha <;> obtain ⟨rfl, rfl⟩ := ha <;>
    simp only [RPc.resting, Bool.false_eq_true, if_false] at hs <;>
    (try simp only [takeValue, dropLoop, dropTail, State.emit] at hs)
  all_goals
    (repeat' (split at hs)) <;> simp only [Option.some.injEq] at hs <;> subst hs <;>
      refine ⟨rfl, ⟨?_, ?_, ?_, ?_, ?_, ?_, ?_, ?_, ?_⟩, fun dr => ⟨?_, ?_, ?_, ?_, ?_⟩⟩ <;>
      first
        | (intro u hu; rcases u with _ | _ | u <;> first | exact absurd rfl hu | exact ⟨rfl, rfl⟩)
        | ((try have dr2 := dr.2)
           simp only [flags, rDone, rRead, rTx, rPlain, rWake, rUndoWake, Ev.writes, Ev.rel, Ev.acq, dn, kn, rSt] at *
           (try flag_simp)
           first | grind | simp_all)

set_option maxHeartbeats 8000000 in
theorem r_other {o : Ords} {s s' : State k τ ε} (inv : Inv cap s) (hs : rStep cap s = some s') {l : Nat} {κ : Order.Kind}
    (ha : rAcc o cap s.rpc = some (.other l κ)) :
    Sane true ⟨1, l, κ⟩ ∧ κ.atomic = false ∧ (κ = .free → s'.freed = true) ∧ s'.st = s.st ∧
    TransO (flags cap s) (flags cap s') ⟨1, l, κ⟩ ∧ StepD (dn s) (kn s) (dn s') (kn s') ⟨1, l, κ⟩ := by
  have hf := r_alive hs ha
  obtain ⟨st, buf, err, rxw, txw, freed, spc, rpc, log⟩ := s
  unfold Inv at inv
  obtain ⟨half, closed, rtx, sundo, sfail, sbad, rundo, rplain, first1, first2, first3, first3', first4, first5, hfreed,
    rStore, hsWk, hrxw, sStore, skind, rwake, htxw, hdata, dOk, sref⟩ := inv
  dsimp only at *
  subst hf
  unfold rStep at hs
  cases rpc <;> simp only [rAcc, Option.some.injEq, Acc.other.injEq, reduceCtorEq] at ha <;> obtain ⟨rfl, rfl⟩ := ha <;>
    simp only [RPc.resting, Bool.false_eq_true, if_false] at hs
  all_goals
    (try simp only [takeValue, dropLoop, dropTail, State.emit, State.release] at hs) <;> (repeat' (split at hs)) <;>
    simp only [Option.some.injEq, reduceCtorEq] at hs <;> subst hs <;>
    refine ⟨?_, rfl, ?_, rfl, ⟨⟨?_, ?_, rfl, rfl, ?_, ?_, ?_⟩, ?_, ?_, ?_, ?_, ?_, ?_⟩, ⟨fun _ => rfl, ?_, ?_, ?_, ?_⟩⟩ <;>
    first
      | (intro u hu; rcases u with _ | _ | u <;> first | exact absurd rfl hu | exact ⟨rfl, rfl⟩)
      | (simp only [flags, By, ByW, Sane, Order.Kind.atomic, dn, kn] <;> (try rpc_simp) <;> grind)

theorem r_load {o : Ords} {s s' : State k τ ε} (inv : Inv cap s) {l : Nat} {a : Bool} {v : Word k}
    (hs : rStep cap { s with st := v } = some s') (ha : rAcc o cap s.rpc = some (.load l a)) (n : Nat) :
    l = 0 ∧ a = false ∧ Inv cap { s' with st := s.st } ∧ TransA (flags cap s) (flags cap { s' with st := s.st }) ⟨1, l, .load a n⟩ ∧
    StepD (dn s) (kn s) (dn { s' with st := s.st }) (kn { s' with st := s.st }) ⟨1, l, .load a n⟩ := by
  have hf := r_alive (s := { s with st := v }) hs ha
  obtain ⟨st, buf, err, rxw, txw, freed, spc, rpc, log⟩ := s
  unfold Inv at inv
  obtain ⟨half, closed, rtx, sundo, sfail, sbad, rundo, rplain, first1, first2, first3, first3', first4, first5, hfreed,
    rStore, hsWk, hrxw, sStore, skind, rwake, htxw, hdata, dOk, sref⟩ := inv
  dsimp only at *
  subst hf
  unfold rStep at hs
  cases rpc <;> simp only [rAcc, Option.some.injEq, Acc.load.injEq, reduceCtorEq] at ha <;> obtain ⟨rfl, rfl⟩ := ha <;>
    simp only [RPc.resting, Bool.false_eq_true, if_false] at hs
  all_goals
    (try simp only [State.emit] at hs) <;> (repeat' (split at hs)) <;>
    simp only [Option.some.injEq] at hs <;> subst hs
    all_goals
      refine ⟨rfl, rfl, ?_, ⟨?_, ?_, ?_, ?_, ?_, ?_, ?_, ?_, ?_⟩, ⟨?_, ?_, ?_, ?_, ?_⟩⟩
      · unfold Inv; constructor <;> (try rpc_simp) <;> grind
      all_goals
        first
          | (intro u hu; rcases u with _ | _ | u <;> first | exact absurd rfl hu | exact ⟨rfl, rfl⟩)
          | (simp only [flags, dn, kn] <;> (try rpc_simp) <;> grind)

/-- Only the sender tells that its waker is stored. -/
theorem r_tx {o : Ords} {s s' : State k τ ε} (inv : Inv cap s) (hs : rStep cap s = some s') {l : Nat} {w : Ord}
    (ha : rAcc o cap s.rpc = some (.rmw l w)) : hasWaker s'.st = hasWaker s.st := by
  have hf := r_alive hs ha
  have hwake := inv.rwake
  obtain ⟨st, buf, err, rxw, txw, freed, spc, rpc, log⟩ := s
  dsimp only at hf hwake
  subst hf
  unfold rStep at hs
  cases rpc <;> simp only [rAcc, Option.some.injEq, Acc.rmw.injEq, reduceCtorEq] at ha <;>
    simp only [RPc.resting, Bool.false_eq_true, if_false] at hs
  all_goals
    (try simp only [takeValue, dropLoop, dropTail, State.emit] at hs) <;> (repeat' (split at hs)) <;>
    simp only [Option.some.injEq] at hs <;> subst hs <;> simp only [rWake] at hwake <;> flag_simp <;> grind

end Verif.Ring
