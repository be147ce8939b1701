import Verif.Pulse.OrderSpec
import Verif.Pulse.Run
import Verif.Order.Duo
/-! # The accesses of the sender of the pulse channel -/
namespace Verif.Pulse

open Verif.Spsc Verif.Order

variable {n : Nat} {ε : Type}

def flags (s : State n ε) : Fl :=
  { data := has s.st (ERR n) || rRead s.rpc, rx := has s.st (RX n), tx := has s.st (TX n), early := !sDone s.spc || sFail s.spc,
    rread := rRead s.rpc, swk := sWk s.spc || sRef s.spc, rtx := rTx s.rpc }

def dn (s : State n ε) : Nat → Bool
  | 0 => sDone s.spc
  | 1 => rDone s.rpc
  | _ => false

def kn (s : State n ε) : Nat → Bool
  | 0 => sSt s.spc == some true
  | 1 => rSt s.rpc == some true
  | _ => false

def okV (t : Nat) (s : State n ε) (l : Nat) (v : Word n) : Prop := t = 0 → l = 0 → has v (TX n) = has s.st (TX n)

/-- With an access due, the object is there. -/
theorem s_alive {o : Ords} {s s' : State n ε} (hs : sStep s = some s') {a : Acc} (ha : sAcc o s.spc = some a) : s.freed = false := by
  obtain ⟨st, data, rxw, txw, freed, spc, rpc, log⟩ := s
  cases spc <;> cases freed <;> simp_all [sStep, SPc.resting, sAcc]

set_option maxHeartbeats 4000000 in
theorem s_rmw {o : Ords} (en : Enough o) {s s' : State n ε} (inv : Inv s) (hs : sStep s = some s') {l : Nat} {w : Ord}
    (ha : sAcc o s.spc = some (.rmw l w)) :
    l = 0 ∧ TransA (flags s) (flags s') ⟨0, l, .rmw w.acq w.rel⟩ ∧
    (DropsRelease o → StepD (dn s) (kn s) (dn s') (kn s') ⟨0, l, .rmw w.acq w.rel⟩) := by
  have hf := s_alive hs ha
  have harg := inv.arg
  have hhalf := inv.half
  have hgone := (rFacts s.rpc).gone
  obtain ⟨st, data, rxw, txw, freed, spc, rpc, log⟩ := s
  obtain ⟨e1, e2, e3, e4, e5, e6, e7, e8, e9, e10⟩ := en
  dsimp only at hf harg hhalf hgone
  subst hf
  unfold sStep at hs
  cases spc <;> simp only [sAcc, Option.some.injEq, Acc.rmw.injEq, reduceCtorEq] at ha <;> obtain ⟨rfl, rfl⟩ := ha <;>
    simp only [SPc.resting, Bool.false_eq_true, if_false] at hs <;>
    (try simp only [sendTail, satTail, errTail, State.emit] at hs)
  case sendRmw p =>
    have hh : ∀ {i : Nat}, i < 5 → has (addWord st (p <<< 5)) (flag (n + 6) i) = has st (flag (n + 6) i) := fun hi => has_addWord st p harg hi
    have h1 := @hh 0 (by decide); have h2 := @hh 1 (by decide); have h3 := @hh 2 (by decide)
    change has _ (TX n) = has _ (TX n) at h1; change has _ (RX n) = has _ (RX n) at h2; change has _ (ERR n) = has _ (ERR n) at h3
    (repeat' (split at hs)) <;> simp only [Option.some.injEq] at hs <;> subst hs <;>
      refine ⟨rfl, ⟨?_, ?_, ?_, ?_, ?_, ?_, ?_, ?_, ?_⟩, fun dr => ⟨?_, ?_, ?_, ?_, ?_⟩⟩ <;>
      first
        | (intro u hu; rcases u with _ | _ | u <;> first | exact absurd rfl hu | exact ⟨rfl, rfl⟩)
        | simp_all [flags, sDone, sFail, Pulse.sWk, sRef, Ev.writes, Ev.rel, Ev.acq, dn, kn, sSt]
  case satRmw p =>
    have hh : ∀ {i : Nat}, i < 5 → has (satWord st (satArg p)) (flag (n + 6) i) = has st (flag (n + 6) i) := fun hi => has_satWord st p hi
    have h1 := @hh 0 (by decide); have h2 := @hh 1 (by decide); have h3 := @hh 2 (by decide)
    change has _ (TX n) = has _ (TX n) at h1; change has _ (RX n) = has _ (RX n) at h2; change has _ (ERR n) = has _ (ERR n) at h3
    (repeat' (split at hs)) <;> simp only [Option.some.injEq] at hs <;> subst hs <;>
      refine ⟨rfl, ⟨?_, ?_, ?_, ?_, ?_, ?_, ?_, ?_, ?_⟩, fun dr => ⟨?_, ?_, ?_, ?_, ?_⟩⟩ <;>
      first
        | (intro u hu; rcases u with _ | _ | u <;> first | exact absurd rfl hu | exact ⟨rfl, rfl⟩)
        | simp_all [flags, sDone, sFail, Pulse.sWk, sRef, Ev.writes, Ev.rel, Ev.acq, dn, kn, sSt]
  all_goals
    (repeat' (split at hs)) <;> simp only [Option.some.injEq] at hs <;> subst hs <;>
      refine ⟨rfl, ⟨?_, ?_, ?_, ?_, ?_, ?_, ?_, ?_, ?_⟩, fun dr => ⟨?_, ?_, ?_, ?_, ?_⟩⟩ <;>
      first
        | (intro u hu; rcases u with _ | _ | u <;> first | exact absurd rfl hu | exact ⟨rfl, rfl⟩)
        | ((try have dr1 := dr.1)
           simp only [flags, sDone, sFail, Pulse.sWk, sRef, Ev.writes, Ev.rel, Ev.acq, dn, kn, sSt]
           (try flag_simp)
           simp_all [dn, kn, sSt, sDone])

set_option maxHeartbeats 4000000 in
theorem s_other {o : Ords} {s s' : State n ε} (inv : Inv s) (hs : sStep s = some s') {l : Nat} {k : Kind}
    (ha : sAcc o s.spc = some (.other l k)) :
    Sane false ⟨0, l, k⟩ ∧ k.atomic = false ∧ (k = .free → s'.freed = true) ∧ s'.st = s.st ∧
    TransO (flags s) (flags s') ⟨0, l, k⟩ ∧ StepD (dn s) (kn s) (dn s') (kn s') ⟨0, l, k⟩ := by
  have hf := s_alive hs ha
  obtain ⟨st, data, rxw, txw, freed, spc, rpc, log⟩ := s
  unfold Inv at inv
  obtain ⟨half, closed, rtx, sundo, sfail, sbad, rundo, rplain, first1, first2, first3, first3', first4, first5, hfreed,
    rStore, hsWk, hrxw, sStore, htxw, hdata, dOk, sref, arg⟩ := inv
  dsimp only at *
  subst hf
  unfold sStep at hs
  cases spc <;> simp only [sAcc, Option.some.injEq, Acc.other.injEq, reduceCtorEq] at ha <;> obtain ⟨rfl, rfl⟩ := ha <;>
    simp only [SPc.resting, Bool.false_eq_true, if_false] at hs
  all_goals
    (try simp only [errTail, State.emit, State.release] at hs) <;> (repeat' (split at hs)) <;>
    simp only [Option.some.injEq, reduceCtorEq] at hs <;> subst hs <;>
    refine ⟨?_, rfl, ?_, rfl, ⟨⟨?_, ?_, rfl, rfl, ?_, ?_, ?_⟩, ?_, ?_, ?_, ?_, ?_, ?_⟩, ⟨fun _ => rfl, ?_, ?_, ?_, ?_⟩⟩ <;>
    first
      | (intro u hu; rcases u with _ | _ | u <;> first | exact absurd rfl hu | exact ⟨rfl, rfl⟩)
      | (simp only [flags, By, ByW, Sane, Kind.atomic, dn, kn] <;> (try spc_simp) <;> grind)

theorem s_load {o : Ords} {s s' : State n ε} (inv : Inv s) {l : Nat} {a : Bool} {v : Word n} (hv : has v (TX n) = has s.st (TX n))
    (hs : sStep { s with st := v } = some s') (ha : sAcc o s.spc = some (.load l a)) (k : Nat) :
    l = 0 ∧ a = false ∧ Inv { s' with st := s.st } ∧ TransA (flags s) (flags { s' with st := s.st }) ⟨0, l, .load a k⟩ ∧
    StepD (dn s) (kn s) (dn { s' with st := s.st }) (kn { s' with st := s.st }) ⟨0, l, .load a k⟩ := by
  have hf := s_alive (s := { s with st := v }) hs ha
  obtain ⟨st, data, rxw, txw, freed, spc, rpc, log⟩ := s
  unfold Inv at inv
  obtain ⟨half, closed, rtx, sundo, sfail, sbad, rundo, rplain, first1, first2, first3, first3', first4, first5, hfreed,
    rStore, hsWk, hrxw, sStore, htxw, hdata, dOk, sref, arg⟩ := inv
  dsimp only at *
  subst hf
  unfold sStep at hs
  cases spc <;> simp only [sAcc, Option.some.injEq, Acc.load.injEq, reduceCtorEq] at ha <;> obtain ⟨rfl, rfl⟩ := ha <;>
    simp only [SPc.resting, Bool.false_eq_true, if_false] at hs
  all_goals
    (try simp only [State.emit] at hs) <;> (repeat' (split at hs)) <;>
    simp only [Option.some.injEq] at hs <;> subst hs
    all_goals
      refine ⟨rfl, rfl, ?_, ⟨?_, ?_, ?_, ?_, ?_, ?_, ?_, ?_, ?_⟩, ⟨?_, ?_, ?_, ?_, ?_⟩⟩
      · unfold Inv; constructor <;> (try spc_simp) <;> grind
      all_goals
        first
          | (intro u hu; rcases u with _ | _ | u <;> first | exact absurd rfl hu | exact ⟨rfl, rfl⟩)
          | (simp only [flags, dn, kn] <;> (try spc_simp) <;> grind)

theorem s_freed {o : Ords} {s s' : State n ε} (hs : sStep s = some s') {l : Nat} {w : Ord} (ha : sAcc o s.spc = some (.rmw l w)) :
    s'.freed = s.freed := by
  obtain ⟨st, data, rxw, txw, freed, spc, rpc, log⟩ := s
  unfold sStep at hs
  cases spc <;> simp only [sAcc, Option.some.injEq, Acc.rmw.injEq, reduceCtorEq] at ha <;>
    simp only [SPc.resting, Bool.false_eq_true, if_false] at hs <;> cases freed <;>
    simp only [if_true, Bool.false_eq_true, if_false, reduceCtorEq] at hs
  all_goals
    (try simp only [sendTail, satTail, errTail, State.emit] at hs) <;> (repeat' (split at hs)) <;>
    simp only [Option.some.injEq] at hs <;> subst hs <;> rfl

end Verif.Pulse
