import Verif.Ring.OrderSpec
import Verif.Ring.Run
import Verif.Order.Duo
/-! # The accesses of the sender of the ring channel -/
namespace Verif.Ring

open Verif.Spsc Verif.Order

variable {k cap : Nat} {τ ε : Type}

def flags (cap : Nat) (s : State k τ ε) : Fl :=
  { data := has s.st (ERR k) || rRead s.rpc, rx := has s.st (RX k), tx := hasWaker s.st, early := !sDone s.spc || sFail s.spc,
    rread := rRead s.rpc, swk := sWk s.spc || sRef s.spc, rtx := rTx s.rpc || rWake s.rpc || rUndoWake cap s.rpc }

def dn (s : State k τ ε) : Nat → Bool
  | 0 => sDone s.spc
  | 1 => rDone s.rpc
  | _ => false

def kn (s : State k τ ε) : Nat → Bool
  | 0 => sSt s.spc == some true
  | 1 => rSt s.rpc == some true
  | _ => false

def okV (t : Nat) (s : State k τ ε) (l : Nat) (v : Word k) : Prop := t = 0 → l = 0 → hasWaker v = hasWaker s.st

/-- With an access due, the object is there. -/
theorem s_alive {o : Ords} {s s' : State k τ ε} (hs : sStep cap s = some s') {a : Acc} (ha : sAcc o s.spc = some a) : s.freed = false := by
  obtain ⟨st, buf, err, rxw, txw, freed, spc, rpc, log⟩ := s
  cases spc <;> cases freed <;> simp_all [sStep, SPc.resting, sAcc]

set_option maxHeartbeats 4000000 in
theorem s_rmw {o : Ords} (en : Enough o) {s s' : State k τ ε} (inv : Inv cap s) (hs : sStep cap s = some s') {l : Nat} {w : Ord}
    (ha : sAcc o s.spc = some (.rmw l w)) :
    l = 0 ∧ TransA (flags cap s) (flags cap s') ⟨0, l, .rmw w.acq w.rel⟩ ∧
    (DropsRelease o → StepD (dn s) (kn s) (dn s') (kn s') ⟨0, l, .rmw w.acq w.rel⟩) := by
  have hf := s_alive hs ha
  have hhalf := inv.half
  have hgone := (rFacts cap s.rpc).gone
  have hdok := inv.dOk
  obtain ⟨st, buf, err, rxw, txw, freed, spc, rpc, log⟩ := s
  obtain ⟨e1, e2, e3, e4, e5, e6, e7, e8, e9⟩ := en
  dsimp only at hf hhalf hgone hdok
  subst hf
  unfold sStep at hs
  cases spc <;> simp only [sAcc, Option.some.injEq, Acc.rmw.injEq, reduceCtorEq] at ha <;> obtain ⟨rfl, rfl⟩ := ha <;>
    simp only [SPc.resting, Bool.false_eq_true, if_false] at hs <;>
    (try simp only [errTail, owMid, State.emit] at hs)
  case pRmw κ w wr =>
    have e3 := e3 κ
    cases κ <;>
    (repeat' (split at hs)) <;> simp only [Option.some.injEq] at hs <;> subst hs <;>
      refine ⟨rfl, ⟨?_, ?_, ?_, ?_, ?_, ?_, ?_, ?_, ?_⟩, fun dr => ⟨?_, ?_, ?_, ?_, ?_⟩⟩ <;>
      first
        | (intro u hu; rcases u with _ | _ | u <;> first | exact absurd rfl hu | exact ⟨rfl, rfl⟩)
        | (simp only [flags, sDone, sFail, Ring.sWk, sRef, Ev.writes, Ev.rel, Ev.acq, dn, kn, sSt, setKind]
           (try flag_simp)
           first | grind | simp_all [dn, kn, sSt, sDone])
  all_goals
    (repeat' (split at hs)) <;> simp only [Option.some.injEq] at hs <;> subst hs <;>
      refine ⟨rfl, ⟨?_, ?_, ?_, ?_, ?_, ?_, ?_, ?_, ?_⟩, fun dr => ⟨?_, ?_, ?_, ?_, ?_⟩⟩ <;>
      first
        | (intro u hu; rcases u with _ | _ | u <;> first | exact absurd rfl hu | exact ⟨rfl, rfl⟩)
        | ((try have dr1 := dr.1)
           simp only [flags, sDone, sFail, Ring.sWk, sRef, Ev.writes, Ev.rel, Ev.acq, dn, kn, sSt]
           (try flag_simp)
           first | grind | simp_all [dn, kn, sSt, sDone])

set_option maxHeartbeats 4000000 in
theorem s_other {o : Ords} {s s' : State k τ ε} (inv : Inv cap s) (hs : sStep cap s = some s') {l : Nat} {κ : Order.Kind}
    (ha : sAcc o s.spc = some (.other l κ)) :
    Sane true ⟨0, l, κ⟩ ∧ κ.atomic = false ∧ (κ = .free → s'.freed = true) ∧ s'.st = s.st ∧
    TransO (flags cap s) (flags cap s') ⟨0, l, κ⟩ ∧ StepD (dn s) (kn s) (dn s') (kn s') ⟨0, l, κ⟩ := by
  have hf := s_alive hs ha
  obtain ⟨st, buf, err, rxw, txw, freed, spc, rpc, log⟩ := s
  unfold Inv at inv
  obtain ⟨half, closed, rtx, sundo, sfail, sbad, rundo, rplain, first1, first2, first3, first3', first4, first5, hfreed,
    rStore, hsWk, hrxw, sStore, skind, rwake, htxw, hdata, dOk, sref⟩ := inv
  dsimp only at *
  subst hf
  unfold sStep at hs
  cases spc <;> simp only [sAcc, Option.some.injEq, Acc.other.injEq, reduceCtorEq] at ha <;> obtain ⟨rfl, rfl⟩ := ha <;>
    simp only [SPc.resting, Bool.false_eq_true, if_false] at hs
  all_goals
    (try simp only [errTail, State.emit, State.release] at hs) <;> (repeat' (split at hs)) <;>
    simp only [Option.some.injEq, reduceCtorEq] at hs <;> subst hs <;>
    refine ⟨?_, rfl, ?_, rfl, ⟨⟨?_, ?_, rfl, rfl, ?_, ?_, ?_⟩, ?_, ?_, ?_, ?_, ?_, ?_⟩, ⟨fun _ => rfl, ?_, ?_, ?_, ?_⟩⟩ <;>
    first
      | (intro u hu; rcases u with _ | _ | u <;> first | exact absurd rfl hu | exact ⟨rfl, rfl⟩)
      | (simp only [flags, By, ByW, Sane, Order.Kind.atomic, dn, kn] <;> (try spc_simp) <;> grind)

set_option maxHeartbeats 4000000 in
theorem s_load {o : Ords} {s s' : State k τ ε} (inv : Inv cap s) {l : Nat} {a : Bool} {v : Word k} (hv : hasWaker v = hasWaker s.st)
    (hs : sStep cap { s with st := v } = some s') (ha : sAcc o s.spc = some (.load l a)) (n : Nat) :
    l = 0 ∧ a = false ∧ Inv cap { s' with st := s.st } ∧ TransA (flags cap s) (flags cap { s' with st := s.st }) ⟨0, l, .load a n⟩ ∧
    StepD (dn s) (kn s) (dn { s' with st := s.st }) (kn { s' with st := s.st }) ⟨0, l, .load a n⟩ := by
  have hf := s_alive (s := { s with st := v }) hs ha
  obtain ⟨st, buf, err, rxw, txw, freed, spc, rpc, log⟩ := s
  unfold Inv at inv
  obtain ⟨half, closed, rtx, sundo, sfail, sbad, rundo, rplain, first1, first2, first3, first3', first4, first5, hfreed,
    rStore, hsWk, hrxw, sStore, skind, rwake, htxw, hdata, dOk, sref⟩ := inv
  dsimp only at *
  subst hf
  unfold sStep at hs
  cases spc <;> simp only [sAcc, Option.some.injEq, Acc.load.injEq, reduceCtorEq] at ha <;> obtain ⟨rfl, rfl⟩ := ha <;>
    simp only [SPc.resting, Bool.false_eq_true, if_false] at hs
  all_goals
    (try simp only [owMid, State.emit] at hs) <;> (repeat' (split at hs)) <;>
    simp only [Option.some.injEq] at hs <;> subst hs
    all_goals
      refine ⟨rfl, rfl, ?_, ⟨?_, ?_, ?_, ?_, ?_, ?_, ?_, ?_, ?_⟩, ⟨?_, ?_, ?_, ?_, ?_⟩⟩
      · unfold Inv; constructor <;> (try spc_simp) <;> grind
      all_goals
        first
          | (intro u hu; rcases u with _ | _ | u <;> first | exact absurd rfl hu | exact ⟨rfl, rfl⟩)
          | (simp only [flags, dn, kn] <;> (try spc_simp) <;> grind)

end Verif.Ring
