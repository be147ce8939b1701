import Verif.Pulse.OrderRun
import Verif.Order.Witness
/-!
# C77: the accesses to a pulse channel are ordered

Full property: with the orderings of the source, no schedule of the two ends has a data race:
`∀ tr, (machine n ε ords).Trace tr → ∀ i j, ¬ Race tr i j`.
This is false (`C77_pulse_false`): as with the oneshot channel, the release of the object is not ordered after the accesses
of the other end.
-/
namespace Verif.Pulse

open Verif.Spsc Verif.Order

variable {n : Nat} {ε : Type}

/-- The orderings of the source with `AcqRel` in both drops. -/
def fixedOrds : Ords := { ords with sDrop := ⟨true, true⟩, rDrop := ⟨true, true⟩ }

/-! ### Evaluating schedules -/

theorem cnt_zero : cnt (0#(n + 6)) = 0 := by simp [cnt]

theorem cnt_flag' {i : Nat} (hi : i < 5) : cnt (flag (n + 6) i) = 0 := by
  have := cnt_or_flag (0#(n + 6)) hi
  rwa [BitVec.zero_or, cnt_zero] at this

theorem cnt_ERR' : cnt (ERR n) = 0 := cnt_flag' (by decide)
theorem cnt_RX' : cnt (RX n) = 0 := cnt_flag' (by decide)
theorem cnt_TX' : cnt (TX n) = 0 := cnt_flag' (by decide)
theorem cnt_CLOSED' : cnt (CLOSED n) = 0 := cnt_flag' (by decide)
theorem cnt_HALF' : cnt (HALF n) = 0 := cnt_flag' (by decide)

theorem lt_cap_zero : ¬ capacity n - 1 < 0#(n + 6) := by simp [BitVec.lt_def]

theorem add_zero' (st : Word n) : checkedAdd st 0#(n + 6) = some st := by
  unfold checkedAdd
  have := st.isLt
  simp [this]

theorem addWord_zero (st : Word n) : addWord st 0#(n + 6) = st := by simp [addWord, add_zero']

theorem satWord_zero (st : Word n) : satWord st 0#(n + 6) = st := by simp [satWord, add_zero']

theorem satArg_zero : satArg 0#(n + 6) = 0#(n + 6) := by simp [satArg, lt_cap_zero]

/-- Evaluate a schedule. -/
macro "ptrace" : tactic => `(tactic| simp [Machine.prun, Machine.pstep, Machine.go, Machine.pinit, machine, sStep, rStep, sAcc, rAcc,
  sCall, rCall, init, SPc.isIdle, RPc.isIdle, SPc.resting, RPc.resting, has_or, State.emit, ords, fixedOrds, has_zero, sendTail,
  satTail, errTail, dropTail, gotCount, State.release, upd, cnt_zero, lt_cap_zero, add_zero', addWord_zero, satWord_zero, satArg_zero,
  cnt_takeWord, cnt_ERR', cnt_RX', cnt_TX', cnt_CLOSED', cnt_HALF', cnt_TX, cnt_RX, cnt_ERR, cnt_CLOSED, cnt_HALF, has_TX_TX,
  has_TX_RX, has_TX_ERR, has_TX_CLOSED, has_TX_HALF, has_RX_TX, has_RX_RX, has_RX_ERR, has_RX_CLOSED, has_RX_HALF, has_ERR_TX,
  has_ERR_RX, has_ERR_ERR, has_ERR_CLOSED, has_ERR_HALF, has_CLOSED_TX, has_CLOSED_RX, has_CLOSED_ERR, has_CLOSED_CLOSED,
  has_CLOSED_HALF, has_HALF_TX, has_HALF_RX, has_HALF_ERR, has_HALF_CLOSED, has_HALF_HALF, has_take_TX, has_take_RX,
  has_take_ERR, has_take_CLOSED, has_take_HALF])

/-- The error and the two wakers are never accessed in a race, whatever the relaxed loads return; the only access in races
is the release of the object. -/
theorem C77_pulse_partial (tr : List Ev) (h : (machine n ε ords).Trace tr) (i j : Nat) (hr : Race tr i j) : WithFree tr j := by
  rcases (duo (n := n) (ε := ε) (o := ords) ⟨rfl, rfl, rfl, rfl, rfl, rfl, rfl, rfl, rfl, rfl⟩).races (plain _) h hr with h | h
  · exact h.1
  · exact nomatch h.1

/-- An error is sent and received. -/
example : ((machine 26 Nat ords).prun (machine 26 Nat ords).pinit
    [.call (.inl (.sendErr 7)), .step 0 0, .step 0 0, .call (.inr .tryNext), .step 1 0, .step 1 0]).map (·.tr) =
    some [⟨0, lErr, .write⟩, ⟨0, lState, .rmw true true⟩, ⟨1, lState, .rmw true false⟩, ⟨1, lErr, .read⟩] := by ptrace

/-- Which orderings are needed for this: exactly those that `Enough` lists, and the source has no others. -/
theorem C77_pulse_exact (v : ε) (o : Ords) :
    (∀ tr, (machine n ε o).Trace tr → ∀ i j, Race tr i j → WithFree tr j) ↔ Enough o := by
  refine ⟨fun h => ?_, fun en tr h i j hr => ?_⟩
  rotate_left
  · rcases (duo (n := n) (ε := ε) en).races (plain _) h hr with h | h
    · exact h.1
    · exact nomatch h.1
  have key : ∀ as tr, ((machine n ε o).prun (machine n ε o).pinit as).map (·.tr) = some tr →
      ∀ i j, Race tr i j → WithFree tr j := by
    intro as tr ht
    obtain ⟨p, hp, rfl⟩ := Option.map_eq_some_iff.1 ht
    exact h p.tr ⟨as, p, hp, rfl⟩
  obtain ⟨⟨na, nr⟩, ⟨ua, ur⟩, ⟨sa, sr⟩, ⟨pa, pr⟩, ⟨da, dr⟩, ⟨ca, cr⟩, ⟨ta, tr⟩, ⟨ea, er⟩, ⟨qa, qr⟩, ⟨q2a, q2r⟩, ⟨ra, rr⟩⟩ := o
  have notfree : ∀ {tr : List Ev} {j : Nat} {f : Ev}, tr[j]? = some f → f.kind ≠ .free → ¬ WithFree tr j := by
    rintro tr j f hf hk ⟨f', hf', hk'⟩
    rw [hf, Option.some.injEq] at hf'
    subst hf'
    exact hk hk'
  have s1 := key [.call (.inl (.sendErr v)), .step 0 0, .step 0 0, .call (.inr .tryNext), .step 1 0, .step 1 0]
    [⟨0, 1, .write⟩, ⟨0, 0, .rmw sa sr⟩, ⟨1, 0, .rmw ta tr⟩, ⟨1, 1, .read⟩] (by ptrace) 0 3
  have s2 := key [.call (.inr (.pollNext 0)), .step 1 0, .step 1 0, .step 1 0, .call (.inl (.sendErr v)), .step 0 0, .step 0 0, .step 0 0]
    [⟨1, 0, .rmw qa qr⟩, ⟨1, 2, .write⟩, ⟨1, 0, .rmw q2a q2r⟩, ⟨0, 1, .write⟩, ⟨0, 0, .rmw sa sr⟩, ⟨0, 2, .read⟩] (by ptrace) 1 5
  have s3 := key [.call (.inl (.pollCanceled 0)), .step 0 0, .step 0 0, .step 0 0, .call (.inr .close), .step 1 0, .step 1 0]
    [⟨0, 0, .load false 0⟩, ⟨0, 3, .write⟩, ⟨0, 0, .rmw pa pr⟩, ⟨1, 0, .rmw ca cr⟩, ⟨1, 3, .read⟩] (by ptrace) 1 4
  have s4 := key [.call (.inr (.pollNext 0)), .step 1 0, .step 1 0, .step 1 0, .call (.inl .drop), .step 0 0, .step 0 0]
    [⟨1, 0, .rmw qa qr⟩, ⟨1, 2, .write⟩, ⟨1, 0, .rmw q2a q2r⟩, ⟨0, 0, .rmw da dr⟩, ⟨0, 2, .read⟩] (by ptrace) 1 4
  have s5 := key [.call (.inr (.pollNext 0)), .step 1 0, .step 1 0, .step 1 0, .call (.inl (.send 0#(n + 6))), .step 0 0, .step 0 0]
    [⟨1, 0, .rmw qa qr⟩, ⟨1, 2, .write⟩, ⟨1, 0, .rmw q2a q2r⟩, ⟨0, 0, .rmw na nr⟩, ⟨0, 2, .read⟩] (by ptrace) 1 4
  have s6 := key [.call (.inr (.pollNext 0)), .step 1 0, .step 1 0, .step 1 0, .call (.inl (.sat 0#(n + 6))), .step 0 0, .step 0 0]
    [⟨1, 0, .rmw qa qr⟩, ⟨1, 2, .write⟩, ⟨1, 0, .rmw q2a q2r⟩, ⟨0, 0, .rmw ua ur⟩, ⟨0, 2, .read⟩] (by ptrace) 1 4
  have s7 := key [.call (.inl (.sendErr v)), .step 0 0, .step 0 0, .call (.inr (.pollNext 0)), .step 1 0, .step 1 0]
    [⟨0, 1, .write⟩, ⟨0, 0, .rmw sa sr⟩, ⟨1, 0, .rmw qa qr⟩, ⟨1, 1, .read⟩] (by ptrace) 0 3
  have s9 := key [.call (.inr (.pollNext 0)), .step 1 0, .step 1 0, .call (.inl (.sendErr v)), .step 0 0, .step 0 0, .step 1 0, .step 1 0,
      .step 1 0]
    [⟨1, 0, .rmw qa qr⟩, ⟨1, 2, .write⟩, ⟨0, 1, .write⟩, ⟨0, 0, .rmw sa sr⟩, ⟨1, 0, .rmw q2a q2r⟩, ⟨1, 2, .read⟩,
      ⟨1, 1, .read⟩] (by ptrace) 2 6
  have s10 := key [.call (.inl (.sendErr v)), .step 0 0, .step 0 0, .call (.inr .drop), .step 1 0, .step 1 0]
    [⟨0, 1, .write⟩, ⟨0, 0, .rmw sa sr⟩, ⟨1, 0, .rmw ra rr⟩, ⟨1, 1, .read⟩] (by ptrace) 0 3
  have c : ∀ (l : Nat) (t u : Nat), t ≠ u → Conflict ⟨t, l, .write⟩ ⟨u, l, .read⟩ :=
    fun l t u h => ⟨h, .inr (.inr ⟨rfl, by simp, by simp [Kind.atomic]⟩)⟩
  clear h key
  have hsr : sr = true := by
    cases sr
    · exact absurd (s1 (race_rel 0 3 (by decide) rfl rfl (c _ _ _ (by decide)) rfl)) (notfree rfl (by simp))
    · rfl
  have hsa : sa = true := by
    cases sa
    · exact absurd (s2 (race_acq 1 5 (by decide) rfl rfl (c _ _ _ (by decide)) rfl)) (notfree rfl (by simp))
    · rfl
  subst hsr hsa
  refine ⟨?_, ?_, rfl, ?_, ?_, ?_, ?_, ?_, ?_, ?_⟩
  · cases na
    · exact absurd (s5 (race_acq 1 4 (by decide) rfl rfl (c _ _ _ (by decide)) rfl)) (notfree rfl (by simp))
    · rfl
  · cases ua
    · exact absurd (s6 (race_acq 1 4 (by decide) rfl rfl (c _ _ _ (by decide)) rfl)) (notfree rfl (by simp))
    · rfl
  · cases pr
    · exact absurd (s3 (race_rel 1 4 (by decide) rfl rfl (c _ _ _ (by decide)) rfl)) (notfree rfl (by simp))
    · rfl
  · cases da
    · exact absurd (s4 (race_acq 1 4 (by decide) rfl rfl (c _ _ _ (by decide)) rfl)) (notfree rfl (by simp))
    · rfl
  · cases ca
    · exact absurd (s3 (race_acq 1 4 (by decide) rfl rfl (c _ _ _ (by decide)) rfl)) (notfree rfl (by simp))
    · rfl
  · cases ta
    · exact absurd (s1 (race_acq 0 3 (by decide) rfl rfl (c _ _ _ (by decide)) rfl)) (notfree rfl (by simp))
    · rfl
  · cases qa
    · exact absurd (s7 (race_acq 0 3 (by decide) rfl rfl (c _ _ _ (by decide)) rfl)) (notfree rfl (by simp))
    · rfl
  · have h1 : q2a = true := by
      cases q2a
      · exact absurd (s9 (race_acq 2 6 (by decide) rfl rfl (c _ _ _ (by decide)) rfl)) (notfree rfl (by simp))
      · rfl
    have h2 : q2r = true := by
      cases q2r
      · exact absurd (s2 (race_rel 1 5 (by decide) rfl rfl (c _ _ _ (by decide)) rfl)) (notfree rfl (by simp))
      · rfl
    rw [h1, h2]
  · cases ra
    · exact absurd (s10 (race_acq 0 3 (by decide) rfl rfl (c _ _ _ (by decide)) rfl)) (notfree rfl (by simp))
    · rfl

example : Enough ords := ⟨rfl, rfl, rfl, rfl, rfl, rfl, rfl, rfl, rfl, rfl⟩
example : ¬ Enough { ords with sat := ⟨false, false⟩ } := fun h => nomatch h.sat

/-- Both ends are dropped, one after the other: the sender's update of the state word does not happen before the release
by the receiver. -/
theorem C77_pulse_false : ∃ tr i j, (machine n ε ords).Trace tr ∧ Race tr i j := by
  have h : ((machine n ε ords).prun (machine n ε ords).pinit
      [.call (.inl .drop), .step 0 0, .call (.inr .drop), .step 1 0, .step 1 0]).map (·.tr) =
      some [⟨0, 0, .rmw true false⟩, ⟨1, 0, .rmw true false⟩, ⟨1, 0, .free⟩] := by ptrace
  obtain ⟨p, hp, ht⟩ := Option.map_eq_some_iff.1 h
  refine ⟨p.tr, 0, 2, ⟨_, p, hp, rfl⟩, ?_⟩
  rw [ht]
  exact race_rel 0 2 (by decide) rfl rfl ⟨by decide, .inr (.inl rfl)⟩ rfl

/-- The sender wakes the receiver by reference and is dropped, then the receiver is dropped: the access to the waker does not
happen before the release. -/
theorem C77_pulse_false_waker : ∃ tr i j, (machine n ε ords).Trace tr ∧ Race tr i j ∧ tr[i]? = some ⟨0, lRxw, .read⟩ := by
  have h : ((machine n ε ords).prun (machine n ε ords).pinit
      [.call (.inr (.pollNext 0)), .step 1 0, .step 1 0, .step 1 0, .call (.inl (.send 0#(n + 6))), .step 0 0, .step 0 0,
        .call (.inl .drop), .step 0 0, .step 0 0, .call (.inr .drop), .step 1 0, .step 1 0]).map (·.tr) =
      some [⟨1, 0, .rmw true false⟩, ⟨1, 2, .write⟩, ⟨1, 0, .rmw true true⟩, ⟨0, 0, .rmw true false⟩, ⟨0, 2, .read⟩,
        ⟨0, 0, .rmw true false⟩, ⟨0, 2, .read⟩, ⟨1, 0, .rmw true false⟩, ⟨1, 0, .free⟩] := by ptrace
  obtain ⟨p, hp, ht⟩ := Option.map_eq_some_iff.1 h
  refine ⟨p.tr, 4, 8, ⟨_, p, hp, rfl⟩, ?_⟩
  rw [ht]
  exact ⟨race_rel 4 8 (by decide) rfl rfl ⟨by decide, .inr (.inl rfl)⟩ rfl, rfl⟩

/-- With `AcqRel` in both drops everything that an end does up to its last update of the state word happens before the
release. (`send_err`, the other way of giving up the sender, has it already.) -/
theorem C77_pulse_acqrel (o : Ords) (en : Enough o) (dr : DropsRelease o) (tr : List Ev) (h : (machine n ε o).Trace tr) (i j : Nat)
    (hr : Race tr i j) : WithFree tr j ∧ LateRace tr i j := by
  rcases (duo (n := n) (ε := ε) en).races (plain _) h hr with h | h
  · exact ⟨h.1, h.2 dr⟩
  · exact nomatch h.1

example : Enough fixedOrds ∧ DropsRelease fixedOrds := ⟨⟨rfl, rfl, rfl, rfl, rfl, rfl, rfl, rfl, rfl, rfl⟩, ⟨rfl, rfl⟩⟩

/-- Also then, a sender that is not done with the receiver's waker when the receiver is dropped is in a race. -/
theorem C77_pulse_late (v : ε) : ∃ tr i j, (machine n ε fixedOrds).Trace tr ∧ Race tr i j ∧ tr[i]? = some ⟨0, lRxw, .read⟩ := by
  have h : ((machine n ε fixedOrds).prun (machine n ε fixedOrds).pinit
      [.call (.inr (.pollNext 0)), .step 1 0, .step 1 0, .step 1 0, .call (.inl (.sendErr v)), .step 0 0, .step 0 0, .step 0 0,
        .call (.inr .drop), .step 1 0, .step 1 0, .step 1 0]).map (·.tr) =
      some [⟨1, 0, .rmw true false⟩, ⟨1, 2, .write⟩, ⟨1, 0, .rmw true true⟩, ⟨0, 1, .write⟩, ⟨0, 0, .rmw true true⟩,
        ⟨0, 2, .read⟩, ⟨1, 0, .rmw true true⟩, ⟨1, 1, .read⟩, ⟨1, 0, .free⟩] := by ptrace
  obtain ⟨p, hp, ht⟩ := Option.map_eq_some_iff.1 h
  refine ⟨p.tr, 5, 8, ⟨_, p, hp, rfl⟩, ?_⟩
  rw [ht]
  exact ⟨race_rel 5 8 (by decide) rfl rfl ⟨by decide, .inr (.inl rfl)⟩ rfl, rfl⟩

/-- The updates of the state word, by the calls that do them. -/
theorem no_store (o : Ords) {tr : List Ev} (h : (machine n ε o).Trace tr) (m : Nat) (g : Ev) (hg : tr[m]? = some g) (l : Nat) :
    g.isStore l = false := by
  refine trace_all (P := fun g => ∀ l, g.isStore l = false) (fun t s a k ha l => ?_) h m g hg l
  have : ∀ {l r}, a ≠ .store l r := by
    rcases t with _ | _ | t
    · exact (s_acc (ha : sAcc o s.spc = _)).2
    · exact (r_acc (ha : rAcc o s.rpc = _)).2
    · cases ha
  cases a with
  | store l r => exact absurd rfl this
  | other l k =>
    have hk : k.atomic = false := plain (n := n) (ε := ε) o t s l k ha
    cases k <;> simp_all [Acc.ev, Ev.isStore, Kind.atomic]
  | _ => simp [Acc.ev, Ev.isStore]

/-- Pulses order nothing: the receiver gets the pulses, but what the sender did before does not happen before what the receiver
does then, since `send` does not release. -/
theorem C77_pulse_unordered (p : Word n) (h0 : 0 < p.toNat) (hp : p.toNat < 2 ^ (n + 1)) :
    ∃ as s tr, (machine n ε ords).Reaches as s tr ∧ s.log = [.recv p.toNat, .send p.toNat .ok] ∧ tr.length = 2 ∧ ¬ Hb tr 0 1 := by
  have hn := checkedAdd_isNone 0#(n + 6) p hp
  have hc := cnt_addWord 0#(n + 6) p hp
  have he : has (addWord 0#(n + 6) (p <<< 5)) (ERR n) = false := by
    unfold ERR; rw [has_addWord _ _ hp (by decide), has_zero]
  rw [cnt_zero, Nat.zero_add] at hn hc
  rw [if_neg (by omega)] at hc
  rw [decide_eq_false (by omega)] at hn
  have h1 : ¬ capacity n - 1 < p := lt_capacity.2 hp
  have h : ((machine n ε ords).prun (machine n ε ords).pinit
      [.call (.inl (.send p)), .step 0 0, .call (.inr .tryNext), .step 1 0]).map (fun q => (q.tr, q.s.log)) =
      some ([⟨0, 0, .rmw true false⟩, ⟨1, 0, .rmw true false⟩], [.recv p.toNat, .send p.toNat .ok]) := by
    have h2 : p.toNat ≠ 0 := by omega
    simp only [Machine.prun, Machine.pstep, Machine.pinit, machine, init, SPc.isIdle, if_true, sCall, h1, if_false, sAcc, Machine.go,
      sStep, SPc.resting, Bool.false_eq_true, sendTail, hn, has_zero, State.emit, RPc.isIdle, rCall, rAcc, rStep, RPc.resting, hc,
      gotCount, he, ne_eq, h2, not_false_eq_true, Option.map_some, List.nil_append, List.cons_append, ords]
  obtain ⟨q, hq, ht⟩ := Option.map_eq_some_iff.1 h
  rw [Prod.mk.injEq] at ht
  refine ⟨_, q.s, q.tr, ⟨q, hq, rfl, rfl⟩, ht.2, by rw [ht.1]; rfl, fun hb => ?_⟩
  rw [ht.1] at hb
  obtain ⟨f, hf, hft⟩ := hb_same (e := ⟨0, 0, .rmw true false⟩) rfl (fun m f _ hf _ => by
    rcases m with _ | _ | m <;> simp at hf <;> subst hf <;> rfl) hb
  simp at hf
  subst hf
  cases hft

/-- If it did, then what precedes a `send` would happen before what follows a later `try_next`. -/
theorem C77_pulse_ordered (o : Ords) (tr : List Ev) (h : (machine n ε o).Trace tr) (i j : Nat) (a r : Bool) (hij : i < j)
    (hi : tr[i]? = some ⟨0, 0, .rmw a true⟩) (hj : tr[j]? = some ⟨1, 0, .rmw true r⟩) : Hb tr i j :=
  hb_rmw hij hi hj rfl rfl rfl rfl (by simp) fun m g hg => no_store o h m g hg 0

/-- The schedules of `Verif.Pulse.Model` are those in which every load reads the last value. -/
theorem C77_pulse_covers (o : Ords) (as : List (Act n ε)) (s : State n ε) (h : run (init n ε) as = some s) :
    ∃ as' tr, (machine n ε o).Reaches as' s tr := by
  let f : Act n ε → (SOp n ε ⊕ ROp) ⊕ Nat
    | .sCall op => .inl (.inl op)
    | .rCall op => .inl (.inr op)
    | .sStep => .inr 0
    | .rStep => .inr 1
  have hb : ∀ (s : State n ε) a, (machine n ε o).bstep s (f a) = step s a := by
    intro s a
    cases a with
    | sCall op => simp only [f, Machine.bstep, machine, step]; split <;> rfl
    | rCall op => simp only [f, Machine.bstep, machine, step]; split <;> rfl
    | sStep =>
      simp only [f, Machine.bstep, machine, step]
      cases hc : s.spc <;> simp [sAcc, sStep, SPc.resting, hc]
    | rStep =>
      simp only [f, Machine.bstep, machine, step]
      cases hc : s.rpc <;> simp [rAcc, rStep, RPc.resting, hc]
  refine covers (frame o) (as := as.map f) ?_
  show (machine n ε o).brun (init n ε) _ = _
  rw [← h]
  generalize init n ε = s0
  clear h
  induction as generalizing s0 with
  | nil => rfl
  | cons a as ih =>
    simp only [List.map_cons, Machine.brun, hb, run]
    cases step s0 a with
    | none => rfl
    | some s1 => exact ih s1

end Verif.Pulse
