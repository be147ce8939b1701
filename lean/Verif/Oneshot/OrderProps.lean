import Verif.Oneshot.OrderFix
import Verif.Order.Witness
/-!
# C77: the accesses to a oneshot channel are ordered

Full property: with the orderings of the source, no schedule of the two ends has a data race:
`∀ as p, prun ords (pinit α) as = some p → ∀ i j, ¬ Race p.tr i j`.
This is false (`C77_oneshot_false`): the release of the object is not ordered after the accesses of the other end.
-/
namespace Verif.Oneshot

open Verif.Spsc Verif.Order

variable {α : Type}

/-- The orderings of the source with `AcqRel` in both drops. -/
def fixedOrds : Ords := { ords with sDrop := ⟨true, true⟩, rDrop := ⟨true, true⟩ }

/-- Evaluate a schedule. -/
macro "otrace" : tactic => `(tactic| simp [prun, pstep, PState.go, sStep, rStep, sAcc, rAcc, sCall, rCall, pinit, init, SPc.isIdle,
  RPc.isIdle, SPc.resting, RPc.resting, has_or, State.emit, ords, fixedOrds, has_zero, sendTail, dropTail, State.release, has_TX_TX,
  has_TX_RX, has_TX_DATA, has_TX_CLOSED, has_TX_HALF, has_RX_TX, has_RX_RX, has_RX_DATA, has_RX_CLOSED, has_RX_HALF, has_DATA_TX,
  has_DATA_RX, has_DATA_DATA, has_DATA_CLOSED, has_DATA_HALF, has_CLOSED_TX, has_CLOSED_RX, has_CLOSED_DATA, has_CLOSED_CLOSED,
  has_CLOSED_HALF, has_HALF_TX, has_HALF_RX, has_HALF_DATA, has_HALF_CLOSED, has_HALF_HALF, has_clear_TX, has_clear_RX,
  has_clear_DATA, has_clear_CLOSED, has_clear_HALF])

/-- The data and the two wakers are never accessed in a race, whatever the relaxed loads return; the only access in races
is the release of the object. -/
theorem C77_oneshot_partial (as : List (PAct α)) (p : PState α) (h : prun ords (pinit α) as = some p) (i j : Nat)
    (hr : Race p.tr i j) : WithFree p.tr j :=
  (prun_inv ⟨rfl, rfl, rfl, rfl, rfl, rfl, rfl, rfl⟩ pinit_inv h).races i j hr

/-- A value is sent and received. -/
example : (prun ords (pinit Nat) [.sCall (.send 7), .sStep 0, .sStep 0, .rCall .tryRecv, .rStep 0, .rStep 0]).map (·.tr) =
    some [⟨0, lData, .write⟩, ⟨0, lState, .rmw true true⟩, ⟨1, lState, .rmw true false⟩, ⟨1, lData, .read⟩] := rfl

/-- Which orderings are needed for this: exactly those that `Enough` lists, and the source has no others. -/
theorem C77_oneshot_exact (v : α) (o : Ords) :
    (∀ as p, prun o (pinit α) as = some p → ∀ i j, Race p.tr i j → WithFree p.tr j) ↔ Enough o := by
  refine ⟨fun h => ?_, fun en as p h => (prun_inv en pinit_inv h).races⟩
  have key : ∀ as tr, (prun o (pinit α) as).map (·.tr) = some tr → ∀ i j, Race tr i j → WithFree tr j := by
    intro as tr ht
    obtain ⟨p, hp, rfl⟩ := Option.map_eq_some_iff.1 ht
    exact h as p hp
  obtain ⟨⟨sa, sr⟩, ⟨pa, pr⟩, ⟨da, dr⟩, ⟨ca, cr⟩, ⟨ta, tr⟩, ⟨qa, qr⟩, ⟨q2a, q2r⟩, ⟨ra, rr⟩⟩ := o
  have notfree : ∀ {tr : List Ev} {j : Nat} {f : Ev}, tr[j]? = some f → f.kind ≠ .free → ¬ WithFree tr j := by
    rintro tr j f hf hk ⟨f', hf', hk'⟩
    rw [hf, Option.some.injEq] at hf'
    subst hf'
    exact hk hk'
  have s1 := key [.sCall (.send v), .sStep 0, .sStep 0, .rCall .tryRecv, .rStep 0, .rStep 0]
    [⟨0, 1, .write⟩, ⟨0, 0, .rmw sa sr⟩, ⟨1, 0, .rmw ta tr⟩, ⟨1, 1, .read⟩] (by otrace) 0 3
  have s2 := key [.rCall (.poll 0), .rStep 0, .rStep 0, .rStep 0, .sCall (.send v), .sStep 0, .sStep 0, .sStep 0]
    [⟨1, 0, .rmw qa qr⟩, ⟨1, 2, .write⟩, ⟨1, 0, .rmw q2a q2r⟩, ⟨0, 1, .write⟩, ⟨0, 0, .rmw sa sr⟩, ⟨0, 2, .read⟩] (by otrace) 1 5
  have s3 := key [.sCall (.pollCanceled 0), .sStep 0, .sStep 0, .sStep 0, .rCall .close, .rStep 0, .rStep 0]
    [⟨0, 0, .load false 0⟩, ⟨0, 3, .write⟩, ⟨0, 0, .rmw pa pr⟩, ⟨1, 0, .rmw ca cr⟩, ⟨1, 3, .read⟩] (by otrace) 1 4
  have s4 := key [.rCall (.poll 0), .rStep 0, .rStep 0, .rStep 0, .sCall .drop, .sStep 0, .sStep 0]
    [⟨1, 0, .rmw qa qr⟩, ⟨1, 2, .write⟩, ⟨1, 0, .rmw q2a q2r⟩, ⟨0, 0, .rmw da dr⟩, ⟨0, 2, .read⟩] (by otrace) 1 4
  have s7 := key [.sCall (.send v), .sStep 0, .sStep 0, .rCall (.poll 0), .rStep 0, .rStep 0]
    [⟨0, 1, .write⟩, ⟨0, 0, .rmw sa sr⟩, ⟨1, 0, .rmw qa qr⟩, ⟨1, 1, .read⟩] (by otrace) 0 3
  have s9 := key [.rCall (.poll 0), .rStep 0, .rStep 0, .sCall (.send v), .sStep 0, .sStep 0, .rStep 0, .rStep 0, .rStep 0]
    [⟨1, 0, .rmw qa qr⟩, ⟨1, 2, .write⟩, ⟨0, 1, .write⟩, ⟨0, 0, .rmw sa sr⟩, ⟨1, 0, .rmw q2a q2r⟩, ⟨1, 2, .read⟩,
      ⟨1, 1, .read⟩] (by otrace) 2 6
  have s10 := key [.sCall (.send v), .sStep 0, .sStep 0, .rCall .drop, .rStep 0, .rStep 0]
    [⟨0, 1, .write⟩, ⟨0, 0, .rmw sa sr⟩, ⟨1, 0, .rmw ra rr⟩, ⟨1, 1, .read⟩] (by otrace) 0 3
  have c : ∀ (l : Nat) (t u : Nat), t ≠ u → Conflict ⟨t, l, .write⟩ ⟨u, l, .read⟩ :=
    fun l t u h => ⟨h, .inr (.inr ⟨rfl, by simp, by simp [Kind.atomic]⟩)⟩
  clear h key
  have hsr : sr = true := by
    cases sr
    · exact absurd (s1 (race_rel 0 3 (by decide) rfl rfl (c _ _ _ (by decide)) rfl)) (notfree rfl (by simp))
    · rfl
  have hsa : sa = true := by
    cases sa
    · exact absurd (s2 (race_acq 1 5 (by decide) rfl rfl (c _ _ _ (by decide)) rfl)) (notfree rfl (by simp))
    · rfl
  subst hsr hsa
  refine ⟨rfl, ?_, ?_, ?_, ?_, ?_, ?_, ?_⟩
  · cases pr
    · exact absurd (s3 (race_rel 1 4 (by decide) rfl rfl (c _ _ _ (by decide)) rfl)) (notfree rfl (by simp))
    · rfl
  · cases da
    · exact absurd (s4 (race_acq 1 4 (by decide) rfl rfl (c _ _ _ (by decide)) rfl)) (notfree rfl (by simp))
    · rfl
  · cases ca
    · exact absurd (s3 (race_acq 1 4 (by decide) rfl rfl (c _ _ _ (by decide)) rfl)) (notfree rfl (by simp))
    · rfl
  · cases ta
    · exact absurd (s1 (race_acq 0 3 (by decide) rfl rfl (c _ _ _ (by decide)) rfl)) (notfree rfl (by simp))
    · rfl
  · cases qa
    · exact absurd (s7 (race_acq 0 3 (by decide) rfl rfl (c _ _ _ (by decide)) rfl)) (notfree rfl (by simp))
    · rfl
  · have h1 : q2a = true := by
      cases q2a
      · exact absurd (s9 (race_acq 2 6 (by decide) rfl rfl (c _ _ _ (by decide)) rfl)) (notfree rfl (by simp))
      · rfl
    have h2 : q2r = true := by
      cases q2r
      · exact absurd (s2 (race_rel 1 5 (by decide) rfl rfl (c _ _ _ (by decide)) rfl)) (notfree rfl (by simp))
      · rfl
    rw [h1, h2]
  · cases ra
    · exact absurd (s10 (race_acq 0 3 (by decide) rfl rfl (c _ _ _ (by decide)) rfl)) (notfree rfl (by simp))
    · rfl

example : Enough ords := ⟨rfl, rfl, rfl, rfl, rfl, rfl, rfl, rfl⟩
example : ¬ Enough { ords with send := ⟨true, false⟩ } := fun h => nomatch h.send

/-- Both ends are dropped, one after the other: the sender's update of the state word does not happen before the release
by the receiver, since neither drop has release semantics. No waker or value is involved. -/
theorem C77_oneshot_false : ∃ as p i j, prun ords (pinit α) as = some p ∧ Race p.tr i j := by
  have h : (prun ords (pinit α) [.sCall .drop, .sStep 0, .rCall .drop, .rStep 0, .rStep 0]).map (·.tr) =
      some [⟨0, 0, .rmw true false⟩, ⟨1, 0, .rmw true false⟩, ⟨1, 0, .free⟩] := by otrace
  obtain ⟨p, hp, ht⟩ := Option.map_eq_some_iff.1 h
  refine ⟨_, p, 0, 2, hp, ?_⟩
  rw [ht]
  exact race_rel 0 2 (by decide) rfl rfl ⟨by decide, .inr (.inl rfl)⟩ rfl

/-- The receiver takes the sender's waker in `close` and is dropped, then the sender is dropped: the access to the waker does
not happen before the release by the sender. -/
theorem C77_oneshot_false_waker : ∃ as p i j, prun ords (pinit α) as = some p ∧ Race p.tr i j ∧
    p.tr[i]? = some ⟨1, lTxw, .read⟩ := by
  have h : (prun ords (pinit α) [.sCall (.pollCanceled 0), .sStep 0, .sStep 0, .sStep 0, .rCall .close, .rStep 0, .rStep 0,
      .rCall .drop, .rStep 0, .sCall .drop, .sStep 0, .sStep 0]).map (·.tr) =
      some [⟨0, 0, .load false 0⟩, ⟨0, 3, .write⟩, ⟨0, 0, .rmw false true⟩, ⟨1, 0, .rmw true false⟩, ⟨1, 3, .read⟩,
        ⟨1, 0, .rmw true false⟩, ⟨0, 0, .rmw true false⟩, ⟨0, 0, .free⟩] := by otrace
  obtain ⟨p, hp, ht⟩ := Option.map_eq_some_iff.1 h
  refine ⟨_, p, 4, 7, hp, ?_⟩
  rw [ht]
  exact ⟨race_rel 4 7 (by decide) rfl rfl ⟨by decide, .inr (.inl rfl)⟩ rfl, rfl⟩

/-- With `AcqRel` in both drops everything that an end does up to its last update of the state word happens before the
release. -/
theorem C77_oneshot_acqrel (o : Ords) (en : Enough o) (dr : DropsRelease o) (as : List (PAct α)) (p : PState α)
    (h : prun o (pinit α) as = some p) (i j : Nat) (hr : Race p.tr i j) : WithFree p.tr j ∧ LateRace p.tr i j :=
  ⟨(prun_inv en pinit_inv h).races i j hr, (prun_fix en dr pinit_fix h).late i j hr⟩

example : Enough fixedOrds ∧ DropsRelease fixedOrds := ⟨⟨rfl, rfl, rfl, rfl, rfl, rfl, rfl, rfl⟩, ⟨rfl, rfl⟩⟩

/-- Also then, a sender that is not done with the receiver's waker when the receiver is dropped is in a race: nothing
follows its last access. -/
theorem C77_oneshot_late (v : α) : ∃ as p i j, prun fixedOrds (pinit α) as = some p ∧ Race p.tr i j ∧
    p.tr[i]? = some ⟨0, lRxw, .read⟩ := by
  have h : (prun fixedOrds (pinit α) [.rCall (.poll 0), .rStep 0, .rStep 0, .rStep 0, .sCall (.send v), .sStep 0, .sStep 0, .sStep 0,
      .rCall .drop, .rStep 0, .rStep 0, .rStep 0]).map (·.tr) =
      some [⟨1, 0, .rmw true false⟩, ⟨1, 2, .write⟩, ⟨1, 0, .rmw true true⟩, ⟨0, 1, .write⟩, ⟨0, 0, .rmw true true⟩,
        ⟨0, 2, .read⟩, ⟨1, 0, .rmw true true⟩, ⟨1, 1, .read⟩, ⟨1, 0, .free⟩] := by otrace
  obtain ⟨p, hp, ht⟩ := Option.map_eq_some_iff.1 h
  refine ⟨_, p, 5, 8, hp, ?_⟩
  rw [ht]
  exact ⟨race_rel 5 8 (by decide) rfl rfl ⟨by decide, .inr (.inl rfl)⟩ rfl, rfl⟩

/-- The schedules of `Verif.Oneshot.Model` are those in which every load reads the last value. -/
theorem C77_oneshot_covers (o : Ords) (as : List (Act α)) (s : State α) (h : run (init α) as = some s) :
    ∃ as' p, prun o (pinit α) as' = some p ∧ p.s = s :=
  covers h

end Verif.Oneshot
