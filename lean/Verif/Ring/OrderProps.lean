import Verif.Ring.OrderSlots
import Verif.Ring.OrderSeq
import Verif.Order.Witness
/-!
# C77: the accesses to a ring channel are ordered

Full property: with the orderings of the source, no schedule of the two ends has a data race:
`∀ tr, (machine k τ ε cap ords).Trace tr → ∀ i j, ¬ Race tr i j`.
This is false. As with the other channels, the release of the object is not ordered after the accesses of the other end
(`C77_ring_false`). In addition the receiver claims a slot before it reads it and tells nobody when it has: the sender may write
to the slot at the same time (`C77_ring_overlap`), and even when it writes later, nothing orders the write after the reading
(`C77_ring_reuse`).
-/
namespace Verif.Ring

open Verif.Spsc Verif.Order
open Verif.Ring (Kind)

variable {k cap : Nat} {τ ε : Type}

/-- The orderings of the source with `AcqRel` in both drops. -/
def fixedOrds : Ords := { ords with sDrop := ⟨true, true⟩, rDrop := ⟨true, true⟩ }

theorem enough_ords : Enough ords := ⟨rfl, rfl, fun _ => rfl, rfl, rfl, rfl, rfl, rfl, rfl⟩

/-! ### Evaluating schedules -/

theorem len_flag' {i : Nat} (hi : i < 6) : len (flag (2 * k + 6) i) = 0 := by
  have := len_or_flag (0#(2 * k + 6)) hi
  rwa [BitVec.zero_or, len_zero] at this

theorem cur_flag' {i : Nat} (hi : i < 6) : cur (flag (2 * k + 6) i) = 0 := by
  have := cur_or_flag (0#(2 * k + 6)) hi
  rwa [BitVec.zero_or, cur_zero] at this

theorem len_take0 {st : Word k} (h : len st = 0) : len (take cap st) = 0 := by
  unfold take
  rw [len_not_ERR]
  unfold claimUnlessEmpty
  simp [h]

theorem len_RX' : len (RX k) = 0 := len_flag' (by decide)
theorem len_ERR' : len (ERR k) = 0 := len_flag' (by decide)
theorem len_CLOSED' : len (CLOSED k) = 0 := len_flag' (by decide)
theorem len_HALF' : len (HALF k) = 0 := len_flag' (by decide)
theorem len_init (h : 1 < 2 ^ k) : len (addLength 0#(2 * k + 6)) = 1 := by
  rw [len_addLength (by rw [len_zero]; exact h), has_zero, len_zero]; rfl

/-- Evaluate a schedule. -/
macro "rtrace" "[" ts:Lean.Parser.Tactic.simpLemma,* "]" : tactic => `(tactic| simp [Machine.prun, Machine.pstep, Machine.go, Machine.pinit, machine, guarded, calm, RPc.slots, sStep, rStep, sAcc, rAcc,
  sCall, rCall, init, SPc.isIdle, RPc.isIdle, SPc.resting, RPc.resting, has_or, State.emit, ords, fixedOrds, has_zero, errTail, dropTail, dropLoop,
  takeValue, owMid, hasKind, shouldWake, pollReady, hasWaker, State.release, upd, Order.upd, len_zero, cur_zero, addCursor, len_take0, len_RX', len_ERR', len_CLOSED', len_HALF',
  len_or_RX, len_or_ERR, len_or_CLOSED, len_or_HALF,
  has_READY_READY, has_READY_FLUSH, has_READY_RX, has_READY_ERR, has_READY_CLOSED, has_READY_HALF, has_FLUSH_READY, has_FLUSH_FLUSH, has_FLUSH_RX, has_FLUSH_ERR, has_FLUSH_CLOSED, has_FLUSH_HALF, has_RX_READY, has_RX_FLUSH, has_RX_RX, has_RX_ERR, has_RX_CLOSED, has_RX_HALF, has_ERR_READY, has_ERR_FLUSH, has_ERR_RX, has_ERR_ERR, has_ERR_CLOSED, has_ERR_HALF, has_CLOSED_READY, has_CLOSED_FLUSH, has_CLOSED_RX, has_CLOSED_ERR, has_CLOSED_CLOSED, has_CLOSED_HALF, has_HALF_READY, has_HALF_FLUSH, has_HALF_RX, has_HALF_ERR, has_HALF_CLOSED, has_HALF_HALF,
  has_addLength_READY, has_addLength_FLUSH, has_addLength_RX, has_addLength_ERR, has_addLength_CLOSED, has_addLength_HALF,
  has_take_READY, has_take_FLUSH, has_take_RX, has_take_ERR, has_take_CLOSED, has_take_HALF, has_clearLen_READY, has_clearLen_FLUSH,
  has_clearLen_RX, has_clearLen_ERR, has_clearLen_CLOSED, has_clearLen_HALF, cur_addLength, $ts,*])

/-- There are two threads, and slots are accessed without atomics. -/
theorem slot_ev (o : Ords) (ok : State k τ ε → Bool) {tr : List Ev} (h : (guarded k τ ε cap o ok).Trace tr) (m : Nat) (g : Ev)
    (hg : tr[m]? = some g) : g.tid < 2 ∧ (4 ≤ g.loc → g.kind = .read ∨ g.kind = .write) := by
  refine trace_all (P := fun g => g.tid < 2 ∧ (4 ≤ g.loc → g.kind = .read ∨ g.kind = .write)) (fun t s a k ha => ?_) h m g hg
  rcases t with _ | _ | t
  · have ha : sAcc o s.spc = some a := ha
    cases hc : s.spc <;> rw [hc] at ha <;> simp [sAcc] at ha <;> subst ha <;> simp [Acc.ev]
  · have ha : rAcc o cap s.rpc = some a := ha
    cases hc : s.rpc <;> rw [hc] at ha <;> simp [rAcc] at ha <;> subst ha <;> simp [Acc.ev]
  · cases ha

/-- No race between accesses to the wakers, the error and the state word, whatever the relaxed loads return. -/
theorem C77_ring_wakers (tr : List Ev) (h : (machine k τ ε cap ords).Trace tr) (i j : Nat) (hr : Race tr i j) :
    WithFree tr j ∨ ∃ f, tr[j]? = some f ∧ 4 ≤ f.loc := by
  rcases (duo (k := k) (τ := τ) (ε := ε) (cap := cap) (ok := fun _ => true) enough_ords).races (plain _ _) h hr with h | h
  · exact .inl h.1
  · exact .inr h.2

theorem calm_races {o : Ords} (en : Enough o) (hp : o.push.rel = true) (h1 : 1 < cap) (hcap : cap < 2 ^ k) {tr : List Ev}
    (h : (guarded k τ ε cap o (calm cap)).Trace tr) {i j : Nat} (hr : Race tr i j) : WithFree tr j ∨ Reuse tr i j := by
  obtain ⟨f, hf, hal⟩ := (slots_sound (k := k) (τ := τ) (ε := ε) en hp h1 hcap).races (plain _ _) h hr
  rcases (duo (k := k) (τ := τ) (ε := ε) (cap := cap) (ok := calm cap) en).races (plain _ _) h hr with h' | ⟨-, f', hf', hl⟩
  · exact .inl h'.1
  rw [hf, Option.some.injEq] at hf'
  subst hf'
  obtain ⟨hij, e, f', he, hf', hc, -⟩ := hr
  rw [hf, Option.some.injEq] at hf'
  subst hf'
  obtain ⟨ht, hk⟩ := slot_ev o _ h j f hf
  rcases hal with hal | hal | ⟨h0, x, hx, hxk⟩
  · exact absurd hal (by omega)
  · exact .inl ⟨f, hf, hal⟩
  right
  rw [List.getElem?_take_of_lt hij, he, Option.some.injEq] at hx
  subst hx
  obtain ⟨et, el, ek⟩ := e
  obtain ⟨ft, fl, fk⟩ := f
  obtain ⟨het, -⟩ := slot_ev o _ h i _ he
  dsimp only at h0 hl hxk hk het
  subst h0 hxk
  obtain ⟨hne, hc⟩ := hc
  have : et = 1 := by dsimp only at hne; omega
  subst this
  rcases hk hl with rfl | rfl
  · rcases hc with hc | hc | hc <;> simp [Kind.atomic] at hc
  · rcases hc with hc | hc | ⟨hc, -⟩
    · cases hc
    · cases hc
    · dsimp only at hc
      exact ⟨fl, hl, by rw [← hc]; exact he, hf⟩

/-- The slots, too, are accessed in order, except that the sender's next use of a slot is not ordered after the receiver's
reading. Only schedules count in which the sender does not write to a slot that the receiver has claimed and not yet read. -/
theorem C77_ring_partial (h1 : 1 < cap) (hcap : cap < 2 ^ k) (tr : List Ev) (h : (guarded k τ ε cap ords (calm cap)).Trace tr)
    (i j : Nat) (hr : Race tr i j) : WithFree tr j ∨ Reuse tr i j := calm_races enough_ords rfl h1 hcap h hr

/-- A value is sent and received. -/
example : ((guarded 13 Nat Nat 2 ords (calm 2)).prun (guarded 13 Nat Nat 2 ords (calm 2)).pinit
    [.call (.inl (.trySend 7)), .step 0 0, .step 0 0, .step 0 0, .call (.inr .tryNext), .step 1 0, .step 1 0]).map (·.tr) =
    some [⟨0, lState, .load false 0⟩, ⟨0, lSlot 0, .write⟩, ⟨0, lState, .rmw true true⟩, ⟨1, lState, .rmw true false⟩,
      ⟨1, lSlot 0, .read⟩] := by
  decide +kernel

/-- Which orderings are needed for this: exactly those that `Enough` lists, and that sending a value releases. -/
theorem C77_ring_exact (v : τ) (e : ε) (h1 : 1 < cap) (hcap : cap < 2 ^ k) (o : Ords) :
    (∀ tr, (guarded k τ ε cap o (calm cap)).Trace tr → ∀ i j, Race tr i j → WithFree tr j ∨ Reuse tr i j) ↔
      Enough o ∧ o.push.rel = true := by
  refine ⟨fun h => ?_, fun ⟨en, hp⟩ tr h i j hr => calm_races en hp h1 hcap h hr⟩
  have key : ∀ as tr, ((guarded k τ ε cap o (calm cap)).prun (guarded k τ ε cap o (calm cap)).pinit as).map (·.tr) = some tr →
      ∀ i j, tr[j]?.map (·.kind) = some .read → ¬ Race tr i j := by
    intro as tr ht i j hj hr
    obtain ⟨p, hp, rfl⟩ := Option.map_eq_some_iff.1 ht
    obtain ⟨f, hf, hk⟩ := Option.map_eq_some_iff.1 hj
    rcases h p.tr ⟨as, p, hp, rfl⟩ i j hr with ⟨f', hf', hk'⟩ | ⟨l, -, -, hl⟩
    · rw [hf, Option.some.injEq] at hf'
      subst hf'
      rw [hk] at hk'
      cases hk'
    · rw [hf, Option.some.injEq] at hl
      subst hl
      cases hk
  have h2 : 1 < 2 ^ k := by omega
  have hn : ¬ 0 = cap := by omega
  have hn' : ¬ cap ≤ 0 := by omega
  have hn'' : ¬ cap = 0 := by omega
  have hl := len_init h2
  have hc0 : cur (addLength 0#(2 * k + 6)) = 0 := by rw [cur_addLength (by rw [len_zero]; exact h2), cur_zero]
  obtain ⟨claim, ⟨pa, pr⟩, ⟨ea, er⟩, wait, ⟨da, dr⟩, ⟨ca, cr⟩, ⟨ta, tr⟩, take, ⟨qa, qr⟩, ⟨q2a, q2r⟩, ⟨ra, rr⟩⟩ := o
  have s1 := key [.call (.inl (.sendErr e)), .step 0 0, .step 0 0, .call (.inr .tryNext), .step 1 0, .step 1 0]
    [⟨0, 1, .write⟩, ⟨0, 0, .rmw ea er⟩, ⟨1, 0, .rmw ta tr⟩, ⟨1, 1, .read⟩] (by rtrace [hn]) 0 3 rfl
  have s2 := key [.call (.inr (.pollNext 0)), .step 1 0, .step 1 0, .step 1 0, .call (.inl (.sendErr e)), .step 0 0, .step 0 0, .step 0 0]
    [⟨1, 0, .rmw qa qr⟩, ⟨1, 2, .write⟩, ⟨1, 0, .rmw q2a q2r⟩, ⟨0, 1, .write⟩, ⟨0, 0, .rmw ea er⟩, ⟨0, 2, .read⟩] (by rtrace [hn]) 1 5 rfl
  have s4 := key [.call (.inr (.pollNext 0)), .step 1 0, .step 1 0, .step 1 0, .call (.inl .drop), .step 0 0, .step 0 0]
    [⟨1, 0, .rmw qa qr⟩, ⟨1, 2, .write⟩, ⟨1, 0, .rmw q2a q2r⟩, ⟨0, 0, .rmw da dr⟩, ⟨0, 2, .read⟩] (by rtrace [hn]) 1 4 rfl
  have s5 := key [.call (.inr (.pollNext 0)), .step 1 0, .step 1 0, .step 1 0, .call (.inl (.trySend v)), .step 0 0, .step 0 0, .step 0 0,
      .step 0 0]
    [⟨1, 0, .rmw qa qr⟩, ⟨1, 2, .write⟩, ⟨1, 0, .rmw q2a q2r⟩, ⟨0, 0, .load false 0⟩, ⟨0, 4, .write⟩, ⟨0, 0, .rmw pa pr⟩, ⟨0, 2, .read⟩]
    (by rtrace [hn, hn', hn'']) 1 6 rfl
  have s6 := key [.call (.inl (.trySend v)), .step 0 0, .step 0 0, .step 0 0, .call (.inr .tryNext), .step 1 0, .step 1 0]
    [⟨0, 0, .load false 0⟩, ⟨0, 4, .write⟩, ⟨0, 0, .rmw pa pr⟩, ⟨1, 0, .rmw ta tr⟩, ⟨1, 4, .read⟩]
    (by rtrace [hn, hn', hn'', hl, hc0]) 1 4 rfl
  have s7 := key [.call (.inl (.sendErr e)), .step 0 0, .step 0 0, .call (.inr (.pollNext 0)), .step 1 0, .step 1 0]
    [⟨0, 1, .write⟩, ⟨0, 0, .rmw ea er⟩, ⟨1, 0, .rmw qa qr⟩, ⟨1, 1, .read⟩] (by rtrace [hn]) 0 3 rfl
  have s9 := key [.call (.inr (.pollNext 0)), .step 1 0, .step 1 0, .call (.inl (.sendErr e)), .step 0 0, .step 0 0, .step 1 0, .step 1 0,
      .step 1 0]
    [⟨1, 0, .rmw qa qr⟩, ⟨1, 2, .write⟩, ⟨0, 1, .write⟩, ⟨0, 0, .rmw ea er⟩, ⟨1, 0, .rmw q2a q2r⟩, ⟨1, 2, .read⟩,
      ⟨1, 1, .read⟩] (by rtrace [hn]) 2 6 rfl
  have s10 := key [.call (.inl (.sendErr e)), .step 0 0, .step 0 0, .call (.inr .drop), .step 1 0, .step 1 0]
    [⟨0, 1, .write⟩, ⟨0, 0, .rmw ea er⟩, ⟨1, 0, .rmw ra rr⟩, ⟨1, 1, .read⟩] (by rtrace [hn]) 0 3 rfl
  have c : ∀ (l : Nat) (t u : Nat), t ≠ u → Conflict ⟨t, l, .write⟩ ⟨u, l, .read⟩ :=
    fun l t u h => ⟨h, .inr (.inr ⟨rfl, by simp, by simp [Kind.atomic]⟩)⟩
  have s3 : ∀ κ, (wait κ).rel = true ∧ ca = true := by
    intro κ
    obtain ⟨fs, q, g1, g2, g3, -⟩ := sendMany (o := ⟨claim, ⟨pa, pr⟩, ⟨ea, er⟩, wait, ⟨da, dr⟩, ⟨ca, cr⟩, ⟨ta, tr⟩, take, ⟨qa, qr⟩, ⟨q2a, q2r⟩, ⟨ra, rr⟩⟩)
      (k := k) (τ := τ) (ε := ε) lets_calm hcap (Leads.refl (fresh_init _)) (c := 0) (by omega) quiet_init v cap (by omega)
    rw [Nat.zero_add] at g2
    obtain ⟨n, q', ⟨⟨as, g4⟩, g5, -⟩⟩ := waits lets_calm (by omega) g1 g2 κ
    rw [show (guarded k τ ε cap _ (calm cap)).pinit.tr = [] from rfl, List.nil_append, List.nil_append] at g5
    have hN : ∀ (i : Nat) (x : Ev), [⟨0, 0, .load false n⟩, ⟨0, 3, .write⟩, ⟨0, 0, .rmw (wait κ).acq (wait κ).rel⟩,
        ⟨1, 0, .rmw ca cr⟩, ⟨1, 3, .read⟩][i]? = some x → q'.tr[fs.length + i]? = some x := by
      intro i x hx
      rw [g5, List.getElem?_append_right (by omega), Nat.add_sub_cancel_left]
      exact hx
    have ht : ¬ Race q'.tr (fs.length + 1) (fs.length + 4) :=
      key as q'.tr (by rw [g4]; rfl) _ _ (by rw [hN 4 _ rfl]; rfl)
    constructor
    · cases hw : (wait κ).rel
      · refine absurd (race_rel (fs.length + 1) (fs.length + 4) (by omega) (hN 1 _ rfl) (hN 4 _ rfl) (c _ _ _ (by decide)) ?_) ht
        rw [g5, List.drop_append, List.drop_eq_nil_of_le (by omega), Nat.add_sub_cancel_left]
        simp [Ev.rel, hw]
      · rfl
    · cases ca
      · refine absurd (race_acq (fs.length + 1) (fs.length + 4) (by omega) (hN 1 _ rfl) (hN 4 _ rfl) (c _ _ _ (by decide)) ?_) ht
        rw [g5, List.take_append, List.take_of_length_le (by omega), List.drop_append, List.drop_eq_nil_of_le (by omega),
          show fs.length + 4 + 1 - fs.length = 5 by omega, show fs.length + 1 + 1 - fs.length = 2 by omega]
        simp [Ev.acq]
      · rfl
  clear h key
  have her : er = true := by
    cases er
    · exact absurd (race_rel 0 3 (by decide) rfl rfl (c _ _ _ (by decide)) rfl) s1
    · rfl
  have hea : ea = true := by
    cases ea
    · exact absurd (race_acq 1 5 (by decide) rfl rfl (c _ _ _ (by decide)) rfl) s2
    · rfl
  have hq2a : q2a = true := by
    cases q2a
    · exact absurd (race_acq 2 6 (by decide) rfl rfl (c _ _ _ (by decide)) rfl) s9
    · rfl
  have hq2r : q2r = true := by
    cases q2r
    · exact absurd (race_rel 1 5 (by decide) rfl rfl (c _ _ _ (by decide)) rfl) s2
    · rfl
  subst her hea hq2a hq2r
  refine ⟨⟨?_, rfl, fun κ => (s3 κ).1, ?_, (s3 .close).2, ?_, ?_, rfl, ?_⟩, ?_⟩
  · cases pa
    · exact absurd (race_acq 1 6 (by decide) rfl rfl (c _ _ _ (by decide)) rfl) s5
    · rfl
  · cases da
    · exact absurd (race_acq 1 4 (by decide) rfl rfl (c _ _ _ (by decide)) rfl) s4
    · rfl
  · cases ta
    · exact absurd (race_acq 0 3 (by decide) rfl rfl (c _ _ _ (by decide)) rfl) s1
    · rfl
  · cases qa
    · exact absurd (race_acq 0 3 (by decide) rfl rfl (c _ _ _ (by decide)) rfl) s7
    · rfl
  · cases ra
    · exact absurd (race_acq 0 3 (by decide) rfl rfl (c _ _ _ (by decide)) rfl) s10
    · rfl
  · cases pr
    · exact absurd (race_rel 1 4 (by decide) rfl rfl (c _ _ _ (by decide)) rfl) s6
    · rfl

example : Enough ords ∧ ords.push.rel = true := ⟨enough_ords, rfl⟩
example : ¬ Enough { ords with wait := fun κ => ⟨false, κ == .close⟩ } := fun h => nomatch h.wait .ready

/-- Both ends are dropped, one after the other: the sender's update of the state word does not happen before the release
by the receiver. -/
theorem C77_ring_false : ∃ tr i j, (machine k τ ε cap ords).Trace tr ∧ Race tr i j ∧ WithFree tr j := by
  have h : ((machine k τ ε cap ords).prun (machine k τ ε cap ords).pinit
      [.call (.inl .drop), .step 0 0, .call (.inr .drop), .step 1 0, .step 1 0]).map (·.tr) =
      some [⟨0, 0, .rmw true false⟩, ⟨1, 0, .rmw true false⟩, ⟨1, 0, .free⟩] := by rtrace []
  obtain ⟨p, hp, ht⟩ := Option.map_eq_some_iff.1 h
  refine ⟨p.tr, 0, 2, ⟨_, p, hp, rfl⟩, ?_⟩
  rw [ht]
  exact ⟨race_rel 0 2 (by decide) rfl rfl ⟨by decide, .inr (.inl rfl)⟩ rfl, _, rfl, rfl⟩

/-- With `AcqRel` in both drops everything that an end does up to its last update of the state word happens before the
release. (`send_err`, the other way of giving up the sender, has it already.) -/
theorem C77_ring_acqrel (o : Ords) (en : Enough o) (dr : DropsRelease o) (tr : List Ev) (h : (machine k τ ε cap o).Trace tr)
    (i j : Nat) (hr : Race tr i j) : (WithFree tr j ∧ LateRace tr i j) ∨ ∃ f, tr[j]? = some f ∧ 4 ≤ f.loc := by
  rcases (duo (k := k) (τ := τ) (ε := ε) (cap := cap) (ok := fun _ => true) en).races (plain _ _) h hr with h | h
  · exact .inl ⟨h.1, h.2 dr⟩
  · exact .inr h.2

example : Enough fixedOrds ∧ DropsRelease fixedOrds := ⟨⟨rfl, rfl, fun _ => rfl, rfl, rfl, rfl, rfl, rfl, rfl⟩, ⟨rfl, rfl⟩⟩

/-- Also then, a sender that is not done with the receiver's waker when the receiver is dropped is in a race. -/
theorem C77_ring_late (v : ε) : ∃ tr i j, (machine k τ ε cap fixedOrds).Trace tr ∧ Race tr i j ∧ tr[i]? = some ⟨0, lRxw, .read⟩ := by
  have h : ((machine k τ ε cap fixedOrds).prun (machine k τ ε cap fixedOrds).pinit
      [.call (.inr (.pollNext 0)), .step 1 0, .step 1 0, .step 1 0, .call (.inl (.sendErr v)), .step 0 0, .step 0 0, .step 0 0,
        .call (.inr .drop), .step 1 0, .step 1 0, .step 1 0]).map (·.tr) =
      some [⟨1, 0, .rmw true false⟩, ⟨1, 2, .write⟩, ⟨1, 0, .rmw true true⟩, ⟨0, 1, .write⟩, ⟨0, 0, .rmw true true⟩,
        ⟨0, 2, .read⟩, ⟨1, 0, .rmw true true⟩, ⟨1, 1, .read⟩, ⟨1, 0, .free⟩] := by rtrace []
  obtain ⟨p, hp, ht⟩ := Option.map_eq_some_iff.1 h
  refine ⟨p.tr, 5, 8, ⟨_, p, hp, rfl⟩, ?_⟩
  rw [ht]
  exact ⟨race_rel 5 8 (by decide) rfl rfl ⟨by decide, .inr (.inl rfl)⟩ rfl, rfl⟩

/-- One value is sent and received, and when both calls are over, `cap` more are sent: the last of them is written to the slot
of the first, in a race with its reading. No choice of orderings for the updates of the state word prevents this. -/
theorem C77_ring_reuse (v : τ) (h0 : 0 < cap) (hcap : cap < 2 ^ k) (o : Ords) :
    ∃ as s n fs j, (guarded k τ ε cap o (calm cap)).Reaches as s ([⟨0, 0, .load false n⟩, ⟨0, 4, .write⟩, ⟨0, 0, .rmw o.push.acq o.push.rel⟩,
        ⟨1, 0, .rmw o.tryNext.acq o.tryNext.rel⟩, ⟨1, 4, .read⟩] ++ fs) ∧
      (∀ e ∈ fs, e.tid = 0) ∧ s.spc = .idle ∧ s.rpc = .idle ∧ len s.st = cap ∧
      Race ([⟨0, 0, .load false n⟩, ⟨0, 4, .write⟩, ⟨0, 0, .rmw o.push.acq o.push.rel⟩, ⟨1, 0, .rmw o.tryNext.acq o.tryNext.rel⟩,
        ⟨1, 4, .read⟩] ++ fs) 4 j := by
  obtain ⟨n, q1, g1, g2, g3⟩ := send1 (o := o) (k := k) (τ := τ) (ε := ε) lets_calm hcap (Leads.refl (fresh_init _)) h0 h0 quiet_init v
  have z : addCursor 0 0 cap = 0 := by simp [addCursor]
  rw [z] at g1 g3
  obtain ⟨q2, g4, g5, g6, g7⟩ := claim1 hcap g1 (by decide) h0 g2
  obtain ⟨q3, g8, g9⟩ := read1 g4 g6 h0 g5 (by rw [g7]; exact g3)
  have hc : addCursor 0 1 cap < cap := addCursor_lt h0 (by omega)
  obtain ⟨fs, q4, g10, g11, g12, g13⟩ := sendMany lets_calm hcap g8 hc g9 v cap (by omega)
  obtain ⟨⟨gs, rfl⟩, -⟩ := g13 h0
  have hz : addCursor (addCursor 0 1 cap) (0 + 1 - 1 + cap - 1) cap = 0 := by
    simp only [addCursor]
    split <;> split <;> omega
  rw [hz] at g10 g12
  obtain ⟨⟨as, g14⟩, g15, -⟩ := g10
  rw [show (guarded k τ ε cap o (calm cap)).pinit.tr = [] from rfl] at g15
  refine ⟨as, q4.s, n, gs ++ [⟨0, 4, .write⟩, ⟨0, 0, .rmw o.push.acq o.push.rel⟩], 5 + gs.length, ⟨q4, g14, rfl, by rw [g15]; simp⟩, ?_, g11.spc,
    g11.rpc, by rw [g11.len]; omega, ?_⟩
  · intro e he
    simpa using List.all_eq_true.1 g12 e he
  · refine race_rel (e := ⟨1, 4, .read⟩) (f := ⟨0, 4, .write⟩) 4 (5 + gs.length) (by omega) rfl ?_
      ⟨by decide, .inr (.inr ⟨rfl, by simp, by simp [Kind.atomic]⟩)⟩ ?_
    · rw [List.getElem?_append_right (by simp), List.getElem?_append_right (by simp)]
      simp
    · show List.all (⟨1, 4, .read⟩ :: (gs ++ [⟨0, 4, .write⟩, ⟨0, 0, .rmw o.push.acq o.push.rel⟩])) _ = true
      simp only [List.all_eq_true]
      intro g hg
      rcases List.mem_cons.1 hg with rfl | hg
      · rfl
      · have : g.tid = 0 := by simpa using List.all_eq_true.1 g12 g hg
        simp [this]

/-- The queue is full and the receiver has claimed the oldest value: the sender may now write to its slot before the receiver
has read it, in a race with the reading. This is why `C77_ring_partial` is about `calm` schedules. -/
theorem C77_ring_overlap (v : τ) (h0 : 0 < cap) (hcap : cap < 2 ^ k) (o : Ords) :
    ∃ tr i, (machine k τ ε cap o).Trace tr ∧ Race tr i (i + 1) ∧ tr[i]? = some ⟨0, 4, .write⟩ ∧ tr[i + 1]? = some ⟨1, 4, .read⟩ := by
  obtain ⟨fs, q1, g1, g2, -, -⟩ := sendMany (o := o) (k := k) (τ := τ) (ε := ε) (lets_true (cap := cap)) hcap (Leads.refl (fresh_init _)) h0 quiet_init v cap (by omega)
  rw [Nat.zero_add] at g2
  obtain ⟨q2, g3, g4, g5, g6⟩ := claim1 hcap g1 h0 h0 g2
  have hfr := frame (k := k) (τ := τ) (ε := ε) (cap := cap) (fun _ => true) o
  have hz : addCursor (addCursor 0 1 cap) (cap - 1) cap = 0 := by
    simp only [addCursor]
    split <;> split <;> omega
  have a1 : q2.s.spc = .idle := g4.spc
  have a2 : q2.s.freed = false := g4.freed
  have a3 : len q2.s.st = cap - 1 := g4.len
  have a4 : cur q2.s.st = addCursor 0 1 cap := g4.cur
  have c1 := g3.call hfr (.inl (.trySend v))
  have hcall : (guarded k τ ε cap o fun _ => true).call q2.s (.inl (.trySend v)) = { q2.s with spc := .tsLoad v }.emit (.callSend v) := by
    simp [guarded, a1, SPc.isIdle, sCall]
  rw [hcall] at c1
  obtain ⟨n, q3, c2, e2⟩ := c1.step hfr (t := 0) (a := .load 0 false)
    (s' := { q2.s with spc := .wrWrite v 0 }.emit (.callSend v)) rfl (by
      simp only [guarded, if_true]
      simp [sStep, SPc.resting, State.emit, a2, a3, a4, hz, show ¬ cap - 1 = cap by omega])
  obtain ⟨n', q4, c3, e3⟩ := c2.step hfr (t := 0) (a := .other 4 .write)
    (s' := { q2.s with spc := .wrRmw v 0, buf := upd q2.s.buf 0 (some v) }.emit (.callSend v)) (by rw [e2]; rfl) (by
      simp only [guarded, if_true]
      rw [e2]
      simp [sStep, SPc.resting, State.emit, a2, show ¬ cap ≤ 0 by omega])
  obtain ⟨n'', q5, ⟨⟨as, c4⟩, c5, -⟩, -⟩ := c3.step hfr (t := 1) (a := .other 4 .read)
    (s' := ({ q4.s with buf := upd q4.s.buf 0 none, rpc := .idle }.emit (.recv v))) (by rw [e3]; simp [guarded, State.emit, g5, rAcc]) (by
      rw [e3]
      simp [guarded, rStep, RPc.resting, g5, a2, State.emit, upd, show ¬ cap ≤ 0 by omega])
  rw [show (guarded k τ ε cap o fun _ => true).pinit.tr = [] from rfl, List.nil_append] at c5
  simp only [Acc.ev, List.nil_append, List.append_assoc, List.cons_append] at c5
  have hN : ∀ (i : Nat) (x : Ev), [⟨1, 0, .rmw o.tryNext.acq o.tryNext.rel⟩, ⟨0, 0, .load false n⟩, ⟨0, 4, .write⟩, ⟨1, 4, .read⟩][i]? = some x →
      q5.tr[fs.length + i]? = some x := by
    intro i x hx
    rw [c5, List.getElem?_append_right (by omega), Nat.add_sub_cancel_left]
    exact hx
  refine ⟨q5.tr, fs.length + 2, ⟨as, q5, c4, rfl⟩, race_acq (fs.length + 2) (fs.length + 3) (by omega) (hN 2 _ rfl) (hN 3 _ rfl)
    ⟨by decide, .inr (.inr ⟨rfl, by simp, by simp [Kind.atomic]⟩)⟩ ?_, hN 2 _ rfl, hN 3 _ rfl⟩
  rw [c5, List.take_append, List.take_of_length_le (by omega), List.drop_append, List.drop_eq_nil_of_le (by omega),
    show fs.length + 3 + 1 - fs.length = 4 by omega, show fs.length + 2 + 1 - fs.length = 3 by omega]
  rfl

/-- The updates of the state word, by the calls that do them. -/
theorem no_store (o : Ords) {tr : List Ev} (h : (machine k τ ε cap o).Trace tr) (m : Nat) (g : Ev) (hg : tr[m]? = some g) (l : Nat) :
    g.isStore l = false := by
  refine trace_all (P := fun g => ∀ l, g.isStore l = false) (fun t s a k ha l => ?_) h m g hg l
  have : ∀ {l r}, a ≠ .store l r := by
    rcases t with _ | _ | t
    · exact (s_acc (ha : sAcc o s.spc = _)).2
    · exact (r_acc (ha : rAcc o cap s.rpc = _)).2
    · cases ha
  cases a with
  | store l r => exact absurd rfl this
  | other l k =>
    have hk : k.atomic = false := plain (cap := cap) (fun _ => true) o t s l k ha
    cases k <;> simp_all [Acc.ev, Ev.isStore, Kind.atomic]
  | _ => simp [Acc.ev, Ev.isStore]

/-- What precedes the sending of a value happens before what follows a later update by the receiver. -/
theorem C77_ring_ordered (tr : List Ev) (h : (machine k τ ε cap ords).Trace tr) (i j : Nat) (r : Bool) (hij : i < j)
    (hi : tr[i]? = some ⟨0, 0, .rmw true true⟩) (hj : tr[j]? = some ⟨1, 0, .rmw true r⟩) : Hb tr i j :=
  hb_rmw hij hi hj rfl rfl rfl rfl (by simp) fun m g hg => no_store _ h m g hg 0

/-- The schedules of `Verif.Ring.Model` are those in which every load reads the last value. -/
theorem C77_ring_covers (o : Ords) (as : List (Act τ ε)) (s : State k τ ε) (h : run cap (init k τ ε) as = some s) :
    ∃ as' tr, (machine k τ ε cap o).Reaches as' s tr := by
  let f : Act τ ε → (SOp τ ε ⊕ ROp) ⊕ Nat
    | .sCall op => .inl (.inl op)
    | .rCall op => .inl (.inr op)
    | .sStep => .inr 0
    | .rStep => .inr 1
  have hb : ∀ (s : State k τ ε) a, (machine k τ ε cap o).bstep s (f a) = step cap s a := by
    intro s a
    cases a with
    | sCall op => simp only [f, Machine.bstep, machine, guarded, step]; split <;> rfl
    | rCall op => simp only [f, Machine.bstep, machine, guarded, step]; split <;> rfl
    | sStep =>
      simp only [f, Machine.bstep, machine, guarded, step]
      cases hc : s.spc <;> simp [sAcc, sStep, SPc.resting, hc]
    | rStep =>
      simp only [f, Machine.bstep, machine, guarded, step]
      cases hc : s.rpc <;> simp [rAcc, rStep, RPc.resting, hc]
  refine covers (frame _ o) (as := as.map f) ?_
  show (machine k τ ε cap o).brun (init k τ ε) _ = _
  rw [← h]
  generalize init k τ ε = s0
  clear h
  induction as generalizing s0 with
  | nil => rfl
  | cons a as ih =>
    simp only [List.map_cons, Machine.brun, hb, run]
    cases step cap s0 a with
    | none => rfl
    | some s1 => exact ih s1

end Verif.Ring
