import Verif.Ring.LogCount
/-! # What is in the slots of the buffer -/
namespace Verif.Ring

open Verif.Spsc

variable {k cap : Nat} {τ ε : Type}

/-- `l` slots from slot `c` on. -/
def slots (c l cap : Nat) : List Nat := (List.range l).map (fun j => addCursor c j cap)

theorem slots_zero (c cap : Nat) : slots c 0 cap = [] := rfl

theorem slots_push (c l cap : Nat) : slots c (l + 1) cap = slots c l cap ++ [addCursor c l cap] := by
  simp [slots, List.range_succ]

theorem addCursor_succ {c j cap : Nat} (hc : c < cap) (hj : j + 1 ≤ cap) :
    addCursor (addCursor c 1 cap) j cap = addCursor c (j + 1) cap := by
  unfold addCursor
  repeat' split
  all_goals omega

theorem slots_pop {c l cap : Nat} (hc : c < cap) (hl : 0 < l) (h : l ≤ cap) :
    slots c l cap = c :: slots (addCursor c 1 cap) (l - 1) cap := by
  obtain ⟨l, rfl⟩ := Nat.exists_eq_succ_of_ne_zero (Nat.ne_of_gt hl)
  simp only [slots, Nat.succ_eq_add_one, List.range_succ_eq_map, List.map_cons, List.map_map, Nat.add_sub_cancel,
    addCursor_zero hc, List.cons.injEq, true_and]
  apply List.map_congr_left
  intro j hj
  simp only [List.mem_range] at hj
  simp only [Function.comp]
  exact (addCursor_succ hc (by omega)).symm

theorem addCursor_inj {c a b cap : Nat} (ha : a < cap) (hb : b < cap)
    (h : addCursor c a cap = addCursor c b cap) : a = b := by
  unfold addCursor at h
  repeat' split at h
  all_goals omega

theorem not_mem_slots {c l j cap : Nat} (hl : l ≤ j) (hj : j < cap) : addCursor c j cap ∉ slots c l cap := by
  simp only [slots, List.mem_map, List.mem_range, not_exists, not_and]
  intro a ha h
  have := addCursor_inj (by omega) hj h
  omega

theorem slots_nodup {c l cap : Nat} (hl : l ≤ cap) : (slots c l cap).Nodup := by
  induction l with
  | zero => simp [slots]
  | succ l ih =>
    rw [slots_push, List.nodup_append]
    refine ⟨ih (by omega), by simp, fun a ha b hb => ?_⟩
    simp only [List.mem_singleton] at hb
    subst hb
    rintro rfl
    exact not_mem_slots (Nat.le_refl _) (by omega) ha

/-- The slot before the cursor is free unless the buffer is full. -/
theorem before_not_mem {c i l cap : Nat} (h : addCursor i 1 cap = c) (hi : i < cap) (hl : l < cap) :
    i ∉ slots c l cap := by
  have : i = addCursor c (cap - 1) cap := by
    subst h
    unfold addCursor
    repeat' split
    all_goals omega
  rw [this]
  exact not_mem_slots (by omega) (by omega)

theorem map_upd {buf : Nat → Option τ} {i : Nat} {x : Option τ} {L : List Nat} (h : i ∉ L) :
    L.map (upd buf i x) = L.map buf := by
  apply List.map_congr_left
  intro j hj
  unfold upd
  split
  · subst j; exact absurd hj h
  · rfl

theorem upd_self (buf : Nat → Option τ) (i : Nat) (x : Option τ) : upd buf i x i = x := by simp [upd]
theorem upd_ne {buf : Nat → Option τ} {i j : Nat} {x : Option τ} (h : i ≠ j) : upd buf i x j = buf j := by
  simp [upd, Ne.symm h]

/-- The slot an overwriting send is about to read. -/
def sOw : SPc k τ ε → Option Nat
  | .owRead _ i => some i
  | _ => none

/-- The value the sender has written but not published, and its slot. -/
def sHold : SPc k τ ε → Option (τ × Nat)
  | .wrRmw v i | .wrBack v i => some (v, i)
  | _ => none

/-- The slot the receiver is about to read. -/
def rHold : RPc k → Option Nat
  | .tvRmw i _ _ | .tvWake i | .tvRead i => some i
  | .pnUndo st => if 0 < len st then some (cur st) else none
  | _ => none

/-- The slots `Receiver::drop` has still to drop. -/
def rDel (cap : Nat) : RPc k → List Nat
  | .drSlot st j => (List.range' j (len st - j)).map (fun i => addCursor (cur st) i cap)
  | _ => []

theorem sOw_slot {spc : SPc k τ ε} {i : Nat} (h : sOw spc = some i) : spc.slot = some i := by
  cases spc <;> simp_all [sOw, SPc.slot]

theorem sHold_slot {spc : SPc k τ ε} {v : τ} {i : Nat} (h : sHold spc = some (v, i)) : spc.slot = some i := by
  cases spc <;> simp_all [sHold, SPc.slot]

theorem rHold_slots {rpc : RPc k} {i : Nat} (h : rHold rpc = some i) : i ∈ rpc.slots cap := by
  cases rpc <;> simp_all [rHold, RPc.slots]

theorem rDel_slots {rpc : RPc k} {i : Nat} (h : i ∈ rDel cap rpc) : i ∈ rpc.slots cap := by
  cases rpc <;> simp_all [rDel, RPc.slots]

/-- The contents. -/
structure InvB (cap : Nat) (buf : Nat → Option τ) (c l : Nat) (a : Abs τ) (ow : Option Nat) (hold : Option (τ × Nat))
    (rh : Option Nat) (dr : List Nat) (done : Bool) (all : Prop) : Prop where
  pend : (slots c l cap).map buf = a.pend.map some
  tx : ow.map buf = a.tx.map some
  hold : ∀ v i, hold = some (v, i) → buf i = some v
  rx : rh.map buf = a.rx.map some
  del : dr.map buf = a.del.map some
  rlt : ∀ i, rh = some i → i < cap ∧ addCursor i 1 cap = c ∧ l < cap ∧ done = false
  dlen : done = true → l = 0
  dnodup : dr.Nodup
  ddone : dr ≠ [] → done = true
  alld : all ↔ done = true

/-- The contents are what the log says. -/
def InvC (cap : Nat) (s : State k τ ε) : Prop :=
  InvB cap s.buf (cur s.st) (len s.st) (abs s.log) (sOw s.spc) (sHold s.spc) (rHold s.rpc) (rDel cap s.rpc) (rDone s.rpc)
    (Event.claimAll ∈ s.log) ∧ Hist OkVal s.log

variable {buf : Nat → Option τ} {c l : Nat} {a : Abs τ} {ow : Option Nat} {hold : Option (τ × Nat)}
  {rh : Option Nat} {dr : List Nat} {done : Bool} {all : Prop}

namespace InvB

/-- `write` of a value into the sender's slot. -/
theorem write (b : InvB cap buf c l a none none rh dr done all) {i : Nat} (v : τ) (h1 : i ∉ slots c l cap)
    (h2 : rh ≠ some i) (h3 : i ∉ dr) : InvB cap (upd buf i (some v)) c l a none (some (v, i)) rh dr done all where
  pend := by rw [map_upd h1]; exact b.pend
  tx := b.tx
  hold := by intro v' i' h; simp only [Option.some.injEq, Prod.mk.injEq] at h; obtain ⟨rfl, rfl⟩ := h; exact upd_self ..
  rx := by
    have := b.rx
    cases rh with
    | none => exact this
    | some j => rw [← this]; simp [upd_ne (buf := buf) (x := some v) (i := i) (j := j) (fun h => h2 (h ▸ rfl))]
  del := by rw [map_upd h3]; exact b.del
  rlt := b.rlt
  dlen := b.dlen
  dnodup := b.dnodup
  ddone := b.ddone
  alld := b.alld

/-- The value is published. -/
theorem publish {v : τ} {i : Nat} (b : InvB cap buf c l a none (some (v, i)) rh dr done all) (hi : i = addCursor c l cap)
    (hl : l < cap) (h2 : rh ≠ some i) (hd : done = false) :
    InvB cap buf c (l + 1) { a with pend := a.pend ++ [v] } none none rh dr done all where
  pend := by
    rw [slots_push, List.map_append, b.pend, List.map_append]
    simp [← hi, b.hold v i rfl]
  tx := b.tx
  hold := by simp
  rx := b.rx
  del := b.del
  rlt := by
    intro j hj
    obtain ⟨h3, h4, h5, h6⟩ := b.rlt j hj
    refine ⟨h3, h4, ?_, h6⟩
    apply Classical.byContradiction
    intro h7
    apply h2
    rw [hj, hi]
    have : l = cap - 1 := by omega
    rw [this, ← h4]
    unfold addCursor
    congr 1
    repeat' split
    all_goals omega
  dlen := by simp [hd]
  dnodup := b.dnodup
  ddone := b.ddone
  alld := b.alld

/-- The sender takes its value back. -/
theorem back {v : τ} {i : Nat} (b : InvB cap buf c l a none (some (v, i)) rh dr done all) (h1 : i ∉ slots c l cap)
    (h2 : rh ≠ some i) (h3 : i ∉ dr) : InvB cap (upd buf i none) c l a none none rh dr done all where
  pend := by rw [map_upd h1]; exact b.pend
  tx := b.tx
  hold := by simp
  rx := by
    have := b.rx
    cases rh with
    | none => exact this
    | some j => rw [← this]; simp [upd_ne (buf := buf) (x := none) (i := i) (j := j) (fun h => h2 (h ▸ rfl))]
  del := by rw [map_upd h3]; exact b.del
  rlt := b.rlt
  dlen := b.dlen
  dnodup := b.dnodup
  ddone := b.ddone
  alld := b.alld

/-- The sender removes the oldest value of a full buffer. -/
theorem claimTx (b : InvB cap buf c cap a none none rh dr done all) (hc : c < cap) :
    InvB cap buf (addCursor c 1 cap) (cap - 1) { a with pend := a.pend.tail, tx := a.pend.head? } (some c) none rh dr done
      all where
  pend := by
    have := b.pend
    rw [slots_pop hc (by omega) (Nat.le_refl _)] at this
    cases hp : a.pend with
    | nil => simp [hp] at this
    | cons x p => simp only [hp, List.map_cons, List.cons.injEq] at this; simp [this.2]
  tx := by
    have := b.pend
    rw [slots_pop hc (by omega) (Nat.le_refl _)] at this
    cases hp : a.pend with
    | nil => simp [hp] at this
    | cons x p => simp only [hp, List.map_cons, List.cons.injEq] at this; simp [this.1]
  hold := by simp
  rx := b.rx
  del := b.del
  rlt := by intro i hi; have := (b.rlt i hi).2.2.1; omega
  dlen := by intro h; have := b.dlen h; omega
  dnodup := b.dnodup
  ddone := b.ddone
  alld := b.alld

/-- The sender reads the value it removed. -/
theorem readTx {i : Nat} (b : InvB cap buf c l a (some i) none rh dr done all) (h1 : i ∉ slots c l cap)
    (h2 : rh ≠ some i) (h3 : i ∉ dr) : InvB cap (upd buf i none) c l { a with tx := none } none none rh dr done all where
  pend := by rw [map_upd h1]; exact b.pend
  tx := rfl
  hold := by simp
  rx := by
    have := b.rx
    cases rh with
    | none => exact this
    | some j => rw [← this]; simp [upd_ne (buf := buf) (x := none) (i := i) (j := j) (fun h => h2 (h ▸ rfl))]
  del := by rw [map_upd h3]; exact b.del
  rlt := b.rlt
  dlen := b.dlen
  dnodup := b.dnodup
  ddone := b.ddone
  alld := b.alld

/-- The receiver removes the oldest value. -/
theorem claimRx (b : InvB cap buf c l a ow hold none dr done all) (hc : c < cap) (hl : 0 < l) (hl' : l ≤ cap) :
    InvB cap buf (addCursor c 1 cap) (l - 1) { a with pend := a.pend.tail, rx := a.pend.head? } ow hold (some c) dr done
      all where
  pend := by
    have := b.pend
    rw [slots_pop hc hl hl'] at this
    cases hp : a.pend with
    | nil => simp [hp] at this
    | cons x p => simp only [hp, List.map_cons, List.cons.injEq] at this; simp [this.2]
  tx := b.tx
  hold := b.hold
  rx := by
    have := b.pend
    rw [slots_pop hc hl hl'] at this
    cases hp : a.pend with
    | nil => simp [hp] at this
    | cons x p => simp only [hp, List.map_cons, List.cons.injEq] at this; simp [this.1]
  del := b.del
  rlt := by
    intro i hi
    simp only [Option.some.injEq] at hi
    subst hi
    refine ⟨hc, rfl, by omega, ?_⟩
    cases hd : done with
    | false => rfl
    | true => have := b.dlen hd; omega
  dlen := by intro h; have := b.dlen h; omega
  dnodup := b.dnodup
  ddone := b.ddone
  alld := b.alld

/-- The receiver reads the value it removed. -/
theorem readRx {i : Nat} (b : InvB cap buf c l a ow hold (some i) dr done all)
    (h1 : ow ≠ some i) (h2 : ∀ v, hold ≠ some (v, i)) :
    InvB cap (upd buf i none) c l { a with rx := none } ow hold none dr done all := by
  obtain ⟨h3, h4, h5, h6⟩ := b.rlt i rfl
  have hdr : dr = [] := Classical.byContradiction fun h => by simp [b.ddone h] at h6
  refine ⟨?_, ?_, ?_, rfl, ?_, by simp, b.dlen, b.dnodup, b.ddone, b.alld⟩
  · rw [map_upd (before_not_mem h4 h3 h5)]; exact b.pend
  · have := b.tx
    cases ow with
    | none => exact this
    | some j => rw [← this]; simp [upd_ne (buf := buf) (x := none) (i := i) (j := j) (fun h => h1 (h ▸ rfl))]
  · intro v j hj
    rw [upd_ne (fun h => h2 v (by rw [hj, h]))]
    exact b.hold v j hj
  · have := b.del
    subst hdr
    exact this

/-- `Receiver::drop` removes all values. -/
theorem claimAll (b : InvB cap buf c l a ow hold none [] done all) (hl : l ≤ cap) {all' : Prop} (ha : all') :
    InvB cap buf c 0 { a with pend := [], del := a.pend } ow hold none (slots c l cap) true all' where
  pend := rfl
  tx := b.tx
  hold := b.hold
  rx := b.rx
  del := b.pend
  rlt := by simp
  dlen := fun _ => rfl
  dnodup := slots_nodup hl
  ddone := fun _ => rfl
  alld := by simp [ha]

/-- `Receiver::drop` drops a value. -/
theorem readDel {i : Nat} (b : InvB cap buf c l a ow hold none (i :: dr) done all)
    (h1 : ow ≠ some i) (h2 : ∀ v, hold ≠ some (v, i)) :
    InvB cap (upd buf i none) c l { a with del := a.del.tail } ow hold none dr done all := by
  have hd := b.ddone (by simp)
  have hl := b.dlen hd
  subst hl
  have hp := b.pend
  have hnd := b.dnodup
  rw [List.nodup_cons] at hnd
  refine ⟨hp, ?_, ?_, b.rx, ?_, by simp, b.dlen, hnd.2, fun _ => hd, b.alld⟩
  · have := b.tx
    cases ow with
    | none => exact this
    | some j => rw [← this]; simp [upd_ne (buf := buf) (x := none) (i := i) (j := j) (fun h => h1 (h ▸ rfl))]
  · intro v j hj
    rw [upd_ne (fun h => h2 v (by rw [hj, h]))]
    exact b.hold v j hj
  · rw [map_upd hnd.1]
    have := b.del
    cases hp : a.del with
    | nil => simp [hp] at this
    | cons x p => simp only [hp, List.map_cons, List.cons.injEq] at this; simp [this.2]

theorem del_head {i : Nat} (b : InvB cap buf c l a ow hold rh (i :: dr) done all) {x : τ} (h : buf i = some x) :
    a.del.head? = some x := by
  have := b.del
  cases hp : a.del with
  | nil => simp [hp] at this
  | cons y p => simp only [hp, List.map_cons, List.cons.injEq] at this; rw [h] at this; simp at this; simp [this.1]

theorem rx_some {i : Nat} (b : InvB cap buf c l a ow hold (some i) dr done all) {x : τ} (h : buf i = some x) :
    a.rx = some x := by
  have := b.rx
  cases hp : a.rx with
  | none => simp [hp] at this
  | some y => simp [hp, h] at this; simp [this]

theorem tx_some {i : Nat} (b : InvB cap buf c l a (some i) hold rh dr done all) {x : τ} (h : buf i = some x) :
    a.tx = some x := by
  have := b.tx
  cases hp : a.tx with
  | none => simp [hp] at this
  | some y => simp [hp, h] at this; simp [this]

end InvB

theorem init_invC : InvC cap (init k τ ε) := by
  refine ⟨?_, trivial⟩
  constructor <;> simp [init, len_zero, slots, abs, sOw, sHold, rHold, rDel, rDone]

theorem sCall_invC {s : State k τ ε} (ic : InvC cap s) (h : s.spc.isIdle = true) (op : SOp τ ε) : InvC cap (sCall s op) := by
  obtain ⟨st, buf, err, rxw, txw, freed, spc, rpc, log⟩ := s
  cases spc <;> simp [SPc.isIdle] at h
  unfold InvC at *
  simp only [sOw, sHold] at ic
  cases op <;> simp only [sCall, State.emit, sOw, sHold, abs, List.mem_cons, reduceCtorEq, false_or, Hist, OkVal, true_and] <;>
    exact ic

theorem rCall_invC {s : State k τ ε} (ic : InvC cap s) (h : s.rpc.isIdle = true) (op : ROp) : InvC cap (rCall s op) := by
  obtain ⟨st, buf, err, rxw, txw, freed, spc, rpc, log⟩ := s
  cases rpc <;> simp [RPc.isIdle] at h
  unfold InvC at *
  cases op <;> exact ic

/-- Evaluate at the new state. -/
macro "ic_simp" : tactic => `(tactic| try simp only [sOw, sHold, abs, List.mem_cons, reduceCtorEq, false_or, Hist, OkVal, true_and,
  closedResult])

theorem sStep_invC {s s' : State k τ ε} (h1 : 1 < cap) (hcap : cap < 2 ^ k) (inv : Inv cap s)
    (iw : InvW cap s.st s.spc s.rpc s.log) (ic : InvC cap s) (hn : ¬Clash cap s) (h : sStep cap s = some s') :
    InvC cap s' := by
  have ic0 := ic
  obtain ⟨st, buf, err, rxw, txw, freed, spc, rpc, log⟩ := s
  unfold Inv at inv
  have icl := inv.closed
  clear inv
  obtain ⟨hc, hl, cnt, cl, sl, sa, va, ba, ze, hi⟩ := iw
  have hr : ∀ i, spc.slot = some i → rHold rpc ≠ some i := fun i a b => hn ⟨i, a, rHold_slots b⟩
  have hd : ∀ i, spc.slot = some i → i ∉ rDel cap rpc := fun i a b => hn ⟨i, a, rDel_slots b⟩
  unfold InvC at ic
  dsimp only at *
  obtain ⟨b, hv⟩ := ic
  have hp : ∀ i, spc.slot = some i → i ∉ slots (Ring.cur st) (Ring.len st) cap := by
    intro i hi
    cases hdn : rDone rpc with
    | false => rw [(sa i hi hdn).1]; exact not_mem_slots (Nat.le_refl _) (sa i hi hdn).2
    | true => rw [b.dlen hdn]; simp [slots]
  cases spc with
  | idle => simp [sStep, SPc.resting] at h; exact h ▸ ic0
  | gone => simp [sStep, SPc.resting] at h; exact h ▸ ic0
  | owLoad v =>
    simp only [sStep, SPc.resting, owMid, State.emit, Bool.false_eq_true, ↓reduceIte] at h
    (repeat' split at h) <;> simp only [Option.some.injEq, reduceCtorEq] at h
    all_goals subst h
    all_goals unfold InvC
    · exact ⟨b, hv⟩
    · ic_simp; exact ⟨b, va _ rfl, hv⟩
    · exact ⟨b, hv⟩
  | owClaim v =>
    have e1 := len_claimIfFull (st := st) (cap := cap) (by omega) hc
    have e2 := cur_claimIfFull (st := st) (cap := cap) (by omega) hc
    simp only [sStep, SPc.resting, owMid, State.emit, Bool.false_eq_true, ↓reduceIte] at h
    cases h3 : has st (CLOSED k) <;> by_cases h4 : Ring.len st = cap
    · simp only [h3, h4, Bool.not_false, Bool.true_and, BEq.rfl, ↓reduceIte, Bool.false_eq_true] at h e1 e2
      split at h <;> simp only [Option.some.injEq, reduceCtorEq] at h
      subst h
      unfold InvC
      ic_simp
      rw [e1, e2]
      rw [h4] at b
      have := b.claimTx hc
      refine ⟨this, ?_, hv⟩
      have := b.tx
      simpa [sOw] using this.symm
    · simp only [h3, Bool.not_false, Bool.true_and, beq_eq_false_iff_ne.2 h4, ↓reduceIte, Bool.false_eq_true, h4] at h e1 e2
      split at h <;> simp only [Option.some.injEq, reduceCtorEq] at h
      subst h
      unfold InvC
      ic_simp
      rw [e1, e2]
      exact ⟨b, hv⟩
    · simp only [h3, Bool.not_true, Bool.false_and, ↓reduceIte, Bool.false_eq_true] at h e1 e2
      split at h <;> simp only [Option.some.injEq, reduceCtorEq] at h
      subst h
      unfold InvC
      ic_simp
      rw [e1, e2]
      exact ⟨b, va _ rfl, hv⟩
    · simp only [h3, Bool.not_true, Bool.false_and, ↓reduceIte, Bool.false_eq_true] at h e1 e2
      split at h <;> simp only [Option.some.injEq, reduceCtorEq] at h
      subst h
      unfold InvC
      ic_simp
      rw [e1, e2]
      exact ⟨b, va _ rfl, hv⟩
  | owRead v i =>
    simp only [sStep, SPc.resting, State.emit, Bool.false_eq_true, ↓reduceIte] at h
    (repeat' split at h) <;> simp only [Option.some.injEq, reduceCtorEq] at h
    subst h
    unfold InvC
    ic_simp
    exact ⟨b.readTx (hp i rfl) (hr i rfl) (hd i rfl), b.tx_some (by assumption), hv⟩
  | wrWrite v i =>
    simp only [sStep, SPc.resting, State.emit, Bool.false_eq_true, ↓reduceIte] at h
    (repeat' split at h) <;> simp only [Option.some.injEq, reduceCtorEq] at h
    subst h
    exact ⟨b.write v (hp i rfl) (hr i rfl) (hd i rfl), hv⟩
  | wrRmw v i =>
    simp only [sStep, SPc.resting, State.emit, Bool.false_eq_true, ↓reduceIte] at h
    (repeat' split at h) <;> simp only [Option.some.injEq, reduceCtorEq] at h
    · subst h
      have : addLength st = st := by simp [addLength, *]
      unfold InvC
      ic_simp
      rw [this]
      exact ⟨b, hv⟩
    all_goals
      subst h
      have hdn : rDone rpc = false := by grind
      have hsa := sa i rfl hdn
      have e1 := len_addLength (st := st) (by omega)
      have e2 := cur_addLength (st := st) (by omega)
      unfold InvC
      ic_simp
      rw [e1, e2, if_neg (by assumption)]
      exact ⟨b.publish hsa.1 hsa.2 (hr i rfl) hdn, hv⟩
  | wrBack v i =>
    simp only [sStep, SPc.resting, State.emit, Bool.false_eq_true, ↓reduceIte] at h
    (repeat' split at h) <;> simp only [Option.some.injEq, reduceCtorEq] at h
    subst h
    unfold InvC
    ic_simp
    refine ⟨b.back (hp i rfl) (hr i rfl) (hd i rfl), ?_, hv⟩
    have := b.hold v i rfl
    rw [va v rfl]
    grind
  | _ =>
    simp only [sStep, SPc.resting, errTail, State.emit, State.release, closedResult, Bool.false_eq_true, ↓reduceIte] at h
    (repeat' split at h) <;> simp only [Option.some.injEq, reduceCtorEq] at h
    all_goals subst h
    all_goals unfold InvC
    all_goals ic_simp
    all_goals lc_simp
    all_goals exact ⟨b, hv⟩

/-- Removing the oldest value, at the level of the word. -/
theorem take_invB {st : Word k} (hcap : cap < 2 ^ k) (hc : Ring.cur st < cap) (hl : Ring.len st ≤ cap)
    (b : InvB cap buf (Ring.cur st) (Ring.len st) a ow hold none dr done all) (st' : Word k)
    (h : st' = take cap st ∨ st' = take cap st ||| RX k) :
    (0 < Ring.len st → InvB cap buf (Ring.cur st') (Ring.len st') { a with pend := a.pend.tail, rx := a.pend.head? } ow hold
      (some (Ring.cur st)) dr done all) ∧
    (¬0 < Ring.len st → InvB cap buf (Ring.cur st') (Ring.len st') a ow hold none dr done all) := by
  have e1 := len_take (st := st) (cap := cap) (by omega) hc
  have e2 := cur_take (st := st) (cap := cap) (by omega) hc
  have e3 : Ring.len st' = Ring.len st - 1 ∧
      Ring.cur st' = if 0 < Ring.len st then addCursor (Ring.cur st) 1 cap else Ring.cur st := by
    rcases h with rfl | rfl <;> lc_simp <;> exact ⟨e1, e2⟩
  rw [e3.1, e3.2]
  constructor
  · intro h
    rw [if_pos h]
    exact b.claimRx hc h hl
  · intro h
    rw [if_neg h]
    have : Ring.len st - 1 = Ring.len st := by omega
    rw [this]
    exact b

theorem rDel_start (st : Word k) : (List.range' 0 (Ring.len st - 0)).map (fun i => addCursor (Ring.cur st) i cap) =
    slots (Ring.cur st) (Ring.len st) cap := by
  simp [slots, List.range_eq_range']

theorem rDel_cons {st : Word k} {j : Nat} (h : j < Ring.len st) :
    (List.range' j (Ring.len st - j)).map (fun i => addCursor (Ring.cur st) i cap) =
    addCursor (Ring.cur st) j cap ::
      (List.range' (j + 1) (Ring.len st - (j + 1))).map (fun i => addCursor (Ring.cur st) i cap) := by
  have : Ring.len st - j = (Ring.len st - (j + 1)) + 1 := by omega
  rw [this, List.range'_succ]
  rfl

theorem dropTail_invC {s : State k τ ε} {st : Word k} 
    (b : InvB cap s.buf (Ring.cur s.st) (Ring.len s.st) (abs s.log) (sOw s.spc) (sHold s.spc) none [] true
      (Event.claimAll ∈ s.log)) (hv : Hist OkVal s.log) : InvC cap (dropTail s st) := by
  unfold dropTail
  repeat' split
  all_goals exact ⟨b, hv⟩

theorem dropLoop_invC {s : State k τ ε} {st : Word k} {j : Nat}
    (b : InvB cap s.buf (Ring.cur s.st) (Ring.len s.st) (abs s.log) (sOw s.spc) (sHold s.spc) none
      ((List.range' j (Ring.len st - j)).map (fun i => addCursor (Ring.cur st) i cap)) true
      (Event.claimAll ∈ s.log)) (hv : Hist OkVal s.log) : InvC cap (dropLoop s st j) := by
  unfold dropLoop
  split
  · exact ⟨b, hv⟩
  · have : Ring.len st - j = 0 := by omega
    rw [this] at b
    split
    · exact ⟨b, hv⟩
    · exact dropTail_invC b hv

theorem takeValue_invC {s : State k τ ε} {st : Word k}
    (b : InvB cap s.buf (Ring.cur s.st) (Ring.len s.st) (abs s.log) (sOw s.spc) (sHold s.spc) (some (Ring.cur st)) [] false
      (Event.claimAll ∈ s.log)) (hv : Hist OkVal s.log) : InvC cap (takeValue cap s st) := by
  unfold takeValue
  split
  all_goals exact ⟨b, hv⟩

/-- Program points of `Receiver::drop` that hold a slot. -/
def rLoop (cap : Nat) : RPc k → Bool
  | .drSlot st j => decide (j < len st) && decide (len st ≤ cap) && decide (cur st < cap)
  | _ => true

theorem rStep_invC {s s' : State k τ ε} (hcap : cap < 2 ^ k) (lp : rLoop cap s.rpc = true)
    (iw : InvW cap s.st s.spc s.rpc s.log) (ic : InvC cap s) (hn : ¬Clash cap s) (h : rStep cap s = some s') :
    InvC cap s' := by
  have ic0 := ic
  obtain ⟨st, buf, err, rxw, txw, freed, spc, rpc, log⟩ := s
  obtain ⟨hc, hl, cnt, cl, sl, sa, va, ba, ze, hi⟩ := iw
  have ho : ∀ i, i ∈ rpc.slots cap → sOw spc ≠ some i := fun i a b => hn ⟨i, sOw_slot b, a⟩
  have hh : ∀ i, i ∈ rpc.slots cap → ∀ v, sHold spc ≠ some (v, i) := fun i a v b => hn ⟨i, sHold_slot b, a⟩
  unfold InvC at ic
  dsimp only at *
  obtain ⟨b, hv⟩ := ic
  have hal : rDone rpc = false → Event.claimAll ∉ log := fun h h' => by rw [b.alld] at h'; simp [h] at h'
  have hrx : rHold rpc = none → (abs log).rx = none := by
    intro h
    have := b.rx
    rw [h] at this
    simpa using this.symm
  have hdl : rDel cap rpc = [] → (abs log).del = [] := by
    intro h
    have := b.del
    rw [h] at this
    simpa using this.symm
  cases rpc with
  | idle => simp [rStep, RPc.resting] at h; exact h ▸ ic0
  | gone => simp [rStep, RPc.resting] at h; exact h ▸ ic0
  | tnRmw =>
    obtain ⟨t1, t2⟩ := take_invB hcap hc hl b (take cap st) (.inl rfl)
    simp only [rStep, RPc.resting, State.emit, Bool.false_eq_true, ↓reduceIte] at h
    (repeat' split at h) <;> simp only [Option.some.injEq, reduceCtorEq] at h
    all_goals subst h
    · apply takeValue_invC
      · ic_simp; exact t1 (by assumption)
      · ic_simp; exact ⟨⟨hrx rfl, hal rfl⟩, hv⟩
    all_goals
      unfold InvC
      ic_simp
      exact ⟨t2 (by assumption), hv⟩
  | pnRmw w =>
    obtain ⟨t1, t2⟩ := take_invB hcap hc hl b (take cap st) (.inl rfl)
    simp only [rStep, RPc.resting, State.emit, Bool.false_eq_true, ↓reduceIte] at h
    (repeat' split at h) <;> simp only [Option.some.injEq, reduceCtorEq] at h
    all_goals subst h
    · apply takeValue_invC
      · ic_simp; exact t1 (by assumption)
      · ic_simp; exact ⟨⟨hrx rfl, hal rfl⟩, hv⟩
    all_goals
      unfold InvC
      ic_simp
      exact ⟨t2 (by assumption), hv⟩
  | pnRmw2 w =>
    obtain ⟨t1, t2⟩ := take_invB hcap hc hl b (take cap st ||| RX k) (.inr rfl)
    simp only [rStep, RPc.resting, State.emit, Bool.false_eq_true, ↓reduceIte] at h
    (repeat' split at h) <;> simp only [Option.some.injEq, reduceCtorEq] at h
    all_goals subst h
    · unfold InvC
      ic_simp
      simp only [rHold]
      rw [if_pos (by assumption)]
      exact ⟨t1 (by assumption), ⟨hrx rfl, hal rfl⟩, hv⟩
    · unfold InvC
      ic_simp
      simp only [rHold]
      rw [if_neg (by assumption)]
      exact ⟨t2 (by assumption), hv⟩
    · apply takeValue_invC
      · ic_simp; exact t1 (by assumption)
      · ic_simp; exact ⟨⟨hrx rfl, hal rfl⟩, hv⟩
    · unfold InvC
      ic_simp
      exact ⟨t2 (by assumption), hv⟩
  | tvRmw i wake er =>
    obtain ⟨e1, e2, e3⟩ := lc_tvRmw st wake er
    simp only [rStep, RPc.resting, Bool.false_eq_true, ↓reduceIte] at h
    cases wake <;> cases er <;> simp only [Bool.false_eq_true, ↓reduceIte] at h e1 e2 <;> (repeat' split at h) <;> simp only [Option.some.injEq, reduceCtorEq] at h
    all_goals subst h
    all_goals
      unfold InvC
      dsimp only
      rw [e1, e2]
      exact ⟨b, hv⟩
  | tvRead i =>
    simp only [rStep, RPc.resting, State.emit, Bool.false_eq_true, ↓reduceIte] at h
    (repeat' split at h) <;> simp only [Option.some.injEq, reduceCtorEq] at h
    subst h
    unfold InvC
    ic_simp
    exact ⟨b.readRx (ho i (by simp [RPc.slots])) (hh i (by simp [RPc.slots])), b.rx_some (by assumption), hv⟩
  | pnUndo st' =>
    simp only [rStep, RPc.resting, State.emit, Bool.false_eq_true, ↓reduceIte] at h
    simp only [rHold] at b
    (repeat' split at h) <;> simp only [Option.some.injEq, reduceCtorEq] at h
    all_goals subst h
    · rw [if_pos (by assumption)] at b
      apply takeValue_invC
      · ic_simp; exact b
      · ic_simp; exact hv
    all_goals
      rw [if_neg (by assumption)] at b
      unfold InvC
      ic_simp
      exact ⟨b, hv⟩
  | drRmw =>
    simp only [rStep, RPc.resting, State.emit, Bool.false_eq_true, ↓reduceIte] at h
    (repeat' split at h) <;> simp only [Option.some.injEq, reduceCtorEq] at h
    subst h
    apply dropLoop_invC
    · ic_simp
      lc_simp
      rw [len_clearLen, cur_clearLen, rDel_start]
      exact b.claimAll hl (.inl trivial)
    · ic_simp
      exact ⟨⟨hrx rfl, hdl rfl⟩, hv⟩
  | drSlot st' j =>
    simp only [rStep, RPc.resting, State.emit, Bool.false_eq_true, ↓reduceIte] at h
    (repeat' split at h) <;> simp only [Option.some.injEq, reduceCtorEq] at h
    subst h
    have lp : j < Ring.len st' := by simp [rLoop] at lp; exact lp.1.1
    have hm : addCursor (Ring.cur st') j cap ∈ (RPc.drSlot st' j).slots cap := by
      simp only [RPc.slots]; rw [rDel_cons lp]; simp
    simp only [rDel] at b
    rw [rDel_cons lp] at b
    apply dropLoop_invC
    · ic_simp
      exact b.readDel (ho _ hm) (hh _ hm)
    · ic_simp
      exact ⟨b.del_head (by assumption), hv⟩
  | drErr st' =>
    simp only [rStep, RPc.resting, State.emit, Bool.false_eq_true, ↓reduceIte] at h
    (repeat' split at h) <;> simp only [Option.some.injEq, reduceCtorEq] at h
    subst h
    apply dropTail_invC
    · ic_simp; exact b
    · ic_simp; exact hv
  | _ =>
    simp only [rStep, RPc.resting, State.emit, State.release, Bool.false_eq_true, ↓reduceIte] at h
    (repeat' split at h) <;> simp only [Option.some.injEq, reduceCtorEq] at h
    all_goals subst h
    all_goals unfold InvC
    all_goals ic_simp
    all_goals lc_simp
    all_goals exact ⟨b, hv⟩

theorem rLoop_step {s s' : State k τ ε} (iw : InvW cap s.st s.spc s.rpc s.log) (lp : rLoop cap s.rpc = true) {a : Act τ ε} (h : step cap s a = some s') :
    rLoop cap s'.rpc = true := by
  obtain ⟨st, buf, err, rxw, txw, freed, spc, rpc, log⟩ := s
  have hc := iw.cur
  have hl := iw.len
  clear iw
  dsimp only at hc hl lp
  cases a with
  | sCall op =>
    simp only [step] at h
    split at h <;> simp only [Option.some.injEq] at h <;> subst h
    · cases op <;> exact lp
    · exact lp
  | rCall op =>
    simp only [step] at h
    split at h <;> simp only [Option.some.injEq] at h <;> subst h
    · cases op <;> rfl
    · exact lp
  | sStep =>
    cases spc <;>
      simp only [step, sStep, SPc.resting, owMid, errTail, State.emit, State.release, Bool.false_eq_true, ↓reduceIte] at h <;>
      (repeat' split at h) <;> simp only [Option.some.injEq, reduceCtorEq] at h <;> subst h <;> exact lp
  | rStep =>
    cases rpc <;>
      simp only [step, rStep, RPc.resting, takeValue, dropLoop, dropTail, State.emit, State.release, Bool.false_eq_true,
        ↓reduceIte] at h <;>
      (repeat' split at h) <;> simp only [Option.some.injEq, reduceCtorEq] at h <;> subst h <;> first | exact lp | rfl | simp_all [rLoop]

end Verif.Ring
