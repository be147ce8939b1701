import Verif.Ring.Props
/-! # Properties of the ring channel: interleavings, wakers, end (C32–C35, C60, C61) -/
namespace Verif.Ring

open Verif.Spsc

variable {k cap : Nat} {τ ε : Type}

/-! ## C32 -/

/-- C32, order: whatever the interleaving, between calls, without overwriting sends
and before the drop of the receiver, the values sent are those received followed by
those in the buffer. -/
def FifoAlways (k cap : Nat) (τ ε : Type) : Prop :=
  ∀ (acts : List (Act τ ε)) (s : State k τ ε), run cap (init k τ ε) acts = some s →
    s.spc.resting = true → s.rpc.resting = true → Event.claimTx ∉ s.log → Event.claimAll ∉ s.log →
    (pushed s.log).map some = (received s.log).map some ++ contents cap s

/-- C32, slots: no slot is accessed by both ends at the same time. -/
def SlotsApart (k cap : Nat) (τ ε : Type) : Prop :=
  ∀ (acts : List (Act τ ε)) (s : State k τ ε), run cap (init k τ ε) acts = some s → ¬Clash cap s

/-- C32, memory: no undefined behaviour. -/
def NeverUB (k cap : Nat) (τ ε : Type) : Prop := ∀ acts : List (Act τ ε), run cap (init k τ ε) acts ≠ none

/-- The receiver is preempted between removing the oldest value of a full buffer and
reading it; a send writes to its slot. -/
def lateRead : List (Act Nat Nat) :=
  trySend 1 ++ trySend 2 ++ [.rCall .tryNext, .rStep] ++ trySend 3 ++ [.rStep]

/-- C32 is false: 1 is lost, and 3 is received before 2. -/
theorem C32_false_order : ¬ FifoAlways 13 2 Nat Nat := by
  intro h
  have := h lateRead _ rfl (by decide +kernel) (by decide +kernel) (by decide +kernel) (by decide +kernel)
  exact absurd this (by decide +kernel)

theorem C32_false_slots : ¬ SlotsApart 13 2 Nat Nat := by
  intro h
  refine h (trySend 1 ++ trySend 2 ++ [.rCall .tryNext, .rStep, .sCall (.trySend 3), .sStep]) _ rfl ⟨0, ?_, ?_⟩
  · decide +kernel
  · decide +kernel

/-- … and two receives later an empty slot is read. -/
theorem C32_false : ¬ NeverUB 13 2 Nat Nat := by
  intro h
  exact absurd (h (lateRead ++ tryNext ++ tryNext)) (by decide +kernel)

/-- A drop of the receiver that is preempted by a send: the send puts its value into
a slot that is still to be dropped, and takes it back; the drop reads an empty slot. -/
theorem C32_false_drop : ∃ acts : List (Act Nat Nat), run 2 (init 13 Nat Nat) acts = none ∧ Event.closed ∉ (acts.filterMap
    fun | .rCall .close => some Event.closed | _ => (none : Option (Event Nat Nat))) :=
  ⟨trySend 1 ++ [.rCall .drop, .rStep] ++ trySend 2 ++ [.rStep], by decide +kernel, by decide +kernel⟩

/-- Both ends leave: the sender is preempted before it takes the receiver's waker,
the receiver releases the object. -/
theorem C32_false_leave : ∃ (acts : List (Act Nat Nat)), run 2 (init 13 Nat Nat) acts = none ∧
    ∃ s, run 2 (init 13 Nat Nat) acts.dropLast = some s ∧ s.freed = true ∧ s.spc.leaving = true :=
  ⟨pollNext 1 ++ [.sCall .drop, .sStep, .rCall .drop, .rStep, .rStep, .sStep],
    by decide +kernel, _, rfl, by decide +kernel, by decide +kernel⟩

/-- C32 for schedules in which the ends never work on the same slot (`Clash`), do not
release the object while the other end is leaving (`Apart`), and the receiver does not
use the sender's waker after `close` (`Orderly`): no undefined behaviour, and the queue
is a queue. (Missing for the full statement: the schedules excluded by the conditions,
for which it is false.) -/
theorem C32_partial (h1 : 1 < cap) (hcap : cap < 2 ^ k) {acts : List (Act τ ε)}
    (al : Always cap (Safe cap) (init k τ ε) acts) :
    ∃ s, run cap (init k τ ε) acts = some s ∧
      (s.spc.resting = true → s.rpc.resting = true → Event.claimTx ∉ s.log → Event.claimAll ∉ s.log →
        (pushed s.log).map some = (received s.log).map some ++ contents cap s) ∧
      ∃ r : List (Who × τ), (pushed s.log).map some = (r.map (·.2)).map some ++ contents cap s ∧
        ∃ x : Option τ, removedBy .receiver r = received s.log ++ x.toList := by
  obtain ⟨s, h, -⟩ := run_safe h1 hcap (init_inv cap k τ ε) (init_invL h1) init_invC al
  have hc := C29_removals h1 hcap (al.mono fun _ q => q.noclash) h
  refine ⟨s, h, ?_, _, hc.1, hc.2.1⟩
  intro hs hr ho hd
  rw [hc.1, removals_rx ho hd, (hc.2.2.2.2 hs hr).1]

/-- A receiver at the higher priority (its calls are not interrupted by the sender,
but may interrupt it) never works on the sender's slot, so the order is kept for all
such interleavings. -/
theorem C32_priority_partial (h1 : 1 < cap) (hcap : cap < 2 ^ k) {acts : List (Act τ ε)} {s : State k τ ε}
    (u : Uninterrupted cap (init k τ ε) acts) (h : run cap (init k τ ε) acts = some s) :
    ¬Clash cap s ∧
    (s.spc.resting = true → s.rpc.resting = true → Event.claimTx ∉ s.log → Event.claimAll ∉ s.log →
      (pushed s.log).map some = (received s.log).map some ++ contents cap s) ∧
    (s.spc.resting = true → s.rpc.resting = true →
      ∃ r : List (Who × τ), (pushed s.log).map some = (r.map (·.2)).map some ++ contents cap s ∧
        removedBy .receiver r = received s.log ∧ removedBy .sender r = overwritten s.log ∧ removedBy .drop r = droppedVals s.log) := by
  have al := u.noclash h1 hcap (.inl (init_inv cap k τ ε)) (init_invL h1) (by rintro ⟨i, q, _⟩; simp [init, SPc.slot] at q)
  have hc := C29_removals h1 hcap al h
  refine ⟨?_, ?_, fun hs hr => ⟨_, hc.1, hc.2.2.2.2 hs hr⟩⟩
  · clear hc u
    suffices ∀ t : State k τ ε, Always cap (fun t => ¬Clash cap t) t acts → run cap t acts = some s → ¬Clash cap s from this _ al h
    clear al h
    induction acts with
    | nil => intro t al h; simp [run] at h; subst h; exact al
    | cons a as ih =>
      intro t al h
      simp only [run] at h
      split at h
      · simp at h
      · rename_i t' ht
        exact ih t' (al.2 t' ht) h
  · intro hs hr ho hd
    rw [hc.1, removals_rx ho hd, (hc.2.2.2.2 hs hr).1]

/-- Calls that do not overlap satisfy the first two conditions; without `close` the
third holds, too. -/
theorem C32_sequential_partial {acts : List (Act τ ε)} (sq : Always cap Sequential (init k τ ε) acts) (nc : NoClose acts) :
    Always cap (Safe cap) (init k τ ε) acts := by
  have od : Always cap Orderly (init k τ ε) acts := nc.orderly (by simp [init]) (by simp [init])
  generalize init k τ ε = s at sq od
  clear nc
  induction acts generalizing s with
  | nil => exact ⟨Sequential.apart sq, Sequential.noclash sq, od⟩
  | cons a as ih => exact ⟨⟨sq.1.apart, sq.1.noclash, od.1⟩, fun s' h => ih s' (sq.2 s' h) (od.2 s' h)⟩

/-- The sender is interrupted between writing and publishing by a whole receive. -/
def interrupted : List (Act Nat Nat) :=
  trySend 1 ++ [.sCall (.trySend 2), .sStep, .sStep] ++ tryNext ++ [.sStep, .sStep] ++ tryNext

example : (run 2 (init 13 Nat Nat) interrupted).map (fun s => (pushed s.log, received s.log)) = some ([1, 2], [1, 2]) := by
  decide +kernel
example : Always 2 (Safe 2) (init 13 Nat Nat) [.sCall (.trySend 1), .sStep, .rCall .tryNext] :=
  ⟨⟨Sequential.apart (.inl rfl), Sequential.noclash (.inl rfl), by simp [Orderly, init]⟩, fun s' h => by
    simp [step, init, SPc.isIdle] at h; subst h
    refine ⟨⟨Sequential.apart (.inr rfl), Sequential.noclash (.inr rfl), by simp [Orderly, sCall, State.emit]⟩, fun s' h => ?_⟩
    simp [step, sStep, sCall, State.emit, SPc.resting, show len (0#(2 * 13 + 6)) = 0 from len_zero (k := 13)] at h
    subst h
    refine ⟨⟨Sequential.apart (.inr rfl), Sequential.noclash (.inr rfl), by simp [Orderly]⟩, fun s' h => ?_⟩
    simp [step, RPc.isIdle, rCall] at h; subst h
    exact ⟨⟨by simp [SPc.freeing], by simp [RPc.freeing]⟩, by simp [Clash, RPc.slots], by simp [Orderly]⟩⟩

/-! ## C33 -/

/-- C33 for calls that do not overlap: a waker is used only while it is stored; an
access to an empty waker cell is undefined behaviour. -/
def WakersValid (k cap : Nat) (τ ε : Type) : Prop :=
  ∀ acts : List (Act τ ε), Always cap Sequential (init k τ ε) acts → run cap (init k τ ε) acts ≠ none

/-- Fill the channel, poll for room, close, receive. -/
def closeThenReceive : List (Act Nat Nat) :=
  trySend 1 ++ trySend 2 ++ poll .ready 5 ++ [.rCall .close, .rStep, .rStep] ++ [.rCall .tryNext, .rStep, .rStep, .rStep]

private def seqB (s : State k τ ε) : Bool := s.spc.resting || s.rpc.resting

private theorem always_of {acts : List (Act τ ε)} {s : State k τ ε}
    (h : ∀ n, n ≤ acts.length → (run cap s (acts.take n)).all seqB = true) : Always cap Sequential s acts := by
  induction acts generalizing s with
  | nil =>
    have := h 0 (Nat.le_refl _)
    simpa [Always, run, seqB, Sequential] using this
  | cons a as ih =>
    refine ⟨by have := h 0 (Nat.zero_le _); simpa [run, seqB, Sequential] using this, fun s' hs => ih fun n hn => ?_⟩
    have := h (n + 1) (by simp; omega)
    simpa [run, hs] using this

private theorem always_dec {acts : List (Act τ ε)} {s : State k τ ε}
    (h : (List.range (acts.length + 1)).all (fun n => (run cap s (acts.take n)).all seqB) = true) : Always cap Sequential s acts :=
  always_of fun n hn => by
    rw [List.all_eq_true] at h
    exact h n (List.mem_range.2 (by omega))

/-- C33 is false: `close` consumes the sender's waker and leaves the flags; the
receive wakes it again. -/
theorem C33_false : ¬ WakersValid 13 2 Nat Nat := by
  intro h
  exact h closeThenReceive (always_dec (by decide +kernel)) (by decide +kernel)

/-- The state before the last step: about to wake, nothing stored, the waker consumed. -/
theorem C33_false_state : (run 2 (init 13 Nat Nat) closeThenReceive.dropLast).any (fun s =>
    (match s.rpc with | .tvWake 0 => true | _ => false) && s.txw.isNone && txStored s.log == [5] && txUsed s.log == [5]) = true := by
  decide +kernel

/-- What holds in every schedule without undefined behaviour: at most one waker of
each end is ever stored; it is woken and dropped only while it is stored; it is
consumed at most once. -/
theorem C33_partial (h1 : 1 < cap) (hcap : cap < 2 ^ k) {acts : List (Act τ ε)} {s : State k τ ε}
    (h : run cap (init k τ ε) acts = some s) :
    Hist OkWk s.log ∧
    rxStored s.log = rxUsed s.log ++ s.rxw.toList ∧ txStored s.log = txUsed s.log ++ s.txw.toList ∧
    (rxStored s.log).length ≤ 1 ∧ (txStored s.log).length ≤ 1 := by
  obtain ⟨-, -, -, b, -⟩ := reach h1 hcap h
  exact ⟨b.hist, b.rxs, b.txs, b.rx1, b.tx1⟩

/-- Without `close`, calls that do not overlap never meet an empty waker cell (or any
other undefined behaviour), and when both ends are gone every stored waker has been
consumed. -/
theorem C33_noclose_partial (h1 : 1 < cap) (hcap : cap < 2 ^ k) {acts : List (Act τ ε)}
    (sq : Always cap Sequential (init k τ ε) acts) (nc : NoClose acts) :
    ∃ s, run cap (init k τ ε) acts = some s ∧
      (s.spc = .gone → s.rpc = .gone → rxStored s.log = rxUsed s.log ∧ txStored s.log = txUsed s.log) := by
  obtain ⟨s, h, inv, -, -⟩ := run_safe h1 hcap (init_inv cap k τ ε) (init_invL h1) init_invC (C32_sequential_partial sq nc)
  obtain ⟨-, e1, e2, -⟩ := C33_partial h1 hcap h
  refine ⟨s, h, fun q1 q2 => ?_⟩
  have hr := inv.rxw
  have ht := inv.txw
  have hc := inv.closed
  rw [q1, q2] at hr ht
  rw [q2] at hc
  simp only [rDone, rRx, sDone, Ring.sWk, sTx, rTx] at hr ht hc
  have hc := hc trivial
  have n1 : s.rxw = none := by cases hh : s.rxw <;> simp_all
  have n2 : s.txw = none := by cases hh : s.txw <;> simp_all
  rw [e1, e2, n1, n2]
  simp

example : (run 2 (init 13 Nat Nat) (pollNext 3 ++ trySend 1 ++ trySend 2 ++ poll .ready 5 ++ tryNext ++
    [.sCall .drop, .sStep, .sStep, .rCall .drop, .rStep, .rStep, .rStep, .rStep])).map
    (fun s => (txStored s.log, txWoken s.log, rxWoken s.log, rxUsed s.log)) = some ([5], [5], [3, 3, 3], [3]) := by decide +kernel

/-! ## C34 -/

/-- C34, receiver: if its last poll was pending and since then something was sent, or
the sender left, on a channel that is not closed, and the sender's call has returned,
the receiver has been woken since that poll, and with the waker it polls with. -/
theorem C34_receiver (h1 : 1 < cap) (hcap : cap < 2 ^ k) {acts : List (Act τ ε)} {s : State k τ ε} {w : Waker}
    (h : run cap (init k τ ε) acts = some s) (ho : OneRx w acts)
    (hp : pendings s.log ≠ []) (hn : since isNotify s.log = true) (hc : Event.closed ∉ s.log)
    (hs : s.spc.resting = true) :
    since isWake s.log = true ∧ ∀ u ∈ rxWoken s.log, u = w := by
  obtain ⟨-, -, -, b, c, -⟩ := reach h1 hcap h
  refine ⟨?_, ?_⟩
  · rcases c.wake hn hp hc with q | q
    · exact q
    · cases hh : s.spc <;> simp_all [SPc.resting, sWaking]
  · have hw := rxStored_one h ho (by simp [init, rxStored]) (by simp [init, rWk])
    have hh := b.hist
    have mono : ∀ (e : Event τ ε) l u, u ∈ rxStored l → u ∈ rxStored (e :: l) := by
      intro e l u hu; cases e <;> simp [rxStored, hu]
    intro u hu
    apply hw
    generalize s.log = l at hu hh
    induction l with
    | nil => simp [rxWoken] at hu
    | cons e l ih =>
      have k1 := hh.1
      have ih := fun q => mono e l u (ih q hh.2)
      cases e with
      | wakeRefRx v =>
        simp only [rxWoken, List.mem_cons] at hu
        rcases hu with rfl | hu
        · have := k1.1; simp [rxStored, this]
        · exact ih hu
      | wakeRx v =>
        simp only [rxWoken, List.mem_cons] at hu
        rcases hu with rfl | hu
        · have := k1.1; simp [rxStored, this]
        · exact ih hu
      | _ => exact ih hu

/-- C34, receiver, with whatever waker it polled last. -/
def LatestWaker (k cap : Nat) (τ ε : Type) : Prop :=
  ∀ (acts : List (Act τ ε)) (s : State k τ ε) (w : Waker), run cap (init k τ ε) acts = some s →
    (pendings s.log).head? = some w → since isNotify s.log = true → Event.closed ∉ s.log → s.spc.resting = true →
    w ∈ rxWoken s.log

/-- It is false if the waker changes: the waker of the first poll stays for good. -/
theorem C34_false_waker : ¬ LatestWaker 13 2 Nat Nat := by
  intro h
  have := h (pollNext 1 ++ pollNext 2 ++ trySend 7)
    _ 2 rfl (by decide +kernel) (by decide +kernel) (by decide +kernel) (by decide +kernel)
  exact absurd this (by decide +kernel)

/-- C34, sender, over all interleavings: its last poll was pending, both ends are
between calls, and what it waits for has happened. -/
def SenderWoken (k cap : Nat) (τ ε : Type) : Prop :=
  ∀ (acts : List (Act τ ε)) (s : State k τ ε) (κ : Kind), run cap (init k τ ε) acts = some s →
    s.spc.isIdle = true → s.rpc.resting = true → txWaits s.log = some κ → ¬Blocked cap κ s.log →
    txSince isTxWake s.log = true

/-- C34 is false for interleavings: a value is received in the middle of an
overwriting send that follows a pending `poll_ready`; there is room now, and no
wakeup. -/
theorem C34_false : ¬ SenderWoken 13 2 Nat Nat := by
  intro h
  have := h (trySend 1 ++ trySend 2 ++ poll .ready 5 ++ [.sCall (.sendOverwrite 3), .sStep, .sStep] ++ tryNext ++
    [.sStep, .sStep, .sStep]) _ .ready rfl (by decide +kernel) (by decide +kernel) (by decide +kernel)
    (by intro b; exact absurd b.2 (by decide +kernel))
  exact absurd this (by decide +kernel)

private theorem tx_woken {w : Waker} {acts : List (Act τ ε)} {s : State k τ ε} (h1 : 1 < cap) (hcap : cap < 2 ^ k)
    (h : run cap (init k τ ε) acts = some s) (ho : OneTx w acts) : ∀ u ∈ txWoken s.log, u = w := by
  obtain ⟨-, -, -, b, -⟩ := reach h1 hcap h
  have hw := txStored_one h ho (by simp [init, txStored]) (by simp [init, sPw])
  have hh := b.hist
  have mono : ∀ (e : Event τ ε) l u, u ∈ txStored l → u ∈ txStored (e :: l) := by
    intro e l u hu; cases e <;> simp [txStored, hu]
  intro u hu
  apply hw
  generalize s.log = l at hu hh
  induction l with
  | nil => simp [txWoken] at hu
  | cons e l ih =>
    have k1 := hh.1
    have ih := fun q => mono e l u (ih q hh.2)
    cases e with
    | wakeRefTx v =>
      simp only [txWoken, List.mem_cons] at hu
      rcases hu with rfl | hu
      · have := k1.1; simp [txStored, this]
      · exact ih hu
    | wakeTx v =>
      simp only [txWoken, List.mem_cons] at hu
      rcases hu with rfl | hu
      · have := k1.1; simp [txStored, this]
      · exact ih hu
    | _ => exact ih hu

private theorem not_waking {rpc : RPc k} (h : rpc.resting = true) : rWaking rpc = false := by
  cases rpc <;> simp_all [RPc.resting, rWaking]

/-- C34, sender, over all interleavings: it is woken unless it waited for room and an
overwriting send followed. (Missing for the full statement over interleavings: that
case, for which it is false.) -/
theorem C34_partial (h1 : 1 < cap) (hcap : cap < 2 ^ k) {acts : List (Act τ ε)} {s : State k τ ε} {κ : Kind} {w : Waker}
    (h : run cap (init k τ ε) acts = some s) (ho : OneTx w acts)
    (hs : s.spc = .idle) (hr : s.rpc.resting = true) (hp : txWaits s.log = some κ) (hb : ¬Blocked cap κ s.log)
    (hc : κ = .ready → txSince isClaimTx s.log = false) :
    txSince isTxWake s.log = true ∧ ∀ u ∈ txWoken s.log, u = w := by
  refine ⟨?_, tx_woken h1 hcap h ho⟩
  obtain ⟨-, il, -, -, -, -, d, -⟩ := reach h1 hcap h
  rcases d.wake (by rw [hs]; rfl) κ hp with q | q | ⟨q1, q2, q3, q4⟩
  · exact q
  · rw [not_waking hr] at q; simp at q
  · exfalso
    apply hb
    refine ⟨?_, ?_⟩
    · rw [← il.1.cl, q1]; simp
    · cases κ with
      | ready =>
        have := hc rfl
        rcases q3 rfl with q | q
        · exact il.1.cnt.trans q
        · rw [this] at q; simp at q
      | flush => exact il.1.cnt ▸ q4 rfl
      | close => trivial

/-- C34, sender, for calls that do not overlap: always. -/
theorem C34_sequential (h1 : 1 < cap) (hcap : cap < 2 ^ k) {acts : List (Act τ ε)} {s : State k τ ε} {κ : Kind} {w : Waker}
    (sq : Always cap Sequential (init k τ ε) acts) (h : run cap (init k τ ε) acts = some s) (ho : OneTx w acts)
    (hs : s.spc = .idle) (hr : s.rpc.resting = true) (hp : txWaits s.log = some κ) (hb : ¬Blocked cap κ s.log) :
    txSince isTxWake s.log = true ∧ ∀ u ∈ txWoken s.log, u = w := by
  refine ⟨?_, tx_woken h1 hcap h ho⟩
  obtain ⟨-, il, -, -, -, -, d, -⟩ := reach h1 hcap h
  have ls := reachS h1 hcap sq h
  unfold LogS at ls
  rw [hs, not_waking hr] at ls
  simp only [sDone, SPc.slot] at ls
  rcases d.wake (by rw [hs]; rfl) κ hp with q | q | ⟨q1, q2, q3, q4⟩
  · exact q
  · rw [not_waking hr] at q; simp at q
  · cases κ with
    | ready =>
      have := ls trivial hp
      simp only [Bool.false_eq_true, false_or, Option.isSome_none, false_and, or_false] at this
      rcases this with q | q
      · exact q
      · exact absurd ⟨by rw [← il.1.cl, q1]; simp, il.1.cnt.trans q⟩ hb
    | flush => exact absurd ⟨by rw [← il.1.cl, q1]; simp, il.1.cnt ▸ q4 rfl⟩ hb
    | close => exact absurd ⟨by rw [← il.1.cl, q1]; simp, trivial⟩ hb

/-- A pending poll means that there is a reason to wait, and every answer is right. -/
theorem C34_polls (h1 : 1 < cap) (hcap : cap < 2 ^ k) {acts : List (Act τ ε)} {s : State k τ ε}
    (h : run cap (init k τ ε) acts = some s) {l₁ l₂ : List (Event τ ε)} {κ : Kind} {w : Waker} :
    (s.log = l₁ ++ .pollPending κ w :: l₂ → Blocked cap κ l₂) ∧
    (s.log = l₁ ++ .pollOk κ :: l₂ → ¬Blocked cap κ l₂) ∧
    (s.log = l₁ ++ .pollCanceled κ :: l₂ → Event.closed ∈ l₂) := by
  have hh := (reach h1 hcap h).2.1.1.hist
  refine ⟨fun e => ?_, fun e => ?_, fun e => ?_⟩ <;> rw [e] at hh <;> have := (hist_mem hh).1 <;>
    cases κ <;> simp only [OkCount] at this <;> (try simp only [Blocked])
  · exact ⟨this.2, this.1⟩
  · exact ⟨this.2, this.1⟩
  · exact ⟨this, trivial⟩
  · rintro ⟨-, q⟩; omega
  · rintro ⟨-, q⟩; omega
  · rintro ⟨q, -⟩; exact q this
  · exact this
  · exact this
  · exact this

/-- Waiting for room, woken by the receive; waiting for the flush, woken by the
second receive. -/
example : (run 2 (init 13 Nat Nat) (trySend 1 ++ trySend 2 ++ poll .ready 5 ++ tryNext)).map
    (fun s => (txWaits s.log, npend s.log, txSince isTxWake s.log)) = some (some .ready, 1, true) := by decide +kernel
example : (run 2 (init 13 Nat Nat) (trySend 1 ++ trySend 2 ++ poll .flush 5 ++ tryNext)).map
    (fun s => (txWaits s.log, npend s.log, txSince isTxWake s.log)) = some (some .flush, 1, false) := by decide +kernel
example : (run 2 (init 13 Nat Nat) (trySend 1 ++ trySend 2 ++ poll .flush 5 ++ tryNext ++ tryNext)).map
    (fun s => (txWaits s.log, npend s.log, txSince isTxWake s.log)) = some (some .flush, 0, true) := by decide +kernel
example : (run 2 (init 13 Nat Nat) (poll .close 5 ++ [.rCall .close, .rStep, .rStep])).map
    (fun s => (txWaits s.log, txSince isTxWake s.log)) = some (some .close, true) := by decide +kernel

/-! ## C35 -/

/-- C35 for `try_send`: on a closed channel it is never refused as full. -/
def ClosedCancels (k cap : Nat) (τ ε : Type) : Prop :=
  ∀ (acts : List (Act τ ε)) (s s' : State k τ ε) (v : τ), run cap (init k τ ε) acts = some s → s.spc.isIdle = true →
    Event.closed ∈ s.log → run cap s (trySend v) = some s' → s'.log = .canceled v :: .callSend v :: s.log

/-- C35 is false: `try_send` on a closed channel that is full returns `Full`. -/
theorem C35_false : ¬ ClosedCancels 13 2 Nat Nat := by
  intro h
  have := h (trySend 1 ++ trySend 2 ++ [.rCall .close, .rStep]) _ _ 3 rfl (by decide +kernel) (by decide +kernel) rfl
  exact absurd this (by decide +kernel)

/-- C35 for `try_send` on a channel that is not full, and for `send_overwrite` and
`send_err` on any closed channel. (Missing: `try_send` on a full one, for which it is
false.) -/
theorem C35_partial (h1 : 1 < cap) (hcap : cap < 2 ^ k) {acts : List (Act τ ε)} {s : State k τ ε}
    (h : run cap (init k τ ε) acts = some s) (hi : s.spc = .idle) (hc : Event.closed ∈ s.log) (v : τ) (e : ε) :
    ((contents cap s).length ≠ cap → ∃ s', run cap s (trySend v) = some s' ∧ s'.log = .canceled v :: .callSend v :: s.log ∧
      s'.st = s.st ∧ s'.spc = .idle) ∧
    (∃ s', run cap s (sendOverwrite v) = some s' ∧ s'.log = .canceled v :: .callOver v :: s.log ∧ s'.st = s.st ∧ s'.spc = .idle) ∧
    (∃ s', run cap s [.sCall (.sendErr e), .sStep, .sStep, .sStep, .sStep, .sStep] = some s' ∧ returned s'.log = [e] ∧
      Event.errOk ∉ s'.log ∧ s'.err = none ∧ s'.spc = .gone) := by
  obtain ⟨inv, hf⟩ := sIdle_inv h1 hcap h hi
  obtain ⟨-, il, a, -⟩ := reach h1 hcap h
  have hC := il.1.cl.2 hc
  have hlt := addCursor_lt il.1.cur il.1.len
  have e0 : (contents cap s).length = len s.st := by simp [contents]
  rw [e0]
  have hdat : s.err = none := by
    have := inv.data
    have hd := inv.dOk
    rw [hi] at this hd
    simp only [sWritten, sDone, sFail, Bool.false_eq_true, false_and, imp_false, not_or, Bool.not_eq_true] at this hd
    cases hh : s.err
    · rfl
    · rw [hh, hd.1, hd.2] at this; simp at this
  have hno : returned s.log = [] ∧ Event.errOk ∉ s.log := by
    refine ⟨?_, ?_⟩
    · cases hq : returned s.log with
      | nil => rfl
      | cons x xs => have := (a.ret (by simp [hq])).1; rw [hi] at this; simp [sGone] at this
    · intro q; have := (a.ok q).1; rw [hi] at this; simp [sGone] at this
  have hw : has s.st (RX k) = true → s.rxw.isSome = true := by
    intro q; rw [inv.rxw, hi, q]; simp [sDone]
  refine ⟨fun e => ⟨_, run_canceled hi hf e hC hlt, rfl, rfl, hi⟩, ?_, ?_⟩
  · obtain ⟨st, buf, err, rxw, txw, freed, spc, rpc, log⟩ := s
    dsimp only at hi hf hC
    subst hi hf
    have e1 : claimIfFull cap st = st := by simp [claimIfFull, hC]
    by_cases e : len st = cap <;>
      exact ⟨⟨st, buf, err, rxw, txw, false, .idle, rpc, .canceled v :: .callOver v :: log⟩,
        by simp [sendOverwrite, run, step, SPc.isIdle, sCall, State.emit, sStep, SPc.resting, e, owMid, hC, e1], rfl, rfl, rfl⟩
  · obtain ⟨st, buf, err, rxw, txw, freed, spc, rpc, log⟩ := s
    dsimp only at hi hf hC hdat hno hw
    subst hi hf hdat
    cases hrr : has st (RX k) <;> cases hh : has st (HALF k)
    · exact ⟨_, by simp [run, step, SPc.isIdle, sCall, State.emit, State.release, sStep, SPc.resting, errTail, hC, hrr, hh]; rfl,
        by simp [returned, hno], by simp [hno], rfl, rfl⟩
    · exact ⟨_, by simp [run, step, SPc.isIdle, sCall, State.emit, State.release, sStep, SPc.resting, errTail, hC, hrr, hh]; rfl,
        by simp [returned, hno], by simp [hno], rfl, rfl⟩
    · cases rxw with
      | none => simp [hrr] at hw
      | some w =>
        exact ⟨_, by simp [run, step, SPc.isIdle, sCall, State.emit, State.release, sStep, SPc.resting, errTail, hC, hrr, hh]; rfl,
          by simp [returned, hno], by simp [hno], rfl, rfl⟩
    · cases rxw with
      | none => simp [hrr] at hw
      | some w =>
        exact ⟨_, by simp [run, step, SPc.isIdle, sCall, State.emit, State.release, sStep, SPc.resting, errTail, hC, hrr, hh]; rfl,
          by simp [returned, hno], by simp [hno], rfl, rfl⟩

example : (run 2 (init 13 Nat Nat) (trySend 1 ++ [.rCall .close, .rStep])).map (fun s => (s.spc.isIdle, s.log.head?, contents 2 s)) =
    some (true, some .closed, [some 1]) := by decide +kernel

/-! ## C60 -/

/-- C60: when both ends are gone the object has been released, once, its cells are
empty, and every value sent successfully has been received, handed back by an
overwriting send, or dropped, exactly once; the error too. -/
theorem C60_partial (h1 : 1 < cap) (hcap : cap < 2 ^ k) {acts : List (Act τ ε)}
    (al : Always cap (Safe cap) (init k τ ε) acts) :
    ∃ s, run cap (init k τ ε) acts = some s ∧
      (s.freed = true ↔ s.spc = .gone ∧ s.rpc = .gone) ∧
      frees s.log = (if s.freed then 1 else 0) ∧
      (s.freed = true → s.err = none ∧ s.rxw = none ∧ s.txw = none ∧ contents cap s = [] ∧
        (pushed s.log).Perm (received s.log ++ overwritten s.log ++ droppedVals s.log) ∧
        errs s.log = recvErrs s.log ++ dropErrs s.log ++ returned s.log) := by
  obtain ⟨s, h, inv, il, ic⟩ := run_safe h1 hcap (init_inv cap k τ ε) (init_invL h1) init_invC al
  obtain ⟨-, -, a, -⟩ := reach h1 hcap h
  have hg : s.freed = true ↔ s.spc = .gone ∧ s.rpc = .gone := by
    rw [inv.freed]
    cases hs : s.spc <;> cases hr : s.rpc <;> simp [sGone, rGone]
  refine ⟨s, h, hg, a.frees, fun hf => ?_⟩
  obtain ⟨g1, g2⟩ := hg.1 hf
  have hd := inv.data
  have hr := inv.rxw
  have ht := inv.txw
  have hc := inv.closed
  have hl := ic.1.dlen
  rw [g1, g2] at hd hr ht
  rw [g2] at hc hl
  simp only [sWritten, rDone, rRead, sFail, rRx, sDone, Ring.sWk, sTx, rTx] at hd hr ht hc hl
  have hc := hc trivial
  have hl := hl trivial
  have herr : s.err = none := by cases hh : s.err <;> simp_all
  have hcon : contents cap s = [] := by simp [contents, hl]
  refine ⟨herr, ?_, ?_, hcon, ?_, ?_⟩
  · cases hh : s.rxw <;> simp_all
  · cases hh : s.txw <;> simp_all
  · have hh := C29_removals h1 hcap (al.mono fun _ q => q.noclash) h
    obtain ⟨e1, -, -, -, e2⟩ := hh
    obtain ⟨r1, r2, r3⟩ := e2 (by rw [g1]; rfl) (by rw [g2]; rfl)
    rw [hcon, List.append_nil] at e1
    have := (List.map_inj_right (fun _ _ q => Option.some.inj q)).1 e1
    rw [this, ← r1, ← r2, ← r3]
    exact perm_removedBy _
  · have := a.vals
    rw [g1, herr] at this
    simpa [sErr] using this

/-- Values, an error and a waker at the end. -/
def leave : List (Act Nat Nat) :=
  trySend 1 ++ trySend 2 ++ sendOverwrite 3 ++ tryNext ++ poll .flush 5 ++ [.sCall (.sendErr 9), .sStep, .sStep, .sStep,
    .rCall .drop, .rStep, .rStep, .rStep, .rStep, .rStep]

example : (run 2 (init 13 Nat Nat) leave).map (fun s => (s.freed, pushed s.log, received s.log, overwritten s.log, droppedVals s.log)) =
    some (true, [1, 2, 3], [2], [1], [3]) := by decide +kernel
example : (run 2 (init 13 Nat Nat) leave).map (fun s => (dropErrs s.log, txUsed s.log, frees s.log)) = some ([9], [5], 1) := by
  decide +kernel

/-! ## C61 -/

/-- C61, the end is final: once the end was reported, nothing more is received. -/
theorem C61_final (h1 : 1 < cap) (hcap : cap < 2 ^ k) {acts : List (Act τ ε)} {s : State k τ ε}
    (h : run cap (init k τ ε) acts = some s) {l₁ l₂ : List (Event τ ε)} {e : Event τ ε} (hl : s.log = l₁ ++ e :: l₂)
    (he : e = .ended ∨ e = .terminated true) : (∀ v, Event.recv v ∉ l₁) ∧ (∀ x, Event.recvErr x ∉ l₁) ∧ Event.claimRx ∉ l₁ := by
  obtain ⟨-, -, -, -, -, f, -, g⟩ := reach h1 hcap h
  have h3 := f.hist
  have h4 := g.hist
  rw [hl] at h3 h4
  refine ⟨fun v hx => ?_, fun x hx => ?_, fun hx => ?_⟩ <;> obtain ⟨m₁, m₂, em⟩ := List.append_of_mem hx <;>
    rw [em, List.append_assoc] at h3 h4
  · have := (hist_mem h4).1
    rcases he with rfl | rfl <;> simp [OkFinV] at this
  · have := (hist_mem h3).1
    rcases he with rfl | rfl <;> simp [OkFin] at this
  · have := (hist_mem h3).1
    rcases he with rfl | rfl <;> simp [OkFin] at this

/-- The end is reported only with nothing pending, after the sender left or the
channel was closed, and not before a successfully sent error was received. -/
theorem C61_end (h1 : 1 < cap) (hcap : cap < 2 ^ k) {acts : List (Act τ ε)} {s : State k τ ε}
    (h : run cap (init k τ ε) acts = some s) {l₁ l₂ : List (Event τ ε)} {e : Event τ ε} (hl : s.log = l₁ ++ e :: l₂)
    (he : e = .ended ∨ e = .terminated true) :
    npend l₂ = 0 ∧ (SenderLeft l₂ ∨ Event.closed ∈ l₂) ∧ (Event.errOk ∈ l₂ → recvErrs l₂ ≠ []) := by
  obtain ⟨-, il, a, -⟩ := reach h1 hcap h
  have k1 := a.hist
  have k2 := il.1.hist
  rw [hl] at k1 k2
  have q1 := (hist_mem k1).1
  have q2 := (hist_mem k2).1
  rcases he with rfl | rfl
  · exact ⟨q2, q1⟩
  · exact ⟨q2 rfl, q1⟩

/-- Emptiness is reported only with nothing pending and the sender still there. -/
theorem C61_empty (h1 : 1 < cap) (hcap : cap < 2 ^ k) {acts : List (Act τ ε)} {s : State k τ ε}
    (h : run cap (init k τ ε) acts = some s) {l₁ l₂ : List (Event τ ε)} {e : Event τ ε} {w : Waker} (hl : s.log = l₁ ++ e :: l₂)
    (he : e = .empty ∨ e = .pending w) :
    npend l₂ = 0 ∧ Event.closed ∉ l₂ ∧ Event.sDropped ∉ l₂ ∧ Event.errOk ∉ l₂ := by
  obtain ⟨-, il, a, -⟩ := reach h1 hcap h
  have k1 := a.hist
  have k2 := il.1.hist
  rw [hl] at k1 k2
  have q1 := (hist_mem k1).1
  have q2 := (hist_mem k2).1
  rcases he with rfl | rfl
  · exact ⟨q2, q1⟩
  · exact ⟨q2, q1⟩

/-- The error: at most one is sent; it is handed out at most once, after all values,
and nothing is sent afterwards; a successful `send_err` was called before the close. -/
theorem C61_error (h1 : 1 < cap) (hcap : cap < 2 ^ k) {acts : List (Act τ ε)} {s : State k τ ε}
    (h : run cap (init k τ ε) acts = some s) :
    (errs s.log).length ≤ 1 ∧
    (recvErrs s.log).length + (dropErrs s.log).length + (returned s.log).length ≤ (errs s.log).length ∧
    (∀ x, x ∈ recvErrs s.log ∨ x ∈ dropErrs s.log ∨ x ∈ returned s.log → x ∈ errs s.log) ∧
    (Event.errOk ∈ s.log → returned s.log = []) ∧
    ∀ l₁ l₂ x, s.log = l₁ ++ .recvErr x :: l₂ → errs l₂ = [x] ∧ npend l₂ = 0 ∧ (∀ v, Event.push v ∉ l₁) ∧ Event.claimRx ∉ l₁ := by
  obtain ⟨-, il, a, -⟩ := reach h1 hcap h
  have hv := a.vals
  have hl := congrArg List.length hv
  simp only [List.length_append] at hl
  refine ⟨a.one, by omega, ?_, fun ho => (a.ok ho).2.1, ?_⟩
  · rintro x hx
    rw [hv]
    simp only [List.mem_append]
    grind
  · intro l₁ l₂ x e
    have k1 := a.hist
    have k2 := il.1.hist
    rw [e] at k1 k2
    have q1 := (hist_mem k1).1
    have q2 : npend l₂ = 0 := (hist_mem k2).1
    have hs : SenderLeft (Event.recvErr x :: l₂) := left_tail (.inl (by rw [q1.1]; simp))
    have key : ∀ m : List (Event τ ε), Hist OkErr (m ++ Event.recvErr x :: l₂) → Hist (OkCount cap) (m ++ Event.recvErr x :: l₂) →
        SenderLeft (m ++ Event.recvErr x :: l₂) ∧ npend (m ++ Event.recvErr x :: l₂) = 0 ∧ (∀ v, Event.push v ∉ m) ∧ Event.claimRx ∉ m := by
      intro m
      induction m with
      | nil => exact fun _ _ => ⟨hs, q2, by simp, by simp⟩
      | cons y m ih =>
        intro g1 g2
        obtain ⟨i1, i2, i3, i4⟩ := ih g1.2 g2.2
        have no : ¬(errs (m ++ Event.recvErr x :: l₂) = [] ∧ Event.sDropped ∉ m ++ Event.recvErr x :: l₂) := by
          rintro ⟨q1, q2⟩
          rcases i1 with i1 | i1
          · exact i1 q1
          · exact q2 i1
        refine ⟨left_tail i1, ?_, ?_⟩
        · have := g1.1
          have i2' : (abs (m ++ Event.recvErr x :: l₂)).pend = [] := List.eq_nil_of_length_eq_zero i2
          cases y <;> first | exact absurd this no | (simp [npend, abs, i2']; done)
        · have k1 := g1.1
          have k2 := g2.1
          cases y with
          | push v => exact absurd k1 no
          | claimRx =>
            have k2 : 0 < npend (m ++ Event.recvErr x :: l₂) := k2
            omega
          | _ => simp [i3, i4]
    exact ⟨q1.1, q2, (key l₁ k1 k2).2.2⟩

/-- `is_terminated` answers whether the next receive would report the end, and if it
says no there is a reason. -/
theorem C61_is_terminated (h1 : 1 < cap) (hcap : cap < 2 ^ k) {acts : List (Act τ ε)} {s : State k τ ε}
    (h : run cap (init k τ ε) acts = some s) (hr : s.rpc = .idle) :
    ∃ b, (run cap s [.rCall .isTerminated, .rStep]).map (·.log) = some (.terminated b :: s.log) ∧
      (b = true ↔ (run cap s [.rCall .tryNext, .rStep]).map (·.log) = some (.ended :: s.log)) ∧
      (b = false → npend s.log ≠ 0 ∨ (Event.closed ∉ s.log ∧ Event.sDropped ∉ s.log ∧ Event.errOk ∉ s.log) ∨
        (errs s.log ≠ [] ∧ Untaken s.log ∧ calledOpen s.log)) := by
  obtain ⟨inv, hf⟩ := rIdle_inv h1 hcap h hr
  have hres : ∀ t, run cap s [.rCall .isTerminated, .rStep] = some t → LogA t := fun t ht =>
    (reach h1 hcap (acts := acts ++ [.rCall .isTerminated, .rStep]) (s := t) (by rw [run_append, h]; exact ht)).2.2.1
  obtain ⟨st, buf, err, rxw, txw, freed, spc, rpc, log⟩ := s
  dsimp only at hr hf
  subst hr hf
  refine ⟨(has st (HALF k) || has st (CLOSED k)) && !has st (ERR k) && len st == 0, ?_, ?_, ?_⟩
  · simp [run, step, rCall, RPc.isIdle, rStep, RPc.resting, State.emit]
  · by_cases h0 : len st = 0
    · cases e1 : has st (ERR k) <;> cases e2 : has st (HALF k) <;> cases e3 : has st (CLOSED k) <;>
        simp [run, step, rCall, RPc.isIdle, rStep, RPc.resting, State.emit, h0, e1, e2, e3]
    · have h0' : 0 < len st := by omega
      simp [run, step, rCall, RPc.isIdle, rStep, RPc.resting, State.emit, h0, h0', takeValue]
      split <;> simp
  · intro hb
    have q : Hist OkTerm (Event.terminated _ :: log) :=
      (hres _ (by simp [run, step, rCall, RPc.isIdle, rStep, RPc.resting, State.emit]; rfl)).term
    have := q.1
    rw [hb] at this
    exact this

/-- Values first, then the error, then the end. -/
example : (run 2 (init 13 Nat Nat) (trySend 1 ++ [.sCall (.sendErr 9), .sStep, .sStep, .sStep] ++ tryNext ++ tryNext ++ tryNext ++
    [.rCall .isTerminated, .rStep])).map (fun s => s.log.take 5) =
    some [.terminated true, .ended, .recvErr 9, .recv 1, .claimRx] := by decide +kernel

end Verif.Ring
