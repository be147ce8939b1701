import Verif.Ring.PropsLemmas2
/-! # Properties of the ring channel (C29–C35, C60, C61)

Theorems are about every schedule of the two ends, at the granularity of single
accesses to the shared object, every capacity below `2 ^ k` (one less than the
constructor accepts, see C30) and every width of the state word, unless they say
otherwise. Witnesses use a 32-bit word (`k = 13`) and capacity 2. -/
namespace Verif.Ring

open Verif.Spsc

variable {k cap : Nat} {τ ε : Type}

/-- Send 1 and 2, the third send is refused, receive 1, send 3 (the buffer wraps
around), receive 2 and 3. -/
def demo : List (Act Nat Nat) :=
  trySend 1 ++ trySend 2 ++ trySend 7 ++ tryNext ++ trySend 3 ++ tryNext ++ tryNext

/-! ## C29 -/

/-- C29 in all detail, for schedules in which the two ends never work on the same
slot: the values sent successfully are, in order, those removed from the queue
followed by the pending ones, and those removed by the receiver, by overwriting
sends and by the drop of the receiver are, in order, the values received, handed
back and dropped (plus the one being read at the moment). -/
theorem C29_removals (h1 : 1 < cap) (hcap : cap < 2 ^ k) {acts : List (Act τ ε)} {s : State k τ ε}
    (al : Always cap (fun t => ¬Clash cap t) (init k τ ε) acts) (h : run cap (init k τ ε) acts = some s) :
    (pushed s.log).map some = ((removals s.log).map (·.2)).map some ++ contents cap s ∧
    (∃ x : Option τ, removedBy .receiver (removals s.log) = received s.log ++ x.toList) ∧
    (∃ x : Option τ, removedBy .sender (removals s.log) = overwritten s.log ++ x.toList) ∧
    (∃ x : List τ, removedBy .drop (removals s.log) = droppedVals s.log ++ x) ∧
    (s.spc.resting = true → s.rpc.resting = true →
      removedBy .receiver (removals s.log) = received s.log ∧ removedBy .sender (removals s.log) = overwritten s.log ∧
      removedBy .drop (removals s.log) = droppedVals s.log) := by
  obtain ⟨il, ic⟩ := reachC h1 hcap al h
  obtain ⟨r1, r2, r3⟩ := removedBy_eq ic.2
  have hcon : contents cap s = (abs s.log).pend.map some := by
    rw [← ic.1.pend]
    unfold contents slots
    rw [List.map_map]
    refine List.map_congr_left fun j hj => ?_
    have := List.mem_range.1 hj
    have := il.1.len
    rw [Function.comp_apply, addCursor_mod il.1.cur (by omega)]
  refine ⟨?_, ⟨_, r1⟩, ⟨_, r2⟩, ⟨_, r3⟩, fun hs hr => ?_⟩
  · rw [pushed_eq, hcon, List.map_append]
  · obtain ⟨a1, a2, a3⟩ := resting_abs ic hs hr
    rw [r1, r2, r3, a1, a2, a3]
    simp

/-- C29 for calls that do not overlap: without overwriting sends and before the
drop of the receiver, the values sent successfully are exactly those received
followed by those in the buffer, in order; at most `cap` are in the buffer. -/
theorem C29_fifo (h1 : 1 < cap) (hcap : cap < 2 ^ k) {acts : List (Act τ ε)} {s : State k τ ε}
    (al : Always cap Sequential (init k τ ε) acts) (h : run cap (init k τ ε) acts = some s)
    (hs : s.spc.resting = true) (hr : s.rpc.resting = true)
    (ho : Event.claimTx ∉ s.log) (hd : Event.claimAll ∉ s.log) :
    (pushed s.log).map some = (received s.log).map some ++ contents cap s ∧ (contents cap s).length ≤ cap := by
  obtain ⟨e1, -, -, -, e2⟩ := C29_removals h1 hcap (al.mono fun _ => Sequential.noclash) h
  refine ⟨?_, ?_⟩
  · rw [e1, removals_rx ho hd, (e2 hs hr).1]
  · have := (reach h1 hcap h).2.1.1.len
    simpa [contents] using this

/-- What a whole call of `try_send` does, in any state with the sender between calls:
`Full` exactly if `cap` values are pending; otherwise the value is taken exactly if
the channel is open. -/
theorem C29_try_send (h1 : 1 < cap) (hcap : cap < 2 ^ k) {acts : List (Act τ ε)} {s : State k τ ε}
    (h : run cap (init k τ ε) acts = some s) (hi : s.spc = .idle) (v : τ) :
    ∃ s' ev, run cap s (trySend v) = some s' ∧ s'.spc = .idle ∧
      (s'.log = ev :: .callSend v :: s.log ∨ ∃ w, s'.log = .wakeRefRx w :: ev :: .callSend v :: s.log) ∧
      (contents cap s).length ≤ cap ∧
      (ev = .full v ∧ (contents cap s).length = cap ∨
       ev = .canceled v ∧ (contents cap s).length < cap ∧ Event.closed ∈ s.log ∨
       ev = .push v ∧ (contents cap s).length < cap ∧ Event.closed ∉ s.log) := by
  obtain ⟨inv, hf⟩ := sIdle_inv h1 hcap h hi
  have il := (reach h1 hcap h).2.1
  have hl := il.1.len
  have hcl := il.1.cl
  have e0 : (contents cap s).length = len s.st := by simp [contents]
  rw [e0]
  by_cases e : len s.st = cap
  · exact ⟨_, .full v, run_full hi hf e, hi, .inl rfl, hl, .inl ⟨rfl, e⟩⟩
  · have hlt := addCursor_lt il.1.cur hl
    cases hc : has s.st (CLOSED k) with
    | true =>
      refine ⟨_, .canceled v, run_canceled hi hf e hc hlt, hi, .inl rfl, hl, .inr (.inl ⟨rfl, by omega, hcl.1 hc⟩)⟩
    | false =>
      have hw : has s.st (RX k) = true → s.rxw.isSome = true := by
        intro q; rw [inv.rxw, hi, q]; simp [sDone]
      refine ⟨_, .push v, run_push hi hf e hc hlt hw, hi, ?_, hl, .inr (.inr ⟨rfl, by omega, by rw [← hcl, hc]; simp⟩)⟩
      cases hr : has s.st (RX k) with
      | false => left; simp
      | true =>
        right
        have := hw hr
        cases hx : s.rxw with
        | none => simp [hx] at this
        | some w => exact ⟨w, by simp⟩

/-- Over all interleavings: what the result of a send says about the number of
pending values when it was determined. -/
theorem C29_history (h1 : 1 < cap) (hcap : cap < 2 ^ k) {acts : List (Act τ ε)} {s : State k τ ε}
    (h : run cap (init k τ ε) acts = some s) {l₁ l₂ : List (Event τ ε)} {v : τ} :
    (s.log = l₁ ++ .full v :: l₂ → npend l₂ = cap) ∧
    (s.log = l₁ ++ .push v :: l₂ → npend l₂ < cap ∧ Event.closed ∉ l₂ ∧ lastCall l₂ = some v) ∧
    (s.log = l₁ ++ .canceled v :: l₂ → Event.closed ∈ l₂) ∧
    npend s.log = len s.st ∧ npend s.log ≤ cap := by
  have il := (reach h1 hcap h).2.1
  have hh := il.1.hist
  refine ⟨fun e => ?_, fun e => ?_, fun e => ?_, il.1.cnt, il.1.cnt ▸ il.1.len⟩
  all_goals rw [e] at hh
  · exact (hist_mem hh).1.1
  · exact (hist_mem hh).1
  · exact (hist_mem hh).1

example : (run 2 (init 13 Nat Nat) demo).map (fun s => (pushed s.log, received s.log, contents 2 s)) =
    some ([1, 2, 3], [1, 2, 3], []) := by decide +kernel
example : (run 2 (init 13 Nat Nat) (trySend 1 ++ trySend 2 ++ tryNext ++ trySend 3 ++ trySend 4)).map
    (fun s => (pushed s.log, received s.log, contents 2 s, s.log.head?)) =
    some ([1, 2, 3], [1], [some 2, some 3], some (.full 4)) := by decide +kernel

/-! ## C30 -/

/-- Sending a list of values. -/
def sends : List τ → List (Act τ ε)
  | [] => []
  | v :: vs => trySend v ++ sends vs

/-- C30: a channel of capacity `cap` stores `cap` values. -/
def Stores (k cap : Nat) (τ ε : Type) : Prop :=
  ∀ vs : List τ, vs.length = cap → ∃ s, run cap (init k τ ε) (sends vs) = some s ∧
    pushed s.log = vs ∧ contents cap s = vs.map some

private theorem send_many (h1 : 1 < cap) (vs : List τ) : ∀ (s : State k τ ε), s.spc = .idle → s.freed = false →
    has s.st (CLOSED k) = false → has s.st (RX k) = false → cur s.st < cap → len s.st + vs.length ≤ cap →
    len s.st + vs.length < 2 ^ k →
    ∃ s', run cap s (sends vs) = some s' ∧ s'.spc = .idle ∧ s'.freed = false ∧ s'.rpc = s.rpc ∧
      has s'.st (CLOSED k) = false ∧ has s'.st (RX k) = false ∧ has s'.st (ERR k) = has s.st (ERR k) ∧
      has s'.st (HALF k) = has s.st (HALF k) ∧ cur s'.st = cur s.st ∧ len s'.st = len s.st + vs.length ∧
      pushed s'.log = pushed s.log ++ vs ∧ received s'.log = received s.log ∧
      (∀ e ∈ s'.log, e ∈ s.log ∨ ∃ v, e = .push v ∨ e = .callSend v) := by
  induction vs with
  | nil =>
    intro s hi hf hc hr _ _ _
    exact ⟨s, rfl, hi, hf, rfl, hc, hr, rfl, rfl, rfl, rfl, by simp, rfl, fun e h => .inl h⟩
  | cons v vs ih =>
    intro s hi hf hc hr hcu hle hlt
    simp only [List.length_cons] at hle hlt
    have e := run_push (v := v) hi hf (show len s.st ≠ cap by omega) hc (addCursor_lt hcu (by omega)) (by simp [hr])
    simp only [hr, Bool.false_eq_true, if_false, List.nil_append] at e
    have el : len (addLength s.st) = len s.st + 1 := by rw [len_addLength (by omega), hc]; simp
    have ec : cur (addLength s.st) = cur s.st := cur_addLength (by omega)
    obtain ⟨s', a1, a2, a3, a4, a5, a6, a7, a8, a9, a10, a11, a12, a13⟩ :=
      ih { s with buf := upd s.buf (addCursor (cur s.st) (len s.st) cap) (some v), st := addLength s.st,
                  log := .push v :: .callSend v :: s.log } hi hf (by rw [has_addLength_CLOSED]; exact hc)
        (by rw [has_addLength_RX]; exact hr) (by dsimp only; rw [ec]; exact hcu) (by dsimp only; omega) (by dsimp only; omega)
    refine ⟨s', ?_, a2, a3, a4, a5, a6, ?_, ?_, ?_, ?_, ?_, ?_, ?_⟩
    · simp only [sends]; rw [run_append, e]; exact a1
    · rw [a7, has_addLength_ERR]
    · rw [a8, has_addLength_HALF]
    · rw [a9]; exact ec
    · rw [a10]; dsimp only; rw [el]; simp; omega
    · rw [a11]; simp [pushed]
    · rw [a12]; simp [received]
    · intro x hx
      rcases a13 x hx with q | q
      · simp only [List.mem_cons] at q
        rcases q with q | q | q
        · exact .inr ⟨v, .inl q⟩
        · exact .inr ⟨v, .inr q⟩
        · exact .inl q
      · exact .inr q

private theorem run_empty {s : State k τ ε} (hi : s.rpc = .idle) (hf : s.freed = false) (h0 : len s.st = 0)
    (c1 : has s.st (ERR k) = false) (c2 : has s.st (HALF k) = false) (c3 : has s.st (CLOSED k) = false) :
    run cap s [.rCall .tryNext, .rStep] = some { s with st := take cap s.st, log := .empty :: s.log } := by
  obtain ⟨st, buf, err, rxw, txw, freed, spc, rpc, log⟩ := s
  dsimp only at hi hf h0 c1 c2 c3
  subst hi hf
  simp [run, step, RPc.isIdle, rCall, rStep, RPc.resting, h0, c1, c2, c3, State.emit]

/-- C30 is false: with the largest capacity the constructor accepts, `2 ^ k` sends
succeed, after which the channel is empty: all the values are lost. -/
theorem C30_false (hk : 0 < k) (vs : List τ) (hv : vs.length = maxCapacity k) :
    channel k τ ε (maxCapacity k) = some (init k τ ε) ∧
    ∃ s, run (maxCapacity k) (init k τ ε) (sends vs ++ [.rCall .tryNext, .rStep]) = some s ∧
      pushed s.log = vs ∧ received s.log = [] ∧ contents (maxCapacity k) s = [] ∧ s.log.head? = some .empty := by
  have h2 : 2 ≤ 2 ^ k := by
    have : 2 ^ 1 ≤ 2 ^ k := Nat.pow_le_pow_right (by omega) (by omega)
    omega
  refine ⟨by simp [channel, maxCapacity]; omega, ?_⟩
  unfold maxCapacity at *
  have hne : vs ≠ [] := by intro q; simp [q] at hv; omega
  have hsplit := List.dropLast_concat_getLast hne
  generalize hL : vs.getLast hne = v at hsplit
  generalize vs.dropLast = us at hsplit
  subst hsplit
  simp only [List.length_append, List.length_cons, List.length_nil] at hv
  obtain ⟨s, a1, a2, a3, a4, a5, a6, a7, a8, a9, a10, a11, a12, a13⟩ :=
    send_many (cap := 2 ^ k) (by omega) us (init k τ ε) rfl rfl (by simp [init, has_zero]) (by simp [init, has_zero])
      (by simp [init, cur_zero]; omega) (by simp [init, len_zero]; omega) (by simp [init, len_zero]; omega)
  simp only [init, len_zero, cur_zero, Nat.zero_add, has_zero] at a7 a8 a9 a10
  have e := run_push (v := v) a2 a3 (show len s.st ≠ 2 ^ k by omega) a5 (addCursor_lt (by omega) (by omega)) (by simp [a6])
  simp only [a6, Bool.false_eq_true, if_false, List.nil_append] at e
  obtain ⟨w1, w2⟩ := addLength_wraps hk (show len s.st + 1 = 2 ^ k by omega) a5
  have happ : ∀ us : List τ, (sends (us ++ [v]) : List (Act τ ε)) = sends us ++ trySend v := by
    intro us
    induction us with
    | nil => simp [sends]
    | cons u us ih => simp [sends, ih]
  have c1 : has (addLength s.st) (ERR k) = false := by rw [has_addLength_ERR]; exact a7
  have c2 : has (addLength s.st) (HALF k) = false := by rw [has_addLength_HALF]; exact a8
  have c3 : has (addLength s.st) (CLOSED k) = false := by rw [has_addLength_CLOSED]; exact a5
  have ht : len (take (2 ^ k) (addLength s.st)) = 0 := by
    rw [len_take (by omega) (by omega), w1]
  rw [run_append, happ, run_append, a1]
  simp only [Option.bind_some, e]
  refine ⟨_, run_empty (by rw [a4]; rfl) a3 w1 c1 c2 c3, ?_, ?_, ?_, ?_⟩
  · simp [pushed, a11, init]
  · simp [received, a12, init]
  · simp [contents, ht]
  · rfl

/-- C30 for every smaller capacity. (Missing for the full statement: the largest
capacity the constructor accepts, for which it is false.) -/
theorem C30_partial (h1 : 1 < cap) (hcap : cap < maxCapacity k) : Stores k cap τ ε := by
  intro vs hv
  unfold maxCapacity at hcap
  obtain ⟨s, a1, a2, -, a4, -, -, -, -, -, a10, a11, a12, a13⟩ :=
    send_many (cap := cap) h1 vs (init k τ ε) rfl rfl (by simp [init, has_zero]) (by simp [init, has_zero])
      (by simp [init, cur_zero]; omega) (by simp [init, len_zero]; omega) (by simp [init, len_zero]; omega)
  refine ⟨s, a1, by rw [a11]; rfl, ?_⟩
  have hal : ∀ (t : State k τ ε) (as : List (Act τ ε)), t.rpc.resting = true → (∀ a ∈ as, a.ofSender = true) →
      Always cap Sequential t as := by
    intro t as
    induction as generalizing t with
    | nil => intro hr _; exact .inr hr
    | cons a as ih =>
      intro hr ha
      refine ⟨.inr hr, fun t' ht => ih t' ?_ fun a ha' => ha a (List.mem_cons_of_mem _ ha')⟩
      have := ha a (by simp)
      cases a with
      | sCall op =>
        simp only [step] at ht
        split at ht <;> simp only [Option.some.injEq] at ht <;> subst ht
        · cases op <;> exact hr
        · exact hr
      | sStep => rw [(sStep_rx ht).2.1]; exact hr
      | _ => simp [Act.ofSender] at this
  have hsend : ∀ (vs : List τ), ∀ a ∈ (sends vs : List (Act τ ε)), a.ofSender = true := by
    intro vs
    induction vs with
    | nil => simp [sends]
    | cons v vs ih =>
      intro a ha
      simp only [sends, List.mem_append] at ha
      rcases ha with ha | ha
      · simp [trySend] at ha
        rcases ha with rfl | rfl <;> rfl
      · exact ih a ha
  have hno : ∀ e ∈ s.log, ∃ v, e = .push v ∨ e = .callSend v := by
    intro e he
    rcases a13 e he with q | q
    · simp [init] at q
    · exact q
  have := (C29_fifo h1 hcap (hal _ _ rfl (hsend vs)) a1 (by rw [a2]; rfl) (by rw [a4]; rfl)
    (by intro q; obtain ⟨v, q | q⟩ := hno _ q <;> simp at q)
    (by intro q; obtain ⟨v, q | q⟩ := hno _ q <;> simp at q)).1
  rw [a11, a12] at this
  simpa [init, pushed, received] using this.symm

/-- The smallest word: `k = 1`, capacity 2. -/
example : (run 2 (init 1 Nat Nat) (sends [5, 6] ++ [.rCall .tryNext, .rStep])).map (fun s => (pushed s.log, s.log.head?)) =
    some ([5, 6], some .empty) := by decide +kernel
example : Stores 13 8191 Nat Nat := C30_partial (by decide) (by decide)

/-! ## C31 -/

/-- What a whole call of `send_overwrite` does on an open channel, the receiver
being between calls: the value is accepted; if the channel was full the oldest value
is handed back, and the pending values are the others followed by the new one. -/
theorem C31_overwrite (h1 : 1 < cap) (hcap : cap < 2 ^ k) {acts : List (Act τ ε)} {s : State k τ ε}
    (al : Always cap (fun t => ¬Clash cap t) (init k τ ε) acts) (h : run cap (init k τ ε) acts = some s)
    (hi : s.spc = .idle) (hr : s.rpc.resting = true) (hc : Event.closed ∉ s.log) (v : τ) :
    ∃ s', run cap s (sendOverwrite v) = some s' ∧ s'.spc = .idle ∧
      pushed s'.log = pushed s.log ++ [v] ∧
      ((contents cap s).length < cap ∧ contents cap s' = contents cap s ++ [some v] ∧ overwritten s'.log = overwritten s.log ∨
       (contents cap s).length = cap ∧ ∃ x rest, contents cap s = some x :: rest ∧ contents cap s' = rest ++ [some v] ∧
         overwritten s'.log = overwritten s.log ++ [x]) := by
  obtain ⟨inv, hf⟩ := sIdle_inv h1 hcap h hi
  obtain ⟨il, ic⟩ := reachC h1 hcap al h
  have hcon : ∀ t : State k τ ε, InvL cap t → InvC cap t → contents cap t = (abs t.log).pend.map some := by
    intro t il ic
    rw [← ic.1.pend]
    unfold contents slots
    rw [List.map_map]
    refine List.map_congr_left fun j hj => ?_
    have := List.mem_range.1 hj
    have := il.1.len
    rw [Function.comp_apply, addCursor_mod il.1.cur (by omega)]
  have hlc : has s.st (CLOSED k) = false := by
    cases q : has s.st (CLOSED k)
    · rfl
    · exact absurd (il.1.cl.1 q) hc
  have hal : ∀ (t : State k τ ε) (as : List (Act τ ε)), t.rpc.resting = true → (∀ a ∈ as, a.ofSender = true) →
      Inv cap t → InvL cap t → InvC cap t →
      ∃ t', run cap t as = some t' ∧ InvL cap t' ∧ InvC cap t' := by
    intro t as
    induction as generalizing t with
    | nil => intro _ _ _ il ic; exact ⟨t, rfl, il, ic⟩
    | cons a as ih =>
      intro hr ha inv il ic
      have od : Orderly t := by intro i hi'; rw [hi'] at hr; simp [RPc.resting] at hr
      obtain ⟨t1, ht⟩ := step_progress inv il ic od a
      have sq : Sequential t := .inr hr
      have hr1 : t1.rpc.resting = true := by
        have := ha a (by simp)
        cases a with
        | sCall op =>
          simp only [step] at ht
          split at ht <;> simp only [Option.some.injEq] at ht <;> subst ht
          · cases op <;> exact hr
          · exact hr
        | sStep => rw [(sStep_rx ht).2.1]; exact hr
        | _ => simp [Act.ofSender] at this
      obtain ⟨t2, h2, h3⟩ := ih t1 hr1 (fun a ha' => ha a (List.mem_cons_of_mem _ ha'))
        (step_inv inv sq.apart ht) (step_invL h1 hcap inv il ht) (step_invC h1 hcap inv il sq.noclash ic ht)
      exact ⟨t2, by simp [run, ht, h2], h3⟩
  have hsend : ∀ a ∈ (sendOverwrite v : List (Act τ ε)), a.ofSender = true := by
    intro a ha
    simp [sendOverwrite] at ha
    rcases ha with rfl | rfl <;> rfl
  obtain ⟨s', e1, il', ic'⟩ := hal s _ hr hsend inv il ic
  have e0 := hcon s il ic
  have e2 := hcon s' il' ic'
  have hlen : (contents cap s).length = len s.st := by simp [contents]
  have hl := il.1.len
  have hlt := addCursor_lt il.1.cur hl
  have hlt' : ¬cap ≤ addCursor (cur s.st) (len s.st) cap := by omega
  have hcl : ¬cap ≤ cur s.st := by have := il.1.cur; omega
  have hw : has s.st (RX k) = true → s.rxw.isSome = true := by
    intro q; rw [inv.rxw, hi, q]; simp [sDone]
  refine ⟨s', e1, ?_⟩
  rw [hlen]
  have e3 := e1
  obtain ⟨st, buf, err, rxw, txw, freed, spc, rpc, log⟩ := s
  dsimp only at hi hf hlc hl hlt' hcl hw
  subst hi hf
  by_cases e : len st = cap
  · have hcf : has (claimIfFull cap st) (CLOSED k) = false := by rw [has_claimIfFull_CLOSED]; exact hlc
    have hbuf : ∃ x rest, (abs log).pend = x :: rest ∧ buf (cur st) = some x := by
      have hp := ic.1.pend
      simp only [e] at hp
      rw [slots_pop il.1.cur (by omega) (by omega)] at hp
      cases hq : (abs log).pend with
      | nil => simp [hq] at hp
      | cons x rest => exact ⟨x, rest, rfl, by simp [hq] at hp; exact hp.1⟩
    obtain ⟨x, rest, hp, hx⟩ := hbuf
    have hrx : has (claimIfFull cap st) (RX k) = has st (RX k) := has_claimIfFull_RX cap st
    have key : ∃ es : List (Event τ ε), (es = [] ∨ ∃ w, es = [.wakeRefRx w]) ∧ s'.spc = .idle ∧
        s'.log = es ++ .push v :: .overwrote x :: .claimTx :: .callOver v :: log := by
      cases hrr : has st (RX k)
      · simp [sendOverwrite, run, step, SPc.isIdle, sCall, State.emit, sStep, SPc.resting, e, owMid, hlc, hx, hcl, hcf, hrx, hrr] at e3
        subst e3
        exact ⟨[], .inl rfl, rfl, rfl⟩
      · cases rxw with
        | none => simp [hrr] at hw
        | some w =>
          simp [sendOverwrite, run, step, SPc.isIdle, sCall, State.emit, sStep, SPc.resting, e, owMid, hlc, hx, hcl, hcf, hrx, hrr] at e3
          subst e3
          exact ⟨[.wakeRefRx w], .inr ⟨w, rfl⟩, rfl, rfl⟩
    obtain ⟨es, he, k1, k2⟩ := key
    refine ⟨k1, ?_, .inr ⟨e, x, rest.map some, ?_, ?_, ?_⟩⟩
    · rw [k2]; rcases he with rfl | ⟨w, rfl⟩ <;> simp [pushed]
    · rw [e0]; simp [hp]
    · rw [e2, k2]; rcases he with rfl | ⟨w, rfl⟩ <;> simp [abs, hp]
    · rw [k2]; rcases he with rfl | ⟨w, rfl⟩ <;> simp [overwritten]
  · have key : ∃ es : List (Event τ ε), (es = [] ∨ ∃ w, es = [.wakeRefRx w]) ∧ s'.spc = .idle ∧
        s'.log = es ++ .push v :: .callOver v :: log := by
      cases hrr : has st (RX k)
      · simp [sendOverwrite, run, step, SPc.isIdle, sCall, State.emit, sStep, SPc.resting, e, owMid, hlc, hlt', hrr] at e3
        subst e3
        exact ⟨[], .inl rfl, rfl, rfl⟩
      · cases rxw with
        | none => simp [hrr] at hw
        | some w =>
          simp [sendOverwrite, run, step, SPc.isIdle, sCall, State.emit, sStep, SPc.resting, e, owMid, hlc, hlt', hrr] at e3
          subst e3
          exact ⟨[.wakeRefRx w], .inr ⟨w, rfl⟩, rfl, rfl⟩
    obtain ⟨es, he, k1, k2⟩ := key
    refine ⟨k1, ?_, .inl ⟨by dsimp only; omega, ?_, ?_⟩⟩
    · rw [k2]; rcases he with rfl | ⟨w, rfl⟩ <;> simp [pushed]
    · rw [e2, k2, e0]; rcases he with rfl | ⟨w, rfl⟩ <;> simp [abs]
    · rw [k2]; rcases he with rfl | ⟨w, rfl⟩ <;> simp [overwritten]

/-- Over all interleavings without work on a common slot: a value is overwritten
only on an open, full channel, and it is the oldest one. -/
theorem C31_history (h1 : 1 < cap) (hcap : cap < 2 ^ k) {acts : List (Act τ ε)} {s : State k τ ε}
    (al : Always cap (fun t => ¬Clash cap t) (init k τ ε) acts) (h : run cap (init k τ ε) acts = some s)
    {l₁ l₂ : List (Event τ ε)} (hl : s.log = l₁ ++ .claimTx :: l₂) :
    npend l₂ = cap ∧ Event.closed ∉ l₂ ∧ removals (.claimTx :: l₂) = removals l₂ ++ (abs l₂).pend.head?.toList.map (Prod.mk .sender) ∧
    ∃ x : Option τ, removedBy .sender (removals s.log) = overwritten s.log ++ x.toList := by
  have hh := (reach h1 hcap h).2.1.1.hist
  rw [hl] at hh
  exact ⟨(hist_mem hh).1.1, (hist_mem hh).1.2, rfl, (C29_removals h1 hcap al h).2.2.1⟩

example : (run 2 (init 13 Nat Nat) (trySend 1 ++ trySend 2 ++ sendOverwrite 3)).map
    (fun s => (overwritten s.log, contents 2 s)) = some ([1], [some 2, some 3]) := by decide +kernel

end Verif.Ring
