import Verif.Stream.Lemmas
/-!
# C46–C49: the debug stream
-/
namespace Verif.Stream

/-! ### C46 — no accepted transaction is lost, duplicated, reordered or torn -/

/-- C46: for any buffer size, any initial contents and any interleaving of
writers (memory access by memory access) with the probe, what the probe has
obtained so far followed by what it obtains when it keeps looking is exactly
the list of transactions whose write was reported successful. -/
theorem C46_lossless (size : Nat) (hsize : 0 < size) (buf : Mem) (acts : List Act) :
    ∃ K, ∀ k, K ≤ k →
      receivedOf (run (init size buf) acts).2 ++ receivedOf (drain (run (init size buf) acts).1 k).2
        = acceptedOf (run (init size buf) acts).2 := by
  obtain ⟨q, hq, he⟩ := run_inv (init_inv hsize buf) acts
  obtain ⟨K, hK⟩ := drain_all hq
  refine ⟨K, fun k hk => ?_⟩
  rw [(hK k hk).1, ← he]
  simp

/-- C46, at every moment: the probe has a prefix of what was accepted (nothing
invented, reordered, duplicated or torn, and nothing is received before its
write completed). -/
theorem C46_received_prefix (size : Nat) (hsize : 0 < size) (buf : Mem) (acts : List Act) :
    receivedOf (run (init size buf) acts).2 <+: acceptedOf (run (init size buf) acts).2 := by
  obtain ⟨q, hq, he⟩ := run_inv (init_inv hsize buf) acts
  exact ⟨q, by rw [← he]; simp⟩

/-- C46: no step ever changes a byte the probe may still have to read. -/
theorem C46_unread_untouched (size : Nat) (hsize : 0 < size) (buf : Mem) (acts : List Act)
    (a : Act) (i : Nat) (hi : i < size)
    (hu : Unread (run (init size buf) acts).1.read (run (init size buf) acts).1.write i) :
    (step (run (init size buf) acts).1 a).1.buf i = (run (init size buf) acts).1.buf i := by
  obtain ⟨q, hq, -⟩ := run_inv (init_inv hsize buf) acts
  generalize (run (init size buf) acts).1 = s at *
  have hr := hq.hr
  have hw := hq.hw
  cases a with
  | begin stream source =>
    simp only [step]
    repeat' split
    all_goals rfl
  | consume => rfl
  | wstep =>
    cases hwr : s.writer with
    | none => simp [step, hwr]
    | some wr =>
      have hi' := hq.writer wr hwr
      cases hst : wr.plan.stores with
      | nil => simp [step, hwr, hst]
      | cons x rest =>
        obtain ⟨a, v⟩ := x
        simp only [step, hwr, hst]
        have hne : i ≠ a := by
          rcases hi' with ⟨_, g2, _⟩ | ⟨g1, g2, g3, g4, g5⟩ | ⟨g1, g2, g3, ⟨next, g4, g5⟩, g6, g7⟩
          · simp [g2] at hst
          · rcases g5 with g5 | g5
            · rw [hst] at g5
              simp only [List.cons.injEq, Prod.mk.injEq] at g5
              rw [Unread, if_pos g4] at hu
              omega
            · simp [g5.1] at hst
          · obtain ⟨j, hj, e⟩ := g6 (a, v) (by simp [hst])
            simp only [Prod.mk.injEq] at e
            have hlen := frameBytes_length wr.stream wr.source
            rcases g5 with g5 | g5
            · rw [Unread, if_pos g5.1] at hu
              omega
            · rw [Unread, if_neg (by omega)] at hu
              omega
        rw [if_neg hne]

/-- C46: nothing is ever written outside the buffer. -/
theorem C46_in_bounds (size : Nat) (hsize : 0 < size) (buf : Mem) (acts : List Act) (i : Nat)
    (hi : size ≤ i) : (run (init size buf) acts).1.buf i = buf i := by
  have gen : ∀ (acts : List Act) (s : State) (q : List Frame), Inv s q → s.size ≤ i →
      (run s acts).1.buf i = s.buf i := by
    intro acts
    induction acts with
    | nil => intro s q _ _; rfl
    | cons a acts ih =>
      intro s q hq hi
      obtain ⟨q', hq', -⟩ := step_inv hq a
      have hsz : (step s a).1.size = s.size := by
        cases a <;> simp only [step] <;> (repeat' split) <;> rfl
      simp only [run]
      rw [ih _ q' hq' (by rw [hsz]; exact hi)]
      have hr := hq.hr
      have hw := hq.hw
      cases a with
      | begin stream source => simp only [step]; (repeat' split) <;> rfl
      | consume => rfl
      | wstep =>
        cases hwr : s.writer with
        | none => simp [step, hwr]
        | some wr =>
          have hi' := hq.writer wr hwr
          cases hst : wr.plan.stores with
          | nil => simp [step, hwr, hst]
          | cons x rest =>
            obtain ⟨a, v⟩ := x
            simp only [step, hwr, hst]
            have hne : i ≠ a := by
              rcases hi' with ⟨_, g2, _⟩ | ⟨g1, g2, g3, g4, g5⟩ | ⟨g1, g2, g3, ⟨next, g4, g5⟩, g6, g7⟩
              · simp [g2] at hst
              · rcases g5 with g5 | g5
                · rw [hst] at g5
                  simp only [List.cons.injEq, Prod.mk.injEq] at g5
                  omega
                · simp [g5.1] at hst
              · obtain ⟨j, hj, e⟩ := g6 (a, v) (by simp [hst])
                simp only [Prod.mk.injEq] at e
                have hlen := frameBytes_length wr.stream wr.source
                rcases g5 with g5 | g5 <;> omega
            rw [if_neg hne]
  exact gen acts _ _ (init_inv hsize buf) hi

/-- C46: a legal write never panics, whatever happened before. -/
theorem C46_no_panic (size : Nat) (hsize : 0 < size) (buf : Mem) (acts : List Act)
    (stream : UInt8) (source : List UInt8) (hs : stream.toNat < streamCount)
    (hl : source.length ≤ 255) :
    Event.panicked ∉ (step (run (init size buf) acts).1 (.begin stream source)).2 := by
  obtain ⟨q, hq, -⟩ := run_inv (init_inv hsize buf) acts
  generalize (run (init size buf) acts).1 = s at *
  have hsome := transaction_isSome (r := s.read) hq.hw stream source
  have hc : ¬ (streamCount ≤ stream.toNat ∨ 255 < source.length) := by omega
  simp only [step]
  cases hw : s.writer with
  | some wr => simp
  | none =>
    cases ht : transaction s.size s.read s.write stream source with
    | none => simp [ht] at hsome
    | some plan => simp [hc]

/-- Two writes with the probe looking in the middle of the second one, in an
8-byte buffer: the second frame needs the wrap marker. -/
example :
    let acts := Act.begin 1 [10, 11, 12] :: List.replicate 6 .wstep ++
      [.begin 2 [20, 21], .wstep, .consume, .wstep, .begin 2 [20, 21], .wstep, .consume, .wstep, .wstep, .wstep, .wstep]
    let es := (run (init 8 fun _ => 0) acts).2
    acceptedOf es = [(1, [10, 11, 12])] ∧ receivedOf es = [(1, [10, 11, 12])] := by decide

example :
    let acts := Act.begin 1 [10, 11, 12] :: List.replicate 6 .wstep ++ [.consume] ++
      .begin 2 [20, 21] :: List.replicate 6 .wstep ++ .begin 2 [20, 21] :: .consume :: List.replicate 6 .wstep
      ++ [.consume]
    let es := (run (init 8 fun _ => 0) acts).2
    acceptedOf es = [(1, [10, 11, 12]), (2, [20, 21])] ∧
    receivedOf es = [(1, [10, 11, 12]), (2, [20, 21])] := by decide

example : Unread 5 2 6 ∧ Unread 5 2 1 ∧ ¬ Unread 5 2 3 := by simp [Unread]

/-! ### C47 — progress -/

/-- C47: a transaction smaller than the buffer is accepted at the first or the
second attempt once the probe drains the buffer before each attempt, whatever
happened before. -/
theorem C47_progress (size : Nat) (hsize : 0 < size) (buf : Mem) (acts : List Act)
    (hidle : (run (init size buf) acts).1.writer = none)
    (stream : UInt8) (source : List UInt8) (hs : stream.toNat < streamCount)
    (hl : source.length ≤ 255) (hfit : source.length + 2 < size) :
    ∃ K, ∀ k, K ≤ k →
      let s1 := (drain (run (init size buf) acts).1 k).1
      (attempt s1 stream source).2 = [.accepted stream source] ∨
      ∃ K', ∀ k', K' ≤ k' →
        (attempt (drain (attempt s1 stream source).1 k').1 stream source).2 =
          [.accepted stream source] := by
  obtain ⟨q, hq, -⟩ := run_inv (init_inv hsize buf) acts
  have hsz : (run (init size buf) acts).1.size = size := by
    have : ∀ (acts : List Act) (s : State), (run s acts).1.size = s.size := by
      intro acts
      induction acts with
      | nil => intro s; rfl
      | cons a acts ih =>
        intro s
        simp only [run, ih]
        cases a <;> simp only [step] <;> (repeat' split) <;> rfl
    rw [this]
    rfl
  generalize (run (init size buf) acts).1 = s at *
  subst hsz
  obtain ⟨K, hK⟩ := drain_all hq
  refine ⟨K, fun k hk => ?_⟩
  intro s1
  obtain ⟨-, d2, d3, d4, -⟩ := drain_accepted s k
  have hrd : s1.read = s.write := (hK k hk).2
  have hwd : s1.write = s.write := d2
  have hsd : s1.size = s.size := d3
  have hid : s1.writer = none := by rw [← hidle]; exact d4
  have hr := hq.hr
  have hw := hq.hw
  obtain ⟨q1, hq1, -⟩ := run_inv hq (List.replicate k .consume)
  have hq1 : Inv s1 q1 := hq1
  -- from empty cursors, a frame that fits before the end is accepted
  have accept : ∀ (t : State) (q : List Frame), Inv t q → t.size = s.size → t.writer = none →
      t.read = t.write → t.write + (source.length + 2) ≤ t.size →
      (attempt t stream source).2 = [.accepted stream source] := by
    intro t q hq htz hti htr hfits
    obtain ⟨plan, hp⟩ := Option.isSome_iff_exists.mp
      (transaction_isSome (r := t.read) hq.hw stream source)
    obtain ⟨b, hb⟩ := attempt_eq hq.hr hq.hw hti hs hl hp
    rw [hb]
    suffices plan.result = true by simp [this]
    rcases transaction_cases hq.hr hq.hw hp with h | ⟨h, h1, h2, h3⟩ | ⟨next, h, _⟩
    · exfalso
      subst h
      unfold transaction headerLength at hp
      simp only [ge_iff_le, htr, Nat.le_refl, decide_true, if_true] at hp
      have := hq.hw
      rw [if_neg (by omega), if_pos (by omega)] at hp
      generalize hn : (if t.write + (source.length + 2) = t.size then 0
        else t.write + (source.length + 2)) = n at hp
      have hne : n ≠ t.write := by
        split at hn <;> omega
      rw [if_neg hne] at hp
      simp at hp
    · omega
    · rw [h]
  by_cases hfits : s1.write + (source.length + 2) ≤ s1.size
  · left
    exact accept s1 q1 hq1 hsd hid (by omega) hfits
  · right
    obtain ⟨plan, hp⟩ := Option.isSome_iff_exists.mp
      (transaction_isSome (r := s1.read) hq1.hw stream source)
    obtain ⟨b, hb⟩ := attempt_eq hq1.hr hq1.hw hid hs hl hp
    have hplan : plan = { stores := [(s1.write, 0xFF)], publish := some 0, result := false } := by
      rcases transaction_cases hq1.hr hq1.hw hp with h | ⟨h, -⟩ | ⟨next, h, h1⟩
      · exfalso
        subst h
        have hge : s1.write ≥ s1.read := by omega
        have hne : (s1.read != 0) = true := by
          simp only [bne_iff_ne, ne_eq]
          omega
        unfold transaction headerLength at hp
        have := hq1.hw
        simp only [hge, decide_true, if_true, Bool.true_and, hne] at hp
        rw [if_neg (by omega), if_neg (by omega)] at hp
        simp at hp
      · exact h
      · exfalso
        rcases h1 with h1 | h1 <;> omega
    obtain ⟨q2, hq2, -⟩ := run_inv hq1 (.begin stream source :: List.replicate (source.length + 3) .wstep)
    have hq2 : Inv (attempt s1 stream source).1 q2 := hq2
    obtain ⟨K', hK'⟩ := drain_all hq2
    refine ⟨K', fun k' hk' => ?_⟩
    obtain ⟨-, e2, e3, e4, -⟩ := drain_accepted (attempt s1 stream source).1 k'
    have hw0 : (attempt s1 stream source).1.write = 0 := by rw [hb, hplan]; rfl
    have hz0 : (attempt s1 stream source).1.size = s1.size := by rw [hb]
    have hi0 : (attempt s1 stream source).1.writer = none := by rw [hb]
    obtain ⟨q3, hq3, -⟩ := run_inv hq2 (List.replicate k' .consume)
    refine accept _ q3 hq3 ?_ ?_ ?_ ?_
    · show (drain (attempt s1 stream source).1 k').1.size = _
      rw [e3, hz0, hsd]
    · show (drain (attempt s1 stream source).1 k').1.writer = _
      rw [e4, hi0]
    · show (drain (attempt s1 stream source).1 k').1.read =
        (drain (attempt s1 stream source).1 k').1.write
      rw [(hK' k' hk').2, e2]
    · show (drain (attempt s1 stream source).1 k').1.write + _ ≤
        (drain (attempt s1 stream source).1 k').1.size
      rw [e2, e3, hw0, hz0, hsd]
      omega

/-- C47: exactly when one attempt succeeds. The frame needs contiguous free
space behind the write cursor, up to the end of the buffer or to the read
cursor, and at least one byte must stay free (a completely full buffer would
look empty). -/
theorem C47_accept_iff (size : Nat) (hsize : 0 < size) (buf : Mem) (acts : List Act)
    (hidle : (run (init size buf) acts).1.writer = none)
    (stream : UInt8) (source : List UInt8) (hs : stream.toNat < streamCount)
    (hl : source.length ≤ 255) :
    let s := (run (init size buf) acts).1
    let len := source.length + 2
    (attempt s stream source).2 = [.accepted stream source] ↔
      (s.read ≤ s.write ∧ s.write + len < s.size) ∨
      (s.read ≤ s.write ∧ s.write + len = s.size ∧ s.read ≠ 0) ∨
      (s.write < s.read ∧ s.write + len < s.read) := by
  intro s len
  obtain ⟨q, hq, -⟩ := run_inv (init_inv hsize buf) acts
  have hq : Inv s q := hq
  have hidle : s.writer = none := hidle
  obtain ⟨plan, hp⟩ := Option.isSome_iff_exists.mp
    (transaction_isSome (r := s.read) hq.hw stream source)
  obtain ⟨b, hb⟩ := attempt_eq hq.hr hq.hw hidle hs hl hp
  rw [hb]
  have hres : ([if plan.result = true then Event.accepted stream source else Event.rejected] =
      [Event.accepted stream source]) ↔ plan.result = true := by
    cases plan.result <;> simp
  rw [hres]
  have hr := hq.hr
  have hw := hq.hw
  constructor
  · intro hacc
    rcases transaction_cases hq.hr hq.hw hp with h | ⟨h, -⟩ | ⟨next, h, h1⟩
    · rw [h] at hacc; simp at hacc
    · rw [h] at hacc; simp at hacc
    · rcases h1 with ⟨k1, k2, k3, k4⟩ | ⟨k1, k2, k3⟩
      · by_cases he : s.write + (source.length + 2) = s.size
        · rw [if_pos he] at k3
          exact Or.inr (Or.inl ⟨k1, he, k4 k3⟩)
        · exact Or.inl ⟨k1, by omega⟩
      · exact Or.inr (Or.inr ⟨k1, k2⟩)
  · intro hfit
    have hfit : (s.read ≤ s.write ∧ s.write + (source.length + 2) < s.size) ∨
      (s.read ≤ s.write ∧ s.write + (source.length + 2) = s.size ∧ s.read ≠ 0) ∨
      (s.write < s.read ∧ s.write + (source.length + 2) < s.read) := hfit
    unfold transaction headerLength at hp
    have hne : (if s.write + (source.length + 2) = s.size then 0
        else s.write + (source.length + 2)) ≠ s.read := by
      split <;> omega
    by_cases hle : s.read ≤ s.write
    · simp only [ge_iff_le, hle, decide_true, if_true] at hp
      rw [if_neg (by omega), if_pos (by omega), if_neg hne] at hp
      simp only [Option.some.injEq] at hp
      rw [← hp]
    · simp only [ge_iff_le, hle, decide_false, Bool.false_eq_true, if_false] at hp
      rw [if_neg (by omega), if_pos (by omega), if_neg hne] at hp
      simp only [Option.some.injEq] at hp
      rw [← hp]

/-- C47: a transaction as large as the buffer (or larger, header included) is
never accepted, however often the write loop retries and whatever the probe
does: `write_transaction` then spins forever. -/
theorem C47_too_large_never_accepted (size : Nat) (hsize : 0 < size) (buf : Mem)
    (acts : List Act) (stream : UInt8) (source : List UInt8) (hbig : size ≤ source.length + 2) :
    (stream, source) ∉ acceptedOf (run (init size buf) acts).2 := by
  have gen : ∀ (acts : List Act) (s : State) (q : List Frame), Inv s q → s.size = size →
      (stream, source) ∉ acceptedOf (run s acts).2 := by
    intro acts
    induction acts with
    | nil => intro s q _ _; simp [run, acceptedOf]
    | cons a acts ih =>
      intro s q hq hz
      obtain ⟨q', hq', -⟩ := step_inv hq a
      have hsz : (step s a).1.size = s.size := by
        cases a <;> simp only [step] <;> (repeat' split) <;> rfl
      simp only [run, acceptedOf_append, List.mem_append, not_or]
      refine ⟨?_, ih _ q' hq' (by rw [hsz, hz])⟩
      cases a with
      | begin st sr =>
        simp only [step]
        (repeat' split) <;> simp [acceptedOf]
      | consume =>
        simp only [step, probe]
        (repeat' split) <;> simp [acceptedOf]
      | wstep =>
        cases hwr : s.writer with
        | none => simp [step, hwr, acceptedOf]
        | some wr =>
          have hi := hq.writer wr hwr
          cases hst : wr.plan.stores with
          | cons x rest => simp [step, hwr, hst, acceptedOf]
          | nil =>
            simp only [step, hwr, hst]
            rcases hi with ⟨g1, _⟩ | ⟨g1, _⟩ | ⟨g1, g2, g3, ⟨next, g4, g5⟩, g6, g7⟩
            · simp [g1, acceptedOf]
            · simp [g1, acceptedOf]
            · simp only [g1, if_true, acceptedOf, List.mem_singleton, Prod.mk.injEq, not_and]
              intro _ he
              subst he
              have hr := hq.hr
              have hw := hq.hw
              rcases g5 with ⟨k1, k2, k3, k4⟩ | ⟨k1, k2, k3⟩
              · rw [if_pos (by omega)] at k3
                have := k4 k3
                omega
              · omega
  exact gen acts _ _ (init_inv hsize buf) rfl

/-- Non-trivial instances: an 8-byte buffer accepts 5 payload bytes (the unit
test `test_biggest`), never 6. -/
example : (attempt (init 8 fun _ => 0) 1 [1, 2, 3, 4, 5]).2 = [.accepted 1 [1, 2, 3, 4, 5]] := by
  decide

example : (attempt (init 8 fun _ => 0) 1 [1, 2, 3, 4, 5, 6]).2 = [.rejected] := by decide

/-- The hypothesis `hidle` and the second-attempt case occur: after one 3-byte
payload was written and read in an 8-byte buffer, the next 3-byte payload needs
two attempts. -/
example :
    let s := (drain (attempt (init 8 fun _ => 0) 1 [1, 2, 3]).1 1).1
    s.writer = none ∧ (attempt s 2 [4, 5, 6]).2 = [.rejected] ∧
    (attempt (drain (attempt s 2 [4, 5, 6]).1 1).1 2 [4, 5, 6]).2 = [.accepted 2 [4, 5, 6]] := by
  decide

/-! ### C48 — splitting of long writes -/

/-- C48: the transactions `write_bytes` issues concatenate to the slice, and
each carries between 1 and 64 bytes; all but the last carry exactly 64. -/
theorem C48_split (bytes : List UInt8) :
    (writeBytes bytes).flatten = bytes ∧
    (∀ c ∈ writeBytes bytes, 1 ≤ c.length ∧ c.length ≤ 64) ∧
    (∀ c ∈ (writeBytes bytes).dropLast, c.length = 64) := by
  induction hn : bytes.length using Nat.strongRecOn generalizing bytes with
  | _ n ih =>
    unfold writeBytes defaultTransactionLength
    by_cases h : bytes.length > 64
    · rw [dif_pos h]
      obtain ⟨i1, i2, i3⟩ := ih (bytes.drop 64).length (by simp; omega) (bytes.drop 64) rfl
      refine ⟨by simp [i1], ?_, ?_⟩
      · intro c hc
        rcases List.mem_cons.mp hc with rfl | hc
        · simp; omega
        · exact i2 c hc
      · intro c hc
        have hne : writeBytes (bytes.drop 64) ≠ [] := by
          intro e
          rw [e] at i1
          have := congrArg List.length i1
          simp at this
          omega
        rw [List.dropLast_cons_of_ne_nil hne] at hc
        rcases List.mem_cons.mp hc with rfl | hc
        · simp; omega
        · exact i3 c hc
    · rw [dif_neg h]
      by_cases h0 : bytes.length > 0
      · rw [if_pos h0]
        refine ⟨by simp, ?_, by simp⟩
        intro c hc
        rw [List.mem_singleton] at hc
        subst hc
        omega
      · rw [if_neg h0]
        have : bytes = [] := List.length_eq_zero_iff.mp (by omega)
        subst this
        exact ⟨rfl, by simp, by simp⟩

/-- C48: an empty slice emits nothing. -/
theorem C48_empty : writeBytes [] = [] := by
  unfold writeBytes
  simp [defaultTransactionLength]

/-- C48: a single transaction is accepted exactly when its length fits one
byte, and it then carries exactly the given bytes. -/
theorem C48_transaction (bytes : List UInt8) :
    (writeTransaction bytes = some bytes ↔ bytes.length < 2 ^ 8) ∧
    (writeTransaction bytes = none ↔ 2 ^ 8 ≤ bytes.length) := by
  unfold writeTransaction
  by_cases h : bytes.length ≤ 255
  · rw [if_pos h]
    constructor
    · simp; omega
    · simp; omega
  · rw [if_neg h]
    constructor
    · simp; omega
    · simp; omega

/-- The documentation of `write_transaction` ("panics if the length is more
than 256") admits 256 bytes; the code panics. -/
theorem C48_doc_limit_wrong : ¬ ∀ bytes : List UInt8, bytes.length ≤ 256 →
    writeTransaction bytes ≠ none := by
  intro h
  exact h (List.replicate 256 0) (Nat.le_of_eq List.length_replicate)
    (by rw [writeTransaction, List.length_replicate]; rfl)

/-- C48, end to end: if the accepted transactions of a run are the chunks of
one `write_bytes` call, the probe ends up with exactly the bytes of the slice,
in order. -/
theorem C48_end_to_end (size : Nat) (hsize : 0 < size) (buf : Mem) (acts : List Act)
    (stream : UInt8) (bytes : List UInt8)
    (h : acceptedOf (run (init size buf) acts).2 = (writeBytes bytes).map (stream, ·)) :
    ∃ K, ∀ k, K ≤ k →
      (receivedOf (run (init size buf) acts).2 ++
        receivedOf (drain (run (init size buf) acts).1 k).2).flatMap Prod.snd = bytes := by
  obtain ⟨K, hK⟩ := C46_lossless size hsize buf acts
  refine ⟨K, fun k hk => ?_⟩
  rw [hK k hk, h, List.flatMap_map]
  exact (by simpa [List.flatMap_id'] using (C48_split bytes).1)

example : (writeBytes (List.replicate 150 7)).map List.length = [64, 64, 22] := by
  simp [writeBytes, defaultTransactionLength]

/-! ### C49 — bootstrap -/

theorem matchSeq_prefix (seq rest : List UInt8) : matchSeq (seq ++ rest) seq = (0, rest) := by
  induction seq with
  | nil => cases rest <;> rfl
  | cons s seq ih => simp [matchSeq, ih]

theorem matchSeq_zero (buffer seq : List UInt8) (h : (matchSeq buffer seq).1 = 0) :
    ∃ rest, buffer = seq ++ rest := by
  induction seq generalizing buffer with
  | nil => exact ⟨buffer, rfl⟩
  | cons s seq ih =>
    cases buffer with
    | nil => simp [matchSeq] at h
    | cons b bs =>
      by_cases hb : b = s
      · subst hb
        simp only [matchSeq, if_true] at h
        obtain ⟨rest, rfl⟩ := ih bs h
        exact ⟨rest, rfl⟩
      · simp [matchSeq, hb] at h

/-- C49: if the probe left the bootstrap sequence, the runtime (and the global
runtime on request) receive exactly the bytes the probe put behind it, and
nothing but the first buffer byte changes in the buffer. -/
theorem C49_bootstrap (seq rtNew globalNew rest : List UInt8) (m : BootMem) (size : Nat) (g : Bool)
    (hb : m.buffer = seq ++ rtNew ++ globalNew ++ rest) (hrt : rtNew.length = m.rt.length)
    (hg : globalNew.length = m.globalRt.length) :
    boot seq m size g = some
      { rt := rtNew, globalRt := if g then globalNew else m.globalRt, buffer := m.buffer.set 0 0 } := by
  have : matchSeq m.buffer seq = (0, rtNew ++ (globalNew ++ rest)) := by
    rw [hb]
    simp only [List.append_assoc]
    exact matchSeq_prefix seq _
  simp only [boot, this, if_true]
  have hlen : ¬ (rtNew ++ (globalNew ++ rest)).length <
      m.rt.length + (if g then m.globalRt.length else 0) := by
    simp only [List.length_append]
    split <;> omega
  rw [if_neg hlen]
  simp [← hrt, ← hg]

/-- C49: the configuration is applied only once: after it, a second `init`
(e.g. after a warm reset) takes the default path. (`seq` is non-empty and does
not start with the invalidation byte 0.) -/
theorem C49_once (s0 : UInt8) (seq : List UInt8) (hs : s0 ≠ 0) (m m' : BootMem) (size : Nat)
    (g : Bool) (hb : ∃ rest, m.buffer = s0 :: seq ++ rest)
    (h : boot (s0 :: seq) m size g = some m') (size' : Nat) (g' : Bool) :
    boot (s0 :: seq) m' size' g' = some
      { rt := le32 size' ++ le32 0 ++ le32 0
        globalRt := if g' then List.replicate m'.globalRt.length 0 else m'.globalRt
        buffer := m'.buffer } := by
  obtain ⟨rest, hrest⟩ := hb
  have hm := matchSeq_prefix (s0 :: seq) rest
  rw [← hrest] at hm
  have hbuf : m'.buffer = m.buffer.set 0 0 := by
    simp only [boot, hm, if_true] at h
    generalize (m.rt.length + if g = true then m.globalRt.length else 0) = n at h
    by_cases hn : rest.length < n
    · simp [hn] at h
    · rw [if_neg hn] at h
      simp only [Option.some.injEq] at h
      rw [← h]
  have : matchSeq m'.buffer (s0 :: seq) = ((s0 :: seq).length, m'.buffer) := by
    rw [hbuf, hrest]
    simp [matchSeq, Ne.symm hs]
  simp [boot, this]

/-- C49: without the sequence the runtime starts empty (both cursors 0) with
the given buffer size, the global mask is cleared on request, and the buffer is
not touched. -/
theorem C49_default (seq : List UInt8) (m : BootMem) (size : Nat) (g : Bool)
    (hb : ¬ seq <+: m.buffer) :
    boot seq m size g = some
      { rt := le32 size ++ le32 0 ++ le32 0
        globalRt := if g then List.replicate m.globalRt.length 0 else m.globalRt
        buffer := m.buffer } := by
  have : (matchSeq m.buffer seq).1 ≠ 0 := by
    intro h
    obtain ⟨rest, e⟩ := matchSeq_zero _ _ h
    exact hb ⟨rest, e.symm⟩
  simp [boot, this]

/-- C49: a stream is reported enabled exactly when its bit of the probe's mask
is set; stream numbers from 32 up would overflow the shift. -/
theorem C49_enabled (mask : BitVec 32) (stream : Nat) :
    (stream < 32 → isEnabled mask stream = some (mask.getLsbD stream)) ∧
    (32 ≤ stream → isEnabled mask stream = none) := by
  constructor
  · intro h
    simp only [isEnabled, if_pos h, Option.some.injEq]
    cases hb : mask.getLsbD stream with
    | true =>
      simp only [bne_iff_ne, ne_eq]
      intro e
      have := congrArg (fun b => b.getLsbD stream) e
      simp only [BitVec.getLsbD_and, hb] at this
      simp [h] at this
    | false =>
      simp only [bne_eq_false_iff_eq]
      ext i hi
      by_cases his : i = stream
      · subst his
        rw [BitVec.getElem_and]
        rw [← BitVec.getLsbD_eq_getElem, hb]
        simp
      · simp
        intro _ h1 
        omega
  · intro h
    simp [isEnabled, Nat.not_lt.mpr h]

/-- A concrete bootstrap with a two-byte sequence and a one-byte global mask. -/
example :
    let m : BootMem := ⟨List.replicate 12 9, [0xAB, 0xCD, 1, 2, 3, 4, 5, 6, 7, 8, 9, 10, 11, 12, 0x77, 5], [0]⟩
    (boot [0xAB, 0xCD] m 16 true).map (fun m' => (m'.rt, m'.globalRt, m'.buffer.take 2)) =
      some ([1, 2, 3, 4, 5, 6, 7, 8, 9, 10, 11, 12], [0x77], [0, 0xCD]) := by decide

end Verif.Stream
