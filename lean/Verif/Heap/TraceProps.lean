import Verif.Heap.Trace
import Verif.Heap.Props
/-!
# C14: the heap trace
-/
namespace Verif.Heap

theorem leBytes_length (W : Nat) : ∀ v, (leBytes W v).length = W := by
  induction W with
  | zero => intro v; rfl
  | succ W ih => intro v; simp [leBytes, ih]

theorem leValue_leBytes (W : Nat) : ∀ v, v < 256 ^ W → leValue (leBytes W v) = v := by
  induction W with
  | zero => intro v h; simp at h; subst h; rfl
  | succ W ih =>
    intro v h
    have h2 : v / 256 < 256 ^ W := by
      rw [Nat.div_lt_iff_lt_mul (by decide)]
      rw [Nat.pow_succ] at h
      exact h
    simp only [leBytes, leValue, ih _ h2]
    have : (UInt8.ofNat (v % 256)).toNat = v % 256 := by
      simp [UInt8.toNat_ofNat']
    rw [this]
    omega

theorem leBytes_zero (W : Nat) : leBytes W 0 = List.replicate W 0 := by
  induction W with
  | zero => rfl
  | succ W ih => simp [leBytes, ih, List.replicate_succ]

theorem leBytes_small (W v : Nat) (hv : v < 256) :
    leBytes (W + 1) v = UInt8.ofNat v :: List.replicate W 0 := by
  simp only [leBytes]
  rw [Nat.div_eq_of_lt hv, leBytes_zero, Nat.mod_eq_of_lt hv]

theorem beBytes_small (W v : Nat) (hv : v < 256) :
    beBytes (W + 1) v = List.replicate W 0 ++ [UInt8.ofNat v] := by
  rw [beBytes, leBytes_small _ _ hv]
  simp

/-- Frame of a message after the padding. -/
theorem message_frame (W v : Nat) (hW : 4 ≤ W) (hv : v < 256) (rest : List UInt8) :
    ((beBytes W v ++ rest).drop 3).drop (W - 4) = UInt8.ofNat v :: rest := by
  obtain ⟨n, rfl⟩ : ∃ n, W = n + 1 := ⟨W - 1, by omega⟩
  rw [beBytes_small _ _ hv, List.drop_drop, List.append_assoc]
  have : 3 + (n + 1 - 4) = n := by omega
  rw [this, List.drop_left' (by simp)]
  rfl

theorem decode_one (W v n : Nat) (hW : 4 ≤ W) (hv : v < 2) (hn : n < 256 ^ W) :
    decode W ((beBytes W v ++ leBytes W n).drop 3) =
      some (if v = 0 then .alloc n else .dealloc n) := by
  unfold decode
  rw [message_frame W v hW (by omega)]
  have hl := leBytes_length W n
  have : v = 0 ∨ v = 1 := by omega
  rcases this with rfl | rfl
  · simp [hl, leValue_leBytes W n hn]
  · simp [hl, leValue_leBytes W n hn]

theorem decode_two (W v a b : Nat) (hW : 4 ≤ W) (hv : v = 2 ∨ v = 3) (ha : a < 256 ^ W)
    (hb : b < 256 ^ W) :
    decode W ((beBytes W v ++ leBytes W a ++ leBytes W b).drop 3) =
      some (if v = 2 then .grow a b else .shrink a b) := by
  unfold decode
  rw [List.append_assoc, message_frame W v hW (by omega)]
  have hla := leBytes_length W a
  have hlb := leBytes_length W b
  have h1 : (leBytes W a ++ leBytes W b).length = 2 * W := by simp [hla, hlb]; omega
  have h2 : (leBytes W a ++ leBytes W b).take W = leBytes W a := List.take_left' hla
  have h3 : (leBytes W a ++ leBytes W b).drop W = leBytes W b := List.drop_left' hla
  rcases hv with rfl | rfl
  · simp only [h1, h2, h3, leValue_leBytes W a ha, leValue_leBytes W b hb]
    have : ¬ (2 * W = W) := by omega
    simp
  · simp only [h1, h2, h3, leValue_leBytes W a ha, leValue_leBytes W b hb]
    simp

/-- C14: every message decodes to the operation and the sizes it was made from. -/
theorem C14_decodes (W : Nat) (hW : 4 ≤ W) (l l' : Layout) (h : l.size < 256 ^ W)
    (h' : l'.size < 256 ^ W) :
    decode W (traceAllocate W l) = some (.alloc l.size) ∧
    decode W (traceDeallocate W l) = some (.dealloc l.size) ∧
    decode W (traceGrow W l l') = some (.grow l.size l'.size) ∧
    decode W (traceShrink W l l') = some (.shrink l.size l'.size) :=
  ⟨decode_one W 0 _ hW (by omega) h, decode_one W 1 _ hW (by omega) h,
    decode_two W 2 _ _ hW (by simp) h h', decode_two W 3 _ _ hW (by simp) h h'⟩

/-- The messages are short enough for one transaction (C48) and, on a 32-bit
target, start with the operation byte. -/
theorem C14_format (l l' : Layout) :
    traceAllocate 4 l = 0 :: leBytes 4 l.size ∧
    traceDeallocate 4 l = 1 :: leBytes 4 l.size ∧
    traceGrow 4 l l' = 2 :: (leBytes 4 l.size ++ leBytes 4 l'.size) ∧
    traceShrink 4 l l' = 3 :: (leBytes 4 l.size ++ leBytes 4 l'.size) ∧
    (traceGrow 4 l l').length = 9 := by
  refine ⟨rfl, rfl, rfl, rfl, ?_⟩
  simp [traceGrow, beBytes, leBytes_length]

example : traceGrow 4 ⟨300, 1⟩ ⟨70000, 1⟩ = [2, 44, 1, 0, 0, 112, 17, 1, 0] := by decide

/-- The full claim: after any history from an empty heap the trace gives the
number of live bytes. -/
def C14Statement : Prop :=
  ∀ (W base : Nat) (cfg : List (Nat × Nat)) (mem : Mem) (ops : List Op) (s : Sys), 4 ≤ W →
    Legal W base cfg → run (start W base cfg mem) ops = some s →
    tracedLive W (messagesRun W (start W base cfg mem) ops) = realLive s

/-- C14 as stated is false: `allocate_zeroed` is not traced, its release is; so
the host sees a negative number of live bytes. -/
theorem C14_zeroed_not_traced : ¬ C14Statement := by
  intro h
  have hr : (run (start 4 64 [(4, 2), (8, 2)] exMem) [.allocZeroed ⟨4, 1⟩, .dealloc 0 ⟨4, 1⟩]).map
      (fun s => realLive s) = some 0 := by decide +kernel
  have hm : tracedLive 4 (messagesRun 4 (start 4 64 [(4, 2), (8, 2)] exMem)
      [.allocZeroed ⟨4, 1⟩, .dealloc 0 ⟨4, 1⟩]) = -4 := by decide +kernel
  cases hs : run (start 4 64 [(4, 2), (8, 2)] exMem) [.allocZeroed ⟨4, 1⟩, .dealloc 0 ⟨4, 1⟩] with
  | none => simp [hs] at hr
  | some s =>
    have := h 4 64 _ exMem _ s (by decide) exLegal hs
    rw [hm] at this
    simp only [hs, Option.map_some, Option.some.injEq] at hr
    omega

/-- C14 is false for a second reason: a failing allocation is traced. Here the
history contains no zeroed request. -/
theorem C14_failure_traced :
    ∃ (ops : List Op) (s : Sys), run (start 4 64 [(4, 1)] exMem) ops = some s ∧
      (∀ l, Op.allocZeroed l ∉ ops) ∧
      tracedLive 4 (messagesRun 4 (start 4 64 [(4, 1)] exMem) ops) = 100 ∧ realLive s = 0 := by
  cases hs : run (start 4 64 [(4, 1)] exMem) [.alloc ⟨100, 1⟩] with
  | none => 
    exact absurd hs (C05_no_ub ⟨by decide, by decide, by decide, by decide, by decide⟩ _ _)
  | some s =>
    refine ⟨[.alloc ⟨100, 1⟩], s, hs, by simp, by decide +kernel, ?_⟩
    have hr : (run (start 4 64 [(4, 1)] exMem) [.alloc ⟨100, 1⟩]).map
      (fun s => realLive s) = some 0 := by decide +kernel
    rw [hs] at hr
    simpa using hr

theorem realLive_erase {l : List Block} {i : Nat} {b : Block} (h : l[i]? = some b) :
    (l.map fun b => (b.req : Int)).sum = b.req + ((l.eraseIdx i).map fun b => (b.req : Int)).sum := by
  induction l generalizing i with
  | nil => simp at h
  | cons a l ih =>
    cases i with
    | zero =>
      simp only [List.getElem?_cons_zero, Option.some.injEq] at h
      subst h
      simp
    | succ i =>
      simp only [List.getElem?_cons_succ] at h
      simp only [List.map_cons, List.sum_cons, List.eraseIdx_cons_succ, ih h]
      omega

theorem tracedLive_append (W : Nat) (a b : List (List UInt8)) :
    tracedLive W (a ++ b) = tracedLive W a + tracedLive W b := by
  simp [tracedLive]

theorem tracedLive_single {W : Nat} {m : List UInt8} {e : Event} (h : decode W m = some e) :
    tracedLive W [m] = e.delta := by
  simp [tracedLive, h]

/-- One clean request. -/
theorem clean_step (W : Nat) (hW : 4 ≤ W) {s s' : Sys} {op : Op} (hc : Clean W s op)
    (hs : step s op = some s') : tracedLive W (messages W s op) = realLive s' - realLive s := by
  cases op with
  | alloc l =>
    obtain ⟨h1, h2⟩ := hc
    cases ha : allocate s.heap l with
    | mk h o =>
      cases o with
      | none => simp [ha] at h2
      | some x =>
        obtain ⟨p, len⟩ := x
        simp only [step, ha, Option.some.injEq] at hs
        subst hs
        simp only [messages, tracedLive, (C14_decodes W hW l l h1 h1).1, List.map_cons, List.map_nil,
          List.sum_cons, List.sum_nil, Event.delta, realLive]
        omega
  | allocZeroed l => exact absurd hc (by simp [Clean])
  | growZeroed i o n => exact absurd hc (by simp [Clean])
  | write a v =>
    have : realLive s' = realLive s := by
      simp only [step] at hs
      split at hs <;> (simp only [Option.some.injEq] at hs; subst hs; rfl)
    simp [messages, tracedLive, this]
  | dealloc i l =>
    obtain ⟨h1, b, h2, h3, h4⟩ := hc
    simp only [step, h2, h4, if_true, Option.some.injEq] at hs
    subst hs
    simp only [messages, h2, h4, if_true]
    rw [tracedLive_single (C14_decodes W hW l l h1 h1).2.1]
    simp only [realLive, realLive_erase h2]
    show -(l.size : Int) = _
    omega
  | grow i o n =>
    obtain ⟨h1, h1', hle, ⟨b, h2, h3, h4⟩, h5⟩ := hc
    cases ha : allocate s.heap n with
    | mk h r =>
      cases r with
      | none => simp [ha] at h5
      | some x =>
        obtain ⟨p, len⟩ := x
        simp only [step, h2, h4, hle, and_self, if_true, grow, ha] at hs
        cases hm : moveBlock h b.ptr o o.size p with
        | none => simp [hm, afterRealloc] at hs
        | some h'' =>
          simp only [hm, Option.map_some, afterRealloc, Option.some.injEq] at hs
          subst hs
          simp only [messages, h2, h4, hle, and_self, if_true]
          rw [tracedLive_single (C14_decodes W hW o n h1 h1').2.2.1]
          simp only [realLive, realLive_erase h2, replaceBlock, List.map_cons, List.sum_cons]
          show (n.size : Int) - (o.size : Int) = _
          omega
  | shrink i o n =>
    obtain ⟨h1, h1', hle, ⟨b, h2, h3, h4⟩, h5⟩ := hc
    cases ha : allocate s.heap n with
    | mk h r =>
      cases r with
      | none => simp [ha] at h5
      | some x =>
        obtain ⟨p, len⟩ := x
        simp only [step, h2, h4, hle, and_self, if_true, shrink, ha] at hs
        cases hm : moveBlock h b.ptr o n.size p with
        | none => simp [hm, afterRealloc] at hs
        | some h'' =>
          simp only [hm, Option.map_some, afterRealloc, Option.some.injEq] at hs
          subst hs
          simp only [messages, h2, h4, hle, and_self, if_true]
          rw [tracedLive_single (C14_decodes W hW o n h1 h1').2.2.2]
          simp only [realLive, realLive_erase h2, replaceBlock, List.map_cons, List.sum_cons]
          show (n.size : Int) - (o.size : Int) = _
          omega

/-- C14, partial: for histories of `allocate`, `deallocate`, `grow`, `shrink`
with exact layouts that do not run out of memory, the trace gives the number of
live bytes. (Missing: the zeroed requests and failing requests, where it is
false.) -/
theorem C14_live_bytes_partial (W : Nat) (hW : 4 ≤ W) (ops : List Op) : ∀ (s s' : Sys),
    CleanRun W s ops → run s ops = some s' →
    tracedLive W (messagesRun W s ops) = realLive s' - realLive s := by
  induction ops with
  | nil =>
    intro s s' _ h
    simp only [run, Option.some.injEq] at h
    subst h
    simp [messagesRun, tracedLive]
  | cons op ops ih =>
    intro s s' hc h
    obtain ⟨h1, h2⟩ := hc
    simp only [run] at h
    cases hs : step s op with
    | none => simp [hs] at h
    | some s1 =>
      simp only [hs] at h h2
      simp only [messagesRun, tracedLive_append, hs, clean_step W hW h1 hs, ih s1 s' h2 h]
      omega

/-- A clean history: 5 bytes live at the end, and the trace says so. -/
example :
    (run (start 4 64 [(4, 2), (8, 2)] exMem)
      [.alloc ⟨3, 1⟩, .grow 0 ⟨3, 1⟩ ⟨7, 1⟩, .alloc ⟨4, 1⟩, .dealloc 0 ⟨4, 1⟩,
       .shrink 0 ⟨7, 1⟩ ⟨5, 1⟩]).map realLive = some 5 ∧
    tracedLive 4 (messagesRun 4 (start 4 64 [(4, 2), (8, 2)] exMem)
      [.alloc ⟨3, 1⟩, .grow 0 ⟨3, 1⟩ ⟨7, 1⟩, .alloc ⟨4, 1⟩, .dealloc 0 ⟨4, 1⟩,
       .shrink 0 ⟨7, 1⟩ ⟨5, 1⟩]) = 5 := by decide +kernel

end Verif.Heap
