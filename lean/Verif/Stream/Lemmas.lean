import Verif.Stream.Spec
/-!
# Invariant of the stream buffer
-/
namespace Verif.Stream

/-- The bytes of a frame. -/
def frameBytes (s : UInt8) (p : List UInt8) : List UInt8 := s :: UInt8.ofNat p.length :: p

/-- `q` tiles the linear segment `[a, b)` of the buffer. -/
def Seg (buf : Mem) : Nat → Nat → List Frame → Prop
  | a, b, [] => a = b
  | a, b, (s, p) :: q =>
    a + 2 + p.length ≤ b ∧ s ≠ 0xFF ∧ p.length ≤ 255 ∧
    (∀ j (h : j < (frameBytes s p).length), buf (a + j) = (frameBytes s p)[j]) ∧
    Seg buf (a + 2 + p.length) b q

/-- `q` are the unread frames of the circular buffer. -/
def Queue (size r w : Nat) (buf : Mem) (q : List Frame) : Prop :=
  (r ≤ w ∧ Seg buf r w q) ∨
  (w < r ∧ ∃ e q1 q2, q = q1 ++ q2 ∧ Seg buf r e q1 ∧ Seg buf 0 w q2 ∧
    (e = size ∨ e < size ∧ buf e = 0xFF))

/-- Where a frame of length `len` may be written, and what the write cursor
becomes. -/
def Room (size r w len next : Nat) : Prop :=
  (r ≤ w ∧ w + len ≤ size ∧ next = (if w + len = size then 0 else w + len) ∧ (next = 0 → r ≠ 0)) ∨
  (w < r ∧ w + len < r ∧ next = w + len)

/-- State of the transaction in progress. -/
def WriterInv (size r w : Nat) (buf : Mem) (wr : Writer) : Prop :=
  (wr.plan.result = false ∧ wr.plan.stores = [] ∧ wr.plan.publish = none) ∨
  (wr.plan.result = false ∧ wr.plan.publish = some 0 ∧ 0 < r ∧ r ≤ w ∧
    (wr.plan.stores = [(w, 0xFF)] ∨ (wr.plan.stores = [] ∧ buf w = 0xFF))) ∨
  (wr.plan.result = true ∧ wr.stream ≠ 0xFF ∧ wr.source.length ≤ 255 ∧
    (∃ next, wr.plan.publish = some next ∧ Room size r w (wr.source.length + 2) next) ∧
    (∀ x ∈ wr.plan.stores, ∃ j, ∃ h : j < (frameBytes wr.stream wr.source).length,
      x = (w + j, (frameBytes wr.stream wr.source)[j])) ∧
    (∀ j (h : j < (frameBytes wr.stream wr.source).length),
      buf (w + j) = (frameBytes wr.stream wr.source)[j] ∨
      (w + j, (frameBytes wr.stream wr.source)[j]) ∈ wr.plan.stores))

structure Inv (s : State) (q : List Frame) : Prop where
  hr : s.read < s.size
  hw : s.write < s.size
  queue : Queue s.size s.read s.write s.buf q
  writer : ∀ wr, s.writer = some wr → WriterInv s.size s.read s.write s.buf wr

theorem frameBytes_length (s : UInt8) (p : List UInt8) : (frameBytes s p).length = p.length + 2 := by
  simp [frameBytes]

theorem Seg.le {buf : Mem} : ∀ {q a b}, Seg buf a b q → a ≤ b
  | [], a, b, h => by simp [Seg] at h; omega
  | (s, p) :: q, a, b, h => by
    have := Seg.le h.2.2.2.2
    omega

theorem Seg.congr {buf buf' : Mem} : ∀ {q a b}, Seg buf a b q →
    (∀ i, a ≤ i → i < b → buf' i = buf i) → Seg buf' a b q
  | [], _, _, h, _ => h
  | (s, p) :: q, a, b, ⟨h1, h2, h3, h4, h5⟩, hb => by
    refine ⟨h1, h2, h3, ?_, h5.congr fun i hi hi' => hb i (by omega) hi'⟩
    intro j hj
    have := frameBytes_length s p
    rw [hb (a + j) (by omega) (by omega)]
    exact h4 j hj

theorem Seg.snoc {buf : Mem} {s : UInt8} {p : List UInt8} : ∀ {q a b}, Seg buf a b q →
    s ≠ 0xFF → p.length ≤ 255 →
    (∀ j (h : j < (frameBytes s p).length), buf (b + j) = (frameBytes s p)[j]) →
    Seg buf a (b + (p.length + 2)) (q ++ [(s, p)])
  | [], a, b, h, h1, h2, h3 => by
    simp only [Seg] at h
    subst h
    exact ⟨by omega, h1, h2, h3, by simp [Seg]; omega⟩
  | (s', p') :: q, a, b, ⟨g1, g2, g3, g4, g5⟩, h1, h2, h3 =>
    ⟨by omega, g2, g3, g4, g5.snoc h1 h2 h3⟩

theorem Seg.mono_end {buf : Mem} {q : List Frame} {a b : Nat} (h : Seg buf a b q) (hab : a < b) :
    ∃ s p q', q = (s, p) :: q' := by
  cases q with
  | nil => simp [Seg] at h; omega
  | cons f q' => exact ⟨f.1, f.2, q', rfl⟩

/-- The probe reads exactly the first frame of a segment. -/
theorem probe_frame {size r w b : Nat} {buf : Mem} {s : UInt8} {p : List UInt8} {q : List Frame}
    (hne : r ≠ w) (h : Seg buf r b ((s, p) :: q)) :
    probe size r w buf =
      ((if r + 2 + p.length = size then 0 else r + 2 + p.length), [.received s p]) := by
  obtain ⟨h1, h2, h3, h4, h5⟩ := h
  have e0 : buf r = s := by simpa [frameBytes] using h4 0 (by simp [frameBytes])
  have e1 : buf (r + 1) = UInt8.ofNat p.length := by
    simpa [frameBytes] using h4 1 (by simp [frameBytes])
  have e2 : (buf (r + 1)).toNat = p.length := by
    rw [e1, UInt8.toNat_ofNat']
    omega
  have e3 : (List.range p.length).map (fun i => buf (r + 2 + i)) = p := by
    apply List.ext_getElem
    · simp
    · intro i hi hi'
      have := h4 (i + 2) (by simp [frameBytes]; exact hi')
      simp only [frameBytes, List.getElem_cons_succ] at this
      simp only [List.getElem_map, List.getElem_range]
      rw [← this]
      congr 1
      omega
  have hff : buf r ≠ 0xFF := by rw [e0]; exact h2
  simp only [probe, if_neg hne, if_neg hff, e2, e3, headerLength]
  rw [e0]

/-- One look of the probe removes the first frame, or skips the wrap marker. -/
theorem probe_spec {size r w : Nat} {buf : Mem} {q : List Frame}
    (hr : r < size) (hw : w < size) (hq : Queue size r w buf q) :
    (r = w ∧ q = [] ∧ probe size r w buf = (r, [])) ∨
    (r ≠ w ∧ w < r ∧ probe size r w buf = (0, []) ∧ Queue size 0 w buf q) ∨
    (∃ s p q' r', r ≠ w ∧ q = (s, p) :: q' ∧ probe size r w buf = (r', [.received s p]) ∧
      r' < size ∧ Queue size r' w buf q' ∧
      ((r ≤ w ∧ r < r' ∧ r' ≤ w) ∨ (w < r ∧ r < r') ∨ (w < r ∧ r' = 0))) := by
  rcases hq with ⟨hle, hs⟩ | ⟨hlt, e, q1, q2, rfl, hs1, hs2, he⟩
  · by_cases hrw : r = w
    · subst hrw
      left
      cases q with
      | nil => exact ⟨rfl, rfl, by simp [probe]⟩
      | cons f q =>
        have h1 := hs.1
        omega
    · right; right
      obtain ⟨s, p, q', rfl⟩ := hs.mono_end (by omega)
      have hp := probe_frame (size := size) hrw hs
      obtain ⟨h1, h2, h3, h4, h5⟩ := hs
      refine ⟨s, p, q', r + 2 + p.length, hrw, rfl, ?_, by omega, Or.inl ⟨h5.le, h5⟩, Or.inl ⟨hle, by omega, h5.le⟩⟩
      rw [hp, if_neg (by omega)]
  · have hne : r ≠ w := by omega
    cases q1 with
    | nil =>
      simp only [Seg] at hs1
      subst hs1
      right; left
      have hb : buf r = 0xFF := by
        rcases he with he | he
        · omega
        · exact he.2
      refine ⟨hne, hlt, ?_, Or.inl ⟨by omega, hs2⟩⟩
      simp [probe, hne, hb]
    | cons f q1 =>
      obtain ⟨s, p⟩ := f
      right; right
      have hp := probe_frame (size := size) hne hs1
      obtain ⟨h1, h2, h3, h4, h5⟩ := hs1
      have hee : e ≤ size := by omega
      by_cases hend : r + 2 + p.length = size
      · have he2 : e = size := by omega
        subst he2
        have : q1 = [] := by
          cases q1 with
          | nil => rfl
          | cons g q1 => have := h5.1; omega
        subst this
        refine ⟨s, p, q2, 0, hne, by simp, ?_, by omega, Or.inl ⟨by omega, hs2⟩, Or.inr (Or.inr ⟨hlt, rfl⟩)⟩
        rw [hp, if_pos hend]
      · refine ⟨s, p, q1 ++ q2, r + 2 + p.length, hne, by simp, ?_, by omega,
          Or.inr ⟨by omega, e, q1, q2, rfl, h5, hs2, he⟩, Or.inr (Or.inl ⟨hlt, by omega⟩)⟩
        rw [hp, if_neg hend]

/-- Movements of the read cursor that the probe can make. -/
def Advance (r w r' : Nat) : Prop :=
  (r ≤ w ∧ r ≤ r' ∧ r' ≤ w) ∨ (w < r ∧ (r < r' ∨ r' = 0))

theorem Room.advance {size r w len next r' : Nat} (h : Room size r w len next)
    (hr : r < size) (ha : Advance r w r') (hlen : 0 < len) : Room size r' w len next := by
  rcases h with ⟨h1, h2, h3, h4⟩ | ⟨h1, h2, h3⟩
  · rcases ha with ⟨g1, g2, g3⟩ | ⟨g1, g2⟩
    · left
      exact ⟨g3, h2, h3, fun hn => by have := h4 hn; omega⟩
    · omega
  · rcases ha with ⟨g1, g2, g3⟩ | ⟨g1, g2⟩
    · omega
    · rcases g2 with g2 | g2
      · right; exact ⟨by omega, by omega, h3⟩
      · left
        subst g2
        refine ⟨by omega, by omega, ?_, by omega⟩
        rw [if_neg (by omega)]
        exact h3

theorem WriterInv.advance {size r w : Nat} {buf : Mem} {wr : Writer} {r' : Nat}
    (h : WriterInv size r w buf wr) (hr : r < size) (ha : Advance r w r') :
    WriterInv size r' w buf wr := by
  rcases h with h | ⟨h1, h2, h3, h4, h5⟩ | ⟨h1, h2, h3, ⟨next, h4, h5⟩, h6, h7⟩
  · exact Or.inl h
  · right; left
    have : 0 < r' ∧ r' ≤ w := by rcases ha with ha | ha <;> omega
    exact ⟨h1, h2, this.1, this.2, h5⟩
  · right; right
    exact ⟨h1, h2, h3, ⟨next, h4, h5.advance hr ha (by omega)⟩, h6, h7⟩

theorem Queue.update {size r w : Nat} {buf : Mem} {q : List Frame} (a : Nat) (v : UInt8)
    (h : Queue size r w buf q) (ha : (r ≤ w ∧ w ≤ a) ∨ (w < r ∧ w ≤ a ∧ a < r)) :
    Queue size r w (fun i => if i = a then v else buf i) q := by
  rcases h with ⟨h1, h2⟩ | ⟨h1, e, q1, q2, rfl, h3, h4, h5⟩
  · refine Or.inl ⟨h1, h2.congr fun i hi hi' => ?_⟩
    rw [if_neg (by omega)]
  · have := h3.le
    refine Or.inr ⟨h1, e, q1, q2, rfl, h3.congr fun i hi hi' => ?_, h4.congr fun i hi hi' => ?_, ?_⟩
    · rw [if_neg (by omega)]
    · rw [if_neg (by omega)]
    · rcases h5 with h5 | h5
      · exact Or.inl h5
      · right
        refine ⟨h5.1, ?_⟩
        show (if e = a then v else buf e) = 0xFF
        rw [if_neg (by omega)]
        exact h5.2

theorem frameStores_eq (w : Nat) (s : UInt8) (p : List UInt8) :
    frameStores w s p = (frameBytes s p).mapIdx (fun j b => (w + j, b)) := by
  simp only [frameStores, frameBytes, List.mapIdx_cons]
  congr 1
  congr 1
  apply List.ext_getElem
  · simp
  · intro i h1 h2
    simp
    omega

/-- What `Transaction::write` decides, by cases. -/
theorem transaction_cases {size r w : Nat} {stream : UInt8} {source : List UInt8} {plan : Plan}
    (hr : r < size) (hw : w < size)
    (hp : transaction size r w stream source = some plan) :
    (plan = { stores := [], publish := none, result := false }) ∨
    (plan = { stores := [(w, 0xFF)], publish := some 0, result := false } ∧ 0 < r ∧ r ≤ w ∧
      size < w + (source.length + 2)) ∨
    (∃ next, plan = { stores := frameStores w stream source, publish := some next, result := true } ∧
      Room size r w (source.length + 2) next) := by
  by_cases hwr : r ≤ w
  · have h1 : ¬ size < w := by omega
    unfold transaction headerLength at hp
    simp only [ge_iff_le, hwr, decide_true, if_true, if_neg h1,
      Bool.true_and] at hp
    by_cases hav : source.length + 2 ≤ size - w
    · rw [if_pos hav] at hp
      generalize hn : (if w + (source.length + 2) = size then 0 else w + (source.length + 2)) = n at hp
      by_cases hne : n = r
      · rw [if_pos hne] at hp
        simp only [Option.some.injEq] at hp
        exact Or.inl hp.symm
      · rw [if_neg hne] at hp
        simp only [Option.some.injEq] at hp
        exact Or.inr (Or.inr ⟨n, hp.symm, Or.inl ⟨hwr, by omega, hn.symm, fun h => by omega⟩⟩)
    · rw [if_neg hav] at hp
      by_cases h0 : r = 0
      · simp only [h0, bne_self_eq_false, Bool.false_eq_true, if_false, Option.some.injEq] at hp
        exact Or.inl hp.symm
      · have : (r != 0) = true := by simpa using h0
        rw [if_pos this] at hp
        simp only [Option.some.injEq] at hp
        exact Or.inr (Or.inl ⟨hp.symm, by omega, hwr, by omega⟩)
  · have h1 : ¬ r < w := by omega
    unfold transaction headerLength at hp
    simp only [ge_iff_le, hwr, decide_false, Bool.false_eq_true, if_false,
      if_neg h1, Bool.false_and] at hp
    by_cases hav : source.length + 2 ≤ r - w
    · rw [if_pos hav, if_neg (by omega : ¬ w + (source.length + 2) = size)] at hp
      by_cases hne : w + (source.length + 2) = r
      · rw [if_pos hne] at hp
        simp only [Option.some.injEq] at hp
        exact Or.inl hp.symm
      · rw [if_neg hne] at hp
        simp only [Option.some.injEq] at hp
        exact Or.inr (Or.inr ⟨_, hp.symm, Or.inr ⟨by omega, by omega, rfl⟩⟩)
    · rw [if_neg hav] at hp
      simp only [Option.some.injEq] at hp
      exact Or.inl hp.symm

theorem begin_inv {s : State} {q : List Frame} {stream : UInt8} {source : List UInt8} {plan : Plan}
    (h : Inv s q) (hs : stream.toNat < streamCount) (hl : source.length ≤ 255)
    (hp : transaction s.size s.read s.write stream source = some plan) :
    WriterInv s.size s.read s.write s.buf { stream, source, plan } := by
  have hff : stream ≠ 0xFF := by
    intro e
    subst e
    simp [streamCount] at hs
  rcases transaction_cases h.hr h.hw hp with rfl | ⟨rfl, h1, h2, _⟩ | ⟨next, rfl, h1⟩
  · exact Or.inl ⟨rfl, rfl, rfl⟩
  · exact Or.inr (Or.inl ⟨rfl, rfl, h1, h2, Or.inl rfl⟩)
  · refine Or.inr (Or.inr ⟨rfl, hff, hl, ⟨_, rfl, h1⟩, ?_, ?_⟩)
    · intro x hx
      simp only [frameStores_eq, List.mem_mapIdx] at hx
      obtain ⟨j, hj, rfl⟩ := hx
      exact ⟨j, hj, rfl⟩
    · intro j hj
      right
      simp only [frameStores_eq, List.mem_mapIdx]
      exact ⟨j, hj, rfl⟩

theorem transaction_isSome {size r w : Nat} (hw : w < size) (stream : UInt8)
    (source : List UInt8) : (transaction size r w stream source).isSome := by
  have hl : ¬ (if decide (w ≥ r) = true then size else r) < w := by
    split <;> rename_i hh <;> simp at hh <;> omega
  simp only [transaction, hl, if_false]
  repeat' split
  all_goals rfl

/-- Every step preserves the invariant; an accepted frame joins the queue at
the back, a received one leaves at the front. -/
theorem step_inv {s : State} {q : List Frame} (h : Inv s q) (a : Act) :
    ∃ q', Inv (step s a).1 q' ∧
      q ++ acceptedOf (step s a).2 = receivedOf (step s a).2 ++ q' := by
  have hr := h.hr
  have hw := h.hw
  cases a with
  | begin stream source =>
    cases hwr : s.writer with
    | some wr => exact ⟨q, by simp [step, hwr]; exact h, by simp [step, hwr, acceptedOf, receivedOf]⟩
    | none =>
      by_cases hc : streamCount ≤ stream.toNat ∨ 255 < source.length
      · exact ⟨q, by simp [step, hwr, hc]; exact h, by simp [step, hwr, hc, acceptedOf, receivedOf]⟩
      · cases ht : transaction s.size s.read s.write stream source with
        | none => exact ⟨q, by simp [step, hwr, hc, ht]; exact h, by simp [step, hwr, hc, ht, acceptedOf, receivedOf]⟩
        | some plan =>
          refine ⟨q, ?_, by simp [step, hwr, hc, ht, acceptedOf, receivedOf]⟩
          simp only [step, hwr, if_neg hc, ht]
          refine ⟨hr, hw, h.queue, ?_⟩
          intro wr' hwr'
          simp only [Option.some.injEq] at hwr'
          subst hwr'
          exact begin_inv (s := s) h (by omega) (by omega) ht
  | consume =>
    simp only [step]
    rcases probe_spec hr hw h.queue with ⟨h1, h2, h3⟩ | ⟨h1, h2, h3, h4⟩ | ⟨st, p, q', r', h1, h2, h3, h4, h5, h6⟩
    · rw [h3]
      exact ⟨q, h, by simp [acceptedOf, receivedOf]⟩
    · rw [h3]
      refine ⟨q, ⟨?_, hw, h4, ?_⟩, by simp [acceptedOf, receivedOf]⟩
      · show 0 < s.size
        omega
      · intro wr hwr
        exact (h.writer wr hwr).advance hr (Or.inr ⟨h2, Or.inr rfl⟩)
    · rw [h3]
      refine ⟨q', ⟨h4, hw, h5, ?_⟩, by simp [acceptedOf, receivedOf, h2]⟩
      intro wr hwr
      refine (h.writer wr hwr).advance hr ?_
      rcases h6 with h6 | h6 | h6
      · exact Or.inl ⟨h6.1, Nat.le_of_lt h6.2.1, h6.2.2⟩
      · exact Or.inr ⟨h6.1, Or.inl h6.2⟩
      · exact Or.inr ⟨h6.1, Or.inr h6.2⟩
  | wstep =>
    cases hwr : s.writer with
    | none => exact ⟨q, by simp [step, hwr]; exact h, by simp [step, hwr, acceptedOf, receivedOf]⟩
    | some wr =>
      have hi := h.writer wr hwr
      cases hst : wr.plan.stores with
      | cons x rest =>
        obtain ⟨a, v⟩ := x
        refine ⟨q, ?_, by simp [step, hwr, hst, acceptedOf, receivedOf]⟩
        simp only [step, hwr, hst]
        rcases hi with ⟨g1, g2, g3⟩ | ⟨g1, g2, g3, g4, g5⟩ | ⟨g1, g2, g3, ⟨next, g4, g5⟩, g6, g7⟩
        · simp [g2] at hst
        · rcases g5 with g5 | g5
          · rw [hst] at g5
            simp only [List.cons.injEq, Prod.mk.injEq] at g5
            obtain ⟨⟨rfl, rfl⟩, rfl⟩ := g5
            refine ⟨hr, hw, h.queue.update _ _ (Or.inl ⟨g4, Nat.le_refl _⟩), ?_⟩
            intro wr' e
            simp only [Option.some.injEq] at e
            subst e
            exact Or.inr (Or.inl ⟨g1, g2, g3, g4, Or.inr ⟨rfl, by simp⟩⟩)
          · simp [g5.1] at hst
        · obtain ⟨j, hj, e⟩ := g6 (a, v) (by simp [hst])
          simp only [Prod.mk.injEq] at e
          obtain ⟨rfl, rfl⟩ := e
          have hlen := frameBytes_length wr.stream wr.source
          refine ⟨hr, hw, h.queue.update _ _ ?_, ?_⟩
          · rcases g5 with g5 | g5
            · exact Or.inl ⟨g5.1, by omega⟩
            · exact Or.inr ⟨g5.1, by omega, by omega⟩
          · intro wr' e
            simp only [Option.some.injEq] at e
            subst e
            refine Or.inr (Or.inr ⟨g1, g2, g3, ⟨next, g4, g5⟩, ?_, ?_⟩)
            · intro x hx
              exact g6 x (by simp [hst]; exact Or.inr hx)
            · intro j' hj'
              show (if s.write + j' = s.write + j then _ else s.buf (s.write + j')) = _ ∨ _
              by_cases hjj : j' = j
              · subst hjj
                left; simp
              · rw [if_neg (by omega)]
                rcases g7 j' hj' with g | g
                · exact Or.inl g
                · right
                  rw [hst] at g
                  simp only [List.mem_cons, Prod.mk.injEq] at g
                  rcases g with g | g
                  · omega
                  · exact g
      | nil =>
        simp only [step, hwr, hst]
        rcases hi with ⟨g1, g2, g3⟩ | ⟨g1, g2, g3, g4, g5⟩ | ⟨g1, g2, g3, ⟨next, g4, g5⟩, g6, g7⟩
        · refine ⟨q, ⟨hr, ?_, ?_, by simp⟩, by simp [g1, acceptedOf, receivedOf]⟩
          · simpa [g3] using hw
          · simpa [g3] using h.queue
        · rcases g5 with g5 | g5
          · simp [hst] at g5
          · refine ⟨q, ⟨hr, ?_, ?_, by simp⟩, by simp [g1, acceptedOf, receivedOf]⟩
            · simp only [g2, Option.getD_some]
              omega
            · simp only [g2, Option.getD_some]
              rcases h.queue with ⟨k1, k2⟩ | ⟨k1, _⟩
              · exact Or.inr ⟨g3, s.write, q, [], by simp, k2, rfl, Or.inr ⟨hw, g5.2⟩⟩
              · omega
        · have hb : ∀ j (hj : j < (frameBytes wr.stream wr.source).length),
              s.buf (s.write + j) = (frameBytes wr.stream wr.source)[j] := by
            intro j hj
            rcases g7 j hj with g | g
            · exact g
            · simp [hst] at g
          refine ⟨q ++ [(wr.stream, wr.source)], ⟨hr, ?_, ?_, by simp⟩, by simp [g1, acceptedOf, receivedOf]⟩
          · simp only [g4, Option.getD_some]
            rcases g5 with ⟨k1, k2, k3, k4⟩ | ⟨k1, k2, k3⟩
            · split at k3 <;> omega
            · omega
          · simp only [g4, Option.getD_some]
            rcases g5 with ⟨k1, k2, k3, k4⟩ | ⟨k1, k2, k3⟩
            · rcases h.queue with ⟨m1, m2⟩ | ⟨m1, _⟩
              · have hsn := m2.snoc g2 g3 hb
                split at k3
                · rename_i hfull
                  subst k3
                  have hr0 := k4 rfl
                  exact Or.inr ⟨by omega, s.size, q ++ [(wr.stream, wr.source)], [], by simp,
                    by rw [← hfull]; exact hsn, rfl, Or.inl rfl⟩
                · subst k3
                  exact Or.inl ⟨by omega, hsn⟩
              · omega
            · rcases h.queue with ⟨m1, m2⟩ | ⟨m1, e, q1, q2, rfl, m2, m3, m4⟩
              · omega
              · subst k3
                exact Or.inr ⟨by omega, e, q1, q2 ++ [(wr.stream, wr.source)], by simp, m2,
                  m3.snoc g2 g3 hb, m4⟩

theorem acceptedOf_append (a b : List Event) : acceptedOf (a ++ b) = acceptedOf a ++ acceptedOf b := by
  induction a with
  | nil => rfl
  | cons e a ih => cases e <;> simp [acceptedOf, ih]

theorem receivedOf_append (a b : List Event) : receivedOf (a ++ b) = receivedOf a ++ receivedOf b := by
  induction a with
  | nil => rfl
  | cons e a ih => cases e <;> simp [receivedOf, ih]

theorem run_inv {s : State} {q : List Frame} (h : Inv s q) (as : List Act) :
    ∃ q', Inv (run s as).1 q' ∧
      q ++ acceptedOf (run s as).2 = receivedOf (run s as).2 ++ q' := by
  induction as generalizing s q with
  | nil => exact ⟨q, h, by simp [run, acceptedOf, receivedOf]⟩
  | cons a as ih =>
    obtain ⟨q1, h1, e1⟩ := step_inv h a
    obtain ⟨q2, h2, e2⟩ := ih h1
    refine ⟨q2, h2, ?_⟩
    simp only [run, acceptedOf_append, receivedOf_append]
    rw [← List.append_assoc, e1, List.append_assoc, e2, List.append_assoc]

theorem init_inv {size : Nat} (h : 0 < size) (buf : Mem) : Inv (init size buf) [] :=
  ⟨h, h, Or.inl ⟨Nat.le_refl _, rfl⟩, by simp [init]⟩

theorem drain_accepted (s : State) (k : Nat) : acceptedOf (drain s k).2 = [] ∧
    (drain s k).1.write = s.write ∧ (drain s k).1.size = s.size ∧
    (drain s k).1.writer = s.writer ∧ (drain s k).1.buf = s.buf := by
  induction k generalizing s with
  | zero => simp [drain, run, acceptedOf]
  | succ k ih =>
    obtain ⟨i1, i2, i3, i4, i5⟩ := ih (step s .consume).1
    simp only [drain] at i1 i2 i3 i4 i5
    simp only [drain, List.replicate_succ, run, acceptedOf_append, i1, i2, i3, i4, i5]
    refine ⟨?_, rfl, rfl, rfl, rfl⟩
    simp only [step, probe]
    split
    · rfl
    · split <;> rfl

/-- Enough looks of the probe deliver everything queued and leave the cursors
equal; more looks change nothing. -/
theorem drain_all {s : State} {q : List Frame} (h : Inv s q) :
    ∃ K, ∀ k, K ≤ k → receivedOf (drain s k).2 = q ∧ (drain s k).1.read = s.write := by
  suffices hs : ∀ n s q, Inv s q → (q.length + (if s.write < s.read then 1 else 0) ≤ n) →
      ∀ k, n + 1 ≤ k → receivedOf (drain s k).2 = q ∧ (drain s k).1.read = s.write from
    ⟨_, hs _ s q h (Nat.le_refl _)⟩
  intro n
  induction n with
  | zero =>
    intro s q h hn k hk
    have hq : q = [] := by cases q with
      | nil => rfl
      | cons a q => simp at hn
    have hle : ¬ s.write < s.read := by
      intro hlt; simp [hlt] at hn
    subst hq
    have hrw : s.read = s.write := by
      rcases h.queue with ⟨h1, h2⟩ | ⟨h1, _⟩
      · exact h2
      · exact absurd h1 hle
    have hstep : ∀ k, drain s k = (s, []) := by
      intro k
      induction k with
      | zero => rfl
      | succ k ih =>
        have : step s .consume = (s, []) := by simp [step, probe, hrw]; cases s; simp_all
        simp only [drain] at ih
        simp [drain, List.replicate_succ, run, this, ih]
    rw [hstep]
    exact ⟨rfl, hrw⟩
  | succ n ih =>
    intro s q h hn k hk
    obtain ⟨k, rfl⟩ : ∃ k', k = k' + 1 := ⟨k - 1, by omega⟩
    have hdr : drain s (k + 1) = ((drain (step s .consume).1 k).1,
        (step s .consume).2 ++ (drain (step s .consume).1 k).2) := by
      simp [drain, List.replicate_succ, run]
    obtain ⟨q', hi, he⟩ := step_inv h .consume
    have hacc : acceptedOf (step s .consume).2 = [] := by
      simp only [step, probe]
      split
      · rfl
      · split <;> rfl
    rw [hacc, List.append_nil] at he
    have hwr : (step s .consume).1.write = s.write := by simp [step]
    have key : q'.length + (if s.write < (step s .consume).1.read then 1 else 0) ≤ n := by
      have hstep : (step s .consume).1.read = (probe s.size s.read s.write s.buf).1 := by simp [step]
      have hev : (step s .consume).2 = (probe s.size s.read s.write s.buf).2 := by simp [step]
      rw [hev] at he
      rw [hstep]
      rcases probe_spec h.hr h.hw h.queue with ⟨h1, h2, h3⟩ | ⟨h1, h2, h3, h4⟩ | ⟨st, p, q'', r', h1, h2, h3, h4, h5, h6⟩
      · rw [h3] at he ⊢
        subst h2
        simp [receivedOf] at he
        subst he
        rw [h1]; simp
      · rw [h3] at he ⊢
        simp [receivedOf] at he
        subst he
        simp [h2] at hn ⊢
        omega
      · rw [h3] at he ⊢
        simp only [receivedOf, h2, List.cons_append, List.nil_append, List.cons.injEq, true_and] at he
        subst he
        rw [h2, List.length_cons] at hn
        show q''.length + (if s.write < r' then 1 else 0) ≤ n
        rcases h6 with h6 | h6 | h6
        · rw [if_neg (by omega)]
          omega
        · rw [if_pos (by omega)]
          rw [if_pos (by omega)] at hn
          omega
        · rw [if_neg (by omega)]
          omega
    have := ih (step s .consume).1 q' hi (by rw [hwr]; exact key) k (by omega)
    rw [hdr]
    simp only [receivedOf_append, this.1, this.2]
    exact ⟨he.symm, hwr⟩

/-- Writing out a plan without interruption. -/
theorem run_wsteps {s : State} {wr : Writer} (h : s.writer = some wr) :
    ∀ k, wr.plan.stores.length + 1 ≤ k →
      ∃ buf', run s (List.replicate k .wstep) =
        ({ s with buf := buf', write := wr.plan.publish.getD s.write, writer := none },
          [if wr.plan.result then .accepted wr.stream wr.source else .rejected]) := by
  have idle : ∀ (s : State), s.writer = none → ∀ k, run s (List.replicate k .wstep) = (s, []) := by
    intro s hs k
    induction k with
    | zero => rfl
    | succ k ih => simp [List.replicate_succ, run, step, hs, ih]
  intro k
  induction k generalizing s wr with
  | zero => intro hk; omega
  | succ k ih =>
    intro hk
    simp only [List.replicate_succ, run]
    cases hst : wr.plan.stores with
    | nil =>
      refine ⟨s.buf, ?_⟩
      simp only [step, h, hst]
      rw [idle _ rfl]
      simp
    | cons x rest =>
      obtain ⟨a, v⟩ := x
      simp only [step, h, hst]
      obtain ⟨b, hb⟩ := ih
        (s := { s with buf := (fun i => if i = a then v else s.buf i),
                       writer := some { wr with plan := { wr.plan with stores := rest } } })
        (wr := { wr with plan := { wr.plan with stores := rest } }) rfl
        (by simp [hst] at hk; simpa using hk)
      refine ⟨b, ?_⟩
      rw [hb]
      simp

theorem frameStores_length (w : Nat) (s : UInt8) (p : List UInt8) :
    (frameStores w s p).length = p.length + 2 := by
  simp [frameStores]

theorem attempt_eq {s : State} {stream : UInt8} {source : List UInt8}
    (hr : s.read < s.size) (hwz : s.write < s.size)
    (hw : s.writer = none) (hs : stream.toNat < streamCount) (hl : source.length ≤ 255)
    {plan : Plan} (hp : transaction s.size s.read s.write stream source = some plan) :
    ∃ buf', attempt s stream source =
        ({ s with buf := buf', write := plan.publish.getD s.write, writer := none },
          [if plan.result then .accepted stream source else .rejected]) := by
  have hlen : plan.stores.length ≤ source.length + 2 := by
    rcases transaction_cases hr hwz hp with rfl | ⟨rfl, _⟩ | ⟨next, rfl, _⟩ <;>
      simp [frameStores_length]
  have hc : ¬ (streamCount ≤ stream.toNat ∨ 255 < source.length) := by omega
  simp only [attempt, run, step, hw, if_neg hc, hp]
  obtain ⟨b, hb⟩ := run_wsteps (s := { s with writer := some { stream, source, plan } })
    (wr := { stream, source, plan }) rfl (source.length + 3) (by simp; omega)
  refine ⟨b, ?_⟩
  rw [hb]
  simp

end Verif.Stream
