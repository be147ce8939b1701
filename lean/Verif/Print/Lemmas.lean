import Verif.Print.Spec
import Verif.Stream.Lemmas
/-! # Lemmas for the print macros -/
namespace Verif.Print
open Verif.Stream

/-! ### `format` -/

/-- More variables in scope change nothing. -/
theorem format_mono (cap : Bytes → Option Bytes) : ∀ (s : Bytes) (m : Mode) (as : List Bytes) (t : Bytes),
    format noCapture m s as = some t → format cap m s as = some t := by
  intro s
  induction s with
  | nil =>
    intro m as t h
    cases m <;> cases as <;> simp_all [format]
  | cons b s ih =>
    intro m as t h
    cases m with
    | text =>
      unfold format at h ⊢
      by_cases h1 : b = LB
      · rw [if_pos h1] at h ⊢; exact ih _ _ _ h
      rw [if_neg h1] at h ⊢
      by_cases h2 : b = RB
      · rw [if_pos h2] at h ⊢; exact ih _ _ _ h
      rw [if_neg h2] at h ⊢
      obtain ⟨u, hu, rfl⟩ := Option.map_eq_some_iff.1 h
      rw [ih _ _ _ hu]; rfl
    | opened =>
      unfold format at h ⊢
      by_cases h1 : b = LB
      · rw [if_pos h1] at h ⊢
        obtain ⟨u, hu, rfl⟩ := Option.map_eq_some_iff.1 h
        rw [ih _ _ _ hu]; rfl
      rw [if_neg h1] at h ⊢
      by_cases h2 : b = RB
      · rw [if_pos h2] at h ⊢
        cases as with
        | nil => cases h
        | cons a as =>
          obtain ⟨u, hu, rfl⟩ := Option.map_eq_some_iff.1 h
          simp only [ih _ _ _ hu]; rfl
      rw [if_neg h2] at h ⊢
      exact ih _ _ _ h
    | closing =>
      unfold format at h ⊢
      by_cases h1 : b = RB
      · rw [if_pos h1] at h ⊢
        obtain ⟨u, hu, rfl⟩ := Option.map_eq_some_iff.1 h
        rw [ih _ _ _ hu]; rfl
      · rw [if_neg h1] at h; cases h
    | inside acc =>
      unfold format at h ⊢
      by_cases h1 : b = RB
      · rw [if_pos h1] at h ⊢
        by_cases h2 : acc.takeWhile (· ≠ COLON) = []
        · rw [if_pos h2] at h ⊢
          cases as with
          | nil => cases h
          | cons a as =>
            obtain ⟨u, hu, rfl⟩ := Option.map_eq_some_iff.1 h
            simp only [ih _ _ _ hu]; rfl
        · rw [if_neg h2] at h
          simp only [noCapture] at h
          cases h
      rw [if_neg h1] at h ⊢
      by_cases h2 : b = LB
      · rw [if_pos h2] at h; cases h
      rw [if_neg h2] at h ⊢
      exact ih _ _ _ h

/-- A newline behind the format string is a newline behind the text. -/
theorem format_nl (cap : Bytes → Option Bytes) : ∀ (s : Bytes) (m : Mode) (as : List Bytes),
    format cap m (s ++ [NL]) as = (format cap m s as).map (· ++ [NL]) := by
  have e1 : NL ≠ LB := by decide
  have e2 : NL ≠ RB := by decide
  intro s
  induction s with
  | nil =>
    intro m as
    cases m <;> cases as <;> simp [format, e1, e2]
  | cons b s ih =>
    intro m as
    rw [List.cons_append]
    cases m with
    | text =>
      unfold format
      by_cases h1 : b = LB
      · rw [if_pos h1, if_pos h1]; exact ih _ _
      rw [if_neg h1, if_neg h1]
      by_cases h2 : b = RB
      · rw [if_pos h2, if_pos h2]; exact ih _ _
      rw [if_neg h2, if_neg h2, ih]
      simp [Function.comp_def]
    | opened =>
      unfold format
      by_cases h1 : b = LB
      · rw [if_pos h1, if_pos h1, ih]
        simp [Function.comp_def]
      rw [if_neg h1, if_neg h1]
      by_cases h2 : b = RB
      · rw [if_pos h2, if_pos h2]
        cases as with
        | nil => rfl
        | cons a as => simp [ih, Function.comp_def]
      rw [if_neg h2, if_neg h2, ih]
    | closing =>
      unfold format
      by_cases h1 : b = RB
      · rw [if_pos h1, if_pos h1, ih]
        simp [Function.comp_def]
      · rw [if_neg h1, if_neg h1]; rfl
    | inside acc =>
      unfold format
      by_cases h1 : b = RB
      · rw [if_pos h1, if_pos h1]
        by_cases h2 : acc.takeWhile (· ≠ COLON) = []
        · rw [if_pos h2, if_pos h2]
          cases as with
          | nil => rfl
          | cons a as => simp [ih, Function.comp_def]
        · rw [if_neg h2, if_neg h2]
          cases cap (acc.takeWhile (· ≠ COLON)) with
          | none => rfl
          | some v => simp [ih, Function.comp_def]
      rw [if_neg h1, if_neg h1]
      by_cases h2 : b = LB
      · rw [if_pos h2, if_pos h2]; rfl
      · rw [if_neg h2, if_neg h2, ih]

/-- Without braces the text is the format string. -/
theorem format_plain (cap : Bytes → Option Bytes) : ∀ (s : Bytes), LB ∉ s → RB ∉ s → format cap .text s [] = some s
  | [], _, _ => rfl
  | b :: s, h1, h2 => by
    have hb1 : b ≠ LB := fun h => h1 (h ▸ List.mem_cons_self)
    have hb2 : b ≠ RB := fun h => h2 (h ▸ List.mem_cons_self)
    unfold format
    rw [if_neg hb1, if_neg hb2, format_plain cap s (fun h => h1 (List.mem_cons_of_mem _ h))
      (fun h => h2 (List.mem_cons_of_mem _ h))]
    rfl

/-- Without arguments and variables the text is at most as long, and shorter after a brace. -/
theorem format_length : ∀ (s : Bytes) (m : Mode) (t : Bytes), format noCapture m s [] = some t →
    t.length ≤ s.length ∧ (t.length = s.length → m matches .text ∧ LB ∉ s ∧ RB ∉ s ∨ ¬ (m matches .text)) := by
  intro s
  induction s with
  | nil =>
    intro m t h
    cases m <;> simp_all [format]
  | cons b s ih =>
    intro m t h
    cases m with
    | text =>
      unfold format at h
      by_cases h1 : b = LB
      · rw [if_pos h1] at h
        have := ih _ _ h
        simp only [List.length_cons]
        exact ⟨by omega, fun e => by omega⟩
      rw [if_neg h1] at h
      by_cases h2 : b = RB
      · rw [if_pos h2] at h
        have := ih _ _ h
        simp only [List.length_cons]
        exact ⟨by omega, fun e => by omega⟩
      rw [if_neg h2] at h
      obtain ⟨u, hu, rfl⟩ := Option.map_eq_some_iff.1 h
      obtain ⟨g1, g2⟩ := ih _ _ hu
      simp only [List.length_cons]
      refine ⟨by omega, fun e => .inl ⟨trivial, ?_⟩⟩
      rcases g2 (by omega) with ⟨-, g3, g4⟩ | g3
      · simp only [List.mem_cons, not_or]
        exact ⟨⟨fun h => h1 h.symm, g3⟩, fun h => h2 h.symm, g4⟩
      · exact absurd rfl g3
    | opened =>
      refine ⟨?_, fun _ => .inr (by simp)⟩
      unfold format at h
      by_cases h1 : b = LB
      · rw [if_pos h1] at h
        obtain ⟨u, hu, rfl⟩ := Option.map_eq_some_iff.1 h
        have := (ih _ _ hu).1
        simp only [List.length_cons]; omega
      rw [if_neg h1] at h
      by_cases h2 : b = RB
      · rw [if_pos h2] at h; cases h
      rw [if_neg h2] at h
      have := (ih _ _ h).1
      simp only [List.length_cons]; omega
    | closing =>
      refine ⟨?_, fun _ => .inr (by simp)⟩
      unfold format at h
      by_cases h1 : b = RB
      · rw [if_pos h1] at h
        obtain ⟨u, hu, rfl⟩ := Option.map_eq_some_iff.1 h
        have := (ih _ _ hu).1
        simp only [List.length_cons]; omega
      · rw [if_neg h1] at h; cases h
    | inside acc =>
      refine ⟨?_, fun _ => .inr (by simp)⟩
      unfold format at h
      by_cases h1 : b = RB
      · rw [if_pos h1] at h
        by_cases h2 : acc.takeWhile (· ≠ COLON) = []
        · rw [if_pos h2] at h; cases h
        · rw [if_neg h2] at h
          simp only [noCapture] at h
          cases h
      rw [if_neg h1] at h
      by_cases h2 : b = LB
      · rw [if_pos h2] at h; cases h
      rw [if_neg h2] at h
      have := (ih _ _ h).1
      simp only [List.length_cons]; omega

/-! ### Transactions -/

theorem writeBytes_flatten : ∀ (b : Bytes), (writeBytes b).flatten = b := by
  intro b
  induction b using writeBytes.induct with
  | case1 b h ih =>
    rw [writeBytes, dif_pos h, List.flatten_cons, ih, List.take_append_drop]
  | case2 b h h' =>
    rw [writeBytes, dif_neg h, if_pos h']; simp
  | case3 b h h' =>
    rw [writeBytes, dif_neg h, if_neg h']
    have : b = [] := by cases b with | nil => rfl | cons => simp at h'
    rw [this]; rfl

theorem writeBytes_short : ∀ (b p : Bytes), p ∈ writeBytes b → p.length ≤ 64 := by
  intro b
  induction b using writeBytes.induct with
  | case1 b h ih =>
    intro p hp
    rw [writeBytes, dif_pos h, List.mem_cons] at hp
    rcases hp with rfl | hp
    · simp only [List.length_take, defaultTransactionLength]; omega
    · exact ih p hp
  | case2 b h h' =>
    intro p hp
    rw [writeBytes, dif_neg h, if_pos h'] at hp
    simp only [List.mem_singleton] at hp
    subst hp
    simp only [defaultTransactionLength] at h
    omega
  | case3 b h h' =>
    intro p hp
    rw [writeBytes, dif_neg h, if_neg h'] at hp
    cases hp

theorem turns_eq : ∀ (k : Nat) (b : Bytes), b.length ≤ k → turns k b = writeBytes b
  | 0, b, h => by
    have : b = [] := List.length_eq_zero_iff.1 (by omega)
    rw [this, writeBytes]; rfl
  | k + 1, b, h => by
    rw [turns, writeBytes]
    by_cases h1 : b.length > defaultTransactionLength
    · rw [if_pos h1, dif_pos h1, turns_eq k]
      simp only [List.length_drop, defaultTransactionLength] at *
      omega
    · rw [if_neg h1, dif_neg h1]

theorem pieces_eq (b : Bytes) : turns b.length b = writeBytes b := turns_eq _ b (Nat.le_refl _)

theorem frames_eq (stream : UInt8) (pieces : List Bytes) :
    frames stream pieces = (pieces.flatMap writeBytes).map fun p => (stream, p) := by
  unfold frames
  rw [show (fun b : Bytes => turns b.length b) = writeBytes from funext pieces_eq]

theorem bytesOf_append (n : UInt8) (a b : List Frame) : bytesOf n (a ++ b) = bytesOf n a ++ bytesOf n b := by
  simp [bytesOf]

theorem bytesOf_frames_same (n : UInt8) (pieces : List Bytes) : bytesOf n (frames n pieces) = pieces.flatten := by
  rw [frames_eq]
  unfold bytesOf
  rw [List.filter_eq_self.2 (by
    intro a ha
    obtain ⟨p, -, rfl⟩ := List.mem_map.1 ha
    simp)]
  rw [List.flatMap_map]
  induction pieces with
  | nil => rfl
  | cons p ps ih =>
    rw [List.flatMap_cons, List.flatMap_append, ih, List.flatten_cons]
    congr 1
    have : (fun (a : Bytes) => ((n, a) : Frame).2) = id := rfl
    rw [this, List.flatMap_id, writeBytes_flatten]

theorem bytesOf_frames_other {n k : UInt8} (h : k ≠ n) (pieces : List Bytes) : bytesOf n (frames k pieces) = [] := by
  rw [frames_eq]
  unfold bytesOf
  rw [List.filter_eq_nil_iff.2]
  · rfl
  · intro a ha
    obtain ⟨p, -, rfl⟩ := List.mem_map.1 ha
    simpa using h

/-- The cut gives the text. -/
theorem cut_flatten {c : Code} {pieces : List Bytes} (h : c.cut pieces = true) : pieces.flatten = c.text := by
  cases c with
  | str n s =>
    simp only [Code.cut, decide_eq_true_eq] at h
    subst h
    simp [Code.text]
  | fmt n s => simpa [Code.cut, Code.text] using h

theorem isEnabled_iff (m : BitVec 32) {n : Nat} (hn : n < 32) :
    isEnabled m n = some true ↔ m.getLsbD n = true := by
  rw [isEnabled, if_pos hn]
  simp only [Option.some.injEq, bne_iff_ne, ne_eq]
  constructor
  · intro h
    by_cases hb : m.getLsbD n = true
    · exact hb
    · exfalso
      apply h
      apply BitVec.eq_of_getLsbD_eq
      intro i hi
      simp only [BitVec.getLsbD_and, BitVec.getLsbD_shiftLeft, BitVec.getLsbD_zero]
      by_cases hin : i = n
      · subst hin; simp_all
      · by_cases hlt : i < n
        · simp [hlt]
        · have : ¬ (i - n = 0) := by omega
          simp [BitVec.getLsbD_one, this]
  · intro hb h
    have := congrArg (fun v => v.getLsbD n) h
    simp only [BitVec.getLsbD_and, BitVec.getLsbD_shiftLeft, BitVec.getLsbD_zero, hb] at this
    simp [hn] at this

/-! ### Contexts -/

/-- The mask after some events. -/
def maskAfter : BitVec 32 → List Event → BitVec 32
  | m, [] => m
  | _, .enabled m :: es => maskAfter m es
  | m, .called _ _ _ :: es => maskAfter m es
  | m, .stream _ :: es => maskAfter m es

theorem printed_append (t : Nat) (n : UInt8) : ∀ (es fs : List Event) (m : BitVec 32),
    printed t n m (es ++ fs) = printed t n m es ++ printed t n (maskAfter m es) fs
  | [], fs, m => rfl
  | .called u k text :: es, fs, m => by
    simp only [List.cons_append, printed, maskAfter, printed_append t n es fs m]
    split <;> simp
  | .enabled m' :: es, fs, m => printed_append t n es fs m'
  | .stream e :: es, fs, m => printed_append t n es fs m

theorem maskAfter_stream (m : BitVec 32) : ∀ (es : List Stream.Event), maskAfter m (es.map .stream) = m
  | [] => rfl
  | _ :: es => maskAfter_stream m es

theorem printed_stream (t : Nat) (n : UInt8) (m : BitVec 32) : ∀ (es : List Stream.Event),
    printed t n m (es.map .stream) = []
  | [] => rfl
  | _ :: es => printed_stream t n m es

theorem streamEvents_append : ∀ (es fs : List Event), streamEvents (es ++ fs) = streamEvents es ++ streamEvents fs
  | [], _ => rfl
  | .called _ _ _ :: es, fs => streamEvents_append es fs
  | .enabled _ :: es, fs => streamEvents_append es fs
  | .stream e :: es, fs => by
    show e :: streamEvents (es ++ fs) = e :: (streamEvents es ++ streamEvents fs)
    rw [streamEvents_append es fs]

theorem streamEvents_stream : ∀ (es : List Stream.Event), streamEvents (es.map .stream) = es
  | [] => rfl
  | e :: es => by
    show e :: streamEvents (es.map .stream) = _
    rw [streamEvents_stream es]

theorem acceptedOf_append' : ∀ (a b : List Stream.Event), acceptedOf (a ++ b) = acceptedOf a ++ acceptedOf b
  | [], _ => rfl
  | .accepted s p :: a, b => by
    show (s, p) :: acceptedOf (a ++ b) = _
    rw [acceptedOf_append' a b]; rfl
  | .rejected :: a, b => acceptedOf_append' a b
  | .received _ _ :: a, b => acceptedOf_append' a b
  | .panicked :: a, b => acceptedOf_append' a b

theorem ofCtx_append (t : Nat) (L M : Tagged) : ofCtx t (L ++ M) = ofCtx t L ++ ofCtx t M := by
  simp [ofCtx]

structure Inv (x : State) : Prop where
  writer : ∀ wr, x.s.writer = some wr → ∃ rest, x.todo x.owner = (wr.stream, wr.source) :: rest
  legal : ∀ t, ∀ f ∈ x.todo t, f.1.toNat < streamCount ∧ f.2.length ≤ 255

theorem init_inv' (size : Nat) (buf : Mem) : Inv (init size buf) :=
  ⟨fun _ h => (nomatch h), fun _ _ h => (nomatch h)⟩

theorem streamOf_lt (err : Bool) : (streamOf err).toNat < 32 := by cases err <;> decide

theorem expand_stream {c : Call} {code : Code} (h : expand c = some code) : code.stream.toNat < 32 := by
  cases c with
  | print err s cap => cases h; exact streamOf_lt err
  | newline err => cases h; exact streamOf_lt err
  | println err s cap => cases h; exact streamOf_lt err
  | printArgs err s cap args =>
    obtain ⟨t, -, rfl⟩ := Option.map_eq_some_iff.1 h
    exact streamOf_lt err
  | printlnArgs err s cap args =>
    obtain ⟨t, -, rfl⟩ := Option.map_eq_some_iff.1 h
    exact streamOf_lt err

theorem frames_legal {n : UInt8} (hn : n.toNat < 32) (pieces : List Bytes) :
    ∀ f ∈ frames n pieces, f.1.toNat < streamCount ∧ f.2.length ≤ 255 := by
  intro f hf
  rw [frames_eq] at hf
  obtain ⟨p, hp, rfl⟩ := List.mem_map.1 hf
  obtain ⟨q, -, hp⟩ := List.mem_flatMap.1 hp
  have := writeBytes_short q p hp
  exact ⟨hn, by show p.length ≤ 255; omega⟩

/-- The effect of one step. -/
structure Effect (x x' : State) (es : List Event) (L : Tagged) : Prop where
  accepted : L.map (·.2) = acceptedOf (streamEvents es)
  bytes : ∀ t n, bytesOf n (ofCtx t L) ++ bytesOf n (x'.todo t) = bytesOf n (x.todo t) ++ printed t n x.mask es
  mask : x'.mask = maskAfter x.mask es
  stream : ∃ as, Stream.run x.s as = (x'.s, streamEvents es)

theorem effect_nothing (x : State) : Effect x x [] [] :=
  ⟨rfl, fun t n => by simp [ofCtx, bytesOf, printed], rfl, [], rfl⟩

theorem run_single (s : Stream.State) (a : Stream.Act) : Stream.run s [a] = Stream.step s a := by
  simp [Stream.run]

theorem step_effect {x : State} (hx : Inv x) (a : Act) :
    Inv (step x a).1 ∧ ∃ L, Effect x (step x a).1 (step x a).2 L := by
  cases a with
  | call t c pieces =>
    simp only [step]
    cases htd : x.todo t with
    | cons f fs => exact ⟨hx, [], effect_nothing x⟩
    | nil =>
      cases he : expand c with
      | none => exact ⟨hx, [], effect_nothing x⟩
      | some code =>
        simp only
        by_cases hc : code.cut pieces = true
        · rw [if_pos hc]
          have hs := expand_stream he
          by_cases hen : isEnabled x.mask code.stream.toNat = some true
          · rw [if_pos hen]
            have hb := (isEnabled_iff x.mask hs).1 hen
            refine ⟨⟨?_, ?_⟩, [], rfl, ?_, rfl, [], rfl⟩
            · intro wr hw
              obtain ⟨rest, hr⟩ := hx.writer wr hw
              refine ⟨rest, ?_⟩
              show setTodo x.todo t _ x.owner = _
              have : x.owner ≠ t := by intro h; rw [h, htd] at hr; cases hr
              rw [setTodo, if_neg this, hr]
            · intro u f hf
              have hf : f ∈ setTodo x.todo t (frames code.stream pieces) u := hf
              by_cases hu : u = t
              · rw [setTodo, if_pos hu] at hf
                exact frames_legal hs pieces f hf
              · rw [setTodo, if_neg hu] at hf
                exact hx.legal u f hf
            · intro u n
              show _ ++ bytesOf n (setTodo x.todo t (frames code.stream pieces) u) = _
              simp only [ofCtx, List.filter_nil, List.map_nil, printed]
              by_cases hu : u = t
              · subst hu
                rw [setTodo, if_pos rfl, htd]
                by_cases hn : code.stream = n
                · subst hn
                  rw [bytesOf_frames_same, cut_flatten hc]
                  simp [bytesOf, hb]
                · rw [bytesOf_frames_other hn, if_neg (by intro h; exact hn h.2.1)]
              · rw [setTodo, if_neg hu, if_neg (by intro h; exact hu h.1.symm)]
                simp [bytesOf]
          · rw [if_neg hen]
            have hb : ¬ x.mask.getLsbD code.stream.toNat = true := fun h => hen ((isEnabled_iff x.mask hs).2 h)
            refine ⟨hx, [], rfl, ?_, rfl, [], rfl⟩
            intro u n
            simp only [ofCtx, List.filter_nil, List.map_nil, printed]
            rw [if_neg (by rintro ⟨-, rfl, h⟩; exact hb h)]
            simp [bytesOf]
        · rw [if_neg hc]; exact ⟨hx, [], effect_nothing x⟩
  | go t =>
    simp only [step]
    cases hw : x.s.writer with
    | none =>
      cases htd : x.todo t with
      | nil => exact ⟨hx, [], effect_nothing x⟩
      | cons f fs =>
        obtain ⟨n, p⟩ := f
        simp only
        have hst : Stream.step x.s (.begin n p) =
            (match transaction x.s.size x.s.read x.s.write n p with
             | none => (x.s, [.panicked])
             | some plan => ({ x.s with writer := some ⟨n, p, plan⟩ }, [])) := by
          have := hx.legal t (n, p) (by rw [htd]; exact List.mem_cons_self)
          have hc : ¬ (streamCount ≤ n.toNat ∨ 255 < p.length) := by
            have h1 := this.1; have h2 := this.2
            simp only at h1 h2
            omega
          simp only [Stream.step, hw, if_neg hc]
          cases transaction x.s.size x.s.read x.s.write n p <;> rfl
        rw [hst]
        cases htr : transaction x.s.size x.s.read x.s.write n p with
        | none =>
          refine ⟨⟨fun wr h => ?_, hx.legal⟩, [], rfl, ?_, rfl, [.begin n p], ?_⟩
          · rw [show x.s.writer = some wr from h] at hw; cases hw
          · intro u k; simp [ofCtx, bytesOf, printed]
          · rw [run_single, hst, htr]; rfl
        | some plan =>
          refine ⟨⟨fun wr h => ?_, hx.legal⟩, [], rfl, ?_, rfl, [.begin n p], ?_⟩
          · cases h; exact ⟨fs, htd⟩
          · intro u k; simp [ofCtx, bytesOf, printed]
          · rw [run_single, hst, htr]; rfl
    | some wr =>
      simp only
      by_cases ho : x.owner = t
      · rw [if_pos ho]
        obtain ⟨rest, hrest⟩ := hx.writer wr hw
        cases hst : wr.plan.stores with
        | cons av stores =>
          obtain ⟨a, v⟩ := av
          have hstep : Stream.step x.s .wstep =
              ({ x.s with buf := fun i => if i = a then v else x.s.buf i,
                          writer := some { wr with plan := { wr.plan with stores := stores } } }, []) := by
            simp only [Stream.step, hw, hst]
          rw [hstep]
          rw [if_neg (by intro h; cases h.1)]
          refine ⟨⟨fun wr' h => ?_, hx.legal⟩, [], rfl, ?_, rfl, [.wstep], ?_⟩
          · cases h; exact ⟨rest, hrest⟩
          · intro u k; simp [ofCtx, bytesOf, printed]
          · rw [run_single, hstep]; rfl
        | nil =>
          have hstep : Stream.step x.s .wstep =
              ({ x.s with write := wr.plan.publish.getD x.s.write, writer := none },
                [if wr.plan.result then .accepted wr.stream wr.source else .rejected]) := by
            simp only [Stream.step, hw, hst]
          rw [hstep]
          by_cases hres : wr.plan.result = true
          · simp only [hres, and_self, if_true]
            refine ⟨⟨fun wr' h => (nomatch h), ?_⟩, [(t, wr.stream, wr.source)], rfl, ?_, rfl, [.wstep], ?_⟩
            · intro u f hf
              have hf : f ∈ setTodo x.todo t (x.todo t).tail u := hf
              by_cases hu : u = t
              · rw [setTodo, if_pos hu] at hf
                exact hx.legal t f (List.mem_of_mem_tail hf)
              · rw [setTodo, if_neg hu] at hf
                exact hx.legal u f hf
            · intro u k
              show _ ++ bytesOf k (setTodo x.todo t (x.todo t).tail u) = _
              simp only [printed, List.map_cons, List.map_nil, List.append_nil]
              by_cases hu : u = t
              · subst hu
                rw [setTodo, if_pos rfl, ← ho, hrest]
                rw [← bytesOf_append]
                simp [ofCtx]
              · rw [setTodo, if_neg hu]
                have : ofCtx u [(t, wr.stream, wr.source)] = [] := by
                  simp [ofCtx, Ne.symm hu]
                rw [this]; rfl
            · rw [run_single, hstep, if_pos hres]; rfl
          · simp only [hres, and_false, if_false, Bool.false_eq_true]
            refine ⟨⟨fun wr' h => (by cases h), hx.legal⟩, [], rfl, ?_, rfl, [.wstep], ?_⟩
            · intro u k; simp [ofCtx, bytesOf, printed]
            · rw [run_single, hstep, if_neg hres]; rfl
      · rw [if_neg ho]; exact ⟨hx, [], effect_nothing x⟩
  | probe =>
    have hnil : ∀ (r w : Nat), acceptedOf (probe x.s.size r w x.s.buf).2 = [] := by
      intro r w
      unfold Stream.probe
      repeat' split
      all_goals rfl
    refine ⟨⟨hx.writer, hx.legal⟩, [], ?_, ?_, ?_, [.consume], ?_⟩
    · show [] = acceptedOf (streamEvents (List.map Event.stream _))
      rw [streamEvents_stream]
      exact (hnil _ _).symm
    · intro u k
      show _ = _ ++ printed u k x.mask (List.map Event.stream _)
      rw [printed_stream]
      simp [ofCtx, bytesOf]; rfl
    · show x.mask = maskAfter x.mask (List.map Event.stream _)
      rw [maskAfter_stream]
    · rw [run_single]
      show _ = (_, streamEvents (List.map Event.stream _))
      rw [streamEvents_stream]; rfl
  | enable m =>
    refine ⟨⟨hx.writer, hx.legal⟩, [], rfl, ?_, rfl, [], rfl⟩
    intro u k
    simp [ofCtx, bytesOf, printed, step]

theorem stream_run_append : ∀ (as bs : List Stream.Act) (s : Stream.State),
    Stream.run s (as ++ bs) = ((Stream.run (Stream.run s as).1 bs).1, (Stream.run s as).2 ++ (Stream.run (Stream.run s as).1 bs).2)
  | [], bs, s => rfl
  | a :: as, bs, s => by
    simp only [List.cons_append, Stream.run]
    rw [stream_run_append as bs]
    simp

theorem run_cons (x : State) (a : Act) (as : List Act) :
    run x (a :: as) = ((run (step x a).1 as).1, (step x a).2 ++ (run (step x a).1 as).2) := rfl

theorem maskAfter_append : ∀ (es fs : List Event) (m : BitVec 32),
    maskAfter m (es ++ fs) = maskAfter (maskAfter m es) fs
  | [], _, _ => rfl
  | .called _ _ _ :: es, fs, m => maskAfter_append es fs m
  | .enabled m' :: es, fs, _ => maskAfter_append es fs m'
  | .stream _ :: es, fs, m => maskAfter_append es fs m

theorem run_effect : ∀ (as : List Act) {x : State}, Inv x →
    Inv (run x as).1 ∧ ∃ L, Effect x (run x as).1 (run x as).2 L
  | [], x, hx => ⟨hx, [], effect_nothing x⟩
  | a :: as, x, hx => by
    obtain ⟨h1, L1, e1⟩ := step_effect hx a
    obtain ⟨h2, L2, e2⟩ := run_effect as h1
    rw [run_cons]
    refine ⟨h2, L1 ++ L2, ?_, ?_, ?_, ?_⟩
    · simp only
      rw [streamEvents_append, acceptedOf_append', List.map_append, e1.accepted, e2.accepted]
    · intro t n
      simp only
      rw [printed_append, ofCtx_append, bytesOf_append, List.append_assoc, e2.bytes t n]
      rw [← List.append_assoc, e1.bytes t n, e1.mask, List.append_assoc]
    · simp only
      rw [maskAfter_append, ← e1.mask]
      exact e2.mask
    · obtain ⟨as1, g1⟩ := e1.stream
      obtain ⟨as2, g2⟩ := e2.stream
      refine ⟨as1 ++ as2, ?_⟩
      rw [stream_run_append, g1]
      simp only
      rw [g2, streamEvents_append]

theorem step_no_panic {x : State} (hx : Inv x) {q : List Frame} (hq : Stream.Inv x.s q) (a : Act) :
    .stream .panicked ∉ (step x a).2 := by
  have hw1 : Stream.Event.panicked ∉ (Stream.step x.s .wstep).2 := by
    simp only [Stream.step]
    repeat' split
    all_goals simp
  have hw2 : Stream.Event.panicked ∉ (Stream.step x.s .consume).2 := by
    simp only [Stream.step, Stream.probe]
    repeat' split
    all_goals simp
  have hw3 : ∀ f : Frame, (f.1.toNat < streamCount ∧ f.2.length ≤ 255) →
      Stream.Event.panicked ∉ (Stream.step x.s (.begin f.1 f.2)).2 := by
    intro f hf
    have hsome := transaction_isSome (r := x.s.read) hq.hw f.1 f.2
    have hc : ¬ (streamCount ≤ f.1.toNat ∨ 255 < f.2.length) := by omega
    simp only [Stream.step]
    cases hw : x.s.writer with
    | some wr => simp
    | none =>
      cases ht : transaction x.s.size x.s.read x.s.write f.1 f.2 with
      | none => simp [ht] at hsome
      | some plan => simp [hc]
  cases a with
  | call t c pieces =>
    simp only [step]
    repeat' split
    all_goals simp
  | go t =>
    simp only [step]
    cases x.s.writer with
    | none =>
      cases htd : x.todo t with
      | nil => simp
      | cons f fs =>
        have := hw3 f (hx.legal t f (by rw [htd]; exact List.mem_cons_self))
        simpa using this
    | some wr =>
      simp only
      split
      · simpa using hw1
      · simp
  | probe => simpa [step] using hw2
  | enable m => simp [step]

/-- If the other contexts have no bytes on a stream, it has the bytes of this one. -/
theorem bytesOf_only (n : UInt8) (t : Nat) : ∀ (L : Tagged), (∀ u, u ≠ t → bytesOf n (ofCtx u L) = []) →
    bytesOf n (L.map (·.2)) = bytesOf n (ofCtx t L)
  | [], _ => rfl
  | (v, f) :: L, h => by
    have hcons : ∀ u, ofCtx u ((v, f) :: L) = (if v = u then [f] else []) ++ ofCtx u L := by
      intro u
      simp only [ofCtx, List.filter_cons, decide_eq_true_eq]
      split <;> simp
    have htail : ∀ u, u ≠ t → bytesOf n (ofCtx u L) = [] := by
      intro u hu
      have := h u hu
      rw [hcons, bytesOf_append, List.append_eq_nil_iff] at this
      exact this.2
    have ih := bytesOf_only n t L htail
    rw [hcons, bytesOf_append, List.map_cons, show f :: L.map (·.2) = [f] ++ L.map (·.2) from rfl, bytesOf_append, ih]
    congr 1
    by_cases hv : v = t
    · rw [if_pos hv]
    · rw [if_neg hv]
      have := h v hv
      rw [hcons, bytesOf_append, if_pos rfl, List.append_eq_nil_iff] at this
      rw [this.1]; rfl

end Verif.Print
