import Verif.Print.Lemmas
/-!
# C71: printed text reaches the probe

Any number of contexts execute print macros and preempt each other between any two memory
accesses, while the probe reads the buffer and switches streams on and off.
-/
namespace Verif.Print
open Verif.Stream

/-! ### Delivery -/

/-- **C71.** When all contexts are done and the probe keeps looking, what it obtained is a
merge of the texts of the contexts: the transactions can be assigned to contexts such that,
on every stream, those of each context are exactly the text of the macros that it executed
while the stream was enabled, in order. -/
theorem C71_delivered (size : Nat) (hsize : 0 < size) (buf : Mem) (acts : List Act)
    (hidle : ∀ t, (run (init size buf) acts).1.todo t = []) :
    ∃ K, ∀ k, K ≤ k → ∃ L : Tagged,
      L.map (·.2) = receivedOf (streamEvents (run (init size buf) acts).2) ++
        receivedOf (drain (run (init size buf) acts).1.s k).2 ∧
      ∀ t n, bytesOf n (ofCtx t L) = printed t n 0 (run (init size buf) acts).2 := by
  obtain ⟨-, L, e⟩ := run_effect acts (init_inv' size buf)
  obtain ⟨as, has⟩ := e.stream
  obtain ⟨q, hq, he⟩ := Stream.run_inv (Stream.init_inv hsize buf) as
  obtain ⟨K, hK⟩ := drain_all hq
  refine ⟨K, fun k hk => ⟨L, ?_, fun t n => ?_⟩⟩
  · rw [e.accepted]
    have has : Stream.run (Stream.init size buf) as = _ := has
    have h1 := (hK k hk).1
    rw [has] at h1 he
    rw [h1, ← he]
    rfl
  · have := e.bytes t n
    rw [hidle t] at this
    simpa [bytesOf, init] using this

/-- C71, at every moment: what the probe has obtained so far are transactions of texts that
were printed, in the order of each context, nothing else. -/
theorem C71_prefix (size : Nat) (hsize : 0 < size) (buf : Mem) (acts : List Act) :
    ∃ L : Tagged, receivedOf (streamEvents (run (init size buf) acts).2) <+: L.map (·.2) ∧
      ∀ t n, bytesOf n (ofCtx t L) <+: printed t n 0 (run (init size buf) acts).2 := by
  obtain ⟨-, L, e⟩ := run_effect acts (init_inv' size buf)
  obtain ⟨as, has⟩ := e.stream
  obtain ⟨q, -, he⟩ := Stream.run_inv (Stream.init_inv hsize buf) as
  refine ⟨L, ?_, fun t n => ?_⟩
  · rw [e.accepted]
    have has : Stream.run (Stream.init size buf) as = _ := has
    rw [has] at he
    refine ⟨q, ?_⟩
    rw [← he]
    rfl
  · refine ⟨_, (e.bytes t n).trans ?_⟩
    rfl

/-- C71: if only one context prints to a stream, the probe gets its text. -/
theorem C71_single_writer (size : Nat) (hsize : 0 < size) (buf : Mem) (acts : List Act)
    (hidle : ∀ t, (run (init size buf) acts).1.todo t = []) (t : Nat) (n : UInt8)
    (honly : ∀ u, u ≠ t → printed u n 0 (run (init size buf) acts).2 = []) :
    ∃ K, ∀ k, K ≤ k →
      bytesOf n (receivedOf (streamEvents (run (init size buf) acts).2)) ++
        bytesOf n (receivedOf (drain (run (init size buf) acts).1.s k).2) =
      printed t n 0 (run (init size buf) acts).2 := by
  obtain ⟨K, hK⟩ := C71_delivered size hsize buf acts hidle
  refine ⟨K, fun k hk => ?_⟩
  obtain ⟨L, h1, h2⟩ := hK k hk
  rw [← bytesOf_append, ← h1, ← h2 t n]
  exact bytesOf_only n t L fun u hu => by rw [h2, honly u hu]

/-- C71: printing never panics. -/
theorem C71_no_panic (size : Nat) (hsize : 0 < size) (buf : Mem) (acts : List Act) :
    .stream .panicked ∉ (run (init size buf) acts).2 := by
  have gen : ∀ (acts : List Act) (x : State) (q : List Frame), Inv x → Stream.Inv x.s q →
      .stream .panicked ∉ (run x acts).2 := by
    intro acts
    induction acts with
    | nil => intro x q _ _; simp [run]
    | cons a acts ih =>
      intro x q hx hq
      obtain ⟨hx', L, e⟩ := step_effect hx a
      obtain ⟨as, has⟩ := e.stream
      obtain ⟨q', hq', -⟩ := Stream.run_inv hq as
      rw [has] at hq'
      rw [run_cons]
      simp only [List.mem_append, not_or]
      exact ⟨step_no_panic hx hq a, ih _ q' hx' hq'⟩
  exact gen acts _ _ (init_inv' size buf) (Stream.init_inv hsize buf)

/-- Context 0 prints "ab" to stream 0 and is preempted by context 1, which prints "c" there; before
the stream was enabled, context 0 printed "x", which is lost. -/
example :
    let go := List.replicate 5 (Act.go ·)
    let acts := [.call 0 (.print false [120] noCapture) [[120]], .enable 1,
        .call 0 (.printArgs false [LB, RB, LB, RB] noCapture [[97], [98]]) [[97], [98]]] ++
      go.map (· 0) ++ [.call 1 (.print false [99] noCapture) [[99]]] ++ go.map (· 1) ++ go.map (· 0)
    let x := run (init 32 fun _ => 0) acts
    (x.1.todo 0 = [] ∧ x.1.todo 1 = []) ∧
    printed 0 0 0 x.2 = [97, 98] ∧ printed 1 0 0 x.2 = [99] ∧
    receivedOf (drain x.1.s 5).2 = [(0, [97]), (0, [99]), (0, [98])] := by decide +kernel

/-- One context prints "a" to stream 0: the hypotheses of `C71_delivered` and `C71_single_writer`. -/
example :
    let x := run (init 32 fun _ => 0) ([.enable 1, .call 0 (.print false [97] noCapture) [[97]]] ++ List.replicate 5 (.go 0))
    (∀ t, x.1.todo t = []) ∧ (∀ u, u ≠ 0 → printed u 0 0 x.2 = []) ∧ printed 0 0 0 x.2 = [97] :=
  ⟨fun t => match t with | 0 => by decide +kernel | _ + 1 => rfl,
   fun u => match u with | 0 => fun h => absurd rfl h | _ + 1 => fun _ => rfl, by decide +kernel⟩

/-! ### What is printed -/

/-- **C71, text.** Macros with arguments print what `format!` gives, and so do those whose only
argument has no braces. Missing: strings with braces, which are not read as format strings. -/
theorem C71_text_partial (c : Call) (code : Code) (h : expand c = some code)
    (hs : ∀ s, c.single = some s → LB ∉ s ∧ RB ∉ s) : wanted c = some code.text := by
  cases c with
  | print err s cap =>
    cases h
    obtain ⟨h1, h2⟩ := hs s rfl
    exact format_plain cap s h1 h2
  | newline err => cases h; rfl
  | println err s cap =>
    cases h
    obtain ⟨h1, h2⟩ := hs s rfl
    show (format cap .text s []).map _ = _
    rw [format_plain cap s h1 h2]; rfl
  | printArgs err s cap args =>
    obtain ⟨t, ht, rfl⟩ := Option.map_eq_some_iff.1 h
    exact ht
  | printlnArgs err s cap args =>
    obtain ⟨t, ht, rfl⟩ := Option.map_eq_some_iff.1 h
    rw [format_nl] at ht
    obtain ⟨u, hu, rfl⟩ := Option.map_eq_some_iff.1 ht
    show (format cap .text s args).map _ = _
    rw [format_mono cap s .text args u hu]; rfl

/-- `println!("a{}", "b")` -/
example : ∃ code, expand (.printlnArgs false [97, LB, RB] noCapture [[98]]) = some code ∧ code.text = [97, 98, NL] :=
  ⟨_, rfl, rfl⟩

/-- C71, exact: with one argument, the text is that of `format!` if and only if the argument
has no brace. -/
theorem C71_text_exact (err : Bool) (s : Bytes) :
    (wanted (.print err s noCapture) = (expand (.print err s noCapture)).map (·.text) ↔ LB ∉ s ∧ RB ∉ s) ∧
    (wanted (.println err s noCapture) = (expand (.println err s noCapture)).map (·.text) ↔ LB ∉ s ∧ RB ∉ s) := by
  have key : format noCapture .text s [] = some s ↔ LB ∉ s ∧ RB ∉ s := by
    constructor
    · intro h
      rcases (format_length s .text s h).2 rfl with ⟨-, h⟩ | h
      · exact h
      · exact absurd rfl h
    · intro h; exact format_plain noCapture s h.1 h.2
  refine ⟨key, ?_⟩
  rw [← key]
  show (format noCapture .text s []).map (· ++ [NL]) = some (s ++ [NL]) ↔ _
  cases format noCapture .text s [] with
  | none => simp
  | some t => simp

/-- C71 fails: `println!("{{}}")` prints `{{}}`, where `format!` gives `{}`; `print!("{x}")` prints
`{x}` although `x` is a variable; `println!("{x}{}", y)` does not compile. -/
theorem C71_false : ∃ (s : Bytes) (cap : Bytes → Option Bytes),
    (wanted (.println false [LB, LB, RB, RB] noCapture) = some [LB, RB, NL] ∧
      (expand (.println false [LB, LB, RB, RB] noCapture)).map (·.text) = some [LB, LB, RB, RB, NL]) ∧
    (wanted (.print false s cap) = some [49] ∧ (expand (.print false s cap)).map (·.text) = some s ∧ s ≠ [49]) ∧
    ((wanted (.printlnArgs false (s ++ [LB, RB]) cap [[50]])) = some [49, 50, NL] ∧
      (expand (.printlnArgs false (s ++ [LB, RB]) cap [[50]])).isNone) :=
  ⟨[LB, 120, RB], fun n => if n = [120] then some [49] else none, by decide +kernel, by decide +kernel, by decide +kernel⟩

/-- C71: without captured variables every call that `format!` accepts compiles. -/
theorem C71_compiles (c : Call) (t : Bytes) (h : wanted c = some t)
    (hc : ∀ err s cap args, c = .printlnArgs err s cap args → cap = noCapture) : (expand c).isSome := by
  cases c with
  | print err s cap => rfl
  | newline err => rfl
  | println err s cap => rfl
  | printArgs err s cap args =>
    have h : format cap .text s args = some t := h
    simp [expand, printN, h]
  | printlnArgs err s cap args =>
    cases hc err s cap args rfl
    obtain ⟨u, hu, -⟩ := Option.map_eq_some_iff.1 h
    simp [expand, printN, format_nl, hu]

/-- C71: `dbg!` prints the place, the expression and the value to the standard error. -/
theorem C71_dbg (file line src val : Bytes) :
    expand (dbg file line src val) = some (.fmt 1
      ([0x5B] ++ file ++ [COLON] ++ line ++ [0x5D, 0x20] ++ src ++ [0x20, 0x3D, 0x20] ++ val ++ [NL])) := by
  simp [expand, dbg, printN, format, LB, RB, COLON, NL, streamOf]

end Verif.Print
