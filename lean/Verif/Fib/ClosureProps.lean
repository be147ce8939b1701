import Verif.Fib.ClosureModel
/-! # Properties of closure fibers and of the executor fiber (C57, C58) -/
namespace Verif.Fib

variable {σ Y R : Type}

/-! ## Vocabulary: the behaviour of a closure, without fibers -/

/-- The state of the closure before its call number `i`. -/
def before (call : σ → σ × FiberState Y R) (f : σ) : Nat → σ
  | 0 => f
  | i + 1 => (call (before call f i)).1

/-- The result of call number `i` of the closure. -/
def result (call : σ → σ × FiberState Y R) (f : σ) (i : Nat) : FiberState Y R := (call (before call f i)).2

/-- None of the first `n` calls completes. -/
def Running (call : σ → σ × FiberState Y R) (f : σ) (n : Nat) : Prop := ∀ i, i < n → (result call f i).isComplete = false

theorem before_shift (call : σ → σ × FiberState Y R) (f : σ) : ∀ i, before call (call f).1 i = before call f (i + 1)
  | 0 => rfl
  | i + 1 => by rw [before, before_shift call f i]; rfl

theorem result_shift (call : σ → σ × FiberState Y R) (f : σ) (i : Nat) : result call (call f).1 i = result call f (i + 1) := by
  rw [result, before_shift]; rfl

theorem running_shift {call : σ → σ × FiberState Y R} {f : σ} {n : Nat} (h : Running call f (n + 1)) : Running call (call f).1 n := by
  intro i hi; rw [result_shift]; exact h (i + 1) (by omega)

theorem resume_yield {call : σ → σ × FiberState Y R} {f : σ} {k : Nat} (h : (result call f 0).isComplete = false) :
    FiberFn.resume call ⟨some f, k⟩ = (⟨some (call f).1, k + 1⟩, .ret (result call f 0)) := by
  have h : ((call f).2).isComplete = false := h
  simp [FiberFn.resume, h, result, before]

theorem resume_done {call : σ → σ × FiberState Y R} {f : σ} {k : Nat} (h : (result call f 0).isComplete = true) :
    FiberFn.resume call ⟨some f, k⟩ = (⟨none, k + 1⟩, .ret (result call f 0)) := by
  have h : ((call f).2).isComplete = true := h
  simp [FiberFn.resume, h, result, before]

theorem repeated_none {call : σ → σ × FiberState Y R} {k : Nat} : ∀ m, repeated (FiberFn.resume call) m ⟨none, k⟩ = (⟨none, k⟩, List.replicate m .panic)
  | 0 => rfl
  | m + 1 => by simp [repeated, FiberFn.resume, repeated_none m, List.replicate_succ]

theorem repeated_running {call : σ → σ × FiberState Y R} : ∀ n {f : σ} {k : Nat}, Running call f n →
    repeated (FiberFn.resume call) n ⟨some f, k⟩ = (⟨some (before call f n), k + n⟩, (List.range n).map fun i => .ret (result call f i))
  | 0, f, k, _ => rfl
  | n + 1, f, k, h => by
    simp only [repeated, resume_yield (h 0 (by omega)), repeated_running n (running_shift h), before_shift, result_shift, Prod.mk.injEq]
    refine ⟨by rw [Nat.add_right_comm]; rfl, ?_⟩
    rw [List.range_succ_eq_map, List.map_cons, List.map_map]
    rfl

theorem repeated_add {S T : Type} (g : S → S × T) : ∀ n m s, repeated g (n + m) s =
    ((repeated g m (repeated g n s).1).1, (repeated g n s).2 ++ (repeated g m (repeated g n s).1).2)
  | 0, m, s => by simp [repeated]
  | n + 1, m, s => by
    rw [show n + 1 + m = (n + m) + 1 from by omega]
    simp only [repeated, repeated_add g n m]
    rfl

/-! ## C57 -/

/-- While the closure has not completed, each `resume` calls it once and returns its
result. -/
theorem C57_each_resume_calls (call : σ → σ × FiberState Y R) (f : σ) (n : Nat) (h : Running call f n) :
    (repeated (FiberFn.resume call) n (newFn f)).2 = (List.range n).map (fun i => .ret (result call f i)) ∧
    (repeated (FiberFn.resume call) n (newFn f)).1.calls = n := by
  rw [newFn, repeated_running n h]
  exact ⟨rfl, Nat.zero_add n⟩

/-- A closure that counts to three. -/
def upTo3 (i : Nat) : Nat × FiberState Nat String := (i + 1, if i = 2 then .complete "done" else .yielded i)

example : Running upTo3 0 2 := by
  intro i h
  rcases i with _ | _ | i
  · rfl
  · rfl
  · omega

/-- When call number `n` is the first to complete, its value is returned by `resume` number
`n`, and every further `resume` panics without calling the closure. -/
theorem C57_completes_once (call : σ → σ × FiberState Y R) (f : σ) (n m : Nat) (h : Running call f n) (r : R)
    (hr : result call f n = .complete r) :
    (repeated (FiberFn.resume call) (n + 1 + m) (newFn f)).2 =
      (List.range n).map (fun i => .ret (result call f i)) ++ [.ret (.complete r)] ++ List.replicate m .panic ∧
    (repeated (FiberFn.resume call) (n + 1 + m) (newFn f)).1.calls = n + 1 := by
  have h1 : repeated (FiberFn.resume call) (n + 1) (newFn f) =
      (⟨none, n + 1⟩, (List.range n).map (fun i => .ret (result call f i)) ++ [.ret (.complete r)]) := by
    rw [repeated_add _ n 1, newFn, repeated_running n h]
    have h0 : result call (before call f n) 0 = .complete r := hr
    simp only [repeated, resume_done (f := before call f n) (by rw [h0]; rfl), h0, Nat.zero_add]
  rw [repeated_add _ (n + 1) m, h1]
  simp only [repeated_none]
  exact ⟨trivial, trivial⟩

example : Running upTo3 0 2 ∧ result upTo3 0 2 = .complete "done" := by
  refine ⟨?_, rfl⟩
  intro i h
  rcases i with _ | _ | i
  · rfl
  · rfl
  · omega

/-- `advance` reports the end exactly when the closure completes. -/
theorem C57_advance (call : σ → σ × FiberState Y R) (f : σ) (n : Nat) (h : Running call f n) :
    ((repeated (FiberFn.resume call) n (newFn f)).1.advance call).2 = some (result call f n).isComplete := by
  rw [newFn, repeated_running n h]
  have : result call (before call f n) 0 = result call f n := rfl
  cases hb : result call f n with
  | yielded y => simp only [FiberFn.advance, resume_yield (f := before call f n) (by rw [this, hb]; rfl), this, hb, FiberState.isComplete]
  | complete r => simp only [FiberFn.advance, resume_done (f := before call f n) (by rw [this, hb]; rfl), this, hb, FiberState.isComplete]

example : ((repeated (FiberFn.resume upTo3) 2 (newFn 0)).1.advance upTo3).2 = some true := by decide

/-- A once-fiber calls its closure at the first `resume`, and never again. -/
theorem C57_once {R : Type} (call : σ → R) (f : σ) (m : Nat) :
    (repeated (FiberOnce.resume call) (1 + m) (newOnce f)).2 = .ret (.complete (call f)) :: List.replicate m .panic ∧
    (repeated (FiberOnce.resume call) (1 + m) (newOnce f)).1.calls = 1 ∧ ((newOnce f).advance call).2 = some true := by
  have hn : ∀ m k, repeated (FiberOnce.resume call) m ⟨none, k⟩ = (⟨none, k⟩, List.replicate m .panic) := by
    intro m
    induction m with
    | zero => intro k; rfl
    | succ m ih => intro k; simp [repeated, FiberOnce.resume, ih, List.replicate_succ]
  rw [repeated_add]
  simp only [newOnce, repeated, FiberOnce.resume, FiberOnce.advance, hn]
  simp

example : (repeated (FiberOnce.resume (fun n : Nat => n + 1)) 3 (newOnce 41)).2 = [.ret (.complete 42), .panic, .panic] := by decide

/-- The values that a generator yields before it ends with `r`. -/
inductive Yields (body : σ → Sum (σ × Y) R) : σ → List Y → R → Prop where
  | done {p : σ} {r : R} : body p = .inr r → Yields body p [] r
  | more {p p' : σ} {y : Y} {ys : List Y} {r : R} : body p = .inl (p', y) → Yields body p' ys r → Yields body p (y :: ys) r

theorem gen_after {body : σ → Sum (σ × Y) R} {k : Nat} : ∀ m, repeated (Gen.resumeFib body) m ⟨none, k⟩ = (⟨none, k⟩, List.replicate m .panic)
  | 0 => rfl
  | m + 1 => by simp [repeated, Gen.resumeFib, Gen.resume, gen_after m, List.replicate_succ]

theorem gen_advance_after {body : σ → Sum (σ × Y) R} {k : Nat} : ∀ m, repeated (Gen.advance body) m ⟨none, k⟩ = (⟨none, k⟩, List.replicate m none)
  | 0 => rfl
  | m + 1 => by simp [repeated, Gen.advance, Gen.resumeFib, Gen.resume, gen_advance_after m, List.replicate_succ]

theorem gen_yields {body : σ → Sum (σ × Y) R} {p : σ} {ys : List Y} {r : R} (h : Yields body p ys r) (m k : Nat) :
    repeated (Gen.resumeFib body) (ys.length + 1 + m) ⟨some p, k⟩ = (⟨none, k + (ys.length + 1)⟩,
      ys.map (fun y => .ret (.yielded y)) ++ [.ret (.complete r)] ++ List.replicate m .panic) ∧
    repeated (Gen.advance body) (ys.length + 1 + m) ⟨some p, k⟩ = (⟨none, k + (ys.length + 1)⟩,
      ys.map (fun _ => some false) ++ [some true] ++ List.replicate m none) := by
  induction h generalizing k with
  | done h =>
    rw [show ([] : List Y).length + 1 + m = m + 1 from by simp; omega]
    simp [repeated, Gen.resumeFib, Gen.resume, Gen.advance, h, gen_after, gen_advance_after, FiberState.ofGen]
  | @more p p' y ys r h _ ih =>
    rw [show (y :: ys).length + 1 + m = ys.length + 1 + m + 1 from by simp; omega]
    obtain ⟨i1, i2⟩ := ih (k + 1)
    have e : k + 1 + (ys.length + 1) = k + ((y :: ys).length + 1) := by simp; omega
    rw [e] at i1 i2
    constructor
    · simp only [repeated, Gen.resumeFib, Gen.resume, h] at i1 ⊢
      simp only [i1, FiberState.ofGen, List.map_cons, List.cons_append]
    · simp only [repeated, Gen.advance, Gen.resumeFib, Gen.resume, h, FiberState.ofGen] at i2 ⊢
      simp only [i2, List.map_cons, List.cons_append]

/-- A generator fiber yields what the generator yields, one value for each `resume`, then returns its result; every further `resume` panics
without entering the body. `advance` reports the end exactly at the return. -/
theorem C57_generator (body : σ → Sum (σ × Y) R) (p : σ) (ys : List Y) (r : R) (h : Yields body p ys r) (m : Nat) :
    (repeated (Gen.resumeFib body) (ys.length + 1 + m) (newGen p)).2 =
      ys.map (fun y => .ret (.yielded y)) ++ [.ret (.complete r)] ++ List.replicate m .panic ∧
    (repeated (Gen.resumeFib body) (ys.length + 1 + m) (newGen p)).1.runs = ys.length + 1 ∧
    (repeated (Gen.advance body) (ys.length + 1 + m) (newGen p)).2 = ys.map (fun _ => some false) ++ [some true] ++ List.replicate m none := by
  obtain ⟨h1, h2⟩ := gen_yields h m 0
  rw [newGen, h1, h2]
  exact ⟨rfl, Nat.zero_add _, rfl⟩

/-- A generator that yields 0 and 1. -/
def twice (i : Nat) : Sum (Nat × Nat) String := if i = 2 then .inr "done" else .inl (i + 1, i)

example : Yields twice 0 [0, 1] "done" := .more rfl (.more rfl (.done rfl))

example : (repeated (Gen.resumeFib twice) 4 (newGen 0)).2 = [.ret (.yielded 0), .ret (.yielded 1), .ret (.complete "done"), .panic] := by decide

/-! ## C58 -/

variable {φ W E : Type}

/-- The future before poll number `i` with the waker `w`. -/
def futBefore (poll : φ → W → φ × Poll (Except E Unit)) (w : W) (fut : φ) : Nat → φ
  | 0 => fut
  | i + 1 => (poll (futBefore poll w fut i) w).1

/-- The result of poll number `i`. -/
def pollResult (poll : φ → W → φ × Poll (Except E Unit)) (w : W) (fut : φ) (i : Nat) : Poll (Except E Unit) := (poll (futBefore poll w fut i) w).2

theorem futBefore_shift (poll : φ → W → φ × Poll (Except E Unit)) (w : W) (fut : φ) : ∀ i, futBefore poll w (poll fut w).1 i = futBefore poll w fut (i + 1)
  | 0 => rfl
  | i + 1 => by rw [futBefore, futBefore_shift poll w fut i]; rfl

theorem exec_running {poll : φ → W → φ × Poll (Except E Unit)} {w : W} : ∀ n {fut : φ} {ps : List W} {os : List (Except E Unit)},
    (∀ i, i < n → pollResult poll w fut i = .pending) →
    repeated (ExecFiber.advance poll w) n ⟨true, ⟨fut, ps, os⟩⟩ =
      (⟨true, ⟨futBefore poll w fut n, List.replicate n w ++ ps, os⟩⟩, List.replicate n (some false))
  | 0, fut, ps, os, _ => rfl
  | n + 1, fut, ps, os, h => by
    have h0 := h 0 (by omega)
    have hs : ∀ i, i < n → pollResult poll w (poll fut w).1 i = .pending := by
      intro i hi; rw [pollResult, futBefore_shift]; exact h (i + 1) (by omega)
    have h0' : (poll fut w).2 = .pending := h0
    have e : ExecFiber.advance poll w ⟨true, ⟨fut, ps, os⟩⟩ = (⟨true, ⟨(poll fut w).1, w :: ps, os⟩⟩, some false) := by
      simp only [ExecFiber.advance, execCall, ↓reduceIte]
      rw [show poll fut w = ((poll fut w).1, .pending) from Prod.ext rfl h0']
    simp only [repeated, e, exec_running n hs, futBefore_shift]
    have : List.replicate n w ++ w :: ps = List.replicate (n + 1) w ++ ps := by
      rw [List.replicate_succ', List.append_assoc]; rfl
    rw [this]
    rfl

/-- While the future is pending, each resume of the fiber polls it once, with the waker of
the thread, and the fiber stays. -/
theorem C58_polls_each_resume (poll : φ → W → φ × Poll (Except E Unit)) (w : W) (fut : φ) (n : Nat)
    (h : ∀ i, i < n → pollResult poll w fut i = .pending) :
    (repeated (ExecFiber.advance poll w) n (newExec fut)).2 = List.replicate n (some false) ∧
    (repeated (ExecFiber.advance poll w) n (newExec fut)).1.cap.polls = List.replicate n w ∧
    (repeated (ExecFiber.advance poll w) n (newExec fut)).1.cap.ended = [] := by
  rw [newExec, exec_running n h]
  exact ⟨rfl, by simp, rfl⟩

/-- A future that is ready when polled for the third time. -/
def third (out : Except String Unit) (i : Nat) (_w : Nat) : Nat × Poll (Except String Unit) := (i + 1, if i = 2 then .ready out else .pending)

example : ∀ i, i < 2 → pollResult (third (.ok ())) 7 0 i = .pending := by
  intro i h
  rcases i with _ | _ | i
  · rfl
  · rfl
  · omega

/-- When poll number `n` is the first to be ready, with a success, the fiber completes at
resume number `n`; the output was consumed once and the future is not polled again. -/
theorem C58_ready (poll : φ → W → φ × Poll (Except E Unit)) (w : W) (fut : φ) (n m : Nat)
    (h : ∀ i, i < n → pollResult poll w fut i = .pending) (hr : pollResult poll w fut n = .ready (.ok ())) :
    (repeated (ExecFiber.advance poll w) (n + 1 + m) (newExec fut)).2 = List.replicate n (some false) ++ [some true] ++ List.replicate m none ∧
    (repeated (ExecFiber.advance poll w) (n + 1 + m) (newExec fut)).1.cap.polls = List.replicate (n + 1) w ∧
    (repeated (ExecFiber.advance poll w) (n + 1 + m) (newExec fut)).1.cap.ended = [.ok ()] := by
  have hr' : (poll (futBefore poll w fut n) w).2 = .ready (.ok ()) := hr
  have e : ∀ ps, ExecFiber.advance poll w ⟨true, ⟨futBefore poll w fut n, ps, []⟩⟩ =
      (⟨false, ⟨futBefore poll w fut (n + 1), w :: ps, [.ok ()]⟩⟩, some true) := by
    intro ps
    simp only [ExecFiber.advance, execCall, ↓reduceIte]
    rw [show poll (futBefore poll w fut n) w = (futBefore poll w fut (n + 1), .ready (.ok ())) from Prod.ext rfl hr']
    rfl
  have hd : ∀ m (c : Exec φ W (Except E Unit)), repeated (ExecFiber.advance poll w) m ⟨false, c⟩ = (⟨false, c⟩, List.replicate m none) := by
    intro m c
    induction m with
    | zero => rfl
    | succ m ih => simp [repeated, ExecFiber.advance, ih, List.replicate_succ]
  have h1 : repeated (ExecFiber.advance poll w) (n + 1) (newExec fut) =
      (⟨false, ⟨futBefore poll w fut (n + 1), w :: (List.replicate n w ++ []), [.ok ()]⟩⟩, List.replicate n (some false) ++ [some true]) := by
    rw [repeated_add _ n 1, newExec, exec_running n h]
    simp only [repeated, e]
  rw [repeated_add _ (n + 1) m, h1]
  simp [hd, List.replicate_succ]

example : pollResult (third (.ok ())) 7 0 2 = .ready (.ok ()) := rfl

/-- When poll number `n` is the first to be ready, with an error, that resume panics; the closure is not taken away by the panic. -/
theorem C58_error_panics (poll : φ → W → φ × Poll (Except E Unit)) (w : W) (fut : φ) (n : Nat) (err : E)
    (h : ∀ i, i < n → pollResult poll w fut i = .pending) (hr : pollResult poll w fut n = .ready (.error err)) :
    (repeated (ExecFiber.advance poll w) (n + 1) (newExec fut)).2 = List.replicate n (some false) ++ [none] ∧
    (repeated (ExecFiber.advance poll w) (n + 1) (newExec fut)).1.cap.ended = [.error err] ∧
    (repeated (ExecFiber.advance poll w) (n + 1) (newExec fut)).1.live = true := by
  have hr' : (poll (futBefore poll w fut n) w).2 = .ready (.error err) := hr
  rw [repeated_add _ n 1, newExec, exec_running n h]
  simp only [repeated, ExecFiber.advance, execCall, ↓reduceIte]
  rw [show poll (futBefore poll w fut n) w = (futBefore poll w fut (n + 1), .ready (.error err)) from Prod.ext rfl hr']
  exact ⟨rfl, rfl, rfl⟩

example : pollResult (third (.error "e")) 7 0 2 = .ready (.error "e") := rfl

end Verif.Fib
