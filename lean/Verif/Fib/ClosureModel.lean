/-! # Model of closure fibers and of the executor fiber

`src/fib/closure.rs`, `src/fib/generator.rs`, `FiberState` of `src/fib/mod.rs` and `add_exec_factory` of
`src/thr/exec.rs`.

A closure is a function from its captured state `σ` to its next state and its result. A
panic of the code itself is a result (`panic`); closures that panic on their own account
are not modelled, nor is re-entrance (the fiber is borrowed mutably while it runs). The
ghost field `calls` counts the calls of the closure. -/
namespace Verif.Fib

/-- `FiberState`, `fib/mod.rs` 240–245. -/
inductive FiberState (Y R : Type) where
  | yielded (y : Y)
  | complete (r : R)
deriving DecidableEq

/-- `is_complete`, `fib/mod.rs` 259–264. -/
def FiberState.isComplete {Y R : Type} : FiberState Y R → Bool
  | .yielded _ => false
  | .complete _ => true

/-- What a call of `resume` does: return, or panic. -/
inductive Outcome (Y R : Type) where
  | ret (st : FiberState Y R)
  | panic
deriving DecidableEq

/-- `FiberFn`, `closure.rs` 9–11: the closure's state, if the closure is still there. -/
structure FiberFn (σ : Type) where
  f : Option σ
  calls : Nat

/-- `new_fn`, 100–105. -/
def newFn {σ : Type} (f : σ) : FiberFn σ := ⟨some f, 0⟩

/-- `FiberFn::resume`, 35–47. -/
def FiberFn.resume {σ Y R : Type} (call : σ → σ × FiberState Y R) (s : FiberFn σ) : FiberFn σ × Outcome Y R :=
  match s.f with
  | some f =>
    match call f with
    | (f', state) => (⟨if state.isComplete then none else some f', s.calls + 1⟩, .ret state)
  | none => (s, .panic)

/-- `FiberFn::advance`, 58–63; `none` is a panic. -/
def FiberFn.advance {σ Y R : Type} (call : σ → σ × FiberState Y R) (s : FiberFn σ) : FiberFn σ × Option Bool :=
  match s.resume call with
  | (s, .ret (.yielded _)) => (s, some false)
  | (s, .ret (.complete _)) => (s, some true)
  | (s, .panic) => (s, none)

/-- `FiberOnce`, 16–19. -/
structure FiberOnce (σ : Type) where
  f : Option σ
  calls : Nat

/-- `new_once`, 112–118. -/
def newOnce {σ : Type} (f : σ) : FiberOnce σ := ⟨some f, 0⟩

/-- `FiberOnce::resume`, 75–81. It never yields (`Yield = !`). -/
def FiberOnce.resume {σ R : Type} (call : σ → R) (s : FiberOnce σ) : FiberOnce σ × Outcome Empty R :=
  match s.f with
  | some f => (⟨none, s.calls + 1⟩, .ret (.complete (call f)))
  | none => (s, .panic)

/-- `FiberOnce::advance`, 90–94; `none` is a panic. -/
def FiberOnce.advance {σ R : Type} (call : σ → R) (s : FiberOnce σ) : FiberOnce σ × Option Bool :=
  match s.resume call with
  | (s, .ret (.complete _)) => (s, some true)
  | (s, .ret (.yielded y)) => nomatch y
  | (s, .panic) => (s, none)

/-- `core::ops::GeneratorState`. -/
inductive GeneratorState (Y R : Type) where
  | yielded (y : Y)
  | complete (r : R)
deriving DecidableEq

/-- A generator: where it is in its body, or that it has returned. `runs` (ghost) counts how often the body was entered. -/
structure Gen (σ : Type) where
  at' : Option σ
  runs : Nat

/-- `Generator::resume` as the compiler implements it: the body runs up to the next `yield` or to its end; a generator that has returned
panics. `none` is a panic. -/
def Gen.resume {σ Y R : Type} (body : σ → Sum (σ × Y) R) (g : Gen σ) : Gen σ × Option (GeneratorState Y R) :=
  match g.at' with
  | some p =>
    match body p with
    | .inl (p', y) => (⟨some p', g.runs + 1⟩, some (.yielded y))
    | .inr r => (⟨none, g.runs + 1⟩, some (.complete r))
  | none => (g, none)

/-- `From<GeneratorState>`, `generator.rs` 42–50. -/
def FiberState.ofGen {Y R : Type} : GeneratorState Y R → FiberState Y R
  | .yielded val => .yielded val
  | .complete val => .complete val

/-- `new`, `generator.rs` 56–61. -/
def newGen {σ : Type} (p : σ) : Gen σ := ⟨some p, 0⟩

/-- `FiberGen::resume`, `generator.rs` 21–25. -/
def Gen.resumeFib {σ Y R : Type} (body : σ → Sum (σ × Y) R) (g : Gen σ) : Gen σ × Outcome Y R :=
  match g.resume body with
  | (g, some state) => (g, .ret (.ofGen state))
  | (g, none) => (g, .panic)

/-- `FiberGen::advance`, `generator.rs` 33–39; `none` is a panic. -/
def Gen.advance {σ Y R : Type} (body : σ → Sum (σ × Y) R) (g : Gen σ) : Gen σ × Option Bool :=
  match g.resumeFib body with
  | (g, .ret (.yielded _)) => (g, some false)
  | (g, .ret (.complete _)) => (g, some true)
  | (g, .panic) => (g, none)

/-- Call `resume` (or `advance`) `n` times; the results, first one first. -/
def repeated {S T : Type} (resume : S → S × T) : Nat → S → S × List T
  | 0, s => (s, [])
  | n + 1, s =>
    match resume s with
    | (s, t) =>
      match repeated resume n s with
      | (s, ts) => (s, t :: ts)

/-! ### The executor fiber -/

/-- `Poll`. -/
inductive Poll (O : Type) where
  | pending
  | ready (o : O)
deriving DecidableEq

/-- What the closure of `add_exec_factory` captures: the future, and as ghosts the wakers
it was polled with, last one first, and the outputs that were terminated. -/
structure Exec (φ W O : Type) where
  fut : φ
  polls : List W
  ended : List O

/-- What the closure does: go on, or panic in `terminate`. -/
inductive Terminate where
  | unit
  | panic
deriving DecidableEq

/-- `ExecOutput::terminate`, `exec.rs` 97–98, 106–111 (for outputs `()` and
`Result<(), E>`; those with `!` in place of `()` cannot be `Ok`). -/
def terminate {E : Type} : Except E Unit → Terminate
  | .ok () => .unit
  | .error _ => .panic

/-- The closure of `add_exec_factory`, 63–76, for a thread whose waker is `waker`
(64, `thr/soft/mod.rs` 210–212, `thr/soft/wake.rs` 20–29). `poll` is the future. A panic in
`terminate` is `none`. -/
def execCall {φ W E : Type} (poll : φ → W → φ × Poll (Except E Unit)) (waker : W) (s : Exec φ W (Except E Unit)) :
    Exec φ W (Except E Unit) × Option (FiberState Unit Unit) :=
  match poll s.fut waker with
  | (fut, .pending) => ({ s with fut := fut, polls := waker :: s.polls }, some (.yielded ()))
  | (fut, .ready output) =>
    match terminate output with
    | .unit => (⟨fut, waker :: s.polls, output :: s.ended⟩, some (.complete ()))
    | .panic => (⟨fut, waker :: s.polls, output :: s.ended⟩, none)

/-- The fiber: `FiberFn` with that closure. A panic out of the closure leaves the closure
in place. -/
structure ExecFiber (φ W O : Type) where
  live : Bool
  cap : Exec φ W O

/-- `add_exec_factory`, 57–78, up to adding the fiber. -/
def newExec {φ W O : Type} (fut : φ) : ExecFiber φ W O := ⟨true, ⟨fut, [], []⟩⟩

/-- `FiberFn::advance` of the executor fiber; `none` is a panic. -/
def ExecFiber.advance {φ W E : Type} (poll : φ → W → φ × Poll (Except E Unit)) (waker : W) (s : ExecFiber φ W (Except E Unit)) :
    ExecFiber φ W (Except E Unit) × Option Bool :=
  if s.live then
    match execCall poll waker s.cap with
    | (cap, some (.yielded ())) => (⟨true, cap⟩, some false)
    | (cap, some (.complete ())) => (⟨false, cap⟩, some true)
    | (cap, none) => (⟨true, cap⟩, none)
  else (s, none)

end Verif.Fib
