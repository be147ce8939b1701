import Verif.Fib.FutureModel
import Verif.Oneshot.Spec
/-! # Vocabulary for the properties of fiber futures -/
namespace Verif.Fib.Future

variable {α : Type}

/-- The values the fiber completed with. -/
def completions : List (Option α) → List α
  | [] => []
  | some v :: os => v :: completions os
  | none :: os => completions os

/-- The values returned by `poll`. -/
abbrev State.ready (s : State α) : List α := Oneshot.received s.ch.log

/-- The future was closed or dropped. -/
def State.closed (s : State α) : Prop := Oneshot.Event.closed ∈ s.ch.log

/-- Every state `s` and choice `a` of the schedule satisfy `P s a`. -/
def Always (P : State α → Act α → Prop) (s : State α) : List (Act α) → Prop
  | [] => True
  | a :: as => P s a ∧ ∀ s', step s a = some s' → Always P s' as

/-- The condition under which polling is defined: `close` is not called, no poll after the
result, and no end releases the channel while the other one is still leaving it. -/
structure Careful (s : State α) (a : Act α) : Prop where
  noClose : a ≠ .call .close
  noRepoll : ∀ w, a = .call (.poll w) → s.ready = []
  apart : Oneshot.Apart s.ch

/-- C50, defined polls: no schedule runs into undefined behaviour. -/
def Defined (α : Type) : Prop := ∀ acts : List (Act α), (run (init α) acts).isSome

end Verif.Fib.Future
