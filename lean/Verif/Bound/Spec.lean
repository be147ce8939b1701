import Verif.Atomic.Refine
/-! # Bounded calls: what is claimed

A context makes a call. Other contexts may run between any two of its accesses. The call
returns after a number of own accesses that depends on the call only, plus a number of
repetitions that is bounded by what the other contexts did meanwhile. -/
namespace Verif.Bound

/-- A program, seen from one context. -/
structure Prog (S A : Type) where
  step : S → A → Option S
  /-- an access of the context -/
  own : S → A → Bool
  /-- the call of the context has not returned -/
  busy : S → Bool
  /-- how many more accesses this step may cost the context -/
  excuse : S → A → S → Nat

variable {S A W : Type}

/-- Perform a schedule. -/
def Prog.run (P : Prog S A) (s : S) : List A → Option S
  | [] => some s
  | a :: as =>
    match P.step s a with
    | none => none
    | some s => P.run s as

/-- The number of own accesses. -/
def Prog.accesses (P : Prog S A) (s : S) : List A → Nat
  | [] => 0
  | a :: as =>
    match P.step s a with
    | none => 0
    | some s' => (if P.own s a then 1 else 0) + P.accesses s' as

/-- What the schedule may cost. -/
def Prog.excuses (P : Prog S A) (s : S) : List A → Nat
  | [] => 0
  | a :: as =>
    match P.step s a with
    | none => 0
    | some s' => P.excuse s a s' + P.excuses s' as

/-- The call returns during the schedule. -/
def Prog.Returns (P : Prog S A) (s : S) (as : List A) : Prop :=
  ∃ bs cs s', as = bs ++ cs ∧ P.run s bs = some s' ∧ P.busy s' = false

/-- The call returns before it has made more than `n` accesses that are not excused. -/
def Prog.Within (P : Prog S A) (s : S) (n : Nat) : Prop :=
  ∀ as s', P.run s as = some s' → n + P.excuses s as ≤ P.accesses s as → P.Returns s as

open Verif.Atomic.Refine in
/-- A model whose updates are compare-exchange loops, seen from the context whose next access is
`a₀`. Excused: a compare-exchange that fails spuriously, and a change of the word by
another context after this one has read it. -/
def loops [DecidableEq W] (M : Machine S A W) (a₀ : A) (own : A → Bool) (busy : S → Bool) : Prog (Fine S W) (Act A W) where
  step := fineStep M
  own _ c := match c with | .go a _ => own a | .hold _ _ => false
  busy x := busy x.s
  excuse x c y :=
    match c with
    | .go a spurious =>
      if own a then (if spurious then 1 else 0)
      else if x.old (M.ctx x.s a₀) = none ∨ M.cell x.s a₀ = M.cell y.s a₀ then 0 else 1
    | .hold _ _ => 0

/-- A model as it is: an update is a critical section. Nothing is excused. -/
def sections (step : S → A → Option S) (own : A → Bool) (busy : S → Bool) : Prog S A where
  step := step
  own _ := own
  busy := busy
  excuse _ _ _ := 0

end Verif.Bound
