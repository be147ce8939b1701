import Verif.Local.Model
/-! # Specification vocabulary for thread-local storage -/
namespace Verif.Local

/-- Every handle is used by the thread it belongs to. -/
def Confined (us : List Use) : Prop := ∀ u ∈ us, u.by_ = some u.owner

/-- The running code. -/
def State.me (s : State) : Option Thr := (s.stack.head?).bind (·.me)

/-- Some running or preempted code is a thread of the pool. -/
def State.inPool (s : State) (pool : Nat) : Prop := ∃ f ∈ s.stack, ∃ t, f.me = some t ∧ t.pool = pool

/-- The calls of `local_checked` are made by threads of the pool, or while no thread of the pool is
active. -/
def OwnPool (s : State) (pool : Nat) : Prop := (∃ t, s.me = some t ∧ t.pool = pool) ∨ ¬ s.inPool pool

/-- The restriction of `C72_partial` for one operation. -/
def Careful (s : State) : Op → Prop
  | .loc pool => OwnPool s pool
  | .addFactory t pools => ∀ p ∈ pools, (s.me = some t ∧ t.pool = p) ∨ ¬ s.inPool p
  | .fiber _ pools _ => ∀ p ∈ pools, OwnPool s p
  | _ => True

/-- The restriction of `C72_partial` for a program run. -/
def CarefulRun (s : State) : List Op → Prop
  | [] => True
  | op :: ops => Careful s op ∧ CarefulRun (step s op).1 ops

/-- The innermost active thread of a pool. -/
def innermost (pool : Nat) : List Frame → Option Thr
  | [] => none
  | f :: fs =>
    match f.me with
    | some t => if t.pool = pool then some t else innermost pool fs
    | none => innermost pool fs

end Verif.Local
