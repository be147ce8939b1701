import Verif.Atomic.Refine
import Verif.Soft.Model
/-! # Software threads with compare-exchange loops

The three updates of `src/thr/soft/mod.rs` that are loops with feature `atomics`: in
`row_start` (221), `row_run` (244) and `row_next` (272). The updates in `set_pending` and
`clear_pending` (293, 294, 299) are single instructions. -/
namespace Verif.Soft.Cas
open Verif.Soft Verif.Atomic.Refine

/-- The word that is updated by the call on top of the stack, and the closure: 221–225, 244–246,
272–276. -/
def closure : List Frame → Option (Nat × (U32 → Option U32))
  | .start :: _ => some (0, fun cursor => (findPriority cursor (cursor >>> levels).toNat levels).1)
  | .row r (.bits _ cell bit) :: _ =>
    if cell &&& bit ≠ 0 then some (r.ptr, fun cell => some (cell &&& ~~~bit)) else none
  | .row r .next :: _ =>
    some (0, fun cursor => some ((findPriority cursor r.prev (r.priority - 1)).1.getD (setPriority cursor r.prev)))
  | _ => none

/-- After the update, which gave back `old`: 226–228, 247, 277–284. The closures assign
`priority`, `prev_priority` and `next_priority`; the last evaluation was the one with `old`. -/
def after (count : Nat) (s : State) (old : U32) : Option State :=
  match s.stack with
  | .start :: rest =>
    let prev := (old >>> levels).toNat
    let priority := (findPriority old prev levels).2
    some { s with stack := .row ⟨1 + rowSize count * (levels - priority), priority, prev⟩ (.load 0) :: rest }
  | .row r (.bits thr _ bit) :: rest =>
    some { s with stack := .row r (.call thr old bit .load) :: rest, log := .run thr (r.priority - 1) :: s.log }
  | .row r .next :: rest =>
    let next := (findPriority old r.prev (r.priority - 1)).2
    some { s with
      stack :=
        if next = r.prev then rest
        else if next ≠ r.priority then .row ⟨r.ptr + rowSize count * (r.priority - next), next, r.prev⟩ (.load 0) :: rest
        else .row r (.load 0) :: rest }
  | _ => none

/-- The thread pool. A call in progress is known by its position on the stack. -/
def machine (count : Nat) : Machine State Soft.Act U32 where
  step := Soft.step count
  ctx s _ := s.stack.length
  update s a :=
    match a with
    | .step => (closure s.stack).map (·.2)
    | _ => none
  live s _ :=
    match closure s.stack with
    | some (i, _) => decide (i < pendingSize count)
    | none => true
  cell s _ :=
    match closure s.stack with
    | some (i, _) => s.mem i
    | none => 0
  store s _ w :=
    match closure s.stack with
    | some (i, _) => { s with mem := upd s.mem i w }
    | none => s
  after s _ old := after count s old
  -- `.ok()?`, 226
  declined s _ _ := some { s with stack := s.stack.tail }

theorem pendingSize_pos (count : Nat) : 0 < pendingSize count := by unfold pendingSize; omega

theorem lawful (count : Nat) : (machine count).Lawful := by
  intro s a f hf
  cases a with
  | step =>
    obtain ⟨mem, prio, current, stack, log⟩ := s
    have hp := pendingSize_pos count
    match stack, hf with
    | .start :: rest, hf =>
      cases hf
      simp only [machine, Machine.atomicStep, closure, hp, decide_true, if_true, Soft.step, frameStep, after]
      cases h : findPriority (mem 0) (mem 0 >>> levels).toNat levels with
      | mk o p => cases o <;> rfl
    | .row r (.bits thr cell bit) :: rest, hf =>
      by_cases hc : cell &&& bit ≠ 0
      · simp only [machine, closure, if_pos hc, Option.map_some, Option.some.injEq] at hf
        subst hf
        simp only [machine, Machine.atomicStep, closure, if_pos hc, Soft.step, frameStep, after]
        by_cases hl : r.ptr < pendingSize count
        · simp [hl]
        · simp [hl]
      · simp only [machine, closure, if_neg hc, Option.map_none] at hf
        cases hf
    | .row r .next :: rest, hf =>
      cases hf
      simp only [machine, Machine.atomicStep, closure, hp, decide_true, if_true, Soft.step, frameStep, after]
  | ret => cases hf
  | pend thr => cases hf
  | preempt => cases hf
  | clear thr => cases hf
  | enter thr => cases hf
  | setPrio thr p => cases hf

theorem machine_run (count : Nat) (as : List Soft.Act) (s : State) :
    (machine count).run s as = Soft.run count s as :=
  run_eq (Soft.run count) (fun _ => rfl) (fun s a as => by
    show (match Soft.step count s a with | none => none | some s' => _) = (Soft.step count s a).bind _
    cases Soft.step count s a <;> rfl) as s

end Verif.Soft.Cas
