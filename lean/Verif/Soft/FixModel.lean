import Verif.Soft.Spec
/-! # The scheduler of software threads with `row_next` repaired

`row_next` of `src/thr/soft/mod.rs` starts its search at `*priority - 1` (273), so it
does not see a request made at the level it has just served, although it goes on to
compare the level it found with `*priority` (280). Here the search starts at
`*priority`. Nothing else is changed. -/
namespace Verif.Soft

/-- One access of the call on top of the stack. As `frameStep`, but in line 273 of
`row_next` the search starts at `*priority` instead of `*priority - 1`. -/
def frameStepR (count : Nat) (s : State) (rest : List Frame) : Frame → Option State
  | .row r .next =>
    let cursor := s.mem 0
    match findPriority cursor r.prev r.priority with
    | (new, next) =>
      some { s with
        mem := upd s.mem 0 (new.getD (setPriority cursor r.prev))
        stack :=
          if next = r.prev then rest
          else if next ≠ r.priority then .row ⟨r.ptr + rowSize count * (r.priority - next), next, r.prev⟩ (.load 0) :: rest
          else .row r (.load 0) :: rest }
  | f => frameStep count s rest f

/-- One element of a history, with the repaired `row_next`. -/
def stepR (count : Nat) (s : State) : Act → Option State
  | .step =>
    match s.stack with
    | [] => some s
    | f :: rest => frameStepR count s rest f
  | a => step count s a

/-- Perform a history, with the repaired `row_next`. -/
def runR (count : Nat) (s : State) : List Act → Option State
  | [] => some s
  | a :: as =>
    match stepR count s a with
    | none => none
    | some s => runR count s as

end Verif.Soft
