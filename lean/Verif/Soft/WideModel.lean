import Verif.Soft.Spec
/-! # The scheduler of software threads with `row_next` repaired, for every pool size

As `FixModel.lean`, and in addition `row_next` sets the pointer to the start of the row
instead of moving it from where `row_run` has left it (`src/thr/soft/mod.rs` 281). -/
namespace Verif.Soft

/-- One access of the call on top of the stack. As `frameStep`, with two changes in
`row_next`: in line 273 the search starts at `*priority`, and in line 281 the pointer is
computed from the header, as in line 227. -/
def frameStepW (count : Nat) (s : State) (rest : List Frame) : Frame → Option State
  | .row r .next =>
    let cursor := s.mem 0
    match findPriority cursor r.prev r.priority with
    | (new, next) =>
      some { s with
        mem := upd s.mem 0 (new.getD (setPriority cursor r.prev))
        stack :=
          if next = r.prev then rest
          else .row ⟨1 + rowSize count * (levels - next), next, r.prev⟩ (.load 0) :: rest }
  | f => frameStep count s rest f

/-- One element of a history, with the repaired `row_next`. -/
def stepW (count : Nat) (s : State) : Act → Option State
  | .step =>
    match s.stack with
    | [] => some s
    | f :: rest => frameStepW count s rest f
  | a => step count s a

/-- Perform a history, with the repaired `row_next`. -/
def runW (count : Nat) (s : State) : List Act → Option State
  | [] => some s
  | a :: as =>
    match stepW count s a with
    | none => none
    | some s => runW count s as

end Verif.Soft
