import Verif.ProcLoop.Model
/-! # What is claimed about the process loop -/
namespace Verif.ProcLoop

variable {Cmd CmdRes Req ReqRes σ Err : Type}

/-- From state `p`, the synchronous code makes the listed requests, each with the given
result, and then is in state `p'`. -/
inductive Reqs (L : Code Cmd CmdRes Req ReqRes σ) : σ → List (Req × ReqRes) → σ → Prop where
  | nil (p : σ) : Reqs L p [] p
  | cons {p p' : σ} {q : Req} {k : ReqRes → σ} {r : ReqRes} {l : List (Req × ReqRes)}
      (h : L.look p = .inl (q, k)) (t : Reqs L (k r) l p') : Reqs L p ((q, r) :: l) p'

/-- Running command `c` with the listed requests and results returns `r`. -/
def Returns (L : Code Cmd CmdRes Req ReqRes σ) (c : Cmd) (l : List (Req × ReqRes)) (r : CmdRes) : Prop :=
  ∃ p, Reqs L (L.start c) l p ∧ L.look p = .inr r

/-- Running command `c` with the listed requests and results leads to request `q`. -/
def Asks (L : Code Cmd CmdRes Req ReqRes σ) (c : Cmd) (l : List (Req × ReqRes)) (q : Req) : Prop :=
  ∃ p k, Reqs L (L.start c) l p ∧ L.look p = .inl (q, k)

/-- Requests and results as seen from outside, oldest first. -/
def talk : List (Req × ReqRes) → List (Ev Cmd CmdRes Req ReqRes Err)
  | [] => []
  | (q, r) :: l => .req q :: .res r :: talk l

/-- A complete command as seen from outside, oldest first. -/
def session (c : Cmd) (l : List (Req × ReqRes)) (r : CmdRes) : List (Ev Cmd CmdRes Req ReqRes Err) :=
  .cmd c :: talk l ++ [.ok r]

/-- Several complete commands. -/
def sessions : List (Cmd × List (Req × ReqRes) × CmdRes) → List (Ev Cmd CmdRes Req ReqRes Err)
  | [] => []
  | (c, l, r) :: ds => session c l r ++ sessions ds

/-- A command has failed, or was dropped while waiting. -/
def Ev.isBreak : Ev Cmd CmdRes Req ReqRes Err → Bool
  | .err _ => true
  | .drop => true
  | _ => false

/-- No request fails and no future is dropped while waiting. -/
def Act.calm : Act Cmd ReqRes Err → Prop
  | .fail _ => False
  | .abandon => False
  | _ => True

end Verif.ProcLoop
