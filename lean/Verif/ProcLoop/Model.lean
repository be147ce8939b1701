/-! # The process loop (`src/proc_loop.rs`)

`Sess::cmd` drives a stackful fiber: it resumes the fiber with a command, answers the
requests the fiber yields, and returns the command result the fiber yields. Inputs are
passed through a union without a tag (`In`, lines 123–128).

The fiber itself is implemented by platform crates. Following the documentation of
`ProcLoop::run_cmd` and `Context::req` (lines 41–44, 104–118), the model assumes that it
repeatedly reads a command (`In::into_cmd`), runs `run_cmd` on it, where every
`Context::req` yields `Out::Req` and then reads the request result (`In::into_req_res`), and
finally yields `Out::CmdRes`. `run_cmd` is arbitrary and may run forever between requests
only in the sense of issuing infinitely many of them: computations between two yields are
assumed to terminate. -/
namespace Verif.ProcLoop

/-- The synchronous code: `run_cmd` on a command enters a state; in every state the code
either makes a request, and continues in a state that depends on the result, or returns. -/
structure Code (Cmd CmdRes Req ReqRes σ : Type) where
  start : Cmd → σ
  look : σ → (Req × (ReqRes → σ)) ⊕ CmdRes

variable {Cmd CmdRes Req ReqRes σ Err : Type}

/-- `In` (123–128). The tag exists only in the model: it says which constructor was used
(`from_cmd` 142–144, `from_req_res` 147–149). -/
inductive In (Cmd ReqRes : Type) where
  | cmd (c : Cmd)
  | reqRes (r : ReqRes)

/-- `Out` (133–138). -/
inductive Out (Req CmdRes : Type) where
  | req (q : Req)
  | cmdRes (r : CmdRes)

/-- Where the fiber is suspended: before `In::into_cmd`, or in `Context::req`. -/
inductive Fib (ReqRes σ : Type) where
  | waitCmd
  | waitRes (k : ReqRes → σ)

/-- Run until the next yield. -/
def Code.settle (L : Code Cmd CmdRes Req ReqRes σ) (p : σ) : Fib ReqRes σ × Out Req CmdRes :=
  match L.look p with
  | .inl (q, k) => (.waitRes k, .req q)
  | .inr r => (.waitCmd, .cmdRes r)

/-- Resuming the fiber. `into_cmd` (156–158) and `into_req_res` (165–167) do not check which
constructor was used: reading the wrong one is undefined behaviour, `none`. -/
def Code.resume (L : Code Cmd CmdRes Req ReqRes σ) : Fib ReqRes σ → In Cmd ReqRes →
    Option (Fib ReqRes σ × Out Req CmdRes)
  | .waitCmd, .cmd c => some (L.settle (L.start c))
  | .waitRes k, .reqRes r => some (L.settle (k r))
  | .waitCmd, .reqRes _ => none
  | .waitRes _, .cmd _ => none

/-- The future returned by `cmd` (87–101). At most one exists, as it borrows the session
mutably. `fresh`: not polled yet; `waiting`: suspended at `run_req(req).await` (96). -/
inductive Call (Cmd Req : Type) where
  | none
  | fresh (c : Cmd)
  | waiting (q : Req)

/-- What the caller and the request handler see. -/
inductive Ev (Cmd CmdRes Req ReqRes Err : Type) where
  | cmd (c : Cmd)        -- first poll of a `cmd(c)` future
  | req (q : Req)        -- `run_req(q)` is called
  | res (r : ReqRes)     -- `run_req` returns `Ok(r)`
  | ok (r : CmdRes)      -- the `cmd` future returns `Ok(r)`
  | err (e : Err)        -- `run_req` and the `cmd` future return `Err(e)`
  | drop                 -- the `cmd` future is dropped while waiting

/-- The log lists events newest first. -/
structure State (Cmd CmdRes Req ReqRes σ Err : Type) where
  fib : Fib ReqRes σ
  call : Call Cmd Req
  log : List (Ev Cmd CmdRes Req ReqRes Err)

/-- A new session. -/
def init : State Cmd CmdRes Req ReqRes σ Err := ⟨.waitCmd, .none, []⟩

/-- What happens next. A poll of the future is `begin` or nothing, followed by any number of
`answer`s, according to when the request futures are ready. -/
inductive Act (Cmd ReqRes Err : Type) where
  | call (c : Cmd)       -- `cmd(c)`, 91: `In::from_cmd(cmd)`
  | begin                -- the first poll
  | answer (r : ReqRes)  -- the awaited request is ready with `Ok(r)`
  | fail (e : Err)       -- the awaited request is ready with `Err(e)`
  | forget               -- the future is dropped before its first poll
  | abandon              -- the future is dropped while it waits for a request

/-- One iteration of the loop in `cmd` (93–99) with input `i`. -/
def State.feed (L : Code Cmd CmdRes Req ReqRes σ) (s : State Cmd CmdRes Req ReqRes σ Err) (i : In Cmd ReqRes) :
    Option (State Cmd CmdRes Req ReqRes σ Err) :=
  match L.resume s.fib i with
  | none => none
  | some (f, .req q) => some ⟨f, .waiting q, .req q :: s.log⟩
  | some (f, .cmdRes r) => some ⟨f, .none, .ok r :: s.log⟩

/-- `none`: undefined behaviour. Actions that are not possible leave the state unchanged. -/
def step (L : Code Cmd CmdRes Req ReqRes σ) (s : State Cmd CmdRes Req ReqRes σ Err) :
    Act Cmd ReqRes Err → Option (State Cmd CmdRes Req ReqRes σ Err)
  | .call c => match s.call with
    | .none => some { s with call := .fresh c }
    | _ => some s
  | .begin => match s.call with
    | .fresh c => { s with log := .cmd c :: s.log }.feed L (.cmd c)
    | _ => some s
  | .answer r => match s.call with
    | .waiting _ => { s with log := .res r :: s.log }.feed L (.reqRes r)
    | _ => some s
  | .fail e => match s.call with
    | .waiting _ => some { s with call := .none, log := .err e :: s.log }
    | _ => some s
  | .forget => match s.call with
    | .fresh _ => some { s with call := .none }
    | _ => some s
  | .abandon => match s.call with
    | .waiting _ => some { s with call := .none, log := .drop :: s.log }
    | _ => some s

def run (L : Code Cmd CmdRes Req ReqRes σ) (s : State Cmd CmdRes Req ReqRes σ Err) :
    List (Act Cmd ReqRes Err) → Option (State Cmd CmdRes Req ReqRes σ Err)
  | [] => some s
  | a :: as => (step L s a).bind fun s' => run L s' as

end Verif.ProcLoop
