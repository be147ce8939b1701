import Verif.Soft.Model
/-! # Model of futures run by software threads

`ThrExec::{exec, add_exec}` of `src/thr/exec.rs` on top of the software threads of
`src/thr/soft/mod.rs` (`Verif.Soft`), `SoftWaker` of `src/thr/soft/wake.rs` and
`Thread::resume` of `src/thr/mod.rs` 147–149.

A task is a future given to `exec` or `add_exec`. It awaits a number of one-shot signals,
one after the other. A signal stands for any source of events whose future is correct on
its own: a poll either sees the event or leaves the waker where the event finds it (C21,
C34, C50, C59 are about that). So a poll of a signal is one step, and so is the event with
the taking of the waker; the wake that follows is a `set_pending` call, which is made access by access.

Simplifications. Priorities do not change and no thread is cleared or called directly. A
task awaits one signal at a time (no `join` or `select`). -/
namespace Verif.Exec
open Verif.Soft (upd Frame)

/-- A future in the fiber chain of thread `thr`. It awaits `len` signals; `pos` is the number
of those it has got. `live`: it was started by `exec` or polled at least once. `done`: it
has returned `Poll::Ready`, `exec.rs` 72–75. -/
structure Task where
  thr : Nat
  len : Nat
  pos : Nat
  live : Bool
  done : Bool
deriving DecidableEq

/-- `fired k i`: the `i`-th signal of task `k` has occurred. `waker k i`: the thread whose
waker is left with this signal (`SoftWaker`, `wake.rs` 6–9, holds the thread index). `queue
t`: the fibers the running `drain` of thread `t` has still to resume. -/
structure State where
  soft : Soft.State
  made : Nat
  task : Nat → Task
  fired : Nat → Nat → Bool
  waker : Nat → Nat → Option Nat
  queue : Nat → List Nat

/-- Before anything is executed. `fired` is arbitrary: events may precede the futures. -/
def init (prio : Nat → Nat) (fired : Nat → Nat → Bool) : State :=
  { soft := Soft.init prio, made := 0, task := fun _ => ⟨0, 0, 0, false, false⟩, fired := fired, waker := fun _ _ => none, queue := fun _ => [] }

/-- What may happen. -/
inductive Act where
  /-- the call on top of the stack makes its next access -/
  | step
  /-- the running thread resumes the next fiber of its `drain`, or goes on with it -/
  | poll
  /-- the running thread is at the end of its `drain` and returns -/
  | ret
  /-- an event occurs, in a thread or in an interrupt handler -/
  | signal (k i : Nat)
  /-- `add_exec`, `exec.rs` 44–50 -/
  | add (thr len : Nat)
  /-- `exec`, `exec.rs` 19–25, 36–37 -/
  | exec (thr len : Nat)
deriving DecidableEq

/-- The call on top of the stack is about to enter the body of this thread. -/
def entering : List Frame → Option Nat
  | .row _ (.call thr _ _ (.store _)) :: _ => some thr
  | _ => none

/-- The thread whose body is on top of the stack. -/
def inside : List Frame → Option Nat
  | .row _ (.call thr _ _ (.body _)) :: _ => some thr
  | _ => none

/-- The fiber chain of a thread: newest first (`Chain::add`, `fib/chain.rs`), without the
completed fibers, which `drain` removes. -/
def chain (s : State) (thr : Nat) : List Nat :=
  (List.range s.made).reverse.filter fun k => (s.task k).thr = thr && !(s.task k).done

/-- Pointwise update in two arguments. -/
def upd2 {α : Type} (f : Nat → Nat → α) (i j : Nat) (x : α) : Nat → Nat → α := fun a b => if a = i ∧ b = j then x else f a b

/-- A new task. -/
def State.push (s : State) (thr len : Nat) (live : Bool) : State :=
  { s with made := s.made + 1, task := upd s.task s.made ⟨thr, len, 0, live, false⟩ }

/-- One element of a history. `none`: a completed future is polled, or a fault of the
software threads. Threads that do not exist have no tokens. -/
def step (count : Nat) (s : State) : Act → Option State
  | .step =>
    -- `Thread::resume` starts with the load of the list head in `drain`
    match Soft.step count s.soft .step with
    | none => none
    | some soft =>
      match entering s.soft.stack with
      | some t => some { s with soft := soft, queue := upd s.queue t (chain s t) }
      | none => some { s with soft := soft }
  | .poll =>
    match inside s.soft.stack with
    | none => some s
    | some t =>
      match s.queue t with
      | [] => some s
      | k :: ks =>
        let a := s.task k
        if a.done then none
        else if a.pos = a.len then
          -- `Poll::Ready`, 72–75
          some { s with task := upd s.task k { a with live := true, done := true }, queue := upd s.queue t ks }
        else if s.fired k a.pos then
          some { s with task := upd s.task k { a with live := true, pos := a.pos + 1 } }
        else
          -- `Poll::Pending`, 71; the waker is the one of the thread of the task, 64
          some { s with
            task := upd s.task k { a with live := true }
            waker := upd2 s.waker k a.pos (some a.thr)
            queue := upd s.queue t ks }
  | .ret =>
    match inside s.soft.stack with
    | none => some s
    | some t =>
      if s.queue t = [] then
        match Soft.step count s.soft .ret with
        | none => none
        | some soft => some { s with soft := soft }
      else some s
  | .signal k i =>
    match s.waker k i with
    | none => some { s with fired := upd2 s.fired k i true }
    | some t =>
      -- `SoftWaker::wake`, `wake.rs` 35–37
      match Soft.step count s.soft (.pend t) with
      | none => none
      | some soft => some { s with fired := upd2 s.fired k i true, waker := upd2 s.waker k i none, soft := soft }
  | .add thr len => some (if thr < count then s.push thr len false else s)
  | .exec thr len =>
    if thr < count then
      match Soft.step count s.soft (.pend thr) with
      | none => none
      | some soft => some { s.push thr len true with soft := soft }
    else some s

/-- Perform a history. -/
def run (count : Nat) (s : State) : List Act → Option State
  | [] => some s
  | a :: as =>
    match step count s a with
    | none => none
    | some s => run count s as

end Verif.Exec
