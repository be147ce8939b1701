import Verif.Loom.Explore
import Verif.Mutex.Model
/-! # The loom tests of the mutex, on the model (`tests/loom_mutex.rs`) -/
namespace Verif.Mutex.LoomTest

open Verif.Loom

abbrev MProg := Prog Op Event

/-- Results of calls of client `p`. -/
def isRes (p : Nat) : Event → Bool
  | .pending q | .acquired q | .released q | .newFut q | .dropFut q => p == q
  | _ => false

/-- The next access of a client is to an atomic variable, or it is between calls. The load of the list
head in `unlock` and the push are accesses to the head of the list. -/
def atomic : Pc → Bool
  | .p1read _ | .ulRead _ | .ulWake _ _ | .dRead _ | .ulCut _ _ => false
  | _ => true

/-- The next action of client `p`. -/
def pAct (joined : Bool) (m : MProg) (p : Nat) (s : State) : Option Act :=
  match (s.client p).pc with
  | .idle => match m.next joined (s.log.reverse.filter (isRes p)) with
    | .op o => some (.call p o)
    | _ => none
  | _ => some (.step p)

/-- All clients in all interleavings; the program of client `p` is `ms[p]`. With `coarse`, a client is
preempted only before an access to an atomic variable, as under loom. -/
def acts (coarse : Bool) (ms : List MProg) (s : State) : List Act :=
  let busy := if coarse then ms.zipIdx.filter fun (_, p) => !atomic (s.client p).pc else []
  match busy with
  | (_, p) :: _ => [.step p]
  | [] => ms.zipIdx.filterMap fun (m, p) =>
      pAct (ms.zipIdx.all fun (m', q) =>
        p == q || ((pAct false m' q s).isNone && (0 < (s.client p).guards || (s.client q).guards == 0))) m p s

/-- The counter of waker `w`. -/
def counter (w : Waker) (s : State) : Nat :=
  (s.log.map fun e => match e with
    | .store _ x => if x = w then 100 else 0
    | .woke _ x => if x = w then 1 else 0
    | .dropWaker _ x => if x = w then 10000 else 0
    | _ => 0).sum

/-- States are compared by their nodes, clients and logs. -/
structure Key where
  locked : Bool
  list : List Nat
  node : List Node
  client : List Client
  log : List Event
deriving DecidableEq

@[inherit_doc Key] def key (s : State) : Key :=
  ⟨s.locked, s.list, (List.range s.next).map s.node, (List.range 3).map s.client, s.log⟩

/-- The first of the clients 1 and 2 that got a guard from a poll (a guard obtained in the drop of the
future does not count). -/
def first (l : List Event) : Option Nat :=
  l.reverse.findSome? fun e => match e with
    | .acquired p => if p = 0 || (l.reverse.takeWhile (· ≠ e)).any (· = .dropFut p) then none else some p
    | _ => none

/-- Sort the log: the results of each client, then the wakers. The client that was first stays first.
The steps do not read the log, so this only merges states. -/
def sortLog (l : List Event) : List Event :=
  (if first l = some 2 then l.filter (isRes 1) ++ l.filter (isRes 2) else l.filter (isRes 2) ++ l.filter (isRes 1)) ++
  l.filter (isRes 0) ++
  (l.filter fun e => match e with | .store _ 7 => true | _ => false) ++
  (l.filter fun e => match e with | .store _ 8 => true | _ => false) ++
  (l.filter fun e => match e with | .woke _ 7 => true | _ => false) ++
  (l.filter fun e => match e with | .woke _ 8 => true | _ => false) ++
  (l.filter fun e => match e with | .dropWaker _ 7 => true | _ => false) ++
  (l.filter fun e => match e with | .dropWaker _ 8 => true | _ => false)

/-- A step, with the log sorted. -/
def nstep (s : State) (a : Act) : Option State :=
  (step s a).map fun s =>
    let nodes := (List.range s.next).map s.node
    let clients := (List.range 3).map s.client
    { s with log := sortLog s.log, node := fun i => nodes.getD i ⟨false, none, false⟩,
             client := fun i => clients.getD i ⟨.idle, false, none, 0⟩ }

/-- The result of client `p`: the value in the mutex is there for the first one only. -/
def res (s : State) (m : MProg) (p unit : Nat) : Nat :=
  match m.result (s.log.reverse.filter (isRes p)) with
  | none => 9999
  | some n => if n = unit then if first s.log = some p then unit else 2 * unit else n

/-- The results of a test: the sum of the return values, then the counters of the value and of the two
wakers. -/
def outcomes (coarse : Bool) (s : State) (m a b : MProg) : List (List Nat) × Bool × Bool :=
  match explore key nstep (acts coarse [m, a, b]) 300 [s] with
  | (f, u, c) => ((f.map fun s => [res s a 1 10 + res s b 2 1, if (first s.log).isSome then 3 else 0, counter 7 s,
      counter 8 s]).eraseDups, u, c)

def lockP (k : MProg) : MProg := .call .lock fun _ => k
def pollP (w : Waker) (r p : MProg) : MProg :=
  .call (.poll w) fun e => match e with | .acquired _ => r | .pending _ => p | _ => .ret 7777
def unlockP (k : MProg) : MProg := .call .unlock fun _ => k
def dropP (k : MProg) : MProg := .call .dropFut fun _ => k

/-- The state after a sequence of calls, each run to its end. -/
def after (s : State) : List (Nat × Op) → State
  | [] => s
  | (p, o) :: l =>
    let s := call s p o
    let s := (List.range 20).foldl (fun s _ => (pstep s p).getD s) s
    after s l

def lockT (w u : Nat) : MProg := lockP (pollP w (unlockP (dropP (.ret u))) (dropP (.ret (3 * u))))
def lockUnlockT (w u : Nat) : MProg :=
  lockP (pollP w (.join (unlockP (.ret u))) (.join (pollP w (unlockP (dropP (.ret (4 * u)))) (dropP (.ret (5 * u))))))
def unlockLockT (w u : Nat) : MProg := pollP w (dropP (.join (unlockP (.ret u)))) (dropP (.ret (3 * u)))
def waiting : State :=
  let s := after init [(0, .tryLock), (1, .lock), (2, .lock), (1, .poll 7), (2, .poll 8)]
  { s with log := sortLog (s.log.filter fun e => match e with | .store _ _ => true | _ => false) }

/-! Each test: the programs of the threads, whether undefined behaviour is possible on the model, and the
state maps of the test (1: `data_states`, 2: `a_states`, 3: `b_states`). Clients are preempted before
accesses to atomic variables only, as under loom. -/

/- `loom_lock` (14–68). The values 101 are not in the maps of the test, but possible: one thread
pushes its node before the other one loads the list in `unlock`, which then takes and wakes the waker. -/
#guard passes (outcomes true init (.ret 0) (lockT 7 10) (lockT 8 1)) false
    [(1, [(12, [3]), (13, [3]), (21, [3]), (31, [3])]), (2, [(12, [0]), (13, [0]), (21, [0, 10100, 101]),
      (31, [10100, 101])]), (3, [(12, [0, 10100, 101]), (13, [10100, 101]), (21, [0]), (31, [0])])]

/- `loom_lock_unlock` (71–152). -/
#guard passes (outcomes true init (.ret 0) (lockUnlockT 7 10) (lockUnlockT 8 1)) false
    [(1, [(14, [3]), (41, [3])]), (2, [(14, [0]), (41, [101])]), (3, [(14, [101]), (41, [0])])]

/- `loom_unlock_lock` (155–219). -/
#guard passes (outcomes true waiting (unlockP (.ret 0)) (unlockLockT 7 10) (unlockLockT 8 1)) false
    [(1, [(13, [3]), (31, [3]), (33, [0])]), (2, [(13, [101, 10100, 10201]), (31, [10100]),
      (33, [101, 10100, 10201])]), (3, [(13, [101, 10100, 10201]), (31, [101, 10201]), (33, [101, 10100, 10201])])]

end Verif.Mutex.LoomTest
