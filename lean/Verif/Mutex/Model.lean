/-! # Model of the asynchronous mutex

`src/sync/mutex.rs`. Any number of clients call the mutex; a schedule says which
client performs its next access. A client is a lock future together with the guards
obtained from it or from `try_lock`; a task with several futures and guards is
several clients. One step is one access to the shared memory:

* an update of `locked` or of a `taken` flag (an atomic access; see C04, C55 for the
  soft atomics);
* a read of a stored waker;
* one `push_raw`: that it is atomic with respect to the traversals of `unlock` is C16;
* in `unlock`, a load of the list head, the test of one node, or the removal of one
  node from the list together with its release (the removal searches the
  predecessor again if nodes were pushed meanwhile; that this removes exactly that
  node is C16). The link of a node that was passed is changed by the traversing
  client only, so a traversal is determined by the list at the time of the load.

Node addresses are never reused in the model. The memory order arguments are ignored;
memory is sequentially consistent. Access to a released node, reading a waker twice,
and `unreachable_unchecked` are undefined behaviour: `none`. -/
namespace Verif.Mutex

/-- A waker. -/
abbrev Waker := Nat

/-- `Node<Waiter>`, `mutex.rs` 67–70. `waker` is `none` after it was read. -/
structure Node where
  taken : Bool
  waker : Option Waker
  freed : Bool
deriving DecidableEq

/-- Where a client is. -/
inductive Pc where
  | idle
  /-- `try_lock`: swap `locked` (122) -/
  | tl
  /-- `poll`: the first `try_lock` (183) -/
  | p1 (w : Waker)
  /-- `poll`: locked; swap the own `taken` flag (185, 221) -/
  | p1take (n : Nat)
  /-- `poll`: locked; read and drop the own waker (185, 224) -/
  | p1read (n : Nat)
  /-- `poll`: test the own `taken` flag (189) -/
  | pchk (w : Waker) (n : Nat)
  /-- `poll`: create a node and push it (190–192) -/
  | ppush (w : Waker)
  /-- `poll`: the second `try_lock` (193) -/
  | p2
  /-- `unlock`: load the list head to remove taken nodes (162) -/
  | ulLoad
  /-- `unlock`: nodes still to be tested (162) -/
  | ulDrain (rest : List Nat)
  /-- `unlock`: remove and release a node (163) -/
  | ulCut (n : Nat) (rest : List Nat)
  /-- `unlock`: load the list head to search a waiter (164) -/
  | ulHead
  /-- `unlock`: nodes still to be tried (165, 221) -/
  | ulScan (rest : List Nat)
  /-- `unlock`: read the waker of the node taken (165, 224) -/
  | ulRead (n : Nat)
  /-- `unlock`: release the lock (171) -/
  | ulStore (nw : Option (Nat × Waker))
  /-- `unlock`: wake (173) -/
  | ulWake (n : Nat) (w : Waker)
  /-- drop of the future: swap the own `taken` flag (210, 221) -/
  | dTake (n : Nat)
  /-- drop of the future: read and drop the own waker (210, 224) -/
  | dRead (n : Nat)
  /-- drop of the future: `try_lock` (213) -/
  | dTry
deriving DecidableEq

/-- A client: its program point, whether its future exists, `waiter` of the future
(`mutex.rs` 64), the number of its guards. -/
structure Client where
  pc : Pc
  fut : Bool
  waiter : Option Nat
  guards : Nat
deriving DecidableEq

/-- Observable events. -/
inductive Event where
  /-- the future of `p` is polled with waker `w` / the poll returned pending -/
  | callPoll (p : Nat) (w : Waker) | pending (p : Nat)
  /-- `p` got a guard / starts to drop a guard / its `try_lock` returned `None` -/
  | acquired (p : Nat) | released (p : Nat) | tryFailed (p : Nat)
  /-- the future of `p` was created / is dropped -/
  | newFut (p : Nat) | dropFut (p : Nat)
  /-- a waker was stored in node `n` / the waker of node `n` was woken / dropped -/
  | store (n : Nat) (w : Waker) | woke (n : Nat) (w : Waker) | dropWaker (n : Nat) (w : Waker)
  /-- node `n` was released -/
  | freed (n : Nat)
deriving DecidableEq

/-- The mutex, its nodes, the clients, and the log, newest event first. `next` is the
address of the next node. -/
structure State where
  locked : Bool
  list : List Nat
  node : Nat → Node
  next : Nat
  client : Nat → Client
  log : List Event

/-- `Mutex::new`, `mutex.rs` 90–96. -/
def init : State :=
  { locked := false, list := [], node := fun _ => ⟨false, none, false⟩, next := 0,
    client := fun _ => ⟨.idle, false, none, 0⟩, log := [] }

/-- Pointwise update. -/
def upd {α : Type} (f : Nat → α) (i : Nat) (x : α) : Nat → α := fun j => if j = i then x else f j

/-- Append to the log. -/
def State.emit (s : State) (e : Event) : State := { s with log := e :: s.log }

/-- Set a client. -/
def State.setC (s : State) (p : Nat) (c : Client) : State := { s with client := upd s.client p c }

/-- Set the program point of a client. -/
def State.goto (s : State) (p : Nat) (pc : Pc) : State := s.setC p { s.client p with pc := pc }

/-- Set a node. -/
def State.setN (s : State) (n : Nat) (x : Node) : State := { s with node := upd s.node n x }

/-- The calls. -/
inductive Op where
  | tryLock | lock | poll (w : Waker) | dropFut | unlock
deriving DecidableEq

/-- Start of a call. A call the client cannot make (it is in another call, it has no
future, it has no guard) does nothing.

* `try_lock`, 121;
* `lock`, 134–136;
* `poll`, 181;
* `MutexLockFuture::drop`, 208–209;
* `MutexGuard::drop`, 298–299. -/
def call (s : State) (p : Nat) (op : Op) : State :=
  let c := s.client p
  if c.pc ≠ .idle then s
  else
    match op with
    | .tryLock => s.goto p .tl
    | .lock => if c.fut then s else (s.setC p { c with fut := true, waiter := none }).emit (.newFut p)
    | .poll w => if c.fut then (s.goto p (.p1 w)).emit (.callPoll p w) else s
    | .dropFut =>
      if c.fut then
        match c.waiter with
        | none => (s.setC p { c with fut := false }).emit (.dropFut p)
        | some n => (s.setC p { c with fut := false, waiter := none, pc := .dTake n }).emit (.dropFut p)
      else s
    | .unlock => if 0 < c.guards then (s.setC p { c with guards := c.guards - 1, pc := .ulLoad }).emit (.released p) else s

/-- `Waiter::take`, the read of the waker (224), by client `p` which continues with
`pc`; the waker is dropped. -/
def dropWaker (s : State) (p n : Nat) (pc : Pc) : Option State :=
  let x := s.node n
  if x.freed then none
  else
    match x.waker with
    | none => none
    | some w => some (((s.setN n { x with waker := none }).goto p pc).emit (.dropWaker n w))

/-- `Waiter::take`, the swap of the flag (221), by client `p` which continues with `yes`
if it was set before, and else with `no`. -/
def swapTaken (s : State) (p n : Nat) (yes no : Pc) : Option State :=
  let x := s.node n
  if x.freed then none
  else if x.taken then some (s.goto p yes)
  else some ((s.setN n { x with taken := true }).goto p no)

/-- `try_lock` succeeds (122, 125) in a call of client `p` that continues with `pc`. -/
def acquire (s : State) (p : Nat) (pc : Pc) : State :=
  let c := s.client p
  ({ s with locked := true }.setC p { c with pc := pc, guards := c.guards + 1 }).emit (.acquired p)

/-- The same in a poll, which takes `waiter` out of the future and continues with the
take of that node (184–187, 194–199). -/
def acquirePoll (s : State) (p : Nat) (n : Nat) : State :=
  let c := s.client p
  ({ s with locked := true }.setC p { c with pc := .p1take n, waiter := none, guards := c.guards + 1 }).emit (.acquired p)

/-- Next access of client `p`. -/
def pstep (s : State) (p : Nat) : Option State :=
  let c := s.client p
  match c.pc with
  | .idle => some s
  | .tl => if s.locked then some ((s.goto p .idle).emit (.tryFailed p)) else some (acquire s p .idle)
  | .p1 w =>
    match c.waiter with
    | none => if s.locked then some (s.goto p (.ppush w)) else some (acquire s p .idle)
    | some n => if s.locked then some (s.goto p (.pchk w n)) else some (acquirePoll s p n)
  | .p1take n => swapTaken s p n .idle (.p1read n)
  | .p1read n => dropWaker s p n .idle
  | .pchk w n =>
    if (s.node n).freed then none
    else if (s.node n).taken then some (s.goto p (.ppush w))
    else some ((s.goto p .idle).emit (.pending p))
  | .ppush w =>
    let n := s.next
    some ((({ s with next := n + 1, list := n :: s.list }.setN n ⟨false, some w, false⟩).setC p
      { c with pc := .p2, waiter := some n }).emit (.store n w))
  | .p2 =>
    if s.locked then some ((s.goto p .idle).emit (.pending p))
    else
      match c.waiter with
      | none => none
      | some n => some (acquirePoll s p n)
  | .ulLoad => some (s.goto p (.ulDrain s.list))
  | .ulDrain l =>
    match l with
    | [] => some (s.goto p .ulHead)
    | n :: rest =>
      if (s.node n).freed then none
      else if (s.node n).taken then some (s.goto p (.ulCut n rest))
      else some (s.goto p (.ulDrain rest))
  | .ulCut n rest =>
    let x := s.node n
    if x.freed then none
    else some ((({ s with list := s.list.erase n }.setN n { x with freed := true }).goto p (.ulDrain rest)).emit (.freed n))
  | .ulHead => some (s.goto p (.ulScan s.list))
  | .ulScan l =>
    match l with
    | [] => some (s.goto p (.ulStore none))
    | n :: rest => swapTaken s p n (.ulScan rest) (.ulRead n)
  | .ulRead n =>
    let x := s.node n
    if x.freed then none
    else
      match x.waker with
      | none => none
      | some w => some ((s.setN n { x with waker := none }).goto p (.ulStore (some (n, w))))
  | .ulStore nw =>
    match nw with
    | none => some ({ s with locked := false }.goto p .idle)
    | some (n, w) => some ({ s with locked := false }.goto p (.ulWake n w))
  | .ulWake n w => some ((s.goto p .idle).emit (.woke n w))
  | .dTake n => swapTaken s p n .dTry (.dRead n)
  | .dRead n => dropWaker s p n .idle
  | .dTry =>
    if s.locked then some ((s.goto p .idle).emit (.tryFailed p))
    else some ((({ s with locked := true }.goto p .ulLoad).emit (.acquired p)).emit (.released p))

/-- One element of a schedule. -/
inductive Act where
  | call (p : Nat) (op : Op)
  | step (p : Nat)
deriving DecidableEq

/-- Perform one element of a schedule. -/
def step (s : State) : Act → Option State
  | .call p op => some (call s p op)
  | .step p => pstep s p

/-- Perform a schedule. `none` is undefined behaviour. -/
def run (s : State) : List Act → Option State
  | [] => some s
  | a :: as =>
    match step s a with
    | none => none
    | some s => run s as

/-- The drop of the list nodes (`linked_list.rs` 318–327 with `Waiter::drop`, `mutex.rs`
239–245), from the head. -/
def dropNodes (s : State) : List Nat → Option State
  | [] => some s
  | n :: rest =>
    let x := s.node n
    if x.freed then none
    else if x.taken then dropNodes ((s.setN n { x with freed := true }).emit (.freed n)) rest
    else
      match x.waker with
      | none => none
      | some w => dropNodes (((s.setN n { x with waker := none, freed := true }).emit (.dropWaker n w)).emit (.freed n)) rest

/-- The drop of the mutex. -/
def dropMutex (s : State) : Option State :=
  match dropNodes s s.list with
  | none => none
  | some s => some { s with list := [] }

end Verif.Mutex
