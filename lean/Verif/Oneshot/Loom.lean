import Verif.Loom.Explore
import Verif.Oneshot.Model
/-! # The loom tests of the oneshot channel, on the model (`tests/loom_spsc_oneshot.rs`) -/
namespace Verif.Oneshot.LoomTest

open Verif.Loom

abbrev S := State Nat
abbrev Ev := Event Nat
abbrev TProg := Prog (SOp Nat) Ev
abbrev RProg := Prog ROp Ev

/-- Results of calls of the sender. -/
def isTx : Ev → Bool
  | .sendOk | .sendErr _ | .cancelReady | .cancelPending _ | .isCanceled _ => true
  | _ => false

/-- Results of calls of the receiver. -/
def isRx : Ev → Bool
  | .recv _ | .recvCanceled | .recvNone | .pending _ | .terminated _ | .closed => true
  | _ => false

/-- The next action of the sender. At the end of its program the sender is dropped, unless `keep`. -/
def txAct (keep : Bool) (joined : Bool) (p : TProg) (s : S) : Option (Act Nat) :=
  match s.spc with
  | .gone => none
  | .idle => match p.next joined (s.log.reverse.filter isTx) with
    | .op o => some (.sCall o)
    | .join => none
    | .fin _ => if keep then none else some (.sCall .drop)
  | _ => some .sStep

/-- The next action of the receiver. -/
def rxAct (keep : Bool) (joined : Bool) (p : RProg) (s : S) : Option (Act Nat) :=
  match s.rpc with
  | .gone => none
  | .idle => match p.next joined (s.log.reverse.filter isRx) with
    | .op o => some (.rCall o)
    | .join => none
    | .fin _ => if keep then none else some (.rCall .drop)
  | _ => some .rStep

/-- Both programs in all interleavings. -/
def acts (kt kr : Bool) (t : TProg) (r : RProg) (s : S) : List (Act Nat) :=
  let t1 := txAct kt false t s
  let r1 := rxAct kr false r s
  let t2 := if r1.isNone then txAct kt true t s else t1
  let r2 := if t1.isNone then rxAct kr true r s else r1
  t2.toList ++ r2.toList

/-- The counter of a waker: 100 for a clone, 1 for a wake, 10000 for a drop
(`tests/loom_helpers/mod.rs` 91–104). -/
def rxCounter (s : S) : Nat :=
  (s.log.map fun e => match e with | .storeRx _ => 100 | .wakeRx _ => 1 | .dropRx _ => 10000 | _ => 0).sum

def txCounter (s : S) : Nat :=
  (s.log.map fun e => match e with | .storeTx _ => 100 | .wakeTx _ => 1 | .dropTx _ => 10000 | _ => 0).sum

/-- The counter of the value: 10 if a program got it, 1 if it was dropped. -/
def dataCounter (s : S) : Nat :=
  (s.log.map fun e => match e with | .recv _ => 10 | .sendErr _ => 10 | .dropData _ => 1 | _ => 0).sum

/-- A step, with the log sorted: the results of the sender, of the receiver, then the rest. The
steps do not read the log, so this only merges states. -/
def nstep (s : S) (a : Act Nat) : Option S :=
  (step s a).map fun s => { s with log := s.log.filter isTx ++ s.log.filter isRx ++
    (s.log.filter fun e => match e with | .storeRx _ => true | _ => false) ++
    (s.log.filter fun e => match e with | .wakeRx _ => true | _ => false) ++
    (s.log.filter fun e => match e with | .dropRx _ => true | _ => false) ++
    (s.log.filter fun e => match e with | .storeTx _ => true | _ => false) ++
    (s.log.filter fun e => match e with | .wakeTx _ => true | _ => false) ++
    (s.log.filter fun e => match e with | .dropTx _ => true | _ => false) ++
    (s.log.filter fun e => match e with | .dropData _ => true | _ => false) }

/-- The results of a test: the sum of the two return values, then the counters; whether undefined
behaviour is possible; whether the exploration is complete. -/
def outcomes (kt kr : Bool) (t : TProg) (r : RProg) : List (List Nat) × Bool × Bool :=
  match explore id nstep (acts kt kr t r) 200 [init Nat] with
  | (f, u, c) =>
    ((f.map fun s =>
      [(t.result (s.log.reverse.filter isTx)).getD 999 + (r.result (s.log.reverse.filter isRx)).getD 999,
        txCounter s, rxCounter s, dataCounter s]).eraseDups, u, c)

/-- `assert!(rx.is_terminated())`, then the result. -/
def term (n : Nat) : RProg := .call .isTerminated fun e => match e with | .terminated true => .ret n | _ => .ret 555
/-- `assert!(tx.is_canceled())`, then the result. -/
def canc (n : Nat) : TProg := .call .isCanceled fun e => match e with | .isCanceled true => .ret n | _ => .ret 555

/-- Poll the receiver. -/
def poll (c : RProg) (v : RProg) (p : RProg) : RProg :=
  .call (.poll 7) fun e => match e with | .recvCanceled => c | .recv _ => v | .pending _ => p | _ => .ret 777
/-- Poll the cancellation. -/
def pollC (r p : TProg) : TProg :=
  .call (.pollCanceled 8) fun e => match e with | .cancelReady => r | .cancelPending _ => p | _ => .ret 777
/-- Send a value. -/
def sendP (o e : Nat) : TProg := .call (.send 314) fun x => match x with | .sendOk => .ret o | .sendErr _ => .ret e | _ => .ret 777
/-- `try_recv`. -/
def tryP (c v n : RProg) : RProg :=
  .call .tryRecv fun e => match e with | .recvCanceled => c | .recv _ => v | .recvNone => n | _ => .ret 777
/-- `close`. -/
def closeP (k : RProg) : RProg := .call .close fun e => match e with | .closed => k | _ => .ret 777

/-! Each test: the programs, whether undefined behaviour is possible on the model, and the state maps
of the test (1: `tx_states`, 2: `rx_states`, 3: `data_states`). A thread drops its end when it ends,
unless the test keeps the end (`true` in `outcomes`). Results 555 and 777 are a failed assertion and an
unexpected event. The possible undefined behaviour is the access after release of `C22_false…`
(loom does not see it: it tracks only the state word). -/

/- `loom_drop` (14–22). -/
#guard passes (outcomes false false (.ret 0) (.ret 0)) false
    []

/- `loom_try_recv` (25–36). -/
#guard passes (outcomes false false (.ret 0) (tryP (.ret 0) (.ret 5) (.ret 0))) false
    []

/- `loom_recv` (39–68). -/
#guard passes (outcomes false false (.ret 0) (poll (term 0) (.ret 1) (poll (term 2) (.ret 3) (.ret 4)))) true
    [(2, [(0, [0, 10100]), (2, [101]), (4, [101, 10100])])]

/- `loom_cancellation` (71–99). -/
#guard passes (outcomes false false (pollC (canc 0) (pollC (canc 1) (.ret 2))) (.ret 0)) true
    [(1, [(0, [0, 10100]), (1, [101]), (2, [101, 10100])])]

/- `loom_cancellation_persistent` (102–142). -/
#guard passes (outcomes true false (pollC (canc 0) (pollC (canc 1) (.join (pollC (canc 2) (.ret 3))))) (.ret 0)) false
    [(1, [(0, [0, 10100]), (1, [101]), (2, [101])])]

/- `loom_close_cancellation` (145–173). -/
#guard passes (outcomes false false (pollC (canc 0) (pollC (canc 1) (.ret 2))) (closeP (.ret 0))) false
    [(1, [(0, [0, 10100]), (1, [101]), (2, [101, 10100])])]

/- `loom_close_cancellation_persistent` (176–220). -/
#guard passes (outcomes true true (pollC (canc 0) (pollC (canc 1) (.join (pollC (canc 2) (.ret 3))))) (closeP
      (.ret 0))) false
    [(1, [(0, [0, 10100]), (1, [101]), (2, [101])])]

/- `loom_send_recv` (223–270). -/
#guard passes (outcomes false false (sendP 10 20) (poll (.ret 0) (term 1) (poll (.ret 2) (term 3) (.ret 4)))) true
    [(2, [(11, [0, 10100]), (13, [101]), (14, [101]), (24, [10100])]), (3, [(11, [10]), (13, [10]), (14, [1]),
      (24, [10])])]

/- `loom_send_recv_persistent` (273–331). -/
#guard passes (outcomes false true (sendP 10 20) (poll (.ret 0) (term 1) (poll (.ret 2) (term 3) (.join (poll
      (.ret 4) (term 5) (.ret 6)))))) false
    [(2, [(11, [0, 10100]), (13, [101]), (15, [101])]), (3, [(11, [10]), (13, [10]), (15, [10])])]

/- `loom_send_close_recv` (334–375). -/
#guard passes (outcomes false false (sendP 10 20) (closeP (poll (term 0) (term 1) (.ret 2)))) true
    [(2, [(11, [0]), (20, [0])]), (3, [(11, [10]), (20, [10])])]

/- `loom_send_try_recv` (378–405). -/
#guard passes (outcomes false false (sendP 10 20) (tryP (.ret 0) (.ret 1) (.ret 2))) false
    [(3, [(11, [10]), (12, [1]), (22, [10])])]

/- `loom_send_try_recv_persistent` (408–446). -/
#guard passes (outcomes false true (sendP 10 20) (tryP (.ret 0) (.ret 1) (.join (tryP (.ret 2) (.ret 3)
      (.ret 4))))) false
    [(3, [(11, [10]), (13, [10])])]

/- `loom_send_close_try_recv` (449–478). -/
#guard passes (outcomes false false (sendP 10 20) (closeP (tryP (.ret 0) (.ret 1) (.ret 2)))) true
    [(3, [(11, [10]), (20, [10])])]

/- `loom_recv_cancellation` (481–515). The value 0 of key 22 is not in the map of the test: the thread of
the receiver runs first, and the first load of the sender finds the channel closed, so that no waker is
stored. -/
#guard passes (outcomes false false (pollC (.ret 20) (.ret 10)) (poll (term 0) (.ret 1) (.ret 2))) true
    [(1, [(12, [101, 10100]), (10, [10100]), (22, [10100, 0])]), (2, [(12, [101, 10100]), (10, [0, 10100]),
      (22, [10100])])]

end Verif.Oneshot.LoomTest
