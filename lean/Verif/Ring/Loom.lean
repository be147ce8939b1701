import Verif.Loom.Explore
import Verif.Ring.Model
/-! # The loom tests of the ring channel, on the model (`tests/loom_spsc_ring.rs`) -/
namespace Verif.Ring.LoomTest

open Verif.Loom

/-- `COUNT_BITS` for 64-bit words. -/
abbrev K := 29
abbrev S := State K Nat Nat
abbrev Ev := Event Nat Nat
abbrev TProg := Prog (SOp Nat Nat) Ev
abbrev RProg := Prog ROp Ev

/-- Results of calls of the sender. -/
def isTx : Ev → Bool
  | .full _ | .push _ | .canceled _ | .overwrote _ | .errOk | .errReturned _ | .pollOk _ | .pollCanceled _
  | .pollPending _ _ | .isCanceled _ => true
  | _ => false

/-- Results of calls of the receiver. (`closed` also when it is dropped; then the program has ended.) -/
def isRx : Ev → Bool
  | .closed | .recv _ | .recvErr _ | .ended | .empty | .pending _ | .terminated _ => true
  | _ => false

/-- The next access of the sender is to the state word, or it is between calls. -/
def sAtomic : SPc K Nat Nat → Bool
  | .idle | .gone | .tsLoad _ | .owLoad _ | .owClaim _ | .wrRmw _ _ | .errRmw | .icLoad | .pLoad _ _ | .pRmw _ _ _
  | .drRmw => true
  | _ => false

/-- The next access of the receiver is to the state word, or it is between calls. -/
def rAtomic : RPc K → Bool
  | .idle | .gone | .clRmw | .tnRmw | .tvRmw _ _ _ | .pnRmw _ | .pnRmw2 _ | .itLoad | .drRmw => true
  | _ => false

/-- The next action of the sender. At the end of its program the sender is dropped, unless `keep`. -/
def txAct (keep : Bool) (joined : Bool) (p : TProg) (s : S) : Option (Act Nat Nat) :=
  match s.spc with
  | .gone => none
  | .idle => match p.next joined (s.log.reverse.filter isTx) with
    | .op o => some (.sCall o)
    | .join => none
    | .fin _ => if keep then none else some (.sCall .drop)
  | _ => some .sStep

/-- The next action of the receiver. -/
def rxAct (keep : Bool) (joined : Bool) (p : RProg) (s : S) : Option (Act Nat Nat) :=
  match s.rpc with
  | .gone => none
  | .idle => match p.next joined (s.log.reverse.filter isRx) with
    | .op o => some (.rCall o)
    | .join => none
    | .fin _ => if keep then none else some (.rCall .drop)
  | _ => some .rStep

/-- Both programs in all interleavings. With `coarse`, a context is preempted only before an access to
the state word, as under loom. -/
def acts (coarse kt kr : Bool) (t : TProg) (r : RProg) (s : S) : List (Act Nat Nat) :=
  if coarse && !sAtomic s.spc then [.sStep]
  else if coarse && !rAtomic s.rpc then [.rStep]
  else
    let t1 := txAct kt false t s
    let r1 := rxAct kr false r s
    let t2 := if r1.isNone then txAct kt true t s else t1
    let r2 := if t1.isNone then rxAct kr true r s else r1
    t2.toList ++ r2.toList

/-- The counters of the wakers: 100 for a clone, 1 for a wake, 10000 for a drop
(`tests/loom_helpers/mod.rs` 91–104). -/
def rxCounter (s : S) : Nat :=
  (s.log.map fun e => match e with
    | .storeRx _ => 100 | .wakeRx _ | .wakeRefRx _ => 1 | .dropRx _ => 10000 | _ => 0).sum
@[inherit_doc rxCounter] def txCounter (s : S) : Nat :=
  (s.log.map fun e => match e with
    | .storeTx _ => 100 | .wakeTx _ | .wakeRefTx _ => 1 | .dropTx _ => 10000 | _ => 0).sum

/-- The counter of the error: 10 if a program got it, 1 if it was dropped. -/
def errCounter (s : S) : Nat :=
  (s.log.map fun e => match e with | .recvErr _ | .errReturned _ => 10 | .dropErr _ => 1 | _ => 0).sum

/-- The counter of a value: 10 if a program got it, 1 if it was dropped. -/
def dataCounter (v : Nat) (s : S) : Nat :=
  (s.log.map fun e => match e with
    | .recv x => if x = v then 10 else 0 | .dropped x => if x = v then 1 else 0 | _ => 0).sum

/-- Sort the log: the results of the sender, of the receiver, then the rest. The steps do not read
the log, so this only merges states. -/
def sortLog (l : List Ev) : List Ev :=
  l.filter isTx ++ l.filter isRx ++
    (l.filter fun e => match e with | .storeRx _ => true | _ => false) ++
    (l.filter fun e => match e with | .wakeRx _ | .wakeRefRx _ => true | _ => false) ++
    (l.filter fun e => match e with | .dropRx _ => true | _ => false) ++
    (l.filter fun e => match e with | .storeTx _ => true | _ => false) ++
    (l.filter fun e => match e with | .wakeTx _ | .wakeRefTx _ => true | _ => false) ++
    (l.filter fun e => match e with | .dropTx _ => true | _ => false) ++
    (l.filter fun e => match e with | .dropErr _ | .dropped _ => true | _ => false)

/-- A step, with the log sorted. -/
def nstep (cap : Nat) (s : S) (a : Act Nat Nat) : Option S :=
  (step cap s a).map fun s => { s with log := sortLog s.log }

deriving instance DecidableEq for SPc
deriving instance DecidableEq for RPc

/-- States are compared by the used part of the buffer and the other fields. -/
structure Key where
  st : Word K
  buf : List (Option Nat)
  err : Option Nat
  rxw : Option Waker
  txw : Option Waker
  freed : Bool
  spc : SPc K Nat Nat
  rpc : RPc K
  log : List Ev
deriving DecidableEq

@[inherit_doc Key] def key (cap : Nat) (s : S) : Key :=
  ⟨s.st, (List.range cap).map s.buf, s.err, s.rxw, s.txw, s.freed, s.spc, s.rpc, s.log⟩

/-- The sum of the two return values. -/
def result (t : TProg) (r : RProg) (s : S) : Nat :=
  (t.result (s.log.reverse.filter isTx)).getD 99999 + (r.result (s.log.reverse.filter isRx)).getD 99999

/-- The results of a test, started in `s`: rows as given by `rows`; whether undefined behaviour is
possible; whether the exploration is complete. -/
def outcomesFrom (s : S) (coarse : Bool) (cap : Nat) (kt kr : Bool) (t : TProg) (r : RProg)
    (rows : S → List (List Nat)) : List (List Nat) × Bool × Bool :=
  match explore (key cap) (nstep cap) (acts coarse kt kr t r) 300 [s] with
  | (f, u, c) => ((f.flatMap rows).eraseDups, u, c)

/-- The results of a test with a new channel of capacity 2: the sum of the two return values, then the
counters. -/
def outcomes (coarse kt kr : Bool) (t : TProg) (r : RProg) : List (List Nat) × Bool × Bool :=
  outcomesFrom (init K Nat Nat) coarse 2 kt kr t r fun s =>
    [[result t r s, txCounter s, rxCounter s, dataCounter 314 s, errCounter s]]

def term (n : Nat) : RProg := .call .isTerminated fun e => match e with | .terminated true => .ret n | _ => .ret 5555
def canc (n : Nat) : TProg := .call .isCanceled fun e => match e with | .isCanceled true => .ret n | _ => .ret 5555

def poll (c : RProg) (v : Nat → RProg) (x p : RProg) : RProg :=
  .call (.pollNext 7) fun e => match e with
    | .ended => c | .recv n => v n | .recvErr _ => x | .pending _ => p | _ => .ret 7777
def pollC (r p : TProg) : TProg :=
  .call (.poll .close 8) fun e => match e with | .pollOk _ => r | .pollPending _ _ => p | _ => .ret 7777
def flushP (o c p : TProg) : TProg :=
  .call (.poll .flush 8) fun e => match e with
    | .pollOk _ => o | .pollCanceled _ => c | .pollPending _ _ => p | _ => .ret 7777
def readyP (o c p : TProg) : TProg :=
  .call (.poll .ready 8) fun e => match e with
    | .pollOk _ => o | .pollCanceled _ => c | .pollPending _ _ => p | _ => .ret 7777
def trySendP (v : Nat) (o f c : TProg) : TProg :=
  .call (.trySend v) fun e => match e with | .push _ => o | .full _ => f | .canceled _ => c | _ => .ret 7777
/-- `SinkExt::feed` of the crate `futures`: `poll_ready`, then `start_send`. -/
def feedP (v : Nat) (o e p : TProg) : TProg := readyP (trySendP v o e e) e p
/-- `SinkExt::send`: `feed`, then `poll_flush`. -/
def sendP (v : Nat) (o e p : TProg) : TProg := feedP v (flushP o e p) e p
def errP (o e : Nat) : TProg :=
  .call (.sendErr 314) fun x => match x with | .errOk => .ret o | .errReturned _ => .ret e | _ => .ret 7777
def tryP (c : RProg) (v : Nat → RProg) (x m : RProg) : RProg :=
  .call .tryNext fun e => match e with
    | .ended => c | .recv n => v n | .recvErr _ => x | .empty => m | _ => .ret 7777
def closeP (k : RProg) : RProg := .call .close fun e => match e with | .closed => k | _ => .ret 7777
/-- `if !rx.is_terminated() { … }` -/
def unlessT (n : Nat) (k : RProg) : RProg :=
  .call .isTerminated fun e => match e with | .terminated true => .ret n | _ => k

/-- `value += match poll_next …`, in units of `u`. -/
def pollV (u acc : Nat) (k : Nat → RProg) : RProg :=
  poll (k (acc + 1 * u)) (fun _ => k (acc + 2 * u)) (k (acc + 3 * u)) (k (acc + 4 * u))

/-- Two polls, and a third one after the sender has ended. -/
def three : RProg :=
  pollV 100 0 fun a => .call .isTerminated fun e => match e with
    | .terminated true => .join (unlessT a (pollV 1 a .ret))
    | _ => pollV 10 a fun b => .join (unlessT b (pollV 1 b .ret))

/-- Two polls, and two more after the sender has ended. -/
def four : RProg :=
  let two (a : Nat) : RProg := .join (.call .isTerminated fun e => match e with
    | .terminated true => unlessT a (pollV 1 a .ret)
    | _ => pollV 10 a fun b => unlessT b (pollV 1 b .ret))
  pollV 1000 0 fun a => .call .isTerminated fun e => match e with
    | .terminated true => two a
    | _ => pollV 100 a two

/-- `send_overwrite`. -/
def overP (v : Nat) (n : TProg) (s : TProg) (en : TProg) (es : TProg) : TProg :=
  .call (.sendOverwrite v) fun e => match e with
    | .push _ => n
    | .canceled _ => en
    | .overwrote _ => .more fun e => match e with | .push _ => s | .canceled _ => es | _ => .ret 7777
    | _ => .ret 7777

/-- `try_send` for each value, going on if the channel is full. -/
def sendAll : List Nat → TProg
  | [] => .ret 0
  | n :: l => trySendP n (sendAll l) (sendAll l) (.ret 5555)

/-- `while !rx.is_terminated() { sum += … }`, at most `fuel` times. -/
def drain (once : (Nat → RProg) → RProg) : Nat → Nat → RProg
  | 0, _ => .ret 7777
  | f + 1, acc => .call .isTerminated fun e => match e with
    | .terminated true => .ret acc
    | _ => once fun n => drain once f (acc + n)

/-- `poll_next` in the sequence tests. -/
def onceP (k : Nat → RProg) : RProg := poll (.ret 5555) k (.ret 5555) (k 0)
/-- `try_next` in the sequence tests. -/
def onceT (k : Nat → RProg) : RProg := tryP (.ret 5555) k (.ret 5555) (k 0)

/-- The number of values for which there was no place. -/
def remaining (s : S) : Nat := (s.log.filter fun e => match e with | .full _ => true | _ => false).length

/-- The rows of the sequence tests: the first `n` results of the receiver count 7, later ones 5, values
for which there was no place 3. The sum must be 27. -/
def seqRows (n : Nat) (s : S) : List (List Nat) :=
  let rx := s.log.reverse.filter isRx
  let has (l : List Ev) (v : Nat) : Nat := (l.filter (· = .recv v)).length
  let sum := ([1, 3, 5, 7, 11].map fun v => v * (has rx v + (s.log.filter (· = .full v)).length)).sum
  if sum = 27 then
    [(1, 1), (2, 3), (3, 5), (4, 7), (5, 11)].map fun (i, v) =>
      [i * 10 + remaining s, 7 * has (rx.take n) v + 5 * has (rx.drop n) v +
        3 * (s.log.filter (· = .full v)).length]
  else [[9999, sum]]

/-- The channel of `loom_send_overwrite_next` before the threads start. -/
def full2 : S :=
  (run 2 (init K Nat Nat) [.sCall (.trySend 1), .sStep, .sStep, .sStep, .sCall (.trySend 3), .sStep, .sStep, .sStep]).map
    (fun s => { s with log := [] }) |>.getD (init K Nat Nat)

/-- The counters of value `v` in `loom_send_overwrite_next`: 7 if received, 3 or 11 if overwritten (and
the send succeeded or failed), 1 if dropped. -/
def overCounter (v : Nat) (s : S) : Nat :=
  (s.log.map fun e => match e with
    | .recv x => if x = v then 7 else 0
    | .dropped x => if x = v then 1 else 0
    | .overwrote x => if x = v then if s.log.any (· = .push 5) then 3 else 11 else 0
    | _ => 0).sum

def over (coarse : Bool) :=
  let t : TProg := overP 5 (.ret 10) (.ret 20) (.ret 30) (.ret 40)
  let r : RProg := poll (.ret 0) (fun v => .call .isTerminated fun e => match e with
    | .terminated false => .ret (if v = 1 then 2 else if v = 3 then 3 else 5555) | _ => .ret 5555) (.ret 1) (.ret 4)
  outcomesFrom full2 coarse 2 false false t r fun s => [[result t r s, rxCounter s, overCounter 1 s, overCounter 3 s]]

def seqN (coarse : Bool) :=
  outcomesFrom (init K Nat Nat) coarse 3 false true (sendAll [1, 3, 5, 7, 11])
    (onceP fun n => onceP fun m => .join (drain onceP 8 (n + m))) (seqRows 2)
def seqT (coarse : Bool) :=
  outcomesFrom (init K Nat Nat) coarse 3 false true (sendAll [1, 3, 5, 7, 11])
    (onceT fun n => onceT fun m => onceT fun k => .join (drain onceT 8 (n + m + k))) (seqRows 3)

/-! Each test: the programs, whether undefined behaviour is possible on the model, and the state maps
of the test (1: `tx_states`, 2: `rx_states`, 3, 4: the values and errors). A thread drops its end when it
ends, unless the test keeps the end (`true` in `outcomes`). Results 5555 and 7777 are a failed assertion
and an unexpected event. Contexts are preempted before accesses to the state word only, as under loom. -/

/- `loom_drop` (14–22). -/
#guard passes (outcomes true false false (.ret 0) (.ret 0)) false
    []

/- `loom_try_next` (25–36). -/
#guard passes (outcomes true false false (.ret 0) (tryP (.ret 0) (fun _ => .ret 5) (.ret 5) (.ret 0))) false
    []

/- `loom_next` (39–70). -/
#guard passes (outcomes true false false (.ret 0) (poll (term 0) (fun _ => .ret 1) (.ret 2) (poll (term 3)
      (fun _ => .ret 4) (.ret 5) (.ret 6)))) false
    [(2, [(0, [0, 10100]), (3, [101]), (6, [101, 10100])])]

/- `loom_poll_close` (73–102). -/
#guard passes (outcomes true false false (pollC (canc 0) (pollC (canc 1) (.ret 2))) (.ret 0)) false
    [(1, [(0, [0, 10100]), (1, [101]), (2, [101, 10100])])]

/- `loom_poll_close_persistent` (105–148). -/
#guard passes (outcomes true true false (pollC (canc 0) (pollC (canc 1) (.join (pollC (canc 2) (.ret 3)))))
      (.ret 0)) false
    [(1, [(0, [0, 10100]), (1, [101]), (2, [101])])]

/- `loom_close_poll_close` (151–180). -/
#guard passes (outcomes true false false (pollC (canc 0) (pollC (canc 1) (.ret 2))) (closeP (.ret 0))) false
    [(1, [(0, [0, 10100]), (1, [101]), (2, [101, 10100])])]

/- `loom_close_poll_close_persistent` (183–230). -/
#guard passes (outcomes true true true (pollC (canc 0) (pollC (canc 1) (.join (pollC (canc 2) (.ret 3))))) (closeP
      (.ret 0))) false
    [(1, [(0, [0, 10100]), (1, [101]), (2, [101])])]

/- `loom_poll_flush` (233–249). -/
#guard passes (outcomes true false false (flushP (.ret 0) (.ret 1) (.ret 3)) (.ret 0)) false
    [(1, [(0, [0]), (1, [0])])]

/- `loom_send_err_next` (252–301). -/
#guard passes (outcomes true false false (errP 10 20) (poll (.ret 0) (fun _ => .ret 1) (term 2) (poll (.ret 3)
      (fun _ => .ret 4) (term 5) (.ret 6)))) false
    [(2, [(12, [0, 10100]), (15, [101]), (16, [101]), (26, [10100])]), (4, [(12, [10]), (15, [10]), (16, [1]),
      (26, [10])])]

/- `loom_send_err_next_persistent` (304–365). -/
#guard passes (outcomes true false true (errP 10 20) (poll (.ret 0) (fun _ => .ret 1) (term 2) (poll (.ret 3)
      (fun _ => .ret 4) (term 5) (.join (poll (.ret 6) (fun _ => .ret 7) (term 8) (.ret 9)))))) false
    [(2, [(12, [0, 10100]), (15, [101]), (18, [101])]), (4, [(12, [10]), (15, [10]), (18, [10])])]

/- `loom_send_err_close_next` (647–689). -/
#guard passes (outcomes true false false (errP 10 20) (closeP (poll (term 0) (fun _ => .ret 1) (term 2)
      (.ret 3)))) false
    [(2, [(12, [0]), (20, [0])]), (4, [(12, [10]), (20, [10])])]

/- `loom_send_err_try_next` (692–720). -/
#guard passes (outcomes true false false (errP 10 20) (tryP (.ret 0) (fun _ => .ret 1) (.ret 2) (.ret 3))) false
    [(4, [(12, [10]), (13, [1]), (23, [10])])]

/- `loom_send_err_try_next_persistent` (723–763). -/
#guard passes (outcomes true false true (errP 10 20) (tryP (.ret 0) (fun _ => .ret 1) (.ret 2) (.join (tryP (.ret 3)
      (fun _ => .ret 4) (.ret 5) (.ret 6))))) false
    [(4, [(12, [10]), (15, [10])])]

/- `loom_send_err_close_try_next` (766–796). -/
#guard passes (outcomes true false false (errP 10 20) (closeP (tryP (.ret 0) (fun _ => .ret 1) (.ret 2)
      (.ret 3)))) false
    [(4, [(12, [10]), (20, [10])])]

/- `loom_next_poll_close` (799–837). The value 0 of key 23 is not in the map of the test: the thread
of the receiver runs first, and the first load of the sender finds the channel closed, so that no waker is
stored. -/
#guard passes (outcomes true false false (pollC (.ret 20) (.ret 10)) (poll (term 0) (fun _ => .ret 1) (.ret 2)
      (.ret 3))) false
    [(1, [(13, [101, 10100]), (10, [10100]), (23, [10100, 0])]), (2, [(13, [101, 10100]), (10, [0, 10100]),
      (23, [10100])])]

/- `loom_feed_next_persistent` (368–444). -/
#guard passes (outcomes true false false (feedP 314 (.ret 1000) (.ret 2000) (.ret 3000)) three) false
    [(1, [(1200, [0]), (1210, [0]), (1240, [0]), (1420, [0]), (1442, [0])]), (2, [(1200, [0, 101, 10100]),
      (1210, [0, 101, 10100]), (1240, [101]), (1420, [102]), (1442, [102])]), (3, [(1200, [10]), (1210, [10]),
      (1240, [10]), (1420, [10]), (1442, [10])])]

/- `loom_feed_send_err_next_persistent` (447–553). -/
#guard passes (outcomes true false false (feedP 314 (errP 10000 20000) (.ret 30000) (.ret 40000)) four) false
    [(1, [(12300, [0]), (12430, [0]), (14230, [0]), (14423, [0])]), (2, [(12300, [0, 101, 10100]), (12430, [101]),
      (14230, [102]), (14423, [102])]), (3, [(12300, [10]), (12430, [10]), (14230, [10]), (14423, [10])]),
      (4, [(12300, [10]), (12430, [10]), (14230, [10]), (14423, [10])])]

/- `loom_send_next_persistent` (556–644). The test does not check that all entries of its `tx_states`
occur, and some do not. The value 0 of key 1200 is not there, but possible: the receiver takes the value
before the load of `poll_flush`, and the sender is dropped before the load of `is_terminated`. -/
#guard passes (outcomes true false false (sendP 314 (.ret 1000) (.ret 2000) (.ret 3000)) three) false
    [(1, [(1200, [0, 10100]), (1210, [0, 10100]), (1240, [0, 10100]), (1420, [0, 10100]), (3200, [10100, 10101]),
      (3210, [10101]), (3240, [10101]), (3420, [10100, 10101]), (3442, [10100])]),
      (2, [(1200, [0, 101]), (1210, [0, 101, 10100]), (1240, [101]), (1420, [102]), (3200, [0, 101, 10100]),
      (3210, [0, 101, 10100]), (3240, [101]), (3420, [102]), (3442, [102])]), (3, [(1200, [10]), (1210, [10]),
      (1240, [10]), (1420, [10]), (3200, [10]), (3210, [10]), (3240, [10]), (3420, [10]), (3442, [10])])]

/- `loom_send_overwrite_next` (840–903). -/
#guard passes (over true) false
    [(1, [(12, [0]), (23, [0]), (32, [0]), (43, [0])]), (2, [(12, [7]), (23, [3]), (32, [7]), (43, [11])]),
      (3, [(12, [1]), (23, [7]), (32, [1]), (43, [7])])]

/- `loom_try_send_long_sequence_next_persistent` (906–963). -/
#guard passes (seqN true) false
    [(1, [(12, [5, 7]), (22, [5, 7]), (32, [5]), (42, [3]), (52, [3]), (11, [7]), (21, [5, 7]), (31, [5]),
      (41, [3, 5]), (51, [3, 5]), (10, [7]), (20, [7]), (30, [5]), (40, [5]), (50, [5])])]

/- `loom_try_send_long_sequence_try_next_persistent` (966–1024). -/
#guard passes (seqT true) false
    [(1, [(12, [5, 7]), (22, [5, 7]), (32, [5, 7]), (42, [3]), (52, [3]), (11, [7]), (21, [5, 7]), (31, [5, 7]),
      (41, [3, 5]), (51, [3, 5]), (10, [7]), (20, [7]), (30, [5, 7]), (40, [5]), (50, [5])])]

/-! With preemption at every access the programs of the tests have undefined behaviour (an access after
release, `C32_false_leave`; a slot that is written before it is read, `C32_false…`), which loom does not
see. -/

/- The programs of `loom_next` (39–70). -/
#guard (outcomes false false false (.ret 0) (poll (term 0) (fun _ => .ret 1) (.ret 2)
    (poll (term 3) (fun _ => .ret 4) (.ret 5) (.ret 6)))).2.1

/- The programs of `loom_send_overwrite_next` (840–903). -/
#guard (over false).2.1

end Verif.Ring.LoomTest
