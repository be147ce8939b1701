import Verif.Loom.Explore
import Verif.Pulse.Model
/-! # The loom tests of the pulse channel, on the model (`tests/loom_spsc_pulse.rs`) -/
namespace Verif.Pulse.LoomTest

open Verif.Loom

abbrev N := 58
abbrev S := State N Nat
abbrev Ev := Event Nat
abbrev TProg := Prog (SOp N Nat) Ev
abbrev RProg := Prog ROp Ev

/-- Results of calls of the sender. -/
def isTx : Ev → Bool
  | .send _ _ | .sat _ _ | .errOk | .errReturned _ | .cancelReady | .cancelPending _ | .isCanceled _ => true
  | _ => false

/-- Results of calls of the receiver. -/
def isRx : Ev → Bool
  | .recv _ | .recvErr _ | .ended | .empty | .pending _ | .terminated _ | .closed => true
  | _ => false

/-- The next action of the sender. At the end of its program the sender is dropped, unless `keep`. -/
def txAct (keep : Bool) (joined : Bool) (p : TProg) (s : S) : Option (Act N Nat) :=
  match s.spc with
  | .gone => none
  | .idle => match p.next joined (s.log.reverse.filter isTx) with
    | .op o => some (.sCall o)
    | .join => none
    | .fin _ => if keep then none else some (.sCall .drop)
  | _ => some .sStep

/-- The next action of the receiver. -/
def rxAct (keep : Bool) (joined : Bool) (p : RProg) (s : S) : Option (Act N Nat) :=
  match s.rpc with
  | .gone => none
  | .idle => match p.next joined (s.log.reverse.filter isRx) with
    | .op o => some (.rCall o)
    | .join => none
    | .fin _ => if keep then none else some (.rCall .drop)
  | _ => some .rStep

/-- Both programs in all interleavings. -/
def acts (kt kr : Bool) (t : TProg) (r : RProg) (s : S) : List (Act N Nat) :=
  let t1 := txAct kt false t s
  let r1 := rxAct kr false r s
  let t2 := if r1.isNone then txAct kt true t s else t1
  let r2 := if t1.isNone then rxAct kr true r s else r1
  t2.toList ++ r2.toList

/-- The counter of a waker. -/
def rxCounter (s : S) : Nat :=
  (s.log.map fun e => match e with
    | .storeRx _ => 100 | .wakeRx _ => 1 | .wakeRefRx _ => 1 | .dropRx _ => 10000 | _ => 0).sum

def txCounter (s : S) : Nat :=
  (s.log.map fun e => match e with | .storeTx _ => 100 | .wakeTx _ => 1 | .dropTx _ => 10000 | _ => 0).sum

/-- The counter of the error. -/
def dataCounter (s : S) : Nat :=
  (s.log.map fun e => match e with | .recvErr _ => 10 | .errReturned _ => 10 | .dropErr _ => 1 | _ => 0).sum

/-- Sort the log: the results of the sender, of the receiver, then the rest. The steps do not read
the log, so this only merges states. -/
def sortLog (l : List Ev) : List Ev :=
  l.filter isTx ++ l.filter isRx ++
    (l.filter fun e => match e with | .storeRx _ => true | _ => false) ++
    (l.filter fun e => match e with | .wakeRx _ | .wakeRefRx _ => true | _ => false) ++
    (l.filter fun e => match e with | .dropRx _ => true | _ => false) ++
    (l.filter fun e => match e with | .storeTx _ => true | _ => false) ++
    (l.filter fun e => match e with | .wakeTx _ => true | _ => false) ++
    (l.filter fun e => match e with | .dropTx _ => true | _ => false) ++
    (l.filter fun e => match e with | .dropErr _ => true | _ => false)

/-- A step, with the log sorted. -/
def nstep (s : S) (a : Act N Nat) : Option S := (step s a).map fun s => { s with log := sortLog s.log }

/-- The results of a test: the sum of the two return values, then the counters; whether undefined
behaviour is possible; whether the exploration is complete. -/
def outcomes (kt kr : Bool) (t : TProg) (r : RProg) : List (List Nat) × Bool × Bool :=
  match explore id nstep (acts kt kr t r) 300 [init N Nat] with
  | (f, u, c) =>
    ((f.map fun s =>
      [(t.result (s.log.reverse.filter isTx)).getD 99999 + (r.result (s.log.reverse.filter isRx)).getD 99999,
        txCounter s, rxCounter s, dataCounter s]).eraseDups, u, c)

def term (n : Nat) : RProg := .call .isTerminated fun e => match e with | .terminated true => .ret n | _ => .ret 5555
def canc (n : Nat) : TProg := .call .isCanceled fun e => match e with | .isCanceled true => .ret n | _ => .ret 5555

def poll (c : RProg) (v : Nat → RProg) (x p : RProg) : RProg :=
  .call (.pollNext 7) fun e => match e with
    | .ended => c | .recv n => v n | .recvErr _ => x | .pending _ => p | _ => .ret 7777
def pollC (r p : TProg) : TProg :=
  .call (.pollCanceled 8) fun e => match e with | .cancelReady => r | .cancelPending _ => p | _ => .ret 7777
def errP (o e : Nat) : TProg :=
  .call (.sendErr 314) fun x => match x with | .errOk => .ret o | .errReturned _ => .ret e | _ => .ret 7777
def sendP (n : Word N) (o e : TProg) : TProg :=
  .call (.send n) fun x => match x with | .send _ .ok => o | .send _ _ => e | _ => .ret 7777
def satP (n : Word N) (o e : TProg) : TProg :=
  .call (.sat n) fun x => match x with | .sat _ .ok => o | .sat _ _ => e | _ => .ret 7777
def tryP (c : RProg) (v : Nat → RProg) (x m : RProg) : RProg :=
  .call .tryNext fun e => match e with
    | .ended => c | .recv n => v n | .recvErr _ => x | .empty => m | _ => .ret 7777
def closeP (k : RProg) : RProg := .call .close fun e => match e with | .closed => k | _ => .ret 7777

/-- `if !rx.is_terminated() { … }` -/
def unlessT (n : Nat) (k : RProg) : RProg :=
  .call .isTerminated fun e => match e with | .terminated true => .ret n | _ => k

def cap : Nat := 2 ^ 59

/-- The number, as in the `match` of the tests. -/
def cls (a b n u : Nat) : Nat := if n = a then 2 * u else if n = b then 3 * u else if n = a + b then 4 * u else 5 * u
def clsS (n u : Nat) : Nat :=
  if n = 11 then 2 * u else if n = cap - 7 then 3 * u else if n = cap - 1 then 4 * u else 5 * u
def clsO (n u : Nat) : Nat :=
  if n = 11 then 2 * u else if n = cap - 7 then 3 * u else 4 * u

def pollV (c : Nat → Nat → Nat) (u acc : Nat) (k : Nat → RProg) : RProg :=
  poll (k (acc + 1 * u)) (fun n => k (acc + c n u)) (k (acc + 6 * u)) (k (acc + 7 * u))

def three (c : Nat → Nat → Nat) : RProg :=
  pollV c 100 0 fun a => .call .isTerminated fun e => match e with
    | .terminated true => .join (unlessT a (pollV c 1 a .ret))
    | _ => pollV c 10 a fun b => .join (unlessT b (pollV c 1 b .ret))

def pollO (u acc : Nat) (k : Nat → RProg) : RProg :=
  poll (k (acc + 1 * u)) (fun n => k (acc + clsO n u)) (k (acc + 5 * u)) (k (acc + 6 * u))

def four (c : Nat → Nat → Nat) : RProg :=
  let two (a : Nat) : RProg := .join (.call .isTerminated fun e => match e with
    | .terminated true => unlessT a (pollV c 1 a .ret)
    | _ => pollV c 10 a fun b => unlessT b (pollV c 1 b .ret))
  pollV c 1000 0 fun a => .call .isTerminated fun e => match e with
    | .terminated true => two a
    | _ => pollV c 100 a two

/-- Send a sequence of values. -/
def sendAll : List (Word N) → TProg
  | [] => .ret 0
  | n :: l => sendP n (sendAll l) (.ret 5555)

/-- `while !rx.is_terminated() { sum += … }`, at most `fuel` times. -/
def drain (once : (Nat → RProg) → RProg) : Nat → Nat → RProg
  | 0, _ => .ret 7777
  | f + 1, acc => .call .isTerminated fun e => match e with
    | .terminated true => .ret acc
    | _ => once fun n => drain once f (acc + n)

/-- `poll_next` in the sequence tests. -/
def onceP (k : Nat → RProg) : RProg := poll (.ret 5555) k (.ret 5555) (k 0)
/-- `try_next` in the sequence tests. -/
def onceT (k : Nat → RProg) : RProg := tryP (.ret 5555) k (.ret 5555) (k 0)

/-! Each test: the programs, whether undefined behaviour is possible on the model, and the state maps
of the test (1: `tx_states`, 2: `rx_states`, 3: `data_states`, `err_states`; 0: the result itself). A
thread drops its end when it ends, unless the test keeps the end (`true` in `outcomes`). Results 5555
and 7777 are a failed assertion and an unexpected event. The possible undefined behaviour is the access
after release of `C28_memory_false…` (loom does not see it: it tracks only the state word). -/

/- `loom_drop` (14–22). -/
#guard passes (outcomes false false (.ret 0) (.ret 0)) false
    []

/- `loom_try_next` (25–36). -/
#guard passes (outcomes false false (.ret 0) (tryP (.ret 0) (fun _ => .ret 5) (.ret 5) (.ret 0))) false
    []

/- `loom_next` (39–70). -/
#guard passes (outcomes false false (.ret 0) (poll (term 0) (fun _ => .ret 1) (.ret 2) (poll (term 3)
      (fun _ => .ret 4) (.ret 5) (.ret 6)))) true
    [(2, [(0, [0, 10100]), (3, [101]), (6, [101, 10100])])]

/- `loom_cancellation` (73–101). -/
#guard passes (outcomes false false (pollC (canc 0) (pollC (canc 1) (.ret 2))) (.ret 0)) true
    [(1, [(0, [0, 10100]), (1, [101]), (2, [101, 10100])])]

/- `loom_cancellation_persistent` (104–144). -/
#guard passes (outcomes true false (pollC (canc 0) (pollC (canc 1) (.join (pollC (canc 2) (.ret 3))))) (.ret 0)) false
    [(1, [(0, [0, 10100]), (1, [101]), (2, [101])])]

/- `loom_close_cancellation` (147–175). -/
#guard passes (outcomes false false (pollC (canc 0) (pollC (canc 1) (.ret 2))) (closeP (.ret 0))) false
    [(1, [(0, [0, 10100]), (1, [101]), (2, [101, 10100])])]

/- `loom_close_cancellation_persistent` (178–222). -/
#guard passes (outcomes true true (pollC (canc 0) (pollC (canc 1) (.join (pollC (canc 2) (.ret 3))))) (closeP
      (.ret 0))) false
    [(1, [(0, [0, 10100]), (1, [101]), (2, [101])])]

/- `loom_send_err_next` (225–274). -/
#guard passes (outcomes false false (errP 10 20) (poll (.ret 0) (fun _ => .ret 1) (term 2) (poll (.ret 3)
      (fun _ => .ret 4) (term 5) (.ret 6)))) true
    [(2, [(12, [0, 10100]), (15, [101]), (16, [101]), (26, [10100])]), (3, [(12, [10]), (15, [10]), (16, [1]),
      (26, [10])])]

/- `loom_send_err_next_persistent` (277–338). -/
#guard passes (outcomes false true (errP 10 20) (poll (.ret 0) (fun _ => .ret 1) (term 2) (poll (.ret 3)
      (fun _ => .ret 4) (term 5) (.join (poll (.ret 6) (fun _ => .ret 7) (term 8) (.ret 9)))))) false
    [(2, [(12, [0, 10100]), (15, [101]), (18, [101])]), (3, [(12, [10]), (15, [10]), (18, [10])])]

/- `loom_send_send_next_persistent` (341–401). -/
#guard passes (outcomes false true (sendP 11 (sendP 13 (.ret 1000) (.ret 2000)) (.ret 3000)) (three
      (cls 11 13))) false
    [(2, [(1273, [102]), (1230, [0, 101, 102, 10100]), (1400, [0, 101, 10100]), (1410, [0, 101, 10100]),
      (1470, [101]), (1723, [103]), (1740, [103]), (1774, [103])])]

/- `loom_send_saturating_send_next_persistent` (404–464). -/
#guard passes (outcomes false true (sendP 11 (satP (BitVec.ofNat _ (cap - 7)) (.ret 1000) (.ret 2000)) (.ret 3000))
      (three clsS)) false
    [(2, [(1273, [102]), (1230, [0, 101, 102, 10100]), (1400, [0, 101, 10100]), (1410, [0, 101, 10100]),
      (1470, [101]), (1723, [103]), (1740, [103]), (1774, [103])])]

/- `loom_send_overflowing_send_next_persistent` (467–513). -/
#guard passes (outcomes false false (sendP 11 (sendP (BitVec.ofNat _ (cap - 7)) (.ret 100) (.ret 200)) (.ret 300))
      (pollO 10 0 fun a => unlessT a (pollO 1 a .ret))) true
    [(2, [(123, [0, 101, 102, 10100, 10101]), (126, [102, 10101]), (162, [103, 10102]), (220, [0, 101, 10100]),
      (221, [0, 101, 10100]), (226, [101, 10100]), (262, [102, 10101]), (266, [102, 10101]), (366, [10100])])]

/- `loom_send_send_send_err_next_persistent` (516–607). -/
#guard passes (outcomes false true (sendP 11 (sendP 13 (errP 10000 20000) (.ret 30000)) (.ret 40000)) (four
      (cls 11 13))) false
    [(2, [(12360, [0, 101, 102, 10100]), (12736, [102]), (14600, [0, 101, 10100]), (14760, [101]), (17236, [103]),
      (17460, [103]), (17746, [103])]), (3, [(12360, [10]), (12736, [10]), (14600, [10]), (14760, [10]),
      (17236, [10]), (17460, [10]), (17746, [10])])]

/- `loom_send_err_close_next` (610–652). -/
#guard passes (outcomes false false (errP 10 20) (closeP (poll (term 0) (fun _ => .ret 1) (term 2) (.ret 3)))) true
    [(2, [(12, [0]), (20, [0])]), (3, [(12, [10]), (20, [10])])]

/- `loom_send_err_try_next` (655–683). -/
#guard passes (outcomes false false (errP 10 20) (tryP (.ret 0) (fun _ => .ret 1) (.ret 2) (.ret 3))) false
    [(3, [(12, [10]), (13, [1]), (23, [10])])]

/- `loom_send_err_try_next_persistent` (686–726). -/
#guard passes (outcomes false true (errP 10 20) (tryP (.ret 0) (fun _ => .ret 1) (.ret 2) (.join (tryP (.ret 3)
      (fun _ => .ret 4) (.ret 5) (.ret 6))))) false
    [(3, [(12, [10]), (15, [10])])]

/- `loom_send_err_close_try_next` (729–759). -/
#guard passes (outcomes false false (errP 10 20) (closeP (tryP (.ret 0) (fun _ => .ret 1) (.ret 2) (.ret 3)))) true
    [(3, [(12, [10]), (20, [10])])]

/- `loom_next_cancellation` (762–800). The value 0 of key 23 is not in the map of the test: the
thread of the receiver runs first, and the first load of the sender finds the channel closed, so that no
waker is stored. -/
#guard passes (outcomes false false (pollC (.ret 20) (.ret 10)) (poll (term 0) (fun _ => .ret 1) (.ret 2)
      (.ret 3))) true
    [(1, [(13, [101, 10100]), (10, [10100]), (23, [10100, 0])]), (2, [(13, [101, 10100]), (10, [0, 10100]),
      (23, [10100])])]

/- `loom_send_long_sequence_next_persistent` (803–826). -/
#guard passes (outcomes false true (sendAll [1, 3, 5, 7, 11, 13]) (onceP fun n => .join (drain onceP 5 n))) false
    [(0, [(40, [40])])]

/- `loom_send_long_sequence_try_next_persistent` (829–853). -/
#guard passes (outcomes false true (sendAll [1, 3, 5, 7, 11, 13]) (onceT fun n => .join (drain onceT 5 n))) false
    [(0, [(40, [40])])]

end Verif.Pulse.LoomTest
