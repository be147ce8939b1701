import Verif.Bitfield.Model
import Verif.Exec.Model
import Verif.Fib.ClosureModel
import Verif.Heap.Model
import Verif.LinkedList.Model
import Verif.Mutex.Model
import Verif.Oneshot.Model
import Verif.Soft.Model
import Verif.Stream.Model
/-!
# The unit tests of the repository, on the models

Each `#[test]` that runs code of the crate is carried out on the model of that code, with the same inputs and the same
expected results: `tests/bitfield.rs`, `tests/future.rs`, `tests/soft_threads.rs`, `tests/threads.rs` and the test modules of
`src/heap/mod.rs`, `src/stream/runtime.rs`, `src/sync/linked_list.rs` and `src/sync/mutex.rs`. The tests under loom are in the
`Loom.lean` of each area.

These are tests of the models against the expectations of the authors of the code, not proofs of properties.
-/
namespace Verif.Unit

/-! ## `tests/bitfield.rs` -/
section Bitfield
open Verif.Bitfield

/-- `read_bit`, 14–25. -/
example : (List.range 8).map (readBit 0b10101010#8) =
    [some false, some true, some false, some true, some false, some true, some false, some true] := by decide

/-- The bits 0, 7, 4, 3 one after the other, as the next three tests do. -/
def each (f : BitVec 8 → Nat → Option (BitVec 8)) : Option (BitVec 8) :=
  [0, 7, 4, 3].foldlM f 0b10101010#8

/-- `set_bit`, 27–37. -/
example : each setBit = some 0b10111011#8 := by decide
/-- `clear_bit`, 39–49. -/
example : each clearBit = some 0b00100010#8 := by decide
/-- `toggle_bit`, 51–61. -/
example : each toggleBit = some 0b00110011#8 := by decide
/-- `write_bit`, 63–73. -/
example : [(0, true), (7, false), (4, false), (3, true)].foldlM (fun x (o, b) => writeBit x o b) 0b10101010#8 =
    some 0b00101011#8 := by decide

/-- `read_bits`, 75–97. -/
example : [(0, 0), (1, 0), (2, 0), (0, 1), (1, 1), (2, 1), (3, 1), (4, 1), (5, 1), (6, 1), (7, 1), (0, 4), (1, 4), (2, 4), (3, 4),
      (4, 4), (0, 7), (1, 7), (0, 8)].map (fun (o, w) => readBits 0b10100110#8 o w) =
    [0b0, 0b0, 0b0, 0b0, 0b1, 0b1, 0b0, 0b0, 0b1, 0b0, 0b1, 0b0110, 0b0011, 0b1001, 0b0100, 0b1010, 0b0100110, 0b1010011,
      0b10100110].map some := by decide

/-- Several `write_bits` in a row. -/
def writes (x : BitVec 8) (l : List (Nat × Nat × BitVec 8)) : Option (BitVec 8) :=
  l.foldlM (fun x (o, w, v) => writeBits x o w v) x

/-- `write_bits`, 99–132. -/
example : writes 0b10100110 [(0, 0, 0b0), (1, 0, 0b1), (6, 0, 0b11), (7, 0, 0b111)] = some 0b10100110#8 ∧
    writes 0b10100110 [(0, 1, 0b1), (1, 1, 0b0), (7, 1, 0b0), (5, 1, 0b1)] = some 0b00100101#8 ∧
    writes 0b10100110 [(0, 4, 0b1001)] = some 0b10101001#8 ∧
    writes 0b10101001 [(1, 4, 0b1001)] = some 0b10110011#8 ∧
    writes 0b10110011 [(2, 4, 0b1001)] = some 0b10100111#8 ∧
    writes 0b10100111 [(3, 4, 0b1001)] = some 0b11001111#8 ∧
    writes 0b11001111 [(4, 4, 0b1001)] = some 0b10011111#8 ∧
    writes 0b10100110 [(0, 7, 0b1010011)] = some 0b11010011#8 ∧
    writes 0b11010011 [(1, 7, 0b1010011)] = some 0b10100111#8 ∧
    writes 0b00011000 [(0, 8, 0b11111111)] = some 0b11111111#8 := by decide

end Bitfield

/-! ## `src/heap/mod.rs` -/
section Heap
open Verif.Heap

/-- The sizes of the blocks of the ten pools, 212–225 and 270–283. -/
def sizes : List Nat := [2, 5, 8, 12, 16, 23, 38, 56, 72, 91]

/-- The heap of `test_binary_search`, 210–226. -/
def searched : Heap := Heap.new 8 20 (sizes.map (·, 100)) (fun _ => 0)

/-- The pools are those of the source. -/
example : searched.pools.map (fun p => (p.uninit, p.size)) =
    [(20, 2), (220, 5), (720, 8), (1520, 12), (2720, 16), (4320, 23), (6620, 38), (10420, 56), (16020, 72), (23220, 91)] := by
  decide +kernel

/-- `search_layout`, 189–198. -/
def searchLayout (size : Nat) : Option Nat := (searched.pools[poolRangeByLayout searched.pools size]?).map (·.size)

/-- `search_ptr`, 199–209. -/
def searchPtr (ptr : Nat) : Option Nat := do
  let i ← poolByPtr searched.pools searched.base ptr
  (searched.pools[i]?).map (·.size)

/-- `test_binary_search`, 187–243. -/
example : [1, 2, 15, 16, 17, 91, 92].map searchLayout = [some 2, some 2, some 16, some 16, some 23, some 91, none] ∧
    [0, 20, 219, 220, 719, 720, 721, 5000, 23220, 32319, 32320, 50000].map searchPtr =
      [none, some 2, some 2, some 5, some 5, some 8, some 8, some 23, some 91, some 91, none, none] := by
  decide +kernel

/-- `allocate_and_set`, 247–252: the address is checked by reading the value back at the expected address. -/
def allocateAndSet (h : Heap) (layout : Layout) (value : UInt8) : Option Heap :=
  match allocate h layout with
  | (h, some (ptr, _)) => some { h with mem := fun x => if x = ptr then value else h.mem x }
  | (_, none) => none

/-- The heap of `allocations`, 265–284, at address 4096. -/
def small : Heap := Heap.new 8 4096 (sizes.map (·, 10)) (fun _ => 0)

/-- `allocations`, 245–306; `o` is 4096, so the first byte of a pointer to `o + 660` is `(4096 + 660) % 256`. -/
example :
    let o := 4096
    let l : Layout := ⟨32, 1⟩
    let h1 := allocateAndSet small l 111
    let h2 := h1.bind (allocateAndSet · l 222)
    let h3 := h2.bind (allocateAndSet · l 123)
    let h4 := h3.map (deallocate · (o + 660) l)
    let h5 := h4.map (deallocate · (o + 736) l)
    let h6 := h5.bind (allocateAndSet · l 202)
    let h7 := h6.map (deallocate · (o + 698) l)
    let h8 := h7.map (deallocate · (o + 736) l)
    h1.map (·.mem (o + 660)) = some 111 ∧ h2.map (·.mem (o + 698)) = some 222 ∧ h3.map (·.mem (o + 736)) = some 123 ∧
    h4.map (·.mem (o + 660)) = some 0 ∧ h5.map (fun h => readWord h.mem (o + 736) 8) = some (o + 660) ∧
    h6.map (·.mem (o + 736)) = some 202 ∧ h7.map (fun h => readWord h.mem (o + 698) 8) = some (o + 660) ∧
    h8.map (fun h => readWord h.mem (o + 736) 8) = some (o + 698) := by
  decide +kernel

end Heap

/-! ## `src/stream/runtime.rs` -/
section Stream
open Verif.Stream

/-- `b"hello"`. -/
def hello : List UInt8 := [104, 101, 108, 108, 111]

/-- `Runtime::write` of the tests, 121–133: the result, the write cursor and the buffer. -/
def write (size read write : Nat) (stream : UInt8) (source : List UInt8) : Option (Bool × Nat × List UInt8) :=
  (transaction size read write stream source).map fun p =>
    (p.result, p.publish.getD write,
      (List.range size).map fun i => (p.stores.foldl (fun m (a, v) x => if x = a then v else m x) (fun _ => (0 : UInt8))) i)

/-- `test_biggest`, 136–144. -/
example : write 8 0 0 42 hello = some (true, 7, [42, 5] ++ hello ++ [0]) := by decide
/-- `test_overflow`, 146–150. -/
example : (write 7 0 0 0 hello).map (·.1) = some false := by decide
/-- `test_to_the_end`, 152–162. -/
example : write 11 4 4 42 hello = some (true, 0, [0, 0, 0, 0, 42, 5] ++ hello) := by decide
/-- `test_to_the_end_overflow`, 164–170. -/
example : (write 11 0 4 42 hello).map (·.1) = some false := by decide
/-- `test_in_the_middle`, 172–182. -/
example : write 11 10 2 42 hello = some (true, 9, [0, 0, 42, 5] ++ hello ++ [0, 0]) := by decide
/-- `test_wrap`, 184–192. -/
example : write 8 2 2 42 hello = some (false, 0, [0, 0, 0xFF, 0, 0, 0, 0, 0]) := by decide
/-- `test_wrap_when_read_cursor_zero`, 194–202. -/
example : write 8 0 2 42 hello = some (false, 2, [0, 0, 0, 0, 0, 0, 0, 0]) := by decide

end Stream

/-! ## `src/sync/linked_list.rs` -/
section LinkedList
open Verif.LinkedList

/-- `m.extend(&[1, 2, 3, 4, 5, 6])`. -/
def six : Option (Mem Nat) := [1, 2, 3, 4, 5, 6].foldlM push (Mem.new Nat)

/-- What `drain_filter` yields and what `into_iter` yields afterwards. -/
def drained (f : Nat → Bool) : Option (List Nat × List Nat) := do
  let m ← six
  let (deleted, _, m) ← drain (fun (_ : Unit) v => (f v, v, ())) () m
  let (left, _) ← intoIter 10 m
  return (deleted, left)

/-- `drain_filter_test`, 514–522. -/
example : drained (· < 4) = some ([3, 2, 1], [6, 5, 4]) := by decide +kernel
/-- `drain_to_empty_test`, 524–532. -/
example : drained (fun _ => true) = some ([6, 5, 4, 3, 2, 1], []) := by decide +kernel

end LinkedList

/-! ## `src/sync/mutex.rs` -/
section Mutex
open Verif.Mutex

/-- Client `p` runs until it is between calls. -/
def settle (p : Nat) : Nat → Mutex.State → Option Mutex.State
  | 0, _ => none
  | n + 1, s => if (s.client p).pc = .idle then some s else (pstep s p).bind (settle p n)

/-- Client `p` makes a call and completes it. -/
def does (p : Nat) (op : Mutex.Op) (s : Mutex.State) : Option Mutex.State := settle p 40 (Mutex.call s p op)

/-- How often a waker was woken. -/
def woken (s : Mutex.State) : Nat := (s.log.filter fun e => match e with | .woke _ _ => true | _ => false).length

/-- The last result of client `p` is that its poll is pending. -/
def lastPending (p : Nat) (s : Mutex.State) : Bool :=
  match s.log.find? (fun e => match e with | .pending q | .acquired q => q == p | _ => false) with
  | some (.pending _) => true
  | _ => false

/-- `try_lock`, 342–346. -/
example : (does 0 .tryLock Mutex.init).map (fun s => (s.client 0).guards) = some 1 := by decide +kernel

/-- `lock`, 348–383, on the two mutexes `a` and `d`. Client 0 is the test, 1 the future `f`, 2 the future `g`. The state of the
mutexes after each statement, and the asserted results. -/
example :
    let d1 := does 0 .tryLock Mutex.init
    -- `f` is polled: it locks `a` and waits for `d`
    let a2 := (does 1 .lock Mutex.init).bind (does 1 (.poll 7))
    let d2 := (d1.bind (does 1 .lock)).bind (does 1 (.poll 7))
    -- `g` is polled: it waits for `a`
    let a3 := (a2.bind (does 2 .lock)).bind (does 2 (.poll 7))
    -- `drop(d)`
    let d4 := d2.bind (does 0 .unlock)
    -- `g` is polled
    let a5 := a3.bind (does 2 (.poll 7))
    -- `f` is polled: it gets `d`, then drops both guards, that of `d` first
    let d6 := (d4.bind (does 1 (.poll 7)))
    let d7 := d6.bind (does 1 .unlock)
    let a7 := a5.bind (does 1 .unlock)
    -- `g` is polled: it gets `a`, then drops its guard
    let a8 := a7.bind (does 2 (.poll 7))
    let a9 := a8.bind (does 2 .unlock)
    let a10 := a9.bind (does 0 .tryLock)
    a2.map (fun s => (s.client 1).guards) = some 1 ∧ d2.map (lastPending 1) = some true ∧ a3.map (lastPending 2) = some true ∧
    d2.map woken = some 0 ∧ a3.map woken = some 0 ∧
    d4.map woken = some 1 ∧
    a5.map (lastPending 2) = some true ∧
    d6.map (fun s => (s.client 1).guards) = some 1 ∧ d7.map woken = some 1 ∧ a7.map woken = some 1 ∧
    a7.map (fun s => s.list.isEmpty) = some false ∧
    a8.map (fun s => (s.client 2).guards) = some 1 ∧
    a9.map (fun s => s.list.isEmpty) = some true ∧
    a10.map (fun s => (s.client 0).guards) = some 1 := by
  decide +kernel

end Mutex

/-! ## `tests/soft_threads.rs` -/
section Soft
open Verif.Soft

/-- `test_pending_size`, 43–74. -/
example : pendingSize 0 = 1 + 0 * levels ∧ pendingSize 32 = 1 + 1 * levels ∧ pendingSize 33 = 1 + 2 * levels := by decide

/-- The body that runs now. -/
def body : List Frame → Option Nat
  | .row _ (.call thr _ _ (.body _)) :: _ => some thr
  | _ => none

/-- The calls of the code run until a body runs or everything has returned. -/
def settled (count : Nat) : Nat → Soft.State → Option Soft.State
  | 0, _ => none
  | n + 1, s => if s.stack.isEmpty || (body s.stack).isSome then some s else (Soft.step count s .step).bind (settled count n)

/-- A statement of the test: `wakeup` of a thread by the body that runs, or the end of that body. -/
def stmt (a : Soft.Act) (s : Soft.State) : Option Soft.State := (Soft.step 3 s a).bind (settled 3 400)

/-- `test_priorities`, 76–115: the bodies in the order in which they run and end. The log of the test is 0 (body of `thr_0`), 3
and 4 (body of `thr_2`, which wakes `thr_1` in between and is not interrupted by it), 2 (body of `thr_1`), 1 (rest of the
body of `thr_0`); in the end every cell is 0. -/
example :
    let s0 := Soft.init (fun t => t)
    -- `thr_0.wakeup()`: the body of `thr_0` runs
    let s1 := stmt (.pend 0) s0
    -- `thr_2.wakeup()`: the body of `thr_2` runs
    let s2 := s1.bind (stmt (.pend 2))
    -- `thr_1.wakeup()`: still the body of `thr_2`
    let s3 := s2.bind (stmt (.pend 1))
    -- it ends: the body of `thr_1` runs
    let s4 := s3.bind (stmt .ret)
    -- it ends: back in the body of `thr_0`
    let s5 := s4.bind (stmt .ret)
    let s6 := s5.bind (stmt .ret)
    [s1, s2, s3, s4, s5].map (·.bind (fun s => body s.stack)) = [some 0, some 2, some 2, some 1, some 0] ∧
    s6.map (fun s => (s.stack.isEmpty, (List.range (pendingSize 3)).map s.mem)) = some (true, List.replicate (pendingSize 3) 0) := by
  decide +kernel

end Soft

/-! ## `tests/threads.rs` -/
section Fibers
open Verif.Fib

/-- The `Counter`: an `i8` and whether the fiber that owns the `Counter` has dropped it; dropping flips all bits, 47–51. -/
def seen (n : Int) (dropped : Bool) : Int := if dropped then -n - 1 else n

/-- The values of the counter after each of four drains, given what `advance` returned: a fiber that completes is dropped by
the drain of the fiber chain (`src/thr/chain.rs`), and a fiber that was dropped is not advanced again. -/
def drains {S : Type} (advance : S → S × Option Bool) (count : S → Int) : Nat → S → Bool → List Int
  | 0, _, _ => []
  | n + 1, s, true => seen (count s) true :: drains advance count n s true
  | n + 1, s, false =>
    match advance s with
    | (s, some done) => seen (count s) done :: drains advance count n s done
    | (_, none) => []

/-- `fiber_fn`, 80–97: `fetch_add(1) < 2` yields, otherwise the fiber is complete. -/
example :
    drains (FiberFn.advance (σ := Nat) (fun n => (n + 1, if n < 2 then FiberState.yielded () else .complete ())))
      (fun s => (s.calls : Int)) 4 (newFn 0) false = [1, 2, -4, -4] := by decide

/-- `fiber`, 53–78: `while fetch_add(1) < 2 { yield }`. -/
example :
    drains (Gen.advance (σ := Nat) (fun n => if n < 2 then .inl (n + 1, ()) else .inr ()))
      (fun s => (s.runs : Int)) 4 (newGen 0) false = [1, 2, -4, -4] := by decide

/-- `fiber_once`, 99–113. -/
example : drains (FiberOnce.advance (σ := Unit) (fun _ => ())) (fun s => (s.calls : Int)) 2 (newOnce ()) false = [-2, -2] := by
  decide

end Fibers

/-! ## `tests/future.rs` -/
section Future
open Verif.Oneshot

/-- The sender runs until it is between calls or gone. -/
def txSettle : Nat → Oneshot.State Nat → Option (Oneshot.State Nat)
  | 0, _ => none
  | n + 1, s =>
    match s.spc with
    | .idle | .gone => some s
    | _ => (Oneshot.step s .sStep).bind (txSettle n)

/-- The receiver runs until it is between calls or gone. -/
def rxSettle : Nat → Oneshot.State Nat → Option (Oneshot.State Nat)
  | 0, _ => none
  | n + 1, s =>
    match s.rpc with
    | .idle | .gone => some s
    | _ => (Oneshot.step s .rStep).bind (rxSettle n)

/-- `tx.send(n)`. -/
def send (n : Nat) (s : Oneshot.State Nat) : Option (Oneshot.State Nat) := (Oneshot.step s (.sCall (.send n))).bind (txSettle 20)

/-- A poll of the receiver. -/
def poll (s : Oneshot.State Nat) : Option (Oneshot.State Nat) := (Oneshot.step s (.rCall (.poll 7))).bind (rxSettle 20)

/-- How often the waker of the receiver was woken. -/
def rxWoken (s : Oneshot.State Nat) : Nat := (s.log.filter fun e => match e with | .wakeRx _ => true | _ => false).length

/-- The result of the last poll: `none` is `Pending`; the block adds one to the number. -/
def lastPoll (s : Oneshot.State Nat) : Option (Option Nat) :=
  s.log.findSome? fun e => match e with | .recv n => some (some (n + 1)) | .pending _ => some none | _ => none

/-- `test_await`, 40–52. -/
example : let s := (send 1 (Oneshot.init Nat)).bind poll
    s.map (fun s => (decide (.sendOk ∈ s.log), lastPoll s)) = some (true, some (some 2)) := by decide +kernel

/-- `test_nested`, 54–77. The `async` blocks around the receiver pass the polls on. -/
example :
    let s1 := poll (Oneshot.init Nat)
    let s2 := s1.bind poll
    let s3 := s2.bind (send 1)
    let s4 := s3.bind poll
    s1.map (fun s => (lastPoll s, rxWoken s)) = some (some none, 0) ∧ s2.map (fun s => (lastPoll s, rxWoken s)) = some (some none, 0) ∧
    s3.map (fun s => (decide (.sendOk ∈ s.log), rxWoken s)) = some (true, 1) ∧
    s4.map (fun s => (lastPoll s, rxWoken s)) = some (some (some 2), 1) := by decide +kernel

end Future

end Verif.Unit
