import Verif.Heap.Spec
/-!
# Model of heap tracing: `src/heap/trace.rs` and `macros/src/heap.rs`

The stream transport is `Verif.Stream`; here a message is the byte string handed
to `write_transaction`. The trace stream is enabled (`is_enabled` guards every
function, `src/heap/trace.rs` 13, 26, 39, 52). Little-endian target with `W ≥ 4`
bytes per word; on a big-endian target only the size words differ.
-/
namespace Verif.Heap

/-- Native (little-endian) bytes of a word. -/
def leBytes : Nat → Nat → List UInt8
  | 0, _ => []
  | W + 1, v => UInt8.ofNat (v % 256) :: leBytes W (v / 256)

/-- Bytes of `op_usize.to_be()` in memory: most significant byte first. -/
def beBytes (W v : Nat) : List UInt8 := (leBytes W v).reverse

/-- `trace::allocate`, `src/heap/trace.rs` 9–11. -/
def traceAllocate (W : Nat) (layout : Layout) : List UInt8 :=
  (beBytes W 0 ++ leBytes W layout.size).drop 3

/-- `trace::deallocate`, `src/heap/trace.rs` 22–24. -/
def traceDeallocate (W : Nat) (layout : Layout) : List UInt8 :=
  (beBytes W 1 ++ leBytes W layout.size).drop 3

/-- `trace::grow`, `src/heap/trace.rs` 35–37. -/
def traceGrow (W : Nat) (old new : Layout) : List UInt8 :=
  (beBytes W 2 ++ leBytes W old.size ++ leBytes W new.size).drop 3

/-- `trace::shrink`, `src/heap/trace.rs` 48–50. -/
def traceShrink (W : Nat) (old new : Layout) : List UInt8 :=
  (beBytes W 3 ++ leBytes W old.size ++ leBytes W new.size).drop 3

/-- Messages of one call of the generated `Allocator` (`macros/src/heap.rs`
207–310): traced before the call, whatever its outcome; `allocate_zeroed`
(223–234) and `grow_zeroed` (272–288) are not traced. A request the client may
not make is not made (as in `step`). -/
def messages (W : Nat) (s : Sys) : Op → List (List UInt8)
  | .alloc l => [traceAllocate W l]
  | .allocZeroed _ => []
  | .dealloc i l =>
    match s.live[i]? with
    | some b => if b.fits l then [traceDeallocate W l] else []
    | none => []
  | .grow i old new =>
    match s.live[i]? with
    | some b => if b.fits old ∧ old.size ≤ new.size then [traceGrow W old new] else []
    | none => []
  | .growZeroed _ _ _ => []
  | .shrink i old new =>
    match s.live[i]? with
    | some b => if b.fits old ∧ new.size ≤ old.size then [traceShrink W old new] else []
    | none => []
  | .write _ _ => []

/-- Messages of a history. -/
def messagesRun (W : Nat) (s : Sys) : List Op → List (List UInt8)
  | [] => []
  | op :: ops =>
    messages W s op ++
      match step s op with
      | none => []
      | some s' => messagesRun W s' ops

/-! ### What a host makes of the messages -/

/-- A traced size change. -/
inductive Event where
  | alloc (size : Nat)
  | dealloc (size : Nat)
  | grow (old new : Nat)
  | shrink (old new : Nat)
deriving Repr, DecidableEq

/-- Value of little-endian bytes. -/
def leValue : List UInt8 → Nat
  | [] => 0
  | b :: bs => b.toNat + 256 * leValue bs

/-- Decoder for a target with `W`-byte words: an operation byte (after `W - 4`
padding bytes) and one or two words. -/
def decode (W : Nat) (msg : List UInt8) : Option Event :=
  match msg.drop (W - 4) with
  | [] => none
  | op :: rest =>
    if op = 0 ∧ rest.length = W then some (.alloc (leValue rest))
    else if op = 1 ∧ rest.length = W then some (.dealloc (leValue rest))
    else if op = 2 ∧ rest.length = 2 * W then
      some (.grow (leValue (rest.take W)) (leValue (rest.drop W)))
    else if op = 3 ∧ rest.length = 2 * W then
      some (.shrink (leValue (rest.take W)) (leValue (rest.drop W)))
    else none

/-- Change of the number of live bytes. -/
def Event.delta : Event → Int
  | .alloc n => (n : Int)
  | .dealloc n => -(n : Int)
  | .grow old new => (new : Int) - (old : Int)
  | .shrink old new => (new : Int) - (old : Int)

/-- Number of live bytes according to the trace. -/
def tracedLive (W : Nat) (msgs : List (List UInt8)) : Int :=
  (msgs.map fun m => match decode W m with | some e => e.delta | none => 0).sum

/-- Number of live bytes (as requested). -/
def realLive (s : Sys) : Int := (s.live.map fun b => (b.req : Int)).sum

/-- The request is traced, is made with the exact layout, fits a word, and does
not run out of memory. -/
def Clean (W : Nat) (s : Sys) : Op → Prop
  | .alloc l => l.size < 256 ^ W ∧ (allocate s.heap l).2 ≠ none
  | .allocZeroed _ => False
  | .dealloc i l => l.size < 256 ^ W ∧ ∃ b, s.live[i]? = some b ∧ l.size = b.req ∧ b.fits l
  | .grow i old new => old.size < 256 ^ W ∧ new.size < 256 ^ W ∧ old.size ≤ new.size ∧
      (∃ b, s.live[i]? = some b ∧ old.size = b.req ∧ b.fits old) ∧ (allocate s.heap new).2 ≠ none
  | .growZeroed _ _ _ => False
  | .shrink i old new => old.size < 256 ^ W ∧ new.size < 256 ^ W ∧ new.size ≤ old.size ∧
      (∃ b, s.live[i]? = some b ∧ old.size = b.req ∧ b.fits old) ∧ (allocate s.heap new).2 ≠ none
  | .write _ _ => True

/-- All requests of the history are clean. -/
def CleanRun (W : Nat) (s : Sys) : List Op → Prop
  | [] => True
  | op :: ops => Clean W s op ∧ match step s op with | none => True | some s' => CleanRun W s' ops

end Verif.Heap
