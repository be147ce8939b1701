/-!
# Model of the debug stream: `src/stream/runtime.rs`, `src/stream/mod.rs`

Constants of the external crate `drone-stream` (not in `/repo`) that the code
uses: `HEADER_LENGTH = 2` (visible in the unit tests, `runtime.rs` 137–144),
`STREAM_COUNT = 32` (the enable mask is a `u32` indexed by the stream number,
`runtime.rs` 21).

The `u32` cursors are `Nat`; additions never exceed `buffer_size` on the paths
where they are performed, and the one subtraction that could underflow is an
explicit panic (`none`).
-/
namespace Verif.Stream

/-- `drone_stream::HEADER_LENGTH`. -/
def headerLength : Nat := 2

/-- `drone_stream::STREAM_COUNT`. -/
def streamCount : Nat := 32

/-- `DEFAULT_TRANSACTION_LENGTH`, `src/stream/runtime.rs` 7. -/
def defaultTransactionLength : Nat := 64

/-- Byte memory of the stream buffer (address 0 = first byte after the
`Runtime` structure). -/
abbrev Mem := Nat → UInt8

/-- What one run of `Transaction::write` is going to do after it has read the
cursors: byte stores in order, then optionally the store of the write cursor,
and the returned value. -/
structure Plan where
  stores : List (Nat × UInt8)
  publish : Option Nat
  result : Bool
deriving Repr, DecidableEq

/-- The byte stores of `runtime.rs` 92–94: stream number, length, payload. -/
def frameStores (cursor : Nat) (stream : UInt8) (source : List UInt8) : List (Nat × UInt8) :=
  (cursor, stream) :: (cursor + 1, UInt8.ofNat source.length) ::
    source.mapIdx (fun i b => (cursor + 2 + i, b))

/-- `Transaction::write`, `src/stream/runtime.rs` 76–104. `none` = panic on
subtraction overflow (line 81). -/
def transaction (bufferSize readCursor writeCursor : Nat) (stream : UInt8)
    (source : List UInt8) : Option Plan :=
  let wrapped := decide (writeCursor ≥ readCursor)
  let limit := if wrapped then bufferSize else readCursor
  if limit < writeCursor then none
  else
    let available := limit - writeCursor
    let frameLength := source.length + headerLength
    if available ≥ frameLength then
      let next := writeCursor + frameLength
      let next := if next = bufferSize then 0 else next
      if next = readCursor then some { stores := [], publish := none, result := false }
      else some { stores := frameStores writeCursor stream source, publish := some next,
                  result := true }
    else if wrapped && readCursor != 0 then
      some { stores := [(writeCursor, 0xFF)], publish := some 0, result := false }
    else some { stores := [], publish := none, result := false }

/-! ### Writers and the probe, interleaved

Writers run `Transaction::write` with interrupts disabled
(`runtime.rs` 46–57), so at most one is in progress; between any two of its
memory accesses the debug probe (a bus master outside the CPU) may run. -/

/-- A transaction in progress. -/
structure Writer where
  stream : UInt8
  source : List UInt8
  plan : Plan
deriving Repr, DecidableEq

/-- `Runtime` (`buffer_size`, `read_cursor`, `write_cursor`), the buffer behind
it, and the transaction in progress. -/
structure State where
  size : Nat
  read : Nat
  write : Nat
  buf : Mem
  writer : Option Writer

/-- Observable events. -/
inductive Event where
  /-- `Transaction::write` returned `true` for this transaction -/
  | accepted (stream : UInt8) (payload : List UInt8)
  /-- `Transaction::write` returned `false` (the caller's loop retries) -/
  | rejected
  /-- the probe obtained a transaction -/
  | received (stream : UInt8) (payload : List UInt8)
  /-- the writing context panicked -/
  | panicked
deriving Repr, DecidableEq

/-- Scheduler choices. -/
inductive Act where
  /-- a context starts one attempt of `write_transaction` (`runtime.rs` 45–57):
  `Stream::new` asserts the stream number (`mod.rs` 139–142), the length is a
  `u8` (`mod.rs` 174), then both cursors are read. -/
  | begin (stream : UInt8) (source : List UInt8)
  /-- next memory access of the transaction in progress -/
  | wstep
  /-- the probe looks at the buffer once -/
  | consume
deriving Repr, DecidableEq

/-- The debug probe. It is not part of `/repo`; this is the protocol the writer
implies: equal cursors mean empty, `0xFF` in place of a stream number means
"continue at the start of the buffer" (`runtime.rs` 98–101), otherwise a frame
`[stream, length, payload…]` follows and the cursor wraps at the end. -/
def probe (size r w : Nat) (buf : Mem) : Nat × List Event :=
  if r = w then (r, [])
  else if buf r = 0xFF then (0, [])
  else
    let len := (buf (r + 1)).toNat
    let next := r + headerLength + len
    ((if next = size then 0 else next),
      [.received (buf r) ((List.range len).map (fun i => buf (r + 2 + i)))])

/-- One step of the combined system. -/
def step (s : State) : Act → State × List Event
  | .begin stream source =>
    match s.writer with
    | some _ => (s, [])            -- interrupts are disabled: nobody else can start
    | none =>
      if streamCount ≤ stream.toNat ∨ 255 < source.length then (s, [.panicked])
      else
        match transaction s.size s.read s.write stream source with
        | none => (s, [.panicked])
        | some plan => ({ s with writer := some { stream, source, plan } }, [])
  | .wstep =>
    match s.writer with
    | none => (s, [])
    | some wr =>
      match wr.plan.stores with
      | (a, v) :: rest =>
        ({ s with buf := fun i => if i = a then v else s.buf i,
                  writer := some { wr with plan := { wr.plan with stores := rest } } }, [])
      | [] =>
        ({ s with write := wr.plan.publish.getD s.write, writer := none },
          [if wr.plan.result then .accepted wr.stream wr.source else .rejected])
  | .consume =>
    let (r, es) := probe s.size s.read s.write s.buf
    ({ s with read := r }, es)

/-- A schedule, collecting the events. -/
def run (s : State) : List Act → State × List Event
  | [] => (s, [])
  | a :: as =>
    let (s', e) := step s a
    let (s'', es) := run s' as
    (s'', e ++ es)

/-- After `init` without bootstrap (`src/stream/mod.rs` 69): both cursors 0,
arbitrary buffer contents. -/
def init (size : Nat) (buf : Mem) : State :=
  { size, read := 0, write := 0, buf, writer := none }

/-- All memory accesses of one attempt, uninterrupted. -/
def attempt (s : State) (stream : UInt8) (source : List UInt8) : State × List Event :=
  run s (.begin stream source :: List.replicate (source.length + 3) .wstep)

/-! ### Splitting of long writes -/

/-- `write_bytes`, `src/stream/runtime.rs` 28–37: the sources handed to
`write_transaction`, in order. -/
def writeBytes (bytes : List UInt8) : List (List UInt8) :=
  if h : bytes.length > defaultTransactionLength then
    bytes.take defaultTransactionLength :: writeBytes (bytes.drop defaultTransactionLength)
  else if bytes.length > 0 then [bytes] else []
termination_by bytes.length
decreasing_by simp [defaultTransactionLength] at *; omega

/-- `Stream::write_transaction`, `src/stream/mod.rs` 172–177: `none` = panic
because the length does not fit the `u8` parameter. -/
def writeTransaction (bytes : List UInt8) : Option (List UInt8) :=
  if bytes.length ≤ 255 then some bytes else none

/-! ### Bootstrap -/

/-- Memory seen by `init`: the runtime structure, the buffer behind it, and the
global runtime, as bytes. -/
structure BootMem where
  rt : List UInt8
  buffer : List UInt8
  globalRt : List UInt8
deriving Repr, DecidableEq

/-- The comparison loop `src/stream/mod.rs` 43–50; returns the remaining
`counter` and the remaining buffer. -/
def matchSeq : List UInt8 → List UInt8 → Nat × List UInt8
  | buffer, [] => (0, buffer)
  | [], s :: ss => ((s :: ss).length, [])
  | b :: bs, s :: ss => if b = s then matchSeq bs ss else ((s :: ss).length, b :: bs)

/-- Little-endian bytes of a `u32`. -/
def le32 (x : Nat) : List UInt8 :=
  [UInt8.ofNat x, UInt8.ofNat (x / 256), UInt8.ofNat (x / 65536), UInt8.ofNat (x / 16777216)]

/-- `stream::init`, `src/stream/mod.rs` 36–72. `rt` has 12 bytes (three `u32`);
`seq` is the external constant `BOOTSTRAP_SEQUENCE`. `none` = the copy would
read past the end of the buffer (undefined behaviour). -/
def boot (seq : List UInt8) (m : BootMem) (bufferSize : Nat) (initGlobal : Bool) :
    Option BootMem :=
  let (counter, rest) := matchSeq m.buffer seq
  if counter = 0 then
    if rest.length < m.rt.length + (if initGlobal then m.globalRt.length else 0) then none
    else
      some { rt := rest.take m.rt.length
             globalRt := if initGlobal then (rest.drop m.rt.length).take m.globalRt.length
                         else m.globalRt
             buffer := m.buffer.set 0 0 }
  else
    some { rt := le32 bufferSize ++ le32 0 ++ le32 0
           globalRt := if initGlobal then List.replicate m.globalRt.length 0 else m.globalRt
           buffer := m.buffer }

/-- `is_enabled`, `src/stream/runtime.rs` 20–22. `none` = shift overflow. -/
def isEnabled (mask : BitVec 32) (stream : Nat) : Option Bool :=
  if stream < 32 then some ((mask &&& (1#32 <<< stream)) != 0#32) else none

end Verif.Stream
