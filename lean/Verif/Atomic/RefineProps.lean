import Verif.Atomic.RefineOneshot
import Verif.Atomic.RefinePulse
import Verif.Atomic.RefineRing
import Verif.Atomic.RefineSoft
/-! # C68: one update is one step

With feature `atomics` an update is a load and a loop of compare-exchanges, each of which
may fail. Whatever other contexts do in between, the channels and the thread pool have
exactly the outcomes of the models that make an update in one step (`none`: undefined
behaviour). So what is proved of those models holds for the program with loops, and what is
refuted there fails there. -/
namespace Verif.Atomic.Refine

/-- **C68, oneshot channel.** -/
theorem C68_oneshot (α : Type) (r : Option (Oneshot.State α)) :
    (∃ cs, (fineRun (Oneshot.Cas.machine α) (start (Oneshot.init α)) cs).map (·.s) = r) ↔
    ∃ as, Oneshot.run (Oneshot.init α) as = r := by
  rw [same_outcomes (Oneshot.Cas.lawful α)]
  simp only [Oneshot.Cas.machine_run]

/-- A lost race: the sender has loaded the word when `close` completes. Its first
compare-exchange fails, so does the second (spuriously), the third succeeds and the
value is given back. -/
example : ((fineRun (Oneshot.Cas.machine Nat) (start (Oneshot.init Nat))
    [.go (.sCall (.send 7)) false, .go .sStep false, .go .sStep false,
     .go (.rCall .close) false, .go .rStep false, .go .rStep false,
     .go .sStep false, .go .sStep true, .go .sStep false, .go .sStep false]).map (·.s.log))
      = some [.sendErr 7, .closed, .sendCall 7] := by decide

/-- **C68, pulse channel.** -/
theorem C68_pulse (n : Nat) (ε : Type) (r : Option (Pulse.State n ε)) :
    (∃ cs, (fineRun (Pulse.Cas.machine n ε) (start (Pulse.init n ε)) cs).map (·.s) = r) ↔
    ∃ as, Pulse.run (Pulse.init n ε) as = r := by
  rw [same_outcomes (Pulse.Cas.lawful n ε)]
  simp only [Pulse.Cas.machine_run]

/-- Two sends of pulses; `try_next` has loaded the word before the second. -/
example : ((fineRun (Pulse.Cas.machine 10 Nat) (start (Pulse.init 10 Nat))
    [.go (.sCall (.send 3)) false, .go .sStep false, .go .sStep false,
     .go (.rCall .tryNext) false, .go .rStep false,
     .go (.sCall (.send 4)) false, .go .sStep false, .go .sStep false,
     .go .rStep false, .go .rStep false]).map (·.s.log))
      = some [.recv 7, .send 4 .ok, .send 3 .ok] := by decide

/-- **C68, ring channel.** -/
theorem C68_ring (k : Nat) (τ ε : Type) (cap : Nat) (r : Option (Ring.State k τ ε)) :
    (∃ cs, (fineRun (Ring.Cas.machine k τ ε cap) (start (Ring.init k τ ε)) cs).map (·.s) = r) ↔
    ∃ as, Ring.run cap (Ring.init k τ ε) as = r := by
  rw [same_outcomes (Ring.Cas.lawful k τ ε cap)]
  simp only [Ring.Cas.machine_run]

/-- `try_send` goes into the loop of its update with the word it loaded first (`hold`); `close` comes between. -/
example : ((fineRun (Ring.Cas.machine 4 Nat Nat 3) (start (Ring.init 4 Nat Nat))
    [.go (.sCall (.trySend 5)) false, .go .sStep false, .go .sStep false, .hold .sStep 0,
     .go (.rCall .close) false, .go .rStep false, .go .rStep false,
     .go .sStep false, .go .sStep false, .go .sStep false]).map (·.s.log))
      = some [.canceled 5, .closed, .callSend 5] := by decide

/-- **C68, software threads.** -/
theorem C68_soft (count : Nat) (prio : Nat → Nat) (r : Option Soft.State) :
    (∃ cs, (fineRun (Soft.Cas.machine count) (start (Soft.init prio)) cs).map (·.s) = r) ↔
    ∃ as, Soft.run count (Soft.init prio) as = r := by
  rw [same_outcomes (Soft.Cas.lawful count)]
  simp only [Soft.Cas.machine_run]

/-- Thread 0 (priority 1) is requested. Its `row_start` has loaded the header when an interrupt
requests thread 1 (priority 2); the interrupt runs thread 1 and then thread 0. After that
the compare-exchange of the `row_start` that was interrupted fails, and its second try finds
nothing to do. -/
def softDemo : List (Act Soft.Act Soft.U32) :=
  let go (n : Nat) : List (Act Soft.Act Soft.U32) := List.replicate n (.go .step false)
  [.go (.pend 0) false] ++ go 4 ++ [.go (.pend 1) false] ++ go 11 ++ [.go .ret false] ++ go 8 ++
    [.go .ret false] ++ go 5

example : ((fineRun (Soft.Cas.machine 2) (start (Soft.init fun t => t + 1)) softDemo).map fun x =>
    (x.s.log, x.s.stack)) =
    some ([.run 0 1, .run 1 2, .req 1 2 true, .req 0 1 true], []) := by decide +kernel

end Verif.Atomic.Refine
