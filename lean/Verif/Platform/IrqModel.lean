/-! # Critical sections (`src/platform/interrputs.rs`)

A handle holds the interrupt state saved when it was created; dropping it restores that
state. The two platform functions are external (`src/platform/mod.rs` 14–15): the model
assumes that `drone_save_and_disable_interrupts` returns the current state word and sets the
word `off`, and that `drone_restore_interrupts` writes its argument back. The `host` build,
where both are no-ops, is not modelled. -/
namespace Verif.Platform.Irq

/-- Interrupt state of the CPU and the handles that are alive, oldest first, each with the
saved word (`interrputs.rs` 3–40, field `save`). Handles are numbered by creation. -/
structure State where
  cpu : BitVec 32
  live : List (Nat × BitVec 32)
  next : Nat

/-- No handle exists. -/
def init (cpu : BitVec 32) : State := ⟨cpu, [], 0⟩

/-- `Interrupts::pause` (61–68): save the state word and disable interrupts. -/
def State.pause (off : BitVec 32) (s : State) : State :=
  ⟨off, s.live ++ [(s.next, s.cpu)], s.next + 1⟩

/-- `Drop` (97–105): restore the word saved in handle `i`. `none`: there is no such handle. -/
def State.drop (s : State) (i : Nat) : Option State :=
  match s.live.find? (fun h => h.1 = i) with
  | none => none
  | some h => some { s with cpu := h.2, live := s.live.filter (fun h => h.1 ≠ i) }

/-- Calls made by the program. -/
inductive Op where
  | pause
  | drop (i : Nat)
  deriving DecidableEq

def step (off : BitVec 32) (s : State) : Op → Option State
  | .pause => some (s.pause off)
  | .drop i => s.drop i

def run (off : BitVec 32) (s : State) : List Op → Option State
  | [] => some s
  | o :: os => (step off s o).bind fun s' => run off s' os

/-- Code that uses `Interrupts::paused`: `probe` records the state of the CPU, `paused` runs
a closure inside a critical section. -/
inductive Code where
  | probe
  | paused (body : List Code)

mutual
/-- Execution with CPU state `c`: the final CPU state, and for every probe executed the
number of enclosing sections and the CPU state seen.
`Interrupts::paused` (91–94): `let _paused = Self::pause(); f()`, the handle is dropped at
the end. -/
def exec (off : BitVec 32) (depth : Nat) (c : BitVec 32) : Code → BitVec 32 × List (Nat × BitVec 32)
  | .probe => (c, [(depth, c)])
  | .paused body =>
    let save := c
    let (_, l) := execAll off (depth + 1) off body
    (save, l)

def execAll (off : BitVec 32) (depth : Nat) (c : BitVec 32) : List Code → BitVec 32 × List (Nat × BitVec 32)
  | [] => (c, [])
  | p :: ps =>
    let (c1, l1) := exec off depth c p
    let (c2, l2) := execAll off depth c1 ps
    (c2, l1 ++ l2)
end

end Verif.Platform.Irq
