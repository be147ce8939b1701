import Verif.Heap.MultiModel
/-!
# What the contexts may expect from a shared heap
-/
namespace Verif.Heap.Multi

/-- Whose result it is. -/
def Event.who : Event → Tid
  | .got t _ _ _ => t
  | .failed t _ => t

/-- The results of context `t`, last one first. -/
def results (t : Tid) (s : State) : List Event := s.log.filter (fun e => e.who == t)

/-- The pool has no block to give: none came back, and none is left that was never handed out. -/
def Empty (p : Conc.State) : Prop := p.free = 0 ∧ p.uninit = p.edge

/-- No pool with blocks of at least `size` bytes has a block to give. -/
def Exhausted (size : Nat) (s : State) : Prop := ∀ i < s.n, size ≤ (s.pool i).size → Empty (s.pool i)

/-- The schedule `as` from `s` on is one call of `allocate` by context `t`, which fails: it starts with the call and ends with the
step in which `t` gets the result. (A request for 0 bytes does not use the pools and does not fail.) Other contexts may do anything meanwhile. -/
structure Fails (b : Build) (s : State) (t : Tid) (size : Nat) (as : List Act) : Prop where
  call : s.pc t = .idle ∧ as.head? = some (.alloc t size) ∧ size ≠ 0
  during : ∀ k < as.length, results t (run b s (as.take k)) = results t s
  result : results t (run b s as) = .failed t size :: results t s

/-- At some moment of the schedule. -/
def Sometime (b : Build) (s : State) (as : List Act) (P : State → Prop) : Prop := ∃ k ≤ as.length, P (run b s (as.take k))

/-- At two moments of the schedule, the second one not before the first one. -/
def Then (b : Build) (s : State) (as : List Act) (P Q : State → Prop) : Prop :=
  ∃ k l, k ≤ l ∧ l ≤ as.length ∧ P (run b s (as.take k)) ∧ Q (run b s (as.take l))

/-- The full property: an allocation fails only if at some moment of the call nothing that fits was left. -/
def FailsOnlyExhausted (b : Build) (s : State) : Prop :=
  ∀ t size as, Fails b s t size as → Sometime b s as (Exhausted size)

/-- The context that acts. -/
def Act.who : Act → Option Tid
  | .alloc t _ | .dealloc t _ _ | .step t _ => some t
  | .write _ _ => none

/-- No block comes back to an empty free list of a pool that fits, during the schedule. -/
def NoneBack (b : Build) (s : State) (size : Nat) (as : List Act) : Prop :=
  ∀ k < as.length, ∀ i < s.n, size ≤ (s.pool i).size →
    ((run b s (as.take k)).pool i).free = 0 → ((run b s (as.take (k + 1))).pool i).free = 0

/-- Blocks of pools as byte ranges. -/
def Apart (a m b n : Nat) : Prop := a + m ≤ b ∨ b + n ≤ a

/-- No block comes back to a free list while another context is about to compare-exchange with this block as the old head
(see `Conc.NoReturn`). -/
def NoReturn (s : State) : List Act → Prop
  | [] => True
  | a :: as =>
    (∀ t sp i, a = .step t sp → s.pc t = .dealloc i → ∀ p, Conc.returns (s.pool i) (.step t sp) = some p →
      ∀ u next, (s.pool i).pc u ≠ .afCas p next) ∧ NoReturn (step .hw s a) as

/-- The state is reached by some schedule from a legal configuration. -/
def Reached (b : Build) (base : Nat) (cfg : List (Nat × Nat)) (s : State) : Prop := ∃ link as, s = run b (init base cfg link) as

/-- What the owners of blocks may rely on. -/
structure Shared (base : Nat) (cfg : List (Nat × Nat)) (s : State) : Prop where
  /-- no block has two owners -/
  once : ∀ i < s.n, (s.pool i).held.Nodup
  /-- blocks do not overlap, be they from the same pool or not -/
  apart : ∀ i j a c, i < s.n → j < s.n → a ∈ (s.pool i).held → c ∈ (s.pool j).held → (i, a) ≠ (j, c) → Apart a (s.pool i).size c (s.pool j).size
  /-- they lie in the heap -/
  inside : ∀ i a, i < s.n → a ∈ (s.pool i).held → base ≤ a ∧ a + (s.pool i).size ≤ heapEnd base cfg
  /-- `deallocate` finds their pool -/
  found : ∀ i a, i < s.n → a ∈ (s.pool i).held → poolByPtr s.table s.base a = some i

end Verif.Heap.Multi
