import Verif.Ring.Feed
/-! # How much work the two tasks of a ring channel have left

`hi` is what is left of the transmission: a task that is woken or polled again does not add to it. `sLo`,
`rLo` are the accesses up to the next `Poll::Pending` or the next progress. -/
namespace Verif.Ring.Feed
open Verif.Spsc
open Verif.Exec.Chan (Res)
open Verif.Exec.Str (ringRecv fresh ringWake fresh_nil fresh_one fresh_two)
open Verif.Exec.Pipe (feed Prog)

variable {k cap : Nat}

/-- A poll that the task is not about to make counts more than one it is. -/
def pollHi (κ : Kind) (p : Prog) : Nat :=
  match κ with
  | .ready => if p.todo = [] then 3 else 2
  | .flush => if p.flush then 2 else 3
  | .close => 3

/-- The part of the sender. -/
def sHi (p : Prog) : SPc k Nat Nat → Nat
  | .idle => 2
  | .pLoad κ _ | .pWrite κ _ | .pRmw κ _ _ | .pUndo κ => pollHi κ p
  | .tsLoad _ | .wrWrite _ _ | .wrRmw _ _ => 8
  | .wakeRef | .wrBack _ _ => 3
  | .drRmw | .drWaker _ => 1
  | _ => 0

/-- The part of the receiver. -/
def rHi : RPc k → Nat
  | .idle | .pnRmw _ | .pnWrite _ | .pnRmw2 _ | .rdErr => 2
  | .pnUndo st => if 0 < len st then 5 else 2
  | .tvRmw _ _ _ | .tvWake _ => 5
  | .tvRead _ => 4
  | .drRmw | .drErr _ | .drWaker _ => 1
  | .drSlot st j => 1 + (len st - j)
  | _ => 0

/-- What is left of the transmission. -/
def hi (c : State k Nat Nat) (p : Prog) : Nat :=
  8 * p.todo.length + p.flush.toNat + sHi p c.spc + 4 * len c.st + c.err.isSome.toNat + rHi c.rpc

/-- The accesses of the sender. -/
def sLo : SPc k Nat Nat → Nat
  | .idle => 8
  | .pLoad _ _ => 7
  | .pWrite _ _ => 6
  | .pRmw _ _ _ => 5
  | .pUndo _ => 4
  | .tsLoad _ | .drRmw => 3
  | .wrWrite _ _ | .drWaker _ => 2
  | .wrRmw _ _ | .drFree => 1
  | _ => 0

/-- The accesses of the receiver. -/
def rLo : RPc k → Nat
  | .idle => 8
  | .pnRmw _ => 7
  | .pnWrite _ => 6
  | .pnRmw2 _ => 5
  | .pnUndo _ | .drRmw => 4
  | .tvRmw _ _ _ | .drErr _ => 3
  | .tvWake _ | .drWaker _ => 2
  | .tvRead _ | .rdErr | .drFree => 1
  | _ => 0

theorem sLo_le (pc : SPc k Nat Nat) : sLo pc ≤ 8 := by cases pc <;> simp [sLo]

theorem rLo_le (pc : RPc k) : rLo pc ≤ 8 := by cases pc <;> simp [rLo]

/-- Less is left, or the task waits. -/
def Less (h h' l l' : Nat) (r : Res) (w : Option Nat) : Prop :=
  h' < h ∨ h' = h ∧ l' < l ∧ w = none ∨ h' ≤ h ∧ r = .pending ∧ w = none

theorem len_add_le (st : Word k) : len (addLength st) ≤ len st + 1 := by
  by_cases h : len st + 1 < 2 ^ k
  · rw [len_addLength h]; split <;> omega
  · have : len (addLength st) < 2 ^ k := len_lt _
    omega

/-- One access of the receiving task. -/
theorem recv_pot (hcap : cap < 2 ^ k) {t : Nat} {c c' : State k Nat Nat} {r : Res} (p : Prog) (hcur : cur c.st < cap)
    (ho : Read.other c.rpc = false) (hg : c.rpc ≠ .gone) (h : ringRecv cap t c = some (c', r)) :
    c'.spc = c.spc ∧ Less (hi c p) (hi c' p) (rLo c.rpc) (rLo c'.rpc) r ((fresh c.log c'.log).findSome? ringWake) := by
  have htk := len_take (Nat.le_of_lt hcap) hcur
  by_cases hidle : c.rpc = .idle
  · simp only [ringRecv, hidle, Option.some.injEq, Prod.mk.injEq] at h
    obtain ⟨rfl, rfl⟩ := h
    exact ⟨rfl, .inr (.inl ⟨by simp only [hi, rCall, rHi, hidle], by simp [rCall, rLo, hidle], by simp [rCall, fresh_nil]⟩)⟩
  unfold ringRecv at h
  split at h
  · rename_i e; exact absurd e hidle
  split at h
  · simp at h
  rename_i c1 hs
  obtain ⟨st, buf, err, rxw, txw, freed, spc, rpc, log⟩ := c
  simp only [rStep] at hs
  dsimp only at *
  split at hs
  · rename_i hres; cases rpc <;> simp [RPc.resting] at hres hidle hg
  rename_i hres
  clear hres
  split at hs
  · simp at hs
  cases rpc <;> simp only [Read.other, Bool.true_eq_false] at ho
  all_goals simp only [takeValue, dropLoop, dropTail, State.emit, State.release] at hs
  all_goals (repeat' (split at hs))
  all_goals first
    | (simp at hs; done)
    | skip
  all_goals simp only [Option.some.injEq] at hs
  all_goals (repeat' (split at hs))
  all_goals subst hs
  all_goals simp only [fresh_nil, fresh_one, fresh_two, List.head?_cons, List.head?_nil, Option.some.injEq, Prod.mk.injEq] at h
  all_goals obtain ⟨rfl, rfl⟩ := h
  all_goals refine ⟨rfl, ?_⟩
  all_goals simp only [rCall, fresh_nil, fresh_one, fresh_two, Less, hi, rHi, rLo, List.findSome?, ringWake, htk, ← BitVec.or_assoc, BitVec.or_zero, len_or_RX, len_or_HALF, len_or_CLOSED, len_or_READY, len_or_FLUSH, len_or_ERR, len_clearLen, Option.isSome_some, Option.isSome_none, Bool.toNat_true, Bool.toNat_false, Bool.false_eq_true, ↓reduceIte]
  all_goals try simp_all
  all_goals first
    | exact .inl (Nat.lt_succ_self _)
    | omega

/-- One access of the sending task. -/
theorem feed_pot {t : Nat} {c c' : State k Nat Nat} {p p' : Prog} {r : Res} {w : Option Nat} (ho : sOther c.spc = false) (hg : c.spc ≠ .gone)
    (h : feed cap t c p = some (c', p', r, w)) : c'.rpc = c.rpc ∧ Less (hi c p) (hi c' p') (sLo c.spc) (sLo c'.spc) r w := by
  have hlen := len_add_le c.st
  by_cases hidle : c.spc = .idle
  · simp only [feed, hidle] at h
    repeat' (split at h)
    all_goals simp only [Option.some.injEq, Prod.mk.injEq] at h
    all_goals obtain ⟨rfl, rfl, rfl, rfl⟩ := h
    all_goals refine ⟨rfl, ?_⟩
    all_goals simp only [sCall, Less, hi, sHi, sLo, pollHi, hidle]
    all_goals simp_all
  unfold feed at h
  split at h
  · rename_i e; exact absurd e hidle
  split at h
  · simp at h
  rename_i c1 hs
  obtain ⟨st, buf, err, rxw, txw, freed, spc, rpc, log⟩ := c
  simp only [sStep] at hs
  dsimp only at *
  split at hs
  · rename_i hres; cases spc <;> simp [SPc.resting] at hres hidle hg
  rename_i hres
  clear hres
  split at hs
  · simp at hs
  rename_i hfr
  clear hfr
  cases spc
  all_goals try (rename Kind => κ; cases κ)
  all_goals first
    | (simp [sOther] at ho; done)
    | clear ho
  all_goals try simp only [closedResult, State.emit, State.release] at hs
  all_goals (repeat' (split at hs))
  all_goals first
    | (simp at hs; done)
    | skip
  all_goals simp only [Option.some.injEq] at hs
  all_goals (repeat' (split at hs))
  all_goals subst hs
  all_goals simp only [fresh_nil, fresh_one, fresh_two, List.head?_cons, List.head?_nil, Option.some.injEq, Prod.mk.injEq] at h
  all_goals (repeat' (split at h))
  all_goals try simp only [Option.some.injEq, Prod.mk.injEq] at h
  all_goals obtain ⟨rfl, rfl, rfl, rfl⟩ := h
  all_goals refine ⟨rfl, ?_⟩
  all_goals simp only [sCall, State.emit, fresh_nil, fresh_one, fresh_two, Less, hi, sHi, sLo, pollHi, List.findSome?, ringWake, ← BitVec.or_assoc, BitVec.or_zero, len_or_RX, len_or_HALF, len_or_CLOSED, len_or_READY, len_or_FLUSH, len_or_ERR, len_setKind, Bool.toNat_false, Bool.false_eq_true, ↓reduceIte]
  all_goals try simp_all
  all_goals first
    | omega
    | (split <;> first | omega | (simp_all; done) | (simp_all; omega))
    | (rename (Nat × Bool) => x; have := x.2.toNat_le; omega)
    | (rename Bool => fl; have := fl.toNat_le; omega)

end Verif.Ring.Feed
