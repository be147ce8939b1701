import Verif.Exec.LockSpec
import Verif.Mutex.Run
/-! # The accesses of a task that shares a mutex -/
namespace Verif.Exec.Lock
open Verif.Mutex (Pc Client Event holders waits wokenSince own pstep call upd_apply)

/-- The waker was woken, or this access wakes it. -/
theorem pstep_woken {m m' : Mutex.State} {p : Nat} (h : pstep m p = some m') (q : Nat) (w : Mutex.Waker) :
    wokenSince q w m'.log = true ↔ wokenSince q w m.log = true ∨ waking (m.client p).pc = some w := by
  unfold pstep at h
  simp only at h
  cases hpc : (m.client p).pc <;> simp only [hpc] at h <;>
    ((try simp only [Mutex.State.goto, Mutex.State.setC, Mutex.State.emit, Mutex.State.setN, Mutex.acquire, Mutex.acquirePoll, Mutex.swapTaken, Mutex.dropWaker] at h)
     (repeat' split at h) <;> simp only [Option.some.injEq, reduceCtorEq] at h <;> (try subst h) <;>
      simp only [waking, wokenSince, reduceCtorEq, or_false, Option.some.injEq]) <;> grind

theorem call_woken {m : Mutex.State} {p : Nat} {op : Mutex.Op} {q : Nat} {w : Mutex.Waker} (h : wokenSince q w (call m p op).log = true) :
    wokenSince q w m.log = true := by
  unfold call at h
  simp only at h
  split at h
  · exact h
  · cases op <;> simp only at h <;> (repeat' split at h) <;>
      (try simp only [Mutex.State.goto, Mutex.State.setC, Mutex.State.emit, wokenSince] at h) <;> grind

theorem poll_woken {m : Mutex.State} {p : Nat} {w v : Mutex.Waker} (hi : (m.client p).pc = .idle) (hf : (m.client p).fut = true) :
    wokenSince p w (call m p (.poll v)).log = false := by
  simp [call, hi, hf, Mutex.State.goto, Mutex.State.setC, Mutex.State.emit, wokenSince]

/-- A task is in a poll of the lock, or drops its guard. -/
structure Shape (c : Client) : Prop where
  poll : c.pc ≠ .idle → c.fut = true → c.pc.polling = true ∧ c.guards = 0 ∨ c.pc.taking = true
  drop : c.pc ≠ .idle → c.fut = false → c.guards = 0 ∧ (c.pc.unl = 1 ∨ ∃ n w, c.pc = .ulWake n w)
  hold : c.guards ≠ 0 → c.waiter = none

/-- One if the client is to leave its critical section. -/
def late (c : Client) : Nat := own c + if (waking c.pc).isSome then 1 else 0

/-- What an access of a task in a call leads to. -/
structure Moved (m m' : Mutex.State) (p : Nat) : Prop where
  fut : (m'.client p).fut = (m.client p).fut
  shape : Shape (m'.client p)
  pend : (m'.client p).pc = .idle → (m'.client p).fut = true → (m'.client p).guards = 0 → (m'.client p).waiter ≠ none
  acq : (m'.client p).pc ≠ .idle ∨ (m'.client p).fut = true → acquisitions p m'.log + late (m.client p) = acquisitions p m.log + late (m'.client p)
  rel : (m'.client p).pc = .idle → (m'.client p).fut = false → acquisitions p m'.log = acquisitions p m.log ∧ late (m.client p) = 1 ∧
    (m'.client p).guards = 0

theorem pstep_moved {m m' : Mutex.State} {p : Nat} (i : Mutex.Inv m) (hs : Shape (m.client p)) (hn : (m.client p).pc ≠ .idle)
    (h : pstep m p = some m') : Moved m m' p := by
  have c3 := (i.n.cl p).chk
  have c4 := (i.n.cl p).p2
  have htk := i.o.tk p
  have hle := i.o.le p
  obtain ⟨s1, s2, s3⟩ := hs
  unfold pstep at h
  simp only at h
  cases hpc : (m.client p).pc <;> simp only [hpc] at h
  case idle => exact absurd hpc hn
  all_goals
    simp only [hpc, Pc.polling, Pc.taking, Pc.unl, ne_eq, reduceCtorEq, not_false_eq_true, true_implies, own] at s1 s2 c3 c4 htk hle
    (try simp only [Mutex.State.goto, Mutex.State.setC, Mutex.State.emit, Mutex.State.setN, Mutex.acquire, Mutex.acquirePoll, Mutex.swapTaken, Mutex.dropWaker] at h)
    (repeat' split at h) <;> simp only [Option.some.injEq, reduceCtorEq] at h <;> (try subst h) <;>
    (refine ⟨?_, ⟨?_, ?_, ?_⟩, ?_, ?_, ?_⟩ <;>
      simp only [upd_apply, ↓reduceIte, hpc, acquisitions, late, own, waking, Pc.unl, Pc.polling, Pc.taking] <;> grind)

/-- A call changes the client only. -/
structure Called (m : Mutex.State) (p : Nat) (op : Mutex.Op) (c : Client) : Prop where
  client : (call m p op).client p = c
  acq : acquisitions p (call m p op).log = acquisitions p m.log
  late : late c = late (m.client p)

theorem called_poll {m : Mutex.State} {p : Nat} (w : Mutex.Waker) (hi : (m.client p).pc = .idle) (hf : (m.client p).fut = true) :
    Called m p (.poll w) { m.client p with pc := .p1 w } := by
  constructor <;> simp [call, hi, hf, Mutex.State.goto, Mutex.State.setC, Mutex.State.emit, upd_apply, acquisitions, late, own, waking, Pc.unl]

theorem called_dropFut {m : Mutex.State} {p : Nat} (hi : (m.client p).pc = .idle) (hf : (m.client p).fut = true) (hw : (m.client p).waiter = none) :
    Called m p .dropFut { m.client p with fut := false } := by
  constructor <;> simp [call, hi, hf, hw, Mutex.State.setC, Mutex.State.emit, upd_apply, acquisitions, late, own]

theorem called_unlock {m : Mutex.State} {p : Nat} (hi : (m.client p).pc = .idle) (hg : (m.client p).guards ≠ 0) :
    Called m p .unlock { m.client p with guards := (m.client p).guards - 1, pc := .ulLoad } := by
  have : 0 < (m.client p).guards := by omega
  constructor <;> simp [call, hi, this, Mutex.State.setC, Mutex.State.emit, upd_apply, acquisitions, late, own, waking, Pc.unl]
  omega

theorem called_lock {m : Mutex.State} {p : Nat} (hi : (m.client p).pc = .idle) (hf : (m.client p).fut = false) :
    Called m p .lock { m.client p with fut := true, waiter := none } := by
  constructor <;> simp [call, hi, hf, Mutex.State.setC, Mutex.State.emit, upd_apply, acquisitions, late, own]

/-- Other clients have no future. -/
theorem call_fut {m : Mutex.State} {p : Nat} {op : Mutex.Op} (ho : op = .tryLock ∨ op = .unlock) (hf : (m.client p).fut = false) :
    ((call m p op).client p).fut = false := by
  unfold call
  simp only
  split
  · exact hf
  · rcases ho with rfl | rfl <;> simp only <;> (try split) <;> simp [Mutex.State.goto, Mutex.State.setC, Mutex.State.emit, upd_apply, hf]

theorem pstep_fut {m m' : Mutex.State} {p : Nat} (h : pstep m p = some m') : (m'.client p).fut = (m.client p).fut := by
  unfold pstep at h
  simp only at h
  cases hpc : (m.client p).pc <;> simp only [hpc] at h <;>
    ((try simp only [Mutex.State.goto, Mutex.State.setC, Mutex.State.emit, Mutex.State.setN, Mutex.acquire, Mutex.acquirePoll, Mutex.swapTaken, Mutex.dropWaker] at h)
     (repeat' split at h) <;> simp only [Option.some.injEq, reduceCtorEq] at h <;> (try subst h) <;> simp [upd_apply])

/-- Nothing is acquired for others. -/
theorem pstep_acq {m m' : Mutex.State} {p q : Nat} (h : pstep m p = some m') (hq : q ≠ p) : acquisitions q m'.log = acquisitions q m.log := by
  have hq' : ¬ p = q := fun e => hq e.symm
  unfold pstep at h
  simp only at h
  cases hpc : (m.client p).pc <;> simp only [hpc] at h <;>
    ((try simp only [Mutex.State.goto, Mutex.State.setC, Mutex.State.emit, Mutex.State.setN, Mutex.acquire, Mutex.acquirePoll, Mutex.swapTaken, Mutex.dropWaker] at h)
     (repeat' split at h) <;> simp only [Option.some.injEq, reduceCtorEq] at h <;> (try subst h) <;> simp [acquisitions, hq'])

theorem call_acq {m : Mutex.State} {p q : Nat} {op : Mutex.Op} : acquisitions q (call m p op).log = acquisitions q m.log := by
  unfold call
  simp only
  split
  · rfl
  · cases op <;> simp only <;> (repeat' split) <;> simp [Mutex.State.goto, Mutex.State.setC, Mutex.State.emit, acquisitions]

end Verif.Exec.Lock
