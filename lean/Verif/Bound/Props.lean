import Verif.Bound.Tables
import Verif.Bound.Scheduler
import Verif.Bound.Drain
import Verif.LinkedList.ConcProps
/-! # Property C85: calls return after a bounded number of accesses -/
namespace Verif.Bound
open Verif.Atomic.Refine

/-! ### Compare-exchange loops -/

/-- **C85, oneshot channel, sender.** -/
theorem C85_oneshot_sender {α : Type} (x : Fine (Verif.Oneshot.State α) (BitVec 8)) (op : Verif.Oneshot.SOp α) :
    (Oneshot.sLoops α).Within { x with s := Verif.Oneshot.sCall x.s op } (Oneshot.sBudget 2 op) := by
  refine (Oneshot.sender.loops (Verif.Oneshot.Cas.lawful α) trivial).mono ?_
  cases op <;> exact Nat.le_refl _

/-- **C85, oneshot channel, receiver.** -/
theorem C85_oneshot_receiver {α : Type} (x : Fine (Verif.Oneshot.State α) (BitVec 8)) (op : Verif.Oneshot.ROp) :
    (Oneshot.rLoops α).Within { x with s := Verif.Oneshot.rCall x.s op } (Oneshot.rBudget 2 op) := by
  refine (Oneshot.receiver.loops (Verif.Oneshot.Cas.lawful α) trivial).mono ?_
  cases op <;> exact Nat.le_refl _

/-- **C85, pulse channel, sender.** -/
theorem C85_pulse_sender {n : Nat} {ε : Type} (x : Fine (Verif.Pulse.State n ε) (Verif.Pulse.Word n))
    (hi : x.s.spc = .idle) (op : Verif.Pulse.SOp n ε) :
    (Pulse.sLoops n ε).Within { x with s := Verif.Pulse.sCall x.s op } (Pulse.sBudget 2 op) := by
  refine (Pulse.sender.loops (Verif.Pulse.Cas.lawful n ε) trivial).mono ?_
  cases op <;> simp only [Verif.Pulse.sCall] <;> (try split) <;>
    first | exact Nat.le_refl _ | simp [Verif.Pulse.State.emit, hi, Pulse.sRank]

/-- **C85, pulse channel, receiver.** -/
theorem C85_pulse_receiver {n : Nat} {ε : Type} (x : Fine (Verif.Pulse.State n ε) (Verif.Pulse.Word n))
    (op : Verif.Pulse.ROp) :
    (Pulse.rLoops n ε).Within { x with s := Verif.Pulse.rCall x.s op } (Pulse.rBudget 2 op) := by
  refine (Pulse.receiver.loops (Verif.Pulse.Cas.lawful n ε) trivial).mono ?_
  cases op <;> exact Nat.le_refl _

/-- **C85, ring channel, sender.** -/
theorem C85_ring_sender {k cap : Nat} {τ ε : Type} (x : Fine (Verif.Ring.State k τ ε) (Verif.Ring.Word k))
    (op : Verif.Ring.SOp τ ε) :
    (Ring.sLoops k τ ε cap).Within { x with s := Verif.Ring.sCall x.s op } (Ring.sBudget 2 op) := by
  refine (Ring.sender.loops (Verif.Ring.Cas.lawful k τ ε cap) trivial).mono ?_
  cases op <;> exact Nat.le_refl _

/-- The states of the program with critical sections. -/
def Ring.Reached {k : Nat} {τ ε : Type} (cap : Nat) (s : Verif.Ring.State k τ ε) : Prop :=
  ∃ acts, Verif.Ring.run cap (Verif.Ring.init k τ ε) acts = some s

theorem Ring.Reached.step {k cap : Nat} {τ ε : Type} {s s' : Verif.Ring.State k τ ε} {a : Verif.Ring.Act τ ε}
    (h : Ring.Reached cap s) (hs : Verif.Ring.step cap s a = some s') : Ring.Reached cap s' := by
  obtain ⟨acts, h⟩ := h
  refine ⟨acts ++ [a], ?_⟩
  rw [Verif.Ring.run_append, h]
  simp [Verif.Ring.run, hs]

theorem Ring.Reached.len {k cap : Nat} {τ ε : Type} (h1 : 1 < cap) (hcap : cap < 2 ^ k) {s : Verif.Ring.State k τ ε}
    (h : Ring.Reached cap s) : Verif.Ring.len s.st ≤ cap := by
  obtain ⟨acts, h⟩ := h
  exact (Verif.Ring.reach h1 hcap h).2.1.1.len

theorem Ring.receiver_reached {k cap : Nat} {τ ε : Type} (h1 : 1 < cap) (hcap : cap < 2 ^ k) :
    Ctx (Verif.Ring.Cas.machine k τ ε cap) 1 .rStep Ring.rOwn (fun s => !s.rpc.resting) (Ring.Reached cap)
      (fun u s => Ring.rRank cap u (Verif.Spsc.has s.st (Verif.Ring.HALF k)) s.rpc) :=
  Ring.receiver (fun _ _ _ h hs => h.step hs) (fun _ h => h.len h1 hcap)

theorem Ring.rCall_reached {k cap : Nat} {τ ε : Type} {s : Verif.Ring.State k τ ε} (h : Ring.Reached cap s)
    (hi : s.rpc = .idle) (op : Verif.Ring.ROp) : Ring.Reached cap (Verif.Ring.rCall s op) :=
  h.step (a := .rCall op) (by simp [Verif.Ring.step, hi, Verif.Ring.RPc.isIdle])

/-- **C85, ring channel, receiver.** Only the drop depends on the capacity. -/
theorem C85_ring_receiver {k cap : Nat} {τ ε : Type} (h1 : 1 < cap) (hcap : cap < 2 ^ k)
    (cs : List (Act (Verif.Ring.Act τ ε) (Verif.Ring.Word k))) (x : Fine (Verif.Ring.State k τ ε) (Verif.Ring.Word k))
    (hx : fineRun (Verif.Ring.Cas.machine k τ ε cap) (start (Verif.Ring.init k τ ε)) cs = some x)
    (hi : x.s.rpc = .idle) (op : Verif.Ring.ROp) :
    (Ring.rLoops k τ ε cap).Within { x with s := Verif.Ring.rCall x.s op } (Ring.rBudget cap 2 op) := by
  obtain ⟨as, -, h⟩ := fineRun_sim (Verif.Ring.Cas.lawful k τ ε cap) cs (start (Verif.Ring.init k τ ε))
  rw [hx, Verif.Ring.Cas.machine_run] at h
  refine ((Ring.receiver_reached h1 hcap).loops (Verif.Ring.Cas.lawful k τ ε cap)
    (Ring.rCall_reached ⟨as, h⟩ hi op)).mono ?_
  cases op <;> exact Nat.le_refl _

/-! ### Critical sections -/

/-- **C85, oneshot channel without `atomics`.** -/
theorem C85_oneshot_sections {α : Type} (s : Verif.Oneshot.State α) :
    (∀ op, (Oneshot.sSections α).Within (Verif.Oneshot.sCall s op) (Oneshot.sBudget 1 op)) ∧
    (∀ op, (Oneshot.rSections α).Within (Verif.Oneshot.rCall s op) (Oneshot.rBudget 1 op)) := by
  refine ⟨fun op => ?_, fun op => ?_⟩
  · refine Prog.Within.mono (Oneshot.sender.sections trivial) ?_
    cases op <;> exact Nat.le_refl _
  · refine Prog.Within.mono (Oneshot.receiver.sections trivial) ?_
    cases op <;> exact Nat.le_refl _

/-- **C85, pulse channel without `atomics`.** -/
theorem C85_pulse_sections {n : Nat} {ε : Type} (s : Verif.Pulse.State n ε) :
    (s.spc = .idle → ∀ op, (Pulse.sSections n ε).Within (Verif.Pulse.sCall s op) (Pulse.sBudget 1 op)) ∧
    (∀ op, (Pulse.rSections n ε).Within (Verif.Pulse.rCall s op) (Pulse.rBudget 1 op)) := by
  refine ⟨fun hi op => ?_, fun op => ?_⟩
  · refine Prog.Within.mono (Pulse.sender.sections trivial) ?_
    cases op <;> simp only [Verif.Pulse.sCall] <;> (try split) <;>
      first | exact Nat.le_refl _ | simp [Verif.Pulse.State.emit, hi, Pulse.sRank]
  · refine Prog.Within.mono (Pulse.receiver.sections trivial) ?_
    cases op <;> exact Nat.le_refl _

/-- **C85, ring channel without `atomics`.** -/
theorem C85_ring_sections {k cap : Nat} {τ ε : Type} (h1 : 1 < cap) (hcap : cap < 2 ^ k) (acts : List (Verif.Ring.Act τ ε))
    (s : Verif.Ring.State k τ ε) (hs : Verif.Ring.run cap (Verif.Ring.init k τ ε) acts = some s) :
    (∀ op, (Ring.sSections k τ ε cap).Within (Verif.Ring.sCall s op) (Ring.sBudget 1 op)) ∧
    (s.rpc = .idle → ∀ op, (Ring.rSections k τ ε cap).Within (Verif.Ring.rCall s op) (Ring.rBudget cap 1 op)) := by
  refine ⟨fun op => ?_, fun hi op => ?_⟩
  · refine Prog.Within.mono (Ring.sender.sections trivial) ?_
    cases op <;> exact Nat.le_refl _
  · refine Prog.Within.mono ((Ring.receiver_reached h1 hcap).sections (Ring.rCall_reached ⟨acts, hs⟩ hi op)) ?_
    cases op <;> exact Nat.le_refl _

/-! ### Heap, linked list, mutex -/

/-- **C85, pool of the heap.** `allocate` and `deallocate`, with and without `atomics`. -/
theorem C85_heap (t : Verif.Heap.Conc.Tid) (s : Verif.Heap.Conc.State) (hi : s.pc t = .idle) :
    (Heap.loops t).Within (Verif.Heap.Conc.call s (.alloc t)) 3 ∧
    (∀ p, (Heap.loops t).Within (Verif.Heap.Conc.call s (.dealloc t p)) 3) ∧
    (Heap.soft t).Within (Verif.Heap.Conc.call s (.alloc t)) 2 ∧
    (∀ p, (Heap.soft t).Within (Verif.Heap.Conc.call s (.dealloc t p)) 1) := by
  have ha : (Verif.Heap.Conc.call s (.alloc t)).pc t = .afLoad := by
    simp [Verif.Heap.Conc.call, hi, Verif.Heap.Conc.State.goto]
  have hd : ∀ p, (Verif.Heap.Conc.call s (.dealloc t p)).pc t = .deLoad p ∨ (Verif.Heap.Conc.call s (.dealloc t p)).pc t = .idle := by
    intro p
    by_cases hp : p ∈ s.held
    · left; simp [Verif.Heap.Conc.call, hi, hp, Verif.Heap.Conc.State.goto]
    · right; simp [Verif.Heap.Conc.call, hi, hp]
  refine ⟨?_, fun p => ?_, ?_, fun p => ?_⟩
  · refine (Heap.loops_within t _).mono ?_
    rw [ha]
    exact Nat.le_refl _
  · refine (Heap.loops_within t _).mono ?_
    rcases hd p with e | e <;> rw [e] <;> simp [Heap.pot]
  · refine (Heap.soft_within t _ (by rw [ha]; rfl)).mono ?_
    rw [ha]
    exact Nat.le_refl _
  · refine (Heap.soft_within t _ ?_).mono ?_
    · rcases hd p with e | e <;> rw [e] <;> rfl
    · rcases hd p with e | e <;> rw [e] <;> simp [Heap.softPot]

/-- **C85, linked list.** `push` and `pop`, with and without `atomics`. -/
theorem C85_list {α : Type} (t : Verif.LinkedList.Conc.Tid) (s : Verif.LinkedList.Conc.State α) (hi : s.pc t = .idle)
    (hw : Bool) :
    (∀ a v s' e, Verif.LinkedList.Conc.step hw s (.push t a v) = some (s', e) →
      (LinkedList.prog hw t).Within s' (if hw then 3 else 1)) ∧
    (∀ s' e, Verif.LinkedList.Conc.step hw s (.pop t) = some (s', e) →
      (LinkedList.prog hw t).Within s' (if hw then 4 else 2)) := by
  refine ⟨fun a v s' e h => ?_, fun s' e h => ?_⟩
  · have hp : s'.pc t = .pushLoad a ∨ s'.pc t = .idle := by
      simp only [Verif.LinkedList.Conc.step] at h
      split at h
      · cases h; left; simp [Verif.LinkedList.Conc.State.goto]
      · cases h; right; exact hi
    cases hw
    · refine (LinkedList.soft_within t s' ?_).mono ?_
      · rcases hp with e | e <;> rw [e] <;> rfl
      · rcases hp with e | e <;> rw [e] <;> simp [LinkedList.softPot]
    · refine (LinkedList.hw_within t s').mono ?_
      rcases hp with e | e <;> rw [e] <;> simp [LinkedList.pot]
  · have hp : s'.pc t = .popLoad := by
      simp only [Verif.LinkedList.Conc.step] at h
      rw [if_pos hi] at h
      cases h
      simp [Verif.LinkedList.Conc.State.goto]
    cases hw
    · refine (LinkedList.soft_within t s' (by rw [hp]; rfl)).mono ?_
      rw [hp]
      exact Nat.le_refl _
    · refine (LinkedList.hw_within t s').mono ?_
      rw [hp]
      exact Nat.le_refl _

theorem LinkedList.holds_length {α : Type} {node : Nat → Option (Nat × α)} : ∀ {L M : List (Nat × α)} {p : Nat},
    Verif.LinkedList.Conc.Holds node p L → Verif.LinkedList.Conc.Holds node p M → L.length = M.length
  | [], [], _, _, _ => rfl
  | [], (b, w) :: M, _, h, ⟨h1, h2, _⟩ => absurd (h1.symm.trans h) h2
  | (a, v) :: L, [], _, ⟨h1, h2, _⟩, h => absurd (h1.symm.trans h) h2
  | (a, v) :: L, (b, w) :: M, _, ⟨h1, _, nx, h3, h4⟩, ⟨g1, _, ny, g3, g4⟩ => by
    subst h1
    subst g1
    rw [h3] at g3
    simp only [Option.some.injEq, Prod.mk.injEq] at g3
    obtain ⟨rfl, -⟩ := g3
    simp [LinkedList.holds_length h4 g4]

/-- **C85, drain of the linked list** (`drain_filter`, fiber chains), under the conditions of C16: five accesses per element
with feature `atomics`, four without. Elements that other contexts push during the drain are not visited; the drain walks over them
at most once. -/
theorem C85_drain {α : Type} (hw : Bool) (acts : List (Verif.LinkedList.Conc.Act α))
    (hap : Verif.LinkedList.Conc.Always hw Verif.LinkedList.Conc.Apart (Verif.LinkedList.Conc.init α) acts)
    (s : Verif.LinkedList.Conc.State α) (es : List (Verif.LinkedList.Conc.Event α))
    (hs : Verif.LinkedList.Conc.run hw (Verif.LinkedList.Conc.init α) acts = some (s, es)) (t : Nat) (hi : s.pc t = .idle)
    (alone : ∀ u, LinkedList.inDrain (s.pc u) = false ∧ Verif.LinkedList.Conc.Popping (s.pc u) = false)
    (L : List (Nat × α)) (hL : Verif.LinkedList.Conc.Holds s.node s.head L)
    (s' : Verif.LinkedList.Conc.State α) (e : List (Verif.LinkedList.Conc.Event α))
    (h : Verif.LinkedList.Conc.step hw s (.drain t) = some (s', e)) :
    (LinkedList.drainProg hw t).Within s' (1 + (if hw then 5 else 4) * L.length) := by
  classical
  obtain ⟨s₁, e₁, sp, F, K, C, T, h1, h2, inv, htk⟩ := Verif.LinkedList.Conc.run_good hw acts
    (Verif.LinkedList.Conc.init_inv α) (fun _ _ => rfl) (fun u hu => absurd rfl hu) hap
  rw [hs] at h1
  simp only [Option.some.injEq, Prod.mk.injEq] at h1
  obtain ⟨rfl, rfl⟩ := h1
  have hin : sp.active = false := by
    cases ha : sp.active with
    | false => rfl
    | true =>
      obtain ⟨u, hu⟩ := inv.active ha
      have := (alone u).1
      simp [LinkedList.inDrain, hu] at this
  obtain ⟨rfl, rfl, rfl, -, -⟩ := inv.inactive hin
  have hF : F.length = L.length := by
    have := inv.holds
    simp only [List.append_nil] at this
    exact LinkedList.holds_length this hL
  simp only [Verif.LinkedList.Conc.step, hi, if_true, Option.some.injEq, Prod.mk.injEq] at h
  obtain ⟨rfl, rfl⟩ := h
  have hpc : ∀ u, u ≠ t → (s.goto t .drLoad).pc u = s.pc u := fun u hu => by simp [Verif.LinkedList.Conc.State.goto, hu]
  have hpt : (s.goto t .drLoad).pc t = .drLoad := by simp [Verif.LinkedList.Conc.State.goto]
  refine LinkedList.drain_within ⟨⟨sp, F, [], [], [], ?_, ?_, ?_⟩, fun u hu => by rw [hpc u hu]; exact alone u, by rw [hpt]; rfl⟩
  · exact inv.goto t .drLoad (by rw [hi]; rfl) (by rw [hi]; rfl) (fun _ h => by cases h) trivial
  · intro u hu
    obtain ⟨p, hp⟩ := htk u hu
    refine ⟨p, ?_⟩
    rw [hpc u (by rintro rfl; rw [hi] at hp; cases hp)]
    exact hp
  · rw [hpt, hF]
    exact Nat.le_refl _

/-- **C85, mutex.** -/
theorem C85_mutex (acts : List Verif.Mutex.Act) (s : Verif.Mutex.State) (hs : Verif.Mutex.run Verif.Mutex.init acts = some s)
    (p : Nat) (hi : (s.client p).pc = .idle) (op : Verif.Mutex.Op) :
    (Mutex.prog p).Within (Verif.Mutex.call s p op) (Mutex.budget s.list.length op) := by
  have inv := Verif.Mutex.run_inv Verif.Mutex.init_inv hs
  refine (Mutex.within p _ (Verif.Mutex.step_inv (a := .call p op) inv rfl)).mono ?_
  unfold Verif.Mutex.call
  simp only [hi, ne_eq, not_true_eq_false, if_false]
  cases op <;> simp only <;> (repeat' split) <;>
    simp [Verif.Mutex.State.goto, Verif.Mutex.State.setC, Verif.Mutex.State.emit, Verif.Mutex.upd, Mutex.pot, Mutex.budget, hi]

/-- **C85, software threads.** A call of `set_pending`, `preempt`, `clear_pending` or `Thread::call`, wherever it is
made, returns after a bounded number of accesses of its own. The scheduler serves each level above the one it interrupts
at most once, with four accesses per thread and two for the level. -/
theorem C85_scheduler {count : Nat} (hc : count ≤ 32) {prio : Nat → Nat} (hp : ∀ t, prio t < 27) (acts : List Verif.Soft.Act)
    (s : Verif.Soft.State) (hs : Verif.Soft.run count (Verif.Soft.init prio) acts = some s) :
    (∀ t s', t < count → Verif.Soft.step count s (.pend t) = some s' →
      (Soft.prog count s.stack.length).Within s' (4 + (27 - Verif.Soft.running s.stack) * (4 * count + 2))) ∧
    (∀ s', Verif.Soft.step count s .preempt = some s' →
      (Soft.prog count s.stack.length).Within s' (1 + (27 - Verif.Soft.running s.stack) * (4 * count + 2))) ∧
    (∀ t s', t < count → Verif.Soft.step count s (.clear t) = some s' → (Soft.prog count s.stack.length).Within s' 2) ∧
    (∀ t s', t < count → Verif.Soft.step count s (.enter t) = some s' → (Soft.prog count s.stack.length).Within s' 3) := by
  have i := Verif.Soft.run_invA hc (Verif.Soft.init_invA count hp) hs
  have key : ∀ a s' f, Verif.Soft.step count s a = some s' → s'.stack = f :: s.stack →
      (Soft.prog count s.stack.length).Within s' (Soft.rank count s.stack f) := by
    intro a s' f h e
    refine (Soft.within hc (Verif.Soft.step_invA hc i h)).mono ?_
    rw [e, Soft.pot, if_pos rfl]
    exact Nat.le_refl _
  refine ⟨fun t s' ht h => ?_, fun s' h => ?_, fun t s' ht h => ?_, fun t s' ht h => ?_⟩
  all_goals
    have h' := h
    simp only [Verif.Soft.step, Option.some.injEq] at h
    (try rw [if_pos ht] at h)
    subst h
    exact key _ _ _ h' rfl

/-! ### The bounds are exact -/

/-- Check a witness for `Tight`. -/
def Prog.tight {S A : Type} (P : Prog S A) (s : S) (as : List A) (n : Nat) : Bool :=
  match P.run s as with
  | none => false
  | some s' => P.busy s' && P.excuses s as == 0 && P.accesses s as + 1 == n

theorem Prog.tight_sound {S A : Type} {P : Prog S A} {s : S} {as : List A} {n : Nat} (h : P.tight s as n = true) : P.Tight s n := by
  unfold Prog.tight at h
  split at h
  · cases h
  · rename_i s' hs
    simp only [Bool.and_eq_true, beq_iff_eq] at h
    exact ⟨as, s', hs, h.1.2, h.2, h.1.1⟩

/-- A call `op` made after the schedule `pre`. -/
def tightAfter {S A W : Type} [DecidableEq W] (M : Machine S A W) (s₀ : S) (idle : S → Bool) (call : S → S)
    (P : Prog (Fine S W) (Act A W)) (pre as : List (Act A W)) (n : Nat) : Bool :=
  match fineRun M (start s₀) pre with
  | none => false
  | some x => idle x.s && P.tight { x with s := call x.s } as n

theorem tightAfter_sound {S A W : Type} [DecidableEq W] {M : Machine S A W} {s₀ : S} {idle : S → Bool} {call : S → S}
    {P : Prog (Fine S W) (Act A W)} {pre as : List (Act A W)} {n : Nat} (h : tightAfter M s₀ idle call P pre as n = true) :
    ∃ pre x, fineRun M (start s₀) pre = some x ∧ idle x.s = true ∧ P.Tight { x with s := call x.s } n := by
  unfold tightAfter at h
  split at h
  · cases h
  · rename_i x hx
    simp only [Bool.and_eq_true] at h
    exact ⟨pre, x, hx, h.1, Prog.tight_sound h.2⟩

section
open Verif.Oneshot
private def os (n : Nat) : List (Act (Verif.Oneshot.Act Nat) (BitVec 8)) := List.replicate n (.go .sStep false)
private def or' (n : Nat) : List (Act (Verif.Oneshot.Act Nat) (BitVec 8)) := List.replicate n (.go .rStep false)
private def osc (op : SOp Nat) : Act (Verif.Oneshot.Act Nat) (BitVec 8) := .go (.sCall op) false
private def orc (op : ROp) : Act (Verif.Oneshot.Act Nat) (BitVec 8) := .go (.rCall op) false

/-- **C85, exactness, oneshot channel.** Every bound is reached. -/
theorem C85_oneshot_exact :
    (∀ op ∈ [SOp.send 7, .pollCanceled 1, .isCanceled, .drop], ∃ pre x,
      fineRun (Cas.machine Nat) (start (init Nat)) pre = some x ∧ x.s.spc.isIdle = true ∧
      (Oneshot.sLoops Nat).Tight { x with s := sCall x.s op } (Oneshot.sBudget 2 op)) ∧
    (∀ op ∈ [ROp.close, .tryRecv, .poll 1, .isTerminated, .drop], ∃ pre x,
      fineRun (Cas.machine Nat) (start (init Nat)) pre = some x ∧ x.s.rpc.isIdle = true ∧
      (Oneshot.rLoops Nat).Tight { x with s := rCall x.s op } (Oneshot.rBudget 2 op)) := by
  have hs : ∀ op pre as, tightAfter (Cas.machine Nat) (init Nat) (fun s => s.spc.isIdle) (fun s => sCall s op) (Oneshot.sLoops Nat)
      pre as (Oneshot.sBudget 2 op) = true → _ := fun op pre as => tightAfter_sound
  have hr : ∀ op pre as, tightAfter (Cas.machine Nat) (init Nat) (fun s => s.rpc.isIdle) (fun s => rCall s op) (Oneshot.rLoops Nat)
      pre as (Oneshot.rBudget 2 op) = true → _ := fun op pre as => tightAfter_sound
  simp only [List.mem_cons, List.not_mem_nil, or_false, forall_eq_or_imp, forall_eq]
  refine ⟨⟨hs _ (orc (.poll 1) :: or' 5 ++ orc .drop :: or' 2) (os 5) (by decide +kernel),
    hs _ [] (os 2 ++ orc .close :: or' 2 ++ os 2) (by decide +kernel), hs _ [] [] (by decide +kernel),
    hs _ (orc (.poll 1) :: or' 5 ++ orc .drop :: or' 2) (os 3) (by decide +kernel)⟩,
    hr _ (osc (.pollCanceled 1) :: os 4) (or' 2) (by decide +kernel), hr _ (osc (.send 7) :: os 3) (or' 2) (by decide +kernel),
    hr _ [] (or' 3 ++ osc (.send 7) :: os 3 ++ or' 3) (by decide +kernel), hr _ [] [] (by decide +kernel),
    hr _ (osc (.pollCanceled 1) :: os 4 ++ osc (.send 7) :: os 3) (or' 4) (by decide +kernel)⟩
end

section
open Verif.Pulse
private def ps (n : Nat) : List (Act (Verif.Pulse.Act 8 Nat) (Word 8)) := List.replicate n (.go .sStep false)
private def pr (n : Nat) : List (Act (Verif.Pulse.Act 8 Nat) (Word 8)) := List.replicate n (.go .rStep false)
private def psc (op : SOp 8 Nat) : Act (Verif.Pulse.Act 8 Nat) (Word 8) := .go (.sCall op) false
private def prc (op : ROp) : Act (Verif.Pulse.Act 8 Nat) (Word 8) := .go (.rCall op) false

/-- **C85, exactness, pulse channel.** -/
theorem C85_pulse_exact :
    (∀ op ∈ [SOp.send 1, .sat 1, .sendErr 7, .pollCanceled 1, .isCanceled, .drop], ∃ pre x,
      fineRun (Cas.machine 8 Nat) (start (init 8 Nat)) pre = some x ∧ x.s.spc.isIdle = true ∧
      (Pulse.sLoops 8 Nat).Tight { x with s := sCall x.s op } (Pulse.sBudget 2 op)) ∧
    (∀ op ∈ [ROp.close, .tryNext, .pollNext 1, .isTerminated, .drop], ∃ pre x,
      fineRun (Cas.machine 8 Nat) (start (init 8 Nat)) pre = some x ∧ x.s.rpc.isIdle = true ∧
      (Pulse.rLoops 8 Nat).Tight { x with s := rCall x.s op } (Pulse.rBudget 2 op)) := by
  have hs : ∀ op pre as, tightAfter (Cas.machine 8 Nat) (init 8 Nat) (fun s => s.spc.isIdle) (fun s => sCall s op) (Pulse.sLoops 8 Nat)
      pre as (Pulse.sBudget 2 op) = true → _ := fun op pre as => tightAfter_sound
  have hr : ∀ op pre as, tightAfter (Cas.machine 8 Nat) (init 8 Nat) (fun s => s.rpc.isIdle) (fun s => rCall s op) (Pulse.rLoops 8 Nat)
      pre as (Pulse.rBudget 2 op) = true → _ := fun op pre as => tightAfter_sound
  simp only [List.mem_cons, List.not_mem_nil, or_false, forall_eq_or_imp, forall_eq]
  refine ⟨⟨hs _ (prc (.pollNext 1) :: pr 5) (ps 2) (by decide +kernel), hs _ (prc (.pollNext 1) :: pr 5) (ps 2) (by decide +kernel),
    hs _ (prc (.pollNext 1) :: pr 5 ++ prc .drop :: pr 2) (ps 5) (by decide +kernel),
    hs _ [] (ps 2 ++ prc .close :: pr 2 ++ ps 2) (by decide +kernel), hs _ [] [] (by decide +kernel),
    hs _ (prc (.pollNext 1) :: pr 5 ++ prc .drop :: pr 2) (ps 3) (by decide +kernel)⟩,
    hr _ (psc (.pollCanceled 1) :: ps 4) (pr 2) (by decide +kernel),
    hr _ (psc (.send 1) :: ps 2 ++ psc (.sendErr 7) :: ps 3) (pr 3) (by decide +kernel),
    hr _ [] (pr 3 ++ psc (.send 1) :: ps 2 ++ psc (.sendErr 7) :: ps 3 ++ pr 4) (by decide +kernel), hr _ [] [] (by decide +kernel),
    hr _ (psc (.pollCanceled 1) :: ps 4 ++ psc (.sendErr 7) :: ps 3) (pr 4) (by decide +kernel)⟩
end

section
open Verif.Ring
private def rs (n : Nat) : List (Atomic.Refine.Act (Verif.Ring.Act Nat Nat) (Word 2)) := List.replicate n (.go .sStep false)
private def rr (n : Nat) : List (Atomic.Refine.Act (Verif.Ring.Act Nat Nat) (Word 2)) := List.replicate n (.go .rStep false)
private def rsc (op : SOp Nat Nat) : Atomic.Refine.Act (Verif.Ring.Act Nat Nat) (Word 2) := .go (.sCall op) false
private def rrc (op : ROp) : Atomic.Refine.Act (Verif.Ring.Act Nat Nat) (Word 2) := .go (.rCall op) false

/-- **C85, exactness, ring channel**, for capacity 2. -/
theorem C85_ring_exact :
    (∀ op ∈ [SOp.trySend 7, .sendOverwrite 7, .sendErr 7, .poll .ready 1, .poll .flush 1, .poll .close 1, .isCanceled, .drop],
      ∃ pre x, fineRun (Cas.machine 2 Nat Nat 2) (start (init 2 Nat Nat)) pre = some x ∧ x.s.spc.isIdle = true ∧
      (Ring.sLoops 2 Nat Nat 2).Tight { x with s := sCall x.s op } (Ring.sBudget 2 op)) ∧
    (∀ op ∈ [ROp.close, .tryNext, .pollNext 1, .isTerminated, .drop],
      ∃ pre x, fineRun (Cas.machine 2 Nat Nat 2) (start (init 2 Nat Nat)) pre = some x ∧ x.s.rpc.isIdle = true ∧
      (Ring.rLoops 2 Nat Nat 2).Tight { x with s := rCall x.s op } (Ring.rBudget 2 2 op)) := by
  have hs : ∀ op pre as, tightAfter (Cas.machine 2 Nat Nat 2) (init 2 Nat Nat) (fun s => s.spc.isIdle) (fun s => sCall s op)
      (Ring.sLoops 2 Nat Nat 2) pre as (Ring.sBudget 2 op) = true → _ := fun op pre as => tightAfter_sound
  have hr : ∀ op pre as, tightAfter (Cas.machine 2 Nat Nat 2) (init 2 Nat Nat) (fun s => s.rpc.isIdle) (fun s => rCall s op)
      (Ring.rLoops 2 Nat Nat 2) pre as (Ring.rBudget 2 2 op) = true → _ := fun op pre as => tightAfter_sound
  simp only [List.mem_cons, List.not_mem_nil, or_false, forall_eq_or_imp, forall_eq]
  refine ⟨⟨hs _ (rrc (.pollNext 1) :: rr 5) (rs 4) (by decide +kernel),
    hs _ (rrc (.pollNext 1) :: rr 5 ++ rsc (.trySend 1) :: rs 5 ++ rsc (.trySend 2) :: rs 5) (rs 7) (by decide +kernel),
    hs _ (rrc (.pollNext 1) :: rr 5 ++ rrc .drop :: rr 2) (rs 5) (by decide +kernel),
    hs _ (rsc (.trySend 1) :: rs 4 ++ rsc (.trySend 2) :: rs 4) (rs 2 ++ rrc .close :: rr 2 ++ rs 2) (by decide +kernel),
    hs _ (rsc (.trySend 1) :: rs 4) (rs 2 ++ rrc .close :: rr 2 ++ rs 2) (by decide +kernel),
    hs _ [] (rs 2 ++ rrc .close :: rr 2 ++ rs 2) (by decide +kernel), hs _ [] [] (by decide +kernel),
    hs _ (rrc (.pollNext 1) :: rr 5 ++ rrc .drop :: rr 2) (rs 3) (by decide +kernel)⟩,
    hr _ (rsc (.poll .close 1) :: rs 4) (rr 2) (by decide +kernel),
    hr _ (rsc (.trySend 1) :: rs 4 ++ rsc (.trySend 2) :: rs 4 ++ rsc (.poll .ready 1) :: rs 4) (rr 5) (by decide +kernel),
    hr _ [] (rr 3 ++ rsc (.trySend 1) :: rs 4 ++ rsc (.trySend 2) :: rs 4 ++ rsc (.poll .ready 1) :: rs 4 ++ rr 5) (by decide +kernel),
    hr _ [] [] (by decide +kernel),
    hr _ (rsc (.trySend 1) :: rs 4 ++ rsc (.trySend 2) :: rs 4 ++ rsc (.poll .close 1) :: rs 4 ++ rsc (.sendErr 7) :: rs 3) (rr 6)
      (by decide +kernel)⟩
end

/-- **C85, exactness, heap and mutex.** -/
theorem C85_heap_mutex_exact :
    (Heap.loops 0).Tight (Verif.Heap.Conc.call (Verif.Heap.Conc.init 8 8 2 fun _ => 0) (.alloc 0)) 3 ∧
    (∃ acts s, Verif.Mutex.run Verif.Mutex.init acts = some s ∧ (s.client 0).pc = .idle ∧ s.list.length = 2 ∧
      (Mutex.prog 0).Tight (Verif.Mutex.call s 0 .unlock) (Mutex.budget 2 .unlock)) := by
  refine ⟨Prog.tight_sound (as := [.step 0 false, .step 0 false]) (by decide +kernel), ?_⟩
  -- client 0 has the lock, clients 1 and 2 wait, client 1 gives up
  let acts : List Verif.Mutex.Act := [.call 0 .tryLock, .step 0, .call 1 .lock, .call 1 (.poll 11), .step 1, .step 1, .step 1,
    .call 2 .lock, .call 2 (.poll 12), .step 2, .step 2, .step 2, .call 1 .dropFut, .step 1, .step 1]
  have h : (match Verif.Mutex.run Verif.Mutex.init acts with
    | none => false
    | some s => decide ((s.client 0).pc = .idle) && s.list.length == 2 &&
        (Mutex.prog 0).tight (Verif.Mutex.call s 0 .unlock) (List.replicate 9 (.step 0)) (Mutex.budget 2 .unlock)) = true := by
    decide +kernel
  split at h
  · cases h
  · rename_i s hs
    simp only [Bool.and_eq_true, decide_eq_true_eq, beq_iff_eq] at h
    exact ⟨acts, s, hs, h.1.1, h.1.2, Prog.tight_sound h.2⟩

/-- **C85, exactness, software threads.** While the scheduler serves level 26, an interrupt requests the thread at all other
levels. -/
theorem C85_scheduler_exact : ∃ s', Verif.Soft.step 1 (Verif.Soft.init fun _ => 26) (.pend 0) = some s' ∧
    (Soft.prog 1 0).Tight s' (4 + 27 * (4 * 1 + 2)) := by
  refine ⟨_, rfl, Prog.tight_sound (as := List.replicate 4 .step ++ (((List.range 26).map fun p =>
    [.setPrio 0 p, .pend 0, .step, .step, .step]).flatten ++ (List.replicate 26 (List.replicate 4 .step ++ [.ret, .step, .step])).flatten ++
    (List.replicate 4 .step ++ [.ret, .step]))) (by decide +kernel)⟩

/-- Two elements. -/
private def two : List (Verif.LinkedList.Conc.Act Nat) :=
  .push 1 10 7 :: List.replicate 3 (.step 1 false) ++ .push 1 11 8 :: List.replicate 3 (.step 1 false)

/-- **C85, exactness, drain.** Two elements, both removed; and an element pushed before the second access of `cut_out`. -/
theorem C85_drain_exact : ∃ s es s' e, Verif.LinkedList.Conc.run true (Verif.LinkedList.Conc.init Nat) two = some (s, es) ∧
    Verif.LinkedList.Conc.step true s (.drain 0) = some (s', e) ∧
    Verif.LinkedList.Conc.Holds s.node s.head [(11, 8), (10, 7)] ∧ (LinkedList.drainProg true 0).Tight s' (1 + 5 * 2) := by
  refine ⟨_, _, _, _, rfl, rfl, ?_, Prog.tight_sound (as := .step 0 false :: (List.replicate 2 ([.step 0 false, .step 0 true] ++
    List.replicate 3 (.step 0 false))).flatten.dropLast) (by decide +kernel)⟩
  exact ⟨rfl, by decide, 10, rfl, rfl, by decide, 0, rfl, rfl⟩

/-! ### Examples: schedules that meet the hypotheses -/

/-- Run `P` and check that the call gets its budget. -/
private def spent {S A : Type} (P : Prog S A) (s : S) (as : List A) (n : Nat) : Bool :=
  (P.run s as).isSome && decide (n + P.excuses s as ≤ P.accesses s as)

private theorem of_spent {S A : Type} {P : Prog S A} {s : S} {as : List A} {n : Nat} (hw : P.Within s n)
    (h : spent P s as n = true) : P.Returns s as := by
  simp only [spent, Bool.and_eq_true, decide_eq_true_eq] at h
  obtain ⟨s', hs⟩ := Option.isSome_iff_exists.mp h.1
  exact hw as s' hs h.2

/-- A send which fails spuriously once and is beaten by a poll of the receiver once. -/
example : ∃ s as, (Oneshot.sLoops Nat).Returns s as := ⟨_, _,
  of_spent (C85_oneshot_sender (start (Verif.Oneshot.init Nat)) (.send 7))
    (as := os 2 ++ [.go .sStep true] ++ os 1 ++ orc (.poll 1) :: or' 5 ++ os 4) (by decide +kernel)⟩
example : ∃ s as, (Oneshot.rLoops Nat).Returns s as := ⟨_, _,
  of_spent (C85_oneshot_receiver (start (Verif.Oneshot.init Nat)) (.poll 1))
    (as := or' 3 ++ osc (.send 7) :: os 3 ++ or' 4) (by decide +kernel)⟩
example : ∃ s as, (Pulse.sLoops 8 Nat).Returns s as := ⟨_, _,
  of_spent (C85_pulse_sender (start (Verif.Pulse.init 8 Nat)) rfl (.sendErr 7))
    (as := prc (.pollNext 1) :: pr 5 ++ ps 6) (by decide +kernel)⟩
example : ∃ s as, (Pulse.rLoops 8 Nat).Returns s as := ⟨_, _,
  of_spent (C85_pulse_receiver (start (Verif.Pulse.init 8 Nat)) (.pollNext 1))
    (as := pr 3 ++ psc (.send 1) :: ps 2 ++ psc (.sendErr 7) :: ps 3 ++ pr 5) (by decide +kernel)⟩
example : ∃ s as, (Ring.sLoops 2 Nat Nat 2).Returns s as := ⟨_, _,
  of_spent (C85_ring_sender (start (Verif.Ring.init 2 Nat Nat)) (.trySend 7))
    (as := rrc (.pollNext 1) :: rr 5 ++ rs 5) (by decide +kernel)⟩
example : ∃ s as, (Ring.rLoops 2 Nat Nat 2).Returns s as := ⟨_, _,
  of_spent (C85_ring_receiver (by decide) (by decide) [] (start (Verif.Ring.init 2 Nat Nat)) rfl rfl (.pollNext 1))
    (as := rr 3 ++ rsc (.trySend 1) :: rs 4 ++ rsc (.trySend 2) :: rs 4 ++ rsc (.poll .ready 1) :: rs 4 ++ rr 6) (by decide +kernel)⟩
example : ∃ s as, (Oneshot.rSections Nat).Returns s as := ⟨_, _,
  of_spent ((C85_oneshot_sections (Verif.Oneshot.init Nat)).2 (.poll 1))
    (as := .rStep :: .rStep :: .sCall (.send 7) :: .sStep :: .sStep :: List.replicate 3 .rStep) (by decide +kernel)⟩
example : ∃ s as, (Pulse.rSections 8 Nat).Returns s as := ⟨_, _,
  of_spent ((C85_pulse_sections (Verif.Pulse.init 8 Nat)).2 .close) (as := [.rStep, .rStep]) (by decide +kernel)⟩
example : ∃ s as, (Ring.rSections 2 Nat Nat 2).Returns s as := ⟨_, _,
  of_spent ((C85_ring_sections (by decide) (by decide) [] (Verif.Ring.init 2 Nat Nat) rfl).2 rfl .tryNext)
    (as := List.replicate 4 .rStep) (by decide +kernel)⟩
/-- Another thread allocates between the load and the compare-exchange. -/
example : ∃ s as, (Heap.loops 0).Returns s as := ⟨_, _,
  of_spent (C85_heap 0 (Verif.Heap.Conc.init 8 8 2 fun _ => 0) rfl).1
    (as := .step 0 false :: .step 0 false :: .alloc 1 :: List.replicate 3 (.step 1 false) ++ List.replicate 3 (.step 0 false))
    (by decide +kernel)⟩
example : ∃ s as, (LinkedList.prog (α := Nat) true 0).Returns s as := ⟨_, _,
  of_spent ((C85_list (α := Nat) 0 (Verif.LinkedList.Conc.init Nat) rfl true).1 1 7 _ _ rfl)
    (as := List.replicate 3 (.step 0 false)) (by decide +kernel)⟩
example : ∃ s as, (Mutex.prog 0).Returns s as := ⟨_, _,
  of_spent (C85_mutex [.call 0 .tryLock, .step 0] _ rfl 0 rfl .unlock) (as := List.replicate 6 (.step 0)) (by decide +kernel)⟩

/-- The thread runs, its body takes 300 steps of its own. -/
example : ∃ s as, (Soft.prog 1 0).Returns s as := ⟨_, _,
  of_spent ((C85_scheduler (count := 1) (prio := fun _ => 26) (by decide) (fun _ => by decide) [] (Verif.Soft.init fun _ => 26) rfl).2.2.2 0 _
    (by decide) rfl) (as := .step :: .step :: List.replicate 300 .step ++ [.ret, .step]) (by decide +kernel)⟩

private theorem idle_run {u : Nat} : ∀ {acts : List (Verif.LinkedList.Conc.Act Nat)} {s s' : Verif.LinkedList.Conc.State Nat}
    {es : List (Verif.LinkedList.Conc.Event Nat)}, (∀ a ∈ acts, Verif.LinkedList.Conc.tidOf a ≠ u) → s.pc u = .idle →
    Verif.LinkedList.Conc.run true s acts = some (s', es) → s'.pc u = .idle
  | [], s, s', es, _, hi, h => by
    simp only [Verif.LinkedList.Conc.run, Option.some.injEq, Prod.mk.injEq] at h
    rw [← h.1]; exact hi
  | a :: acts, s, s', es, ha, hi, h => by
    simp only [Verif.LinkedList.Conc.run] at h
    split at h
    · cases h
    · rename_i s₁ e₁ hst
      split at h
      · cases h
      · rename_i s₂ e₂ hr
        simp only [Option.some.injEq, Prod.mk.injEq] at h
        obtain ⟨rfl, -⟩ := h
        refine idle_run (fun b hb => ha b (List.mem_cons_of_mem _ hb)) ?_ hr
        rw [Verif.LinkedList.Conc.step_idle hst (ha a List.mem_cons_self)]
        exact hi

/-- Two elements in the list; another one is pushed while the first is cut out, and the drain walks over it. -/
example : ∃ s as, (LinkedList.drainProg (α := Nat) true 0).Returns s as := ⟨_, _,
  of_spent (C85_drain true two (Verif.LinkedList.Conc.alwaysB_sound _ (by decide +kernel) (fun _ _ => rfl) (by decide)) _ _ rfl 0 rfl
    (fun u => by
      by_cases hu : u = 1
      · subst hu; exact ⟨rfl, rfl⟩
      · rw [idle_run (u := u) (acts := two) (s := Verif.LinkedList.Conc.init Nat) (fun a ha e => hu ?_) rfl rfl]
        · exact ⟨rfl, rfl⟩
        · have : ∀ a ∈ two, Verif.LinkedList.Conc.tidOf a = 1 := by decide
          rw [← e, this a ha])
    [(11, 8), (10, 7)] ⟨rfl, by decide, 10, rfl, rfl, by decide, 0, rfl, rfl⟩ _ _ rfl)
    (as := .step 0 false :: .step 0 false :: .step 0 true :: .step 0 false :: .push 1 12 9 :: List.replicate 3 (.step 1 false) ++
      List.replicate 10 (.step 0 true)) (by decide +kernel)⟩

/-- The excuses are needed: as long as compare-exchanges keep failing the call does not return. -/
example : let P := Oneshot.sLoops Nat
    let s : Fine (Verif.Oneshot.State Nat) (BitVec 8) := { start (Verif.Oneshot.init Nat) with
      s := Verif.Oneshot.sCall (Verif.Oneshot.init Nat) (.send 7) }
    let as := os 2 ++ List.replicate 9 (.go .sStep true)
    (P.run s as).elim false P.busy = true ∧ P.accesses s as = 11 ∧ P.excuses s as = 9 := by decide +kernel

end Verif.Bound
