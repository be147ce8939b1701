import Verif.Atomic.Lemmas
import Verif.Bitfield.Lemmas
/-!
# Properties C04 and C55 (atomic read-modify-write)
-/
namespace Verif.Atomic

/-- **C04 / C55, linearizability.** For any number of contexts, any closures and
any interleaving of loads, (weak, possibly spuriously failing) compare-exchanges
and single-instruction updates: the memory is what the calls that returned would
have produced executed one after another on a plain variable in the order of
their returns, and each call returned exactly the result it would have returned
there (`Ok`/`Err` and the old value). Moreover every context's invocations are
its returned calls, in the same order, plus at most one call still running:
no update is lost or applied twice. -/
theorem C04_no_lost_update {α : Type} [DecidableEq α] (m : α) (schedule : List (Act α)) :
    let s := (run (init m) schedule).1
    let history := (run (init m) schedule).2
    (sequential m ((returned history).map (·.2.1)) = (s.mem, (returned history).map (·.2.2))) ∧
    ∀ t, ∃ running, running.length ≤ 1 ∧
      invokedBy t history = returnedBy t history ++ running := by
  refine ⟨run_replays schedule (init_inv m), fun t =>
    ⟨pendingCall ((run (init m) schedule).1.pc t), pendingCall_length _, ?_⟩⟩
  have := run_account schedule t (init m)
  simpa [init, pendingCall] using this

/-- A schedule with a lost race, a spurious failure and a declined update. -/
def demoSchedule : List (Act Nat) :=
  [.call 0 (fun x => some (x + 1)), .call 1 (fun x => some (x * 10)), .step 0 false, .step 1 false,
   .step 1 false, .step 0 false, .step 0 true, .step 0 false,
   .call 2 (fun x => if x < 3 then some 0 else none), .step 2 false, .rmw 3 (fun x => x + 100)]

example : ((run (init 5) demoSchedule).1.mem = 151) ∧
    (returned (run (init 5) demoSchedule).2).map (fun e => (e.1, e.2.2)) =
      [(1, .ok 5), (0, .ok 50), (2, .error 51), (3, .ok 51)] := ⟨rfl, rfl⟩

/-- **C04 for registers.** Contexts concurrently run the atomic register
`modify` with chains of in-range field operations. After any interleaving, the
value of field `f` is the last-write-wins value of the concatenation of the
*completed* chains in completion order, provided each operation targets `f`
itself or a field disjoint from it. -/
theorem C04_register_fields {n : Nat} (m : BitVec n)
    (schedule : List (Act (BitVec n))) (chains : List (List (Bitfield.FieldOp n)))
    (f : Nat × Nat)
    (hchains : (returned (run (init m) schedule).2).map (·.2.1) = chains.map regClosure)
    (hr : ∀ ops ∈ chains, ∀ op ∈ ops, Bitfield.InRange n op.field)
    (hd : ∀ ops ∈ chains, ∀ op ∈ ops, op.field = f ∨ Bitfield.Disjoint op.field f) :
    Bitfield.fieldVal (run (init m) schedule).1.mem f.1 f.2 =
      Bitfield.expected f (Bitfield.fieldVal m f.1 f.2) chains.flatten := by
  have h := (C04_no_lost_update m schedule).1
  rw [hchains] at h
  have h1 := congrArg Prod.fst h
  simp only at h1
  rw [← h1]
  clear h h1 hchains
  induction chains generalizing m with
  | nil => rfl
  | cons ops rest ih =>
    obtain ⟨y, hy, hv⟩ := Bitfield.applyAll_spec f ops m (hr ops (by simp)) (hd ops (by simp))
    have hy' : regClosure ops m = some y := hy
    have hexp : ∀ (v : Nat) (a b : List (Bitfield.FieldOp n)),
        Bitfield.expected f v (a ++ b) = Bitfield.expected f (Bitfield.expected f v a) b := by
      intro v a b
      induction a generalizing v with
      | nil => rfl
      | cons op a iha => simp [Bitfield.expected, iha]
    simp only [List.map_cons, sequential, hy', List.flatten_cons, hexp]
    rw [ih y (fun o ho => hr o (by simp [ho])) (fun o ho => hd o (by simp [ho])), hv]

/-- Two contexts updating different fields of one register, one of them losing
the race and retrying. -/
def demoRegister : List (Act (BitVec 32)) :=
  [.call 0 (regClosure [.writeBits 0 4 0x5#32]), .call 1 (regClosure [.set 7]),
   .step 0 false, .step 1 false, .step 1 false, .step 0 false, .step 0 false]

example : (run (init (0#32)) demoRegister).1.mem = 0x85#32 ∧
    (returned (run (init (0#32)) demoRegister).2).map (·.1) = [1, 0] := by decide

/-- **C55.** The compare-exchange loop and the critical section compute the same
thing: when the loop returns (any interference before its last access), its
result and its effect are those of `Atomic::try_modify` executed in one step on
the memory at that moment. A declined update leaves the memory unchanged. -/
theorem C55_cas_loop_is_soft_try_modify {α : Type} [DecidableEq α] (m : α)
    (schedule : List (Act α)) (t : Tid) (spurious : Bool) (f : α → Option α) (res : Except α α)
    (hret : (step (run (init m) schedule).1 (.step t spurious)).2 = [.ret t f res]) :
    softTryModify (run (init m) schedule).1.mem f =
      ((step (run (init m) schedule).1 (.step t spurious)).1.mem, res) := by
  have hinv : ∀ (as : List (Act α)) (s : State α), Inv s → Inv (run s as).1 := by
    intro as
    induction as with
    | nil => intro s h; exact h
    | cons a as ih => intro s h; exact ih _ (step_inv h a)
  have hi := hinv schedule _ (init_inv m)
  have hr := step_replays hi (.step t spurious)
  generalize (run (init m) schedule).1 = s at *
  simp only [Replays, hret, returned, List.map_cons, List.map_nil, sequential] at hr
  generalize (step s (.step t spurious)).1.mem = m' at *
  unfold softTryModify
  cases hf : f s.mem with
  | none =>
    simp only [hf, Prod.mk.injEq, List.cons.injEq, and_true] at hr
    simp only [hf, Prod.mk.injEq]; exact hr
  | some x =>
    simp only [hf, Prod.mk.injEq, List.cons.injEq, and_true] at hr
    simp only [hf, Prod.mk.injEq]; exact hr

example :
    (step (run (init 5) (demoSchedule.take 5)).1 (.step 0 false)).2.length = 0 ∧
    (returned (step (run (init 5) (demoSchedule.take 4)).1 (.step 1 false)).2).length = 1 := by
  decide

/-- **C55, modify and swap are the total special cases.** -/
theorem C55_modify_swap {α : Type} (cell v : α) (g : α → α) :
    softTryModify cell (fun x => some (g x)) = ((softModify cell g).1, .ok (softModify cell g).2) ∧
    softModify cell (fun _ => v) = softSwap cell v ∧ (softSwap cell v).2 = cell ∧
    (softSwap cell v).1 = v := by
  simp [softTryModify, softModify, softSwap]

/-- **C55, progress.** A context that is not disturbed (no other access between,
no spurious failure) returns within two of its own steps, from any state. -/
theorem C55_solo_progress {α : Type} [DecidableEq α] (s : State α) (t : Tid)
    (hbusy : (s.pc t) ≠ .idle) :
    ∃ k, k ≤ 2 ∧ (run s (List.replicate k (.step t false))).1.pc t = .idle := by
  have key : ∀ (s : State α) (f : α → Option α),
      ((afterRead s t f s.mem).1.pc t = .idle) ∨
      (∃ new, (afterRead s t f s.mem).1.pc t = .loop f s.mem new) ∧
        (afterRead s t f s.mem).1.mem = s.mem := by
    intro s f
    unfold afterRead
    cases hf : f s.mem <;> simp
  have fin : ∀ (s' : State α) (f : α → Option α) (new : α), s'.pc t = .loop f s'.mem new →
      (step s' (.step t false)).1.pc t = .idle := by
    intro s' f new h
    simp [step, h]
  cases hp : s.pc t with
  | idle => exact absurd hp hbusy
  | start f =>
    rcases key s f with h | ⟨⟨new, h⟩, hm⟩
    · exact ⟨1, by omega, by simp [run, step, hp, h]⟩
    · refine ⟨2, by omega, ?_⟩
      simp only [List.replicate, run]
      have e : (step s (.step t false)).1 = (afterRead s t f s.mem).1 := by simp [step, hp]
      rw [e]
      exact fin _ f new (by rw [h, hm])
  | loop f old new =>
    by_cases hm : s.mem = old
    · exact ⟨1, by omega, by simp [run, step, hp, hm]⟩
    · rcases key s f with h | ⟨⟨new', h⟩, hm'⟩
      · exact ⟨1, by omega, by simp [run, step, hp, hm, h]⟩
      · refine ⟨2, by omega, ?_⟩
        simp only [List.replicate, run]
        have e : (step s (.step t false)).1 = (afterRead s t f s.mem).1 := by simp [step, hp, hm]
        rw [e]
        exact fin _ f new' (by rw [h, hm'])

example : ∃ s : State Nat, s.pc 0 ≠ .idle :=
  ⟨{ mem := 0, pc := fun _ => .start (fun x => some (x + 1)) }, by simp⟩

/-- **C04, critical-section build.** The register `modify` of the soft-atomics
build is one step: the new memory is the chain applied to the old memory. -/
theorem C04_soft_register {n : Nat} (m : BitVec n) (ops : List (Bitfield.FieldOp n))
    (f : Nat × Nat) (hr : ∀ op ∈ ops, Bitfield.InRange n op.field)
    (hd : ∀ op ∈ ops, op.field = f ∨ Bitfield.Disjoint op.field f) :
    ∃ m', softRegModify m ops = some m' ∧
      Bitfield.fieldVal m' f.1 f.2 = Bitfield.expected f (Bitfield.fieldVal m f.1 f.2) ops :=
  Bitfield.applyAll_spec f ops m hr hd

example : softRegModify (0#8) [.set 1, .writeBits 4 4 0xF#8] = some 0xF2#8 := by decide

end Verif.Atomic
