import Verif.Bound.Lemmas
import Verif.Heap.ConcModel
import Verif.LinkedList.ConcModel
import Verif.Mutex.Run
/-! # Potentials for the pool of the heap, the linked list and the mutex -/
namespace Verif.Bound

/-! ### Pool of the heap -/
namespace Heap
open Verif.Heap.Conc

/-- An access of context `t`. -/
def own (t : Tid) : Act → Bool
  | .step u _ => u == t
  | _ => false

/-- Context `t` is in a call. -/
def busy (t : Tid) (s : State) : Bool := decide (s.pc t ≠ .idle)

/-- With feature `atomics`, seen from context `t`. Excused, with two accesses each: a
compare-exchange that fails spuriously, and a change of `free` or `uninit` by another context. -/
def loops (t : Tid) : Prog State Act where
  step s a := some (stepHw s a)
  own _ := own t
  busy := busy t
  excuse s a s' :=
    if own t a then (match a with | .step _ true => 2 | _ => 0)
    else if s.free = s'.free ∧ s.uninit = s'.uninit then 0 else 2

/-- Without it. -/
def soft (t : Tid) : Prog State Act := sections (fun s a => some (stepSoft s a)) (own t) (busy t)

/-- The potential of a context. -/
def pot (s : State) : Pc → Nat
  | .idle => 0
  | .afLoad => 3
  | .afRead old => if s.free = old then 2 else 4
  | .afCas old _ => if s.free = old then 1 else 3
  | .auLoad => 2
  | .auCas old => if s.uninit = old then 1 else 2
  | .deLoad _ => 3
  | .deWrite _ old => if s.free = old then 2 else 4
  | .deCas _ old => if s.free = old then 1 else 3

theorem pot_eq {s s' : State} {pc : Pc} (h1 : s.free = s'.free) (h2 : s.uninit = s'.uninit) : pot s' pc = pot s pc := by
  cases pc <;> simp only [pot, h1, h2]

theorem pot_le (s s' : State) (pc : Pc) : pot s' pc ≤ pot s pc + 2 := by
  cases pc <;> simp only [pot] <;> (repeat' split) <;> omega

/-- Another context does not move this one. -/
theorem stepHw_pc {s : State} {t : Tid} {a : Act} (h : own t a = false) (hb : s.pc t ≠ .idle) : (stepHw s a).pc t = s.pc t := by
  cases a with
  | step u sp =>
    have hu : t ≠ u := by intro e; subst e; simp [own] at h
    unfold stepHw afAfter auAfter State.goto
    grind
  | alloc u => unfold stepHw call State.goto; grind
  | dealloc u p => unfold stepHw call State.goto; grind
  | write p v => unfold stepHw call; grind

theorem stepSoft_pc {s : State} {t : Tid} {a : Act} (h : own t a = false) (hb : s.pc t ≠ .idle) : (stepSoft s a).pc t = s.pc t := by
  cases a with
  | step u sp =>
    have hu : t ≠ u := by intro e; subst e; simp [own] at h
    unfold stepSoft State.goto
    grind
  | alloc u => unfold stepSoft call State.goto; grind
  | dealloc u p => unfold stepSoft call State.goto; grind
  | write p v => unfold stepSoft call; grind

theorem loops_within (t : Tid) (s : State) : (loops t).Within s (pot s (s.pc t)) := by
  refine within_of_potential (loops t) (fun _ => True) (fun s => pot s (s.pc t)) (fun _ _ _ _ _ => trivial)
    (fun s _ hb => ?_) (fun s a s' _ hb hs => ?_) s trivial
  · simp only [loops, busy, decide_eq_true_eq] at hb
    cases hp : s.pc t <;> simp only [pot] <;> (try split) <;> first | omega | exact absurd hp hb
  · simp only [loops, busy, decide_eq_true_eq, Option.some.injEq] at hb hs ⊢
    subst hs
    by_cases ho : own t a = true
    · simp only [ho, if_true]
      cases a with
      | step u sp =>
        simp only [own, beq_iff_eq] at ho
        subst ho
        unfold stepHw afAfter auAfter State.goto
        cases hp : s.pc u <;> cases sp <;> simp only [hp] at hb ⊢ <;> grind [pot]
      | _ => simp [own] at ho
    · have ho : own t a = false := by simpa using ho
      simp only [ho, Bool.false_eq_true, if_false, Nat.add_zero]
      rw [stepHw_pc ho hb]
      split
      · rename_i h
        rw [pot_eq h.1 h.2]
        omega
      · exact pot_le _ _ _

/-- The accesses of a call without feature `atomics`. -/
def softPot : Pc → Nat
  | .afLoad => 2
  | .auLoad => 1
  | .deLoad _ => 1
  | _ => 0

/-- The program points of the build without `atomics`. -/
def softPc : Pc → Bool
  | .idle | .afLoad | .auLoad | .deLoad _ => true
  | _ => false

theorem soft_within (t : Tid) (s : State) (hs : softPc (s.pc t) = true) : (soft t).Within s (softPot (s.pc t)) := by
  refine within_of_potential (soft t) (fun s => softPc (s.pc t) = true) (fun s => softPot (s.pc t))
    (fun s a s' hi hs => ?_) (fun s hi hb => ?_) (fun s a s' hi hb hs => ?_) s hs
  · simp only [soft, sections, Option.some.injEq] at hs
    subst hs
    cases a <;> unfold stepSoft <;> (try unfold call) <;> unfold State.goto <;> grind [softPc]
  · simp only [soft, sections, busy, decide_eq_true_eq] at hb
    cases hp : s.pc t <;> simp [hp, softPc, softPot] at hi hb ⊢
  · simp only [soft, sections, busy, decide_eq_true_eq, Option.some.injEq] at hb hs ⊢
    subst hs
    by_cases ho : own t a = true
    · simp only [ho, if_true]
      cases a with
      | step u sp =>
        simp only [own, beq_iff_eq] at ho
        subst ho
        unfold stepSoft State.goto
        cases hp : s.pc u <;> simp only [hp, softPc, Bool.false_eq_true] at hb hi ⊢ <;> grind [softPot]
      | _ => simp [own] at ho
    · have ho : own t a = false := by simpa using ho
      simp only [ho, Bool.false_eq_true, if_false, Nat.add_zero]
      rw [stepSoft_pc ho hb]
      exact Nat.le_refl _

end Heap

/-! ### Linked list -/
namespace LinkedList
open Verif.LinkedList.Conc

variable {α : Type}

/-- An access of context `t`. -/
def own (t : Tid) : Act α → Bool
  | .step u _ => u == t
  | _ => false

/-- Context `t` is in `push` or `pop`. -/
def inCall : Pc → Bool
  | .pushLoad _ | .pushWrite _ _ | .pushCas _ _ | .popLoad | .popRead _ | .popCas _ _ | .popFree _ => true
  | _ => false

/-- With feature `atomics` or without it, seen from context `t`. Excused, with two accesses
each: a compare-exchange that fails spuriously, and a change of the head by another context. -/
def prog (hw : Bool) (t : Tid) : Prog (State α) (Act α) where
  step s a := (step hw s a).map (·.1)
  own _ := own t
  busy s := inCall (s.pc t)
  excuse s a s' :=
    if hw then
      if own t a then (match a with | .step _ true => 2 | _ => 0)
      else if s.head = s'.head then 0 else 2
    else 0

/-- The potential of a context. -/
def pot (head : Nat) : Pc → Nat
  | .pushLoad _ => 3
  | .pushWrite _ old => if head = old then 2 else 4
  | .pushCas _ old => if head = old then 1 else 3
  | .popLoad => 4
  | .popRead old => if head = old then 3 else 5
  | .popCas old _ => if head = old then 2 else 4
  | .popFree _ => 1
  | _ => 0

theorem pot_le (a b : Nat) (pc : Pc) : pot b pc ≤ pot a pc + 2 := by
  cases pc <;> simp only [pot] <;> (repeat' split) <;> omega

theorem step_pc {hw : Bool} {s s' : State α} {t : Tid} {a : Act α} {e : List (Event α)} (h : own t a = false)
    (hb : inCall (s.pc t) = true) (hs : step hw s a = some (s', e)) : s'.pc t = s.pc t := by
  have hb : s.pc t ≠ .idle := by intro e; simp [e, inCall] at hb
  cases a with
  | step u sp =>
    have hu : t ≠ u := by intro e; subst e; simp [own] at h
    unfold step popAfter drTest cutAfter State.goto State.put at hs
    grind
  | push u p v => unfold step State.goto State.put at hs; grind
  | pop u => unfold step State.goto at hs; grind
  | drain u => unfold step State.goto at hs; grind

theorem hw_within (t : Tid) (s : State α) : (prog true t).Within s (pot s.head (s.pc t)) := by
  refine within_of_potential (prog true t) (fun _ => True) (fun s => pot s.head (s.pc t)) (fun _ _ _ _ _ => trivial)
    (fun s _ hb => ?_) (fun s a s' _ hb hs => ?_) s trivial
  · simp only [prog] at hb
    cases hp : s.pc t <;> simp only [hp, inCall, Bool.false_eq_true] at hb <;> simp only [pot] <;> (try split) <;> omega
  · simp only [prog, if_true] at hb hs ⊢
    cases hst : step true s a with
    | none => simp [hst] at hs
    | some r =>
      obtain ⟨s₁, e⟩ := r
      simp only [hst, Option.map_some, Option.some.injEq] at hs
      subst hs
      by_cases ho : own t a = true
      · simp only [ho, if_true]
        cases a with
        | step u sp =>
          simp only [own, beq_iff_eq] at ho
          subst ho
          unfold step popAfter State.goto State.put at hst
          cases hp : s.pc u <;> cases sp <;> simp only [hp, inCall, Bool.false_eq_true] at hb hst ⊢ <;>
            (try simp only [if_true] at hst) <;> (repeat' split at hst) <;>
            simp only [Option.some.injEq, Prod.mk.injEq, reduceCtorEq] at hst <;>
            (try (obtain ⟨rfl, rfl⟩ := hst)) <;> (try simp only [if_true, pot]) <;> grind
        | _ => simp [own] at ho
      · have ho : own t a = false := by simpa using ho
        simp only [ho, Bool.false_eq_true, if_false, Nat.add_zero]
        rw [step_pc ho hb hst]
        split
        · rename_i h
          rw [← h]
          omega
        · exact pot_le _ _ _

/-- The accesses of a call without feature `atomics`. -/
def softPot : Pc → Nat
  | .pushLoad _ => 1
  | .popLoad => 2
  | .popFree _ => 1
  | _ => 0

/-- The program points of `push` and `pop` in the build without `atomics`. -/
def softPc : Pc → Bool
  | .pushWrite _ _ | .pushCas _ _ | .popRead _ | .popCas _ _ => false
  | _ => true

theorem soft_within (t : Tid) (s : State α) (hs : softPc (s.pc t) = true) : (prog false t).Within s (softPot (s.pc t)) := by
  refine within_of_potential (prog false t) (fun s => softPc (s.pc t) = true) (fun s => softPot (s.pc t))
    (fun s a s' hi hs => ?_) (fun s hi hb => ?_) (fun s a s' hi hb hs => ?_) s hs
  · simp only [prog] at hs
    cases hst : step false s a with
    | none => simp [hst] at hs
    | some r =>
      obtain ⟨s₁, e⟩ := r
      simp only [hst, Option.map_some, Option.some.injEq] at hs
      subst hs
      cases a <;> unfold step at hst <;> (try unfold popAfter drTest cutAfter at hst) <;>
        (try unfold State.goto at hst) <;> (try unfold State.put at hst) <;> grind [softPc]
  · simp only [prog] at hb
    cases hp : s.pc t <;> simp [hp, softPc, softPot, inCall] at hi hb ⊢
  · simp only [prog] at hb hs ⊢
    cases hst : step false s a with
    | none => simp [hst] at hs
    | some r =>
      obtain ⟨s₁, e⟩ := r
      simp only [hst, Option.map_some, Option.some.injEq] at hs
      subst hs
      by_cases ho : own t a = true
      · simp only [ho, if_true, Bool.false_eq_true, if_false]
        cases a with
        | step u sp =>
          simp only [own, beq_iff_eq] at ho
          subst ho
          unfold step popAfter State.goto State.put at hst
          cases hp : s.pc u <;> simp only [hp, inCall, softPc, Bool.false_eq_true] at hb hi hst ⊢ <;> grind [softPot]
        | _ => simp [own] at ho
      · have ho : own t a = false := by simpa using ho
        simp only [ho, Bool.false_eq_true, if_false, Nat.add_zero]
        rw [step_pc ho hb hst]
        exact Nat.le_refl _

end LinkedList

/-! ### Mutex -/
namespace Mutex
open Verif.Mutex

/-- An access of client `p`. -/
def own (p : Nat) : Act → Bool
  | .step q => q == p
  | _ => false

/-- Seen from client `p`. Excused, with two accesses each: a waiter that another client adds to
the list. -/
def prog (p : Nat) : Prog State Act where
  step := step
  own _ := own p
  busy s := decide ((s.client p).pc ≠ .idle)
  excuse s a s' := if own p a then 0 else 2 * (s'.list.length - s.list.length)

/-- The potential of a client. -/
def pot (l : Nat) : Pc → Nat
  | .idle => 0
  | .tl => 1
  | .p1 _ => 6
  | .p1take _ => 2
  | .p1read _ => 1
  | .pchk _ _ => 5
  | .ppush _ => 4
  | .p2 => 3
  | .ulLoad => 2 * l + 6
  | .ulDrain rest => rest.length + l + 5
  | .ulCut _ rest => rest.length + l + 5
  | .ulHead => l + 4
  | .ulScan rest => rest.length + 3
  | .ulRead _ => 3
  | .ulStore _ => 2
  | .ulWake _ _ => 1
  | .dTake _ => 2 * l + 8
  | .dRead _ => 1
  | .dTry => 2 * l + 7

theorem pot_le (a b : Nat) (pc : Pc) : pot b pc ≤ pot a pc + 2 * (b - a) := by
  cases pc <;> simp only [pot] <;> omega

theorem step_client {s s' : State} {p : Nat} {a : Act} (h : own p a = false) (hb : (s.client p).pc ≠ .idle)
    (hs : step s a = some s') : s'.client p = s.client p := by
  cases a with
  | step q =>
    have hq : p ≠ q := by intro e; subst e; simp [own] at h
    simp only [step] at hs
    unfold pstep acquire acquirePoll swapTaken dropWaker State.goto State.setC State.setN State.emit upd at hs
    grind
  | call q op =>
    simp only [step, Option.some.injEq] at hs
    subst hs
    unfold call State.goto State.setC State.emit upd
    cases op <;> grind

theorem within (p : Nat) (s : State) (hi : Inv s) : (prog p).Within s (pot s.list.length (s.client p).pc) := by
  refine within_of_potential (prog p) Inv (fun s => pot s.list.length (s.client p).pc) (fun s a s' hi hs => step_inv hi hs)
    (fun s _ hb => ?_) (fun s a s' hi hb hs => ?_) s hi
  · simp only [prog, decide_eq_true_eq] at hb
    cases hp : (s.client p).pc <;> simp only [pot] <;> first | omega | exact absurd hp hb
  · simp only [prog, decide_eq_true_eq] at hb hs ⊢
    by_cases ho : own p a = true
    · simp only [ho, if_true]
      cases a with
      | step q =>
        simp only [own, beq_iff_eq] at ho
        subst ho
        simp only [step] at hs
        have hsuf := (hi.n.cl q).suf
        unfold pstep at hs
        simp only at hs
        cases hp : (s.client q).pc <;> simp only [hp] at hs hb hsuf <;>
          (try simp only [State.goto, State.setC, State.emit, State.setN, acquire, acquirePoll, swapTaken, dropWaker] at hs) <;>
          (repeat' split at hs) <;>
          simp only [Option.some.injEq, reduceCtorEq] at hs <;> (try subst hs) <;>
          first
          | exact absurd rfl hb
          | (simp only [upd, if_true, pot]; simp only [List.length_cons]; omega)
          | (simp only [upd, if_true, pot]; omega)
          | (simp only [Pc.rest] at hsuf
             have hmem : _ ∈ s.list := hsuf.mem (List.mem_cons_self ..)
             have hlen := List.length_erase_of_mem hmem
             have hpos := List.length_pos_of_mem hmem
             simp only [upd, if_true, pot, hlen]
             omega)
      | call q op => simp [own] at ho
    · have ho : own p a = false := by simpa using ho
      simp only [ho, Bool.false_eq_true, if_false, Nat.add_zero]
      rw [step_client ho hb hs]
      exact pot_le _ _ _

end Mutex
end Verif.Bound
