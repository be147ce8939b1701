import Verif.Exec.Lemmas
import Verif.Bound.Scheduler
/-! # The executor comes to rest

Tools for the proof that a system of tasks and software threads has finitely many accesses to make. -/
namespace Verif.Exec.Rest
open Verif.Soft (Frame InvA running upd)
open Verif.Bound.Soft (rank level rank_pos frameStep_rank)

/-- What the calls on the stack have left to do. -/
def spot (count : Nat) : List Frame → Nat
  | [] => 0
  | f :: rest => 2 * rank count rest f + f.inBody.isSome.toNat + spot count rest

/-- What a wake adds at most. -/
def push (count : Nat) : Nat := 2 * (4 + 27 * level count)

theorem spot_pos {count : Nat} {f : Frame} {rest : List Frame} : 0 < spot count (f :: rest) := by
  have := rank_pos (count := count) rest f
  simp only [spot]; omega

theorem inside_cons {f : Frame} {rest : List Frame} : inside (f :: rest) = inside [f] := by
  cases f with
  | row r pc => cases pc with
    | call thr cell bit c => cases c <;> rfl
    | _ => rfl
  | _ => rfl

/-- In a system of tasks only the bodies that run a chain are bodies. -/
theorem inBody_inside {s : Soft.State} (o : NoOther s) {f : Frame} (hf : f ∈ s.stack) : f.inBody = inside [f] := by
  cases f with
  | row r pc => cases pc with
    | call thr cell bit c => cases c <;> rfl
    | _ => rfl
  | plain u c => exact absurd rfl ((o _ hf).2 u c)
  | _ => rfl

/-- An access of the software threads. -/
theorem spot_step {count : Nat} (hc : count ≤ 32) {s s' : Soft.State} (a : InvA count s) (o : NoOther s) (h : Soft.step count s .step = some s') :
    spot count s'.stack < spot count s.stack ∧ s.stack ≠ [] ∧ inside s.stack = none ∨ s' = s ∧ entering s.stack = none ∧ (s.stack = [] ∨ inside s.stack ≠ none) := by
  simp only [Soft.step] at h
  split at h
  · rename_i e
    simp only [Option.some.injEq] at h
    exact .inr ⟨h.symm, by rw [e]; rfl, .inl e⟩
  · rename_i f rest e
    have hb := inBody_inside o (f := f) (by rw [e]; simp)
    cases hi : inside [f] with
    | none =>
      rw [hi] at hb
      refine .inl ⟨?_, by rw [e]; simp, by rw [e, inside_cons, hi]⟩
      rw [e]
      rcases frameStep_rank hc a e h with q | ⟨x, q, hx⟩
      · rw [q]
        have := rank_pos (count := count) rest f
        simp only [spot]; omega
      · rw [q]
        have := x.inBody.isSome.toNat_le
        simp only [hb, Option.isSome_none, Bool.false_eq_true, if_false] at hx
        simp only [spot, hb, Option.isSome_none, Bool.toNat_false]; omega
    | some t =>
      right
      refine ⟨?_, ?_, .inr (by rw [e, inside_cons, hi]; simp)⟩
      · cases f with
        | row r pc => cases pc with
          | call thr cell bit c => cases c with
            | body p =>
              simp only [Soft.frameStep, Soft.callStep, Option.some.injEq] at h
              rw [← h, ← e]
            | _ => simp [inside] at hi
          | _ => simp [inside] at hi
        | _ => simp [inside] at hi
      · rw [e]
        cases f with
        | row r pc => cases pc with
          | call thr cell bit c => cases c with
            | body p => rfl
            | _ => simp [inside] at hi
          | _ => simp [inside] at hi
        | _ => simp [inside] at hi

/-- The return of a body. -/
theorem spot_ret {count : Nat} {s : Soft.State} {t : Nat} (h : inside s.stack = some t) : spot count (Soft.ret s.stack) < spot count s.stack := by
  obtain ⟨r, cell, bit, p, rest, e1, e2⟩ := ret_eq h
  rw [e2, e1]
  simp [spot, rank, Bound.Soft.pRank, Bound.Soft.cRank, Frame.inBody]

/-- A wake. -/
theorem spot_pend {count t : Nat} {s s' : Soft.State} (h : Soft.step count s (.pend t) = some s') :
    spot count s'.stack ≤ spot count s.stack + push count := by
  simp only [Soft.step, Option.some.injEq] at h
  subst h
  split
  · have : (27 - running s.stack) * level count ≤ 27 * level count := Nat.mul_le_mul_right _ (by omega)
    simp only [spot, rank, Frame.inBody, Option.isSome_none, Bool.toNat_false, push]; omega
  · omega

/-- `f 0 + … + f (m - 1)`. -/
def sumTo (f : Nat → Nat) : Nat → Nat
  | 0 => 0
  | m + 1 => sumTo f m + f m

theorem sumTo_congr {f f' : Nat → Nat} : ∀ {m : Nat}, (∀ i, i < m → f' i = f i) → sumTo f' m = sumTo f m
  | 0, _ => rfl
  | m + 1, h => by
    simp only [sumTo]
    rw [sumTo_congr fun i hi => h i (by omega), h m (by omega)]

theorem sumTo_one {f f' : Nat → Nat} {j : Nat} (h : ∀ i, i ≠ j → f' i = f i) : ∀ {m : Nat}, j < m → sumTo f' m + f j = sumTo f m + f' j
  | m + 1, hj => by
    simp only [sumTo]
    by_cases e : j = m
    · subst e
      rw [sumTo_congr fun i hi => h i (by omega)]; omega
    · have := sumTo_one h (m := m) (by omega)
      rw [h m (by omega)]; omega

theorem sumTo_le {f f' : Nat → Nat} {j d : Nat} (h : ∀ i, i ≠ j → f' i = f i) (hd : f' j ≤ f j + d) (m : Nat) : sumTo f' m ≤ sumTo f m + d := by
  by_cases e : j < m
  · have := sumTo_one h e; omega
  · rw [sumTo_congr fun i hi => h i (by omega)]; omega

/-- The fibers the threads have still to resume. -/
def tok (count : Nat) (queue : Nat → List Nat) : Nat := sumTo (fun t => (queue t).length) count

theorem tok_set (count : Nat) {queue : Nat → List Nat} {t n : Nat} {l : List Nat} (h : l.length ≤ n) :
    tok count (upd queue t l) ≤ tok count queue + n :=
  sumTo_le (j := t) (fun i hi => by simp [upd, hi]) (by simp only [upd, ↓reduceIte]; omega) count

theorem tok_pop {count : Nat} {queue : Nat → List Nat} {t q : Nat} {qs : List Nat} (h : queue t = q :: qs) (ht : t < count) :
    tok count (upd queue t qs) + 1 = tok count queue := by
  have := sumTo_one (f := fun t => (queue t).length) (f' := fun x => (upd queue t qs x).length) (j := t) (fun i hi => by simp [upd, hi]) ht
  simp only [upd, ↓reduceIte, h, List.length_cons] at this
  simp only [tok, upd] at *; omega

theorem above (l : List Nat) : ∃ m, ∀ q ∈ l, q / 2 < m := by
  induction l with
  | nil => exact ⟨0, by simp⟩
  | cons x l ih =>
    obtain ⟨m, h⟩ := ih
    refine ⟨m + x + 1, fun q hq => ?_⟩
    rcases List.mem_cons.1 hq with rfl | h'
    · omega
    · have := h q h'; omega

section
variable {S A : Type} (step : S → A → Option S) (K : A → Prop) (I : S → Prop) (pot : S → Nat) (due : S → Option A)

/-- Perform a history. -/
def runs (s : S) : List A → Option S
  | [] => some s
  | a :: as =>
    match step s a with
    | none => none
    | some s => runs s as

theorem runs_append : ∀ (as bs : List A) (s : S), runs step s (as ++ bs) = (runs step s as).bind fun s' => runs step s' bs
  | [], bs, s => rfl
  | a :: as, bs, s => by
    simp only [List.cons_append, runs]
    cases step s a with
    | none => rfl
    | some s1 => exact runs_append as bs s1

variable (h1 : ∀ s a s', I s → K a → step s a = some s' → I s' ∧ (pot s' < pot s ∨ s' = s ∧ due s ≠ some a))
  (h2 : ∀ s a s', I s → K a → due s = none → step s a = some s' → s' = s)
  (h3 : ∀ s a, I s → due s = some a → K a)
include h1 h2 h3

/-- Within a round something gets less. -/
theorem round_pot : ∀ {as : List A} {s s' : S}, I s → (∀ a ∈ as, K a) → runs step s as = some s' →
    I s' ∧ (pot s' < pot s ∨ s' = s ∧ ∀ a ∈ as, due s ≠ some a)
  | [], s, s', i, _, h => by simp only [runs, Option.some.injEq] at h; subst h; exact ⟨i, .inr ⟨rfl, by simp⟩⟩
  | a :: as, s, s', i, hk, h => by
    simp only [runs] at h
    split at h
    · simp at h
    · rename_i s1 hs
      obtain ⟨i1, e⟩ := h1 s a s1 i (hk a (by simp)) hs
      obtain ⟨i2, e2⟩ := round_pot i1 (fun x hx => hk x (by simp [hx])) h
      refine ⟨i2, ?_⟩
      rcases e with e | ⟨rfl, e⟩
      · left
        rcases e2 with e2 | ⟨rfl, -⟩ <;> omega
      · rcases e2 with e2 | ⟨rfl, e2⟩
        · exact .inl e2
        · refine .inr ⟨rfl, fun x hx => ?_⟩
          rcases List.mem_cons.1 hx with rfl | hx
          · exact e
          · exact e2 x hx

theorem still : ∀ {as : List A} {s s' : S}, I s → (∀ a ∈ as, K a) → due s = none → runs step s as = some s' → s' = s
  | [], s, s', _, _, _, h => by simp only [runs, Option.some.injEq] at h; exact h.symm
  | a :: as, s, s', i, hk, hd, h => by
    simp only [runs] at h
    split at h
    · simp at h
    · rename_i s1 hs
      have e := h2 s a s1 i (hk a (by simp)) hd hs
      subst e
      exact still i (fun x hx => hk x (by simp [hx])) hd h

/-- After as many rounds, nothing is due. -/
theorem settles : ∀ {rounds : List (List A)} {s s' : S}, I s → (∀ r ∈ rounds, (∀ a, K a → a ∈ r) ∧ ∀ a ∈ r, K a) →
    runs step s rounds.flatten = some s' → pot s < rounds.length → due s' = none
  | [], s, s', _, _, _, hl => by simp at hl
  | r :: rs, s, s', i, hk, h, hl => by
    simp only [List.flatten_cons, runs_append] at h
    cases hr : runs step s r with
    | none => rw [hr] at h; simp at h
    | some s1 =>
      rw [hr] at h
      simp only [Option.bind_some] at h
      obtain ⟨hk1, hk2⟩ := hk r (by simp)
      have hks : ∀ x ∈ rs, (∀ a, K a → a ∈ x) ∧ ∀ a ∈ x, K a := fun x hx => hk x (by simp [hx])
      cases hd : due s with
      | none =>
        have e := still step K I pot due h1 h2 h3 i hk2 hd hr
        subst e
        have e2 := still step K I pot due h1 h2 h3 i (as := rs.flatten)
          (fun a ha => by obtain ⟨x, hx, hax⟩ := List.mem_flatten.1 ha; exact (hks x hx).2 a hax) hd h
        subst e2
        exact hd
      | some a =>
        obtain ⟨i1, e⟩ := round_pot step K I pot due h1 h2 h3 i hk2 hr
        rcases e with e | ⟨rfl, e⟩
        · exact settles i1 hks h (by simp only [List.length_cons] at hl; omega)
        · exact absurd hd (e a (hk1 a (h3 s1 a i hd)))

end

end Verif.Exec.Rest
