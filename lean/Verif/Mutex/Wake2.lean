import Verif.Mutex.Wake
/-! # Invariants of the mutex: the wakes -/
namespace Verif.Mutex

/-- The node whose waker the client is going to wake. -/
def Pc.waking : Pc → Option Nat
  | .ulRead n => some n
  | .ulStore (some (n, _)) => some n
  | .ulWake n _ => some n
  | _ => none

/-- The waker the client is going to wake. -/
def Pc.hand : Pc → Option (Nat × Waker)
  | .ulStore (some (n, w)) => some (n, w)
  | .ulWake n w => some (n, w)
  | _ => none

/-- The beginning of a poll. -/
def Pc.early : Pc → Bool
  | .p1 _ | .pchk _ _ | .ppush _ => true
  | _ => false

/-- The waker of a poll. -/
def Pc.pollW : Pc → Option Waker
  | .p1 w | .pchk w _ | .ppush w => some w
  | _ => none

/-- Every client uses its own waker, and the owner of a node that was taken has been
woken or will be. -/
structure InvK (s : State) : Prop where
  pw : ∀ p w, (s.client p).pc.pollW = some w → w = p
  nw : ∀ p n w, Refers (s.client p) n → (s.node n).waker = some w → w = p
  hw : ∀ p q n w, (s.client q).pc.hand = some (n, w) → (s.client p).waiter = some n → w = p
  hl : ∀ q n w, (s.client q).pc.hand = some (n, w) → n < s.next
  wake : ∀ p n, (s.client p).waiter = some n → (s.node n).taken = true → (s.client p).pc.early = false →
    (∃ q, (s.client q).pc.waking = some n) ∨ wokenSince p p s.log = true

theorem init_invK : InvK init := by
  constructor <;> simp [init, Pc.pollW, Pc.hand, Refers]

/-- A client, nodes and the log changed. -/
theorem invK_mono {s s' : State} (i : InvN s) (k : InvK s) (p : Nat) {c : Client} (hc : s'.client = upd s.client p c)
    (hx : s.next ≤ s'.next)
    (hpw : ∀ w, c.pc.pollW = some w → w = p)
    (hnw : ∀ n w, n < s.next → (s'.node n).waker = some w → (s.node n).waker = some w)
    (hnp : ∀ n w, Refers c n → (s'.node n).waker = some w → w = p)
    (hhd : ∀ n w, c.pc.hand = some (n, w) → n < s.next ∧ ((s.client p).pc.hand = some (n, w) ∨ (s.node n).waker = some w))
    (hwt : ∀ n, c.waiter = some n → (s.client p).waiter = some n ∨ s.next ≤ n)
    (hlog : ∀ q, q ≠ p → wokenSince q q s.log = true → wokenSince q q s'.log = true)
    (htk : ∀ n, n < s.next → (s'.node n).taken = true → (s.node n).taken = true ∨ c.pc.waking = some n ∨
      ∀ q, q ≠ p → (s.client q).waiter ≠ some n)
    (hwk : ∀ n, (s.client p).pc.waking = some n → c.pc.waking = some n ∨
      ∀ q, q ≠ p → (s.client q).waiter = some n → wokenSince q q s'.log = true)
    (hself : ∀ n, c.waiter = some n → (s'.node n).taken = true → c.pc.early = false →
      c.pc.waking = some n ∨ (∃ q, q ≠ p ∧ (s.client q).pc.waking = some n) ∨ wokenSince p p s'.log = true) : InvK s' := by
  obtain ⟨k1, k2, k3, k5, k4⟩ := k
  constructor
  · intro q w h
    rw [hc, upd_apply] at h
    split at h
    · subst q; exact hpw w h
    · exact k1 q w h
  · intro q n w h h'
    rw [hc, upd_apply] at h
    split at h
    · subst q; exact hnp n w h h'
    · refine k2 q n w h (hnw n w ?_ h')
      rcases (refers_iff _ _).1 h with h | h
      · exact (i.cl q).wlt n h
      · exact ((i.cl q).olt n h).1
  · intro q r n w h h'
    rw [hc, upd_apply] at h h'
    split at h
    · subst r
      obtain ⟨a, b⟩ := hhd n w h
      have hq : (s.client q).waiter = some n := by
        split at h'
        · subst q
          rcases hwt n h' with g | g
          · exact g
          · omega
        · exact h'
      rcases b with b | b
      · exact k3 q p n w b hq
      · exact k2 q n w (.inl hq) b
    · have hq : (s.client q).waiter = some n := by
        split at h'
        · subst q
          rcases hwt n h' with g | g
          · exact g
          · have := k5 r n w h; omega
        · exact h'
      exact k3 q r n w h hq
  · intro r n w h
    rw [hc, upd_apply] at h
    split at h
    · have := (hhd n w h).1; omega
    · have := k5 r n w h; omega
  · intro q n h1 h2 h3
    have tr : c.pc.waking = some n → ∃ q, (s'.client q).pc.waking = some n := fun h =>
      ⟨p, by rw [hc, upd_apply, if_pos rfl]; exact h⟩
    have tr2 : ∀ q, q ≠ p → (s.client q).pc.waking = some n → ∃ q, (s'.client q).pc.waking = some n := fun q hq h =>
      ⟨q, by rw [hc, upd_apply, if_neg hq]; exact h⟩
    by_cases e : q = p
    · subst e
      rw [hc, upd_apply, if_pos rfl] at h1 h3
      rcases hself n h1 h2 h3 with h | ⟨r, hr, h⟩ | h
      · exact .inl (tr h)
      · exact .inl (tr2 r hr h)
      · exact .inr h
    · rw [hc, upd_apply, if_neg e] at h1 h3
      rcases htk n ((i.cl q).wlt n h1) h2 with h | h | h
      · rcases k4 q n h1 h h3 with ⟨r, h⟩ | h
        · by_cases e' : r = p
          · subst e'
            rcases hwk n h with h | h
            · exact .inl (tr h)
            · exact .inr (h q e h1)
          · exact .inl (tr2 r e' h)
        · exact .inr (hlog q e h)
      · exact .inl (tr h)
      · exact absurd h1 (h q e)

theorem call_invK {s : State} (i : InvN s) (k : InvK s) (p : Nat) (op : Op) (ho : ∀ w, op = .poll w → w = p) : InvK (call s p op) := by
  have hf := (i.cl p).fut
  have k1 := k.pw p
  have k2 := k.nw p
  have k3 := k.wake p
  unfold call
  simp only
  split
  · exact k
  · rename_i hi
    simp only [Classical.not_not] at hi
    simp only [refers_iff] at k2
    cases op <;> simp only <;> (repeat' split) <;>
      first
      | exact k
      | (refine invK_mono i k p rfl (Nat.le_refl _) ?_ ?_ ?_ ?_ ?_ ?_ ?_ ?_ ?_ <;>
          simp only [State.goto, State.setC, State.emit, upd_apply, wokenSince, refers_iff, hi, Pc.pollW, Pc.hand, Pc.own, Pc.waking, Pc.early] at k1 k2 k3 ⊢ <;>
          grind)

set_option maxHeartbeats 2000000 in
theorem pstep_invK {s s' : State} (o : InvO s) (i : InvN s) (k : InvK s) {p : Nat}
    (hs : pstep s p = some s') : InvK s' := by
  have k1 := k.pw p
  have k2 := k.nw p
  have k3 := k.wake p
  have k4 := fun q => k.hw q p
  have k5 := k.hl p
  have hu := fun q n => i.uni p q n
  have hlive := i.live
  obtain ⟨c1, c2, c3, c4, c5, c6, c7, c8, c9, c10, c11⟩ := i.cl p
  unfold pstep at hs
  simp only at hs
  simp only [refers_iff] at k2 hu
  cases hpc : (s.client p).pc <;> simp only [hpc] at hs <;>
    simp only [hpc, Pc.own, Pc.polling, Pc.read, Pc.rest, Pc.taking, Pc.pollW, Pc.hand, Pc.own, Pc.waking, Pc.early] at c1 c2 c3 c4 c5 c6 c7 c8 c9 c10 c11 k1 k2 k3 k4 k5 hu
  case ulScan l =>
    cases l with
    | nil => 
      step_cases <;> simp only [Option.some.injEq, reduceCtorEq] at hs <;> (try subst hs)
      refine invK_mono i k p rfl (Nat.le_refl _) ?_ ?_ ?_ ?_ ?_ ?_ ?_ ?_ ?_ <;>
          simp only [upd_apply, wokenSince, refers_iff, hpc, Pc.pollW, Pc.hand, Pc.own, Pc.waking, Pc.early] <;>
          grind
    | cons m l =>
      have hm := suffix_mem c8
      step_cases <;> simp only [Option.some.injEq, reduceCtorEq] at hs <;> (try subst hs) <;>
      (refine invK_mono i k p rfl (Nat.le_refl _) ?_ ?_ ?_ ?_ ?_ ?_ ?_ ?_ ?_ <;>
          simp only [upd_apply, wokenSince, refers_iff, hpc, Pc.pollW, Pc.hand, Pc.own, Pc.waking, Pc.early] <;>
          grind)
  all_goals
    step_cases <;>
    simp only [Option.some.injEq, reduceCtorEq] at hs <;> (try subst hs) <;>
      first
      | exact k
      | (refine invK_mono i k p rfl (by simp) ?_ ?_ ?_ ?_ ?_ ?_ ?_ ?_ ?_ <;>
          simp only [upd_apply, wokenSince, refers_iff, hpc, Pc.pollW, Pc.hand, Pc.own, Pc.waking, Pc.early] <;>
          grind)

end Verif.Mutex
