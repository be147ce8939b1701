import Verif.Mutex.Lemmas
/-! # Invariants of the mutex: the list and its nodes -/
namespace Verif.Mutex

/-- The node a call is to take or read for its future. -/
def Pc.own : Pc → Option Nat
  | .p1take n | .p1read n | .dTake n | .dRead n => some n
  | _ => none

/-- The node a call is to read. -/
def Pc.read : Pc → Option Nat
  | .p1read n | .dRead n | .ulRead n => some n
  | _ => none

/-- The node a call is to take. -/
def Pc.take : Pc → Option Nat
  | .p1take n | .dTake n => some n
  | _ => none

/-- The nodes still to be visited. -/
def Pc.rest : Pc → List Nat
  | .ulDrain l => l
  | .ulCut n l => n :: l
  | .ulScan l => l
  | _ => []

/-- In a poll. -/
def Pc.polling : Pc → Bool
  | .p1 _ | .pchk _ _ | .ppush _ | .p2 => true
  | _ => false

/-- Facts about one client. -/
structure CInv (c : Client) (next : Nat) (node : Nat → Node) (list : List Nat) : Prop where
  wlt : ∀ n, c.waiter = some n → n < next
  olt : ∀ n, c.pc.own = some n → n < next ∧ c.waiter = none
  chk : ∀ w n, c.pc = .pchk w n → c.waiter = some n
  p2 : c.pc = .p2 → ∃ n, c.waiter = some n
  fut : c.fut = false → c.waiter = none
  poll : c.pc.polling = true → c.fut = true
  rd : ∀ n, c.pc.read = some n → n < next ∧ (node n).taken = true ∧ ∃ w, (node n).waker = some w
  suf : c.pc.rest <:+ list
  cut : ∀ n l, c.pc = .ulCut n l → (node n).taken = true
  url : ∀ n, c.pc = .ulRead n → n ∈ list
  psh : ∀ w n, c.pc = .ppush w → c.waiter = some n → (node n).taken = true

/-- Facts about the list and the nodes. -/
structure InvN (s : State) : Prop where
  nodup : s.list.Nodup
  live : ∀ n ∈ s.list, n < s.next ∧ (s.node n).freed = false
  unt : ∀ n, n < s.next → (s.node n).taken = false →
    n ∈ s.list ∧ (∃ w, (s.node n).waker = some w) ∧ ∃ p, (s.client p).waiter = some n ∨ (s.client p).pc.take = some n
  uni : ∀ p q n, Refers (s.client p) n → Refers (s.client q) n → p = q
  rdu : ∀ p q n, (s.client p).pc.read = some n → (s.client q).pc.read = some n → p = q
  cl : ∀ p, CInv (s.client p) s.next s.node s.list

theorem refers_iff (c : Client) (n : Nat) : Refers c n ↔ c.waiter = some n ∨ c.pc.own = some n := by
  obtain ⟨pc, f, w, g⟩ := c
  cases pc <;> simp [Refers, Pc.own]

theorem init_invN : InvN init := by
  constructor <;> simp [init, Refers, Pc.read]
  constructor <;> simp [Pc.own, Pc.polling, Pc.read, Pc.rest]

/-- Only the client changed. -/
theorem invN_client {s s' : State} (i : InvN s) (p : Nat) {c : Client} (hl : s'.list = s.list) (hn : s'.node = s.node)
    (hx : s'.next = s.next) (hc : s'.client = upd s.client p c)
    (hr : ∀ n, Refers c n → Refers (s.client p) n)
    (hu : ∀ n, (s.node n).taken = false → (s.client p).waiter = some n ∨ (s.client p).pc.take = some n →
      c.waiter = some n ∨ c.pc.take = some n)
    (hd : ∀ n, c.pc.read = some n → (s.client p).pc.read = some n)
    (hC : CInv c s.next s.node s.list) : InvN s' := by
  obtain ⟨i1, i2, i3, i4, i5, i6⟩ := i
  refine ⟨hl ▸ i1, by rw [hl, hx, hn]; exact i2, ?_, ?_, ?_, ?_⟩
  · intro n h1 h2
    rw [hx] at h1
    rw [hn] at h2
    obtain ⟨a, b, q, h⟩ := i3 n h1 h2
    rw [hl, hn, hc]
    refine ⟨a, b, q, ?_⟩
    rw [upd_apply]
    split
    · subst q; exact hu n h2 h
    · exact h
  · intro a b n
    rw [hc, upd_apply, upd_apply]
    split <;> split
    · intros; subst a b; rfl
    · intro h1 h2; subst a; exact i4 _ _ n (hr n h1) h2
    · intro h1 h2; subst b; exact i4 _ _ n h1 (hr n h2)
    · exact i4 a b n
  · intro a b n
    rw [hc, upd_apply, upd_apply]
    split <;> split
    · intros; subst a b; rfl
    · intro h1 h2; subst a; exact i5 _ _ n (hd n h1) h2
    · intro h1 h2; subst b; exact i5 _ _ n h1 (hd n h2)
    · exact i5 a b n
  · intro q
    rw [hc, upd_apply, hl, hx, hn]
    split
    · exact hC
    · exact i6 q

theorem call_invN {s : State} (i : InvN s) (p : Nat) (op : Op) : InvN (call s p op) := by
  have hc := i.cl p
  unfold call
  simp only
  split
  · exact i
  · rename_i hi
    simp only [Classical.not_not] at hi
    obtain ⟨c1, c2, c3, c4, c5, c6, c7, c8, c9, c10, c11⟩ := hc
    simp only [hi, Pc.own, Pc.polling, Pc.read, Pc.rest] at c1 c2 c3 c4 c5 c6 c7 c8 c9 c10 c11
    cases op <;> simp only <;> (repeat' split) <;>
      first
      | exact i
      | (refine invN_client i p rfl rfl rfl rfl ?_ ?_ ?_ ?_ <;> (try simp only [refers_iff, hi, Pc.own, Pc.take, Pc.read]) <;>
          first
          | (constructor <;> simp [Pc.own, Pc.polling, Pc.read, Pc.rest] <;> grind)
          | grind)

theorem suffix_mem {a : Nat} {l m : List Nat} (h : a :: l <:+ m) : a ∈ m ∧ l <:+ m := by
  obtain ⟨t, rfl⟩ := h
  exact ⟨by simp, ⟨t ++ [a], by simp⟩⟩

theorem suffix_erase {a : Nat} {l m : List Nat} (h : a :: l <:+ m) (hn : m.Nodup) : l <:+ m.erase a := by
  obtain ⟨t, rfl⟩ := h
  rw [List.nodup_append] at hn
  have : a ∉ t := fun h => hn.2.2 a h a (by simp) rfl
  rw [List.erase_append_right _ this, List.erase_cons_head]
  exact ⟨t, rfl⟩

/-- The client swapped the flag of an untaken node. -/
theorem invN_take {s s' : State} (i : InvN s) (p : Nat) {c : Client} {m : Nat} (hl : s'.list = s.list)
    (hn : s'.node = upd s.node m { s.node m with taken := true })
    (hx : s'.next = s.next) (hc : s'.client = upd s.client p c) (hm : m < s.next) (ht : (s.node m).taken = false)
    (hr : ∀ n, Refers c n → Refers (s.client p) n)
    (hu : ∀ n, n ≠ m → (s.client p).waiter = some n ∨ (s.client p).pc.take = some n →
      c.waiter = some n ∨ c.pc.take = some n)
    (hd : ∀ n, c.pc.read = some n → n = m)
    (hC : CInv c s.next s'.node s.list) : InvN s' := by
  obtain ⟨i1, i2, i3, i4, i5, i6⟩ := i
  have nr : ∀ q, (s.client q).pc.read ≠ some m := fun q h => by
    have := ((i6 q).rd m h).2.1
    rw [ht] at this
    simp at this
  refine ⟨hl ▸ i1, ?_, ?_, ?_, ?_, ?_⟩
  · intro n hh
    rw [hl] at hh
    rw [hx, hn, upd_apply]
    have := i2 n hh
    split
    · subst n; exact this
    · exact this
  · intro n h1 h2
    rw [hx] at h1
    rw [hn, upd_apply] at h2
    split at h2
    · simp at h2
    · rename_i hne
      obtain ⟨a, b, q, h⟩ := i3 n h1 h2
      rw [hl, hn, hc, upd_apply, if_neg hne]
      refine ⟨a, b, q, ?_⟩
      rw [upd_apply]
      split
      · subst q; exact hu n hne h
      · exact h
  · intro a b n
    rw [hc, upd_apply, upd_apply]
    split <;> split
    · intros; subst a b; rfl
    · intro h1 h2; subst a; exact i4 _ _ n (hr n h1) h2
    · intro h1 h2; subst b; exact i4 _ _ n h1 (hr n h2)
    · exact i4 a b n
  · intro a b n
    rw [hc, upd_apply, upd_apply]
    split <;> split
    · intros; subst a b; rfl
    · intro h1 h2; rw [hd n h1] at h2; exact absurd h2 (nr _)
    · intro h1 h2; rw [hd n h2] at h1; exact absurd h1 (nr _)
    · exact i5 a b n
  · intro q
    rw [hc, upd_apply, hl, hx]
    split
    · exact hC
    · obtain ⟨c1, c2, c3, c4, c5, c6, c7, c8, c9, c10, c11⟩ := i6 q
      refine ⟨c1, c2, c3, c4, c5, c6, ?_, c8, ?_, c10, ?_⟩
      · intro n h
        have := c7 n h
        rw [hn, upd_apply, if_neg (by rintro rfl; exact nr q h)]
        exact this
      · intro n l h
        have := c9 n l h
        rw [hn, upd_apply]
        split
        · rfl
        · exact this
      · intro w n h h'
        have := c11 w n h h'
        rw [hn, upd_apply]
        split
        · rfl
        · exact this

/-- The client read the waker. -/
theorem invN_read {s s' : State} (i : InvN s) (p : Nat) {c : Client} {m : Nat} (hl : s'.list = s.list)
    (hn : s'.node = upd s.node m { s.node m with waker := none })
    (hx : s'.next = s.next) (hc : s'.client = upd s.client p c) (hp : (s.client p).pc.read = some m)
    (hr : ∀ n, Refers c n → Refers (s.client p) n)
    (hu : ∀ n, n ≠ m → (s.client p).waiter = some n ∨ (s.client p).pc.take = some n →
      c.waiter = some n ∨ c.pc.take = some n)
    (hd : c.pc.read = none)
    (hC : CInv c s.next s'.node s.list) : InvN s' := by
  obtain ⟨i1, i2, i3, i4, i5, i6⟩ := i
  obtain ⟨hm, ht, -⟩ := (i6 p).rd m hp
  refine ⟨hl ▸ i1, ?_, ?_, ?_, ?_, ?_⟩
  · intro n hh
    rw [hl] at hh
    rw [hx, hn, upd_apply]
    have := i2 n hh
    split
    · subst n; exact this
    · exact this
  · intro n h1 h2
    rw [hx] at h1
    rw [hn, upd_apply] at h2
    split at h2
    · dsimp only at h2; rw [ht] at h2; simp at h2
    · rename_i hne
      obtain ⟨a, b, q, h⟩ := i3 n h1 h2
      rw [hl, hn, hc, upd_apply, if_neg hne]
      refine ⟨a, b, q, ?_⟩
      rw [upd_apply]
      split
      · subst q; exact hu n hne h
      · exact h
  · intro a b n
    rw [hc, upd_apply, upd_apply]
    split <;> split
    · intros; subst a b; rfl
    · intro h1 h2; subst a; exact i4 _ _ n (hr n h1) h2
    · intro h1 h2; subst b; exact i4 _ _ n h1 (hr n h2)
    · exact i4 a b n
  · intro a b n
    rw [hc, upd_apply, upd_apply]
    split <;> split
    · intros; subst a b; rfl
    · intro h1 h2; rw [hd] at h1; simp at h1
    · intro h1 h2; rw [hd] at h2; simp at h2
    · exact i5 a b n
  · intro q
    rw [hc, upd_apply, hl, hx]
    split
    · exact hC
    · rename_i hq
      obtain ⟨c1, c2, c3, c4, c5, c6, c7, c8, c9, c10, c11⟩ := i6 q
      refine ⟨c1, c2, c3, c4, c5, c6, ?_, c8, ?_, c10, ?_⟩
      · intro n h
        have := c7 n h
        rw [hn, upd_apply, if_neg (by rintro rfl; exact hq (i5 _ _ _ h hp))]
        exact this
      · intro n l h
        have := c9 n l h
        rw [hn, upd_apply]
        split
        · subst n; exact this
        · exact this
      · intro w n h h'
        have := c11 w n h h'
        rw [hn, upd_apply]
        split
        · subst n; exact this
        · exact this

/-- `ppush`. -/
theorem invN_push {s s' : State} (i : InvN s) (p : Nat) {c : Client} {w : Waker} (hl : s'.list = s.next :: s.list)
    (hn : s'.node = upd s.node s.next ⟨false, some w, false⟩)
    (hx : s'.next = s.next + 1) (hc : s'.client = upd s.client p c) (hp : (s.client p).pc = .ppush w)
    (h1 : c.waiter = some s.next) (h2 : c.pc = .p2) (h3 : c.fut = (s.client p).fut) : InvN s' := by
  obtain ⟨i1, i2, i3, i4, i5, i6⟩ := i
  have fr : ∀ q, ¬Refers (s.client q) s.next := fun q h => by
    rcases (refers_iff _ _).1 h with h | h
    · have := (i6 q).wlt _ h; omega
    · have := ((i6 q).olt _ h).1; omega
  refine ⟨?_, ?_, ?_, ?_, ?_, ?_⟩
  · rw [hl, List.nodup_cons]
    exact ⟨fun h => by have := (i2 _ h).1; omega, i1⟩
  · intro n hh
    rw [hl, List.mem_cons] at hh
    rw [hx, hn, upd_apply]
    split
    · exact ⟨by omega, rfl⟩
    · have := i2 n (hh.resolve_left ‹_›)
      exact ⟨by omega, this.2⟩
  · intro n g1 g2
    rw [hx] at g1
    rw [hn, upd_apply] at g2
    split at g2
    · subst n
      exact ⟨by simp [hl], ⟨w, by simp [hn, upd_apply]⟩, p, by simp [hc, upd_apply, h1]⟩
    · rename_i hne
      obtain ⟨a, b, q, h⟩ := i3 n (by omega) g2
      rw [hl, hn, hc, upd_apply, if_neg hne]
      refine ⟨by simp [a], b, q, ?_⟩
      rw [upd_apply]
      split
      · subst q
        rw [hp] at h
        simp only [Pc.take, reduceCtorEq, or_false] at h
        have := (i6 p).psh _ n hp h
        rw [g2] at this
        simp at this
      · exact h
  · have key : ∀ n, Refers c n → n = s.next := fun n h => by
      rcases (refers_iff _ _).1 h with h | h
      · rw [h1] at h; exact (Option.some.inj h).symm
      · rw [h2] at h; simp [Pc.own] at h
    intro a b n
    rw [hc, upd_apply, upd_apply]
    split <;> split
    · intros; subst a b; rfl
    · intro g1 g2; rw [key n g1] at g2; exact absurd g2 (fr _)
    · intro g1 g2; rw [key n g2] at g1; exact absurd g1 (fr _)
    · exact i4 a b n
  · intro a b n
    rw [hc, upd_apply, upd_apply]
    split <;> split
    · intros; subst a b; rfl
    · intro h1 _; rw [h2] at h1; simp [Pc.read] at h1
    · intro _ h1; rw [h2] at h1; simp [Pc.read] at h1
    · exact i5 a b n
  · intro q
    rw [hc, upd_apply, hl, hx]
    split
    · have hf := (i6 p).poll (by rw [hp]; rfl)
      constructor <;> simp [h2, Pc.own, Pc.polling, Pc.read, Pc.rest, h1, h3, hf]
    · obtain ⟨c1, c2, c3, c4, c5, c6, c7, c8, c9, c10, c11⟩ := i6 q
      refine ⟨fun n h => Nat.lt_succ_of_lt (c1 n h), fun n h => ⟨Nat.lt_succ_of_lt (c2 n h).1, (c2 n h).2⟩, c3, c4, c5, c6, ?_,
        c8.trans (List.suffix_cons _ _), ?_, fun n h => List.mem_cons_of_mem _ (c10 n h), ?_⟩
      · intro n h
        have := c7 n h
        rw [hn, upd_apply, if_neg (by omega)]
        exact ⟨by omega, this.2⟩
      · intro n l h
        have := c9 n l h
        have hlt : n < s.next := (i2 n (c8.mem (by rw [h]; simp [Pc.rest]))).1
        rw [hn, upd_apply, if_neg (by omega)]
        exact this
      · intro w n h h'
        have := c11 w n h h'
        have := c1 n h'
        rw [hn, upd_apply, if_neg (by omega)]
        assumption

theorem rest_of_unl {pc : Pc} (h : pc.unl = 0) : pc.rest = [] := by
  cases pc <;> simp_all [Pc.rest, Pc.unl]

/-- `ulCut`. -/
theorem invN_cut {s s' : State} (o : InvO s) (i : InvN s) (p : Nat) {c : Client} {m : Nat} {l : List Nat} (hl : s'.list = s.list.erase m)
    (hn : s'.node = upd s.node m { s.node m with freed := true })
    (hx : s'.next = s.next) (hc : s'.client = upd s.client p c) (hp : (s.client p).pc = .ulCut m l)
    (h1 : c.waiter = (s.client p).waiter) (h2 : c.pc = .ulDrain l) (h3 : c.fut = (s.client p).fut) : InvN s' := by
  obtain ⟨i1, i2, i3, i4, i5, i6⟩ := i
  have ht := (i6 p).cut m l hp
  have hsuf := (i6 p).suf
  rw [hp] at hsuf
  simp only [Pc.rest] at hsuf
  refine ⟨hl ▸ i1.erase m, ?_, ?_, ?_, ?_, ?_⟩
  · intro n hh
    rw [hl, i1.mem_erase_iff] at hh
    rw [hx, hn, upd_apply, if_neg hh.1]
    exact i2 n hh.2
  · intro n g1 g2
    rw [hx] at g1
    rw [hn, upd_apply] at g2
    split at g2
    · dsimp only at g2; rw [ht] at g2; simp at g2
    · rename_i hne
      obtain ⟨a, b, q, h⟩ := i3 n g1 g2
      rw [hl, hn, hc, upd_apply, if_neg hne]
      refine ⟨(i1.mem_erase_iff).2 ⟨hne, a⟩, b, q, ?_⟩
      rw [upd_apply]
      split
      · subst q
        rw [hp] at h
        simp only [Pc.take, reduceCtorEq, or_false] at h
        rw [h1]; exact .inl h
      · exact h
  · have key : ∀ n, Refers c n → Refers (s.client p) n := fun n h => by
      rw [refers_iff] at *
      rw [h1, h2] at h
      simp only [Pc.own, reduceCtorEq, or_false] at h
      exact .inl h
    intro a b n
    rw [hc, upd_apply, upd_apply]
    split <;> split
    · intros; subst a b; rfl
    · intro h1 h2; subst a; exact i4 _ _ n (key n h1) h2
    · intro h1 h2; subst b; exact i4 _ _ n h1 (key n h2)
    · exact i4 a b n
  · intro a b n
    rw [hc, upd_apply, upd_apply]
    split <;> split
    · intros; subst a b; rfl
    · intro h1 _; rw [h2] at h1; simp [Pc.read] at h1
    · intro _ h1; rw [h2] at h1; simp [Pc.read] at h1
    · exact i5 a b n
  · intro q
    rw [hc, upd_apply, hl, hx]
    have hpo : own (s.client p) ≠ 0 := by simp [own, hp, Pc.unl]
    split
    · obtain ⟨c1, c2, c3, c4, c5, c6, c7, c8, c9, c10, c11⟩ := i6 p
      constructor <;> simp [h2, Pc.own, Pc.polling, Pc.read, Pc.rest, h1, h3]
      · exact c1
      · simpa using c5
      · exact suffix_erase hsuf i1
    · rename_i hq
      have hno : (s.client q).pc.unl = 0 := Classical.byContradiction fun h =>
        hq (o.uniq (by simp only [own]; omega) hpo)
      obtain ⟨c1, c2, c3, c4, c5, c6, c7, c8, c9, c10, c11⟩ := i6 q
      refine ⟨c1, c2, c3, c4, c5, c6, ?_, ?_, ?_, ?_, ?_⟩
      · intro n h
        have := c7 n h
        rw [hn, upd_apply]
        split
        · subst n; exact this
        · exact this
      · rw [rest_of_unl hno]; exact List.nil_suffix
      · intro n l' h; rw [h] at hno; simp [Pc.unl] at hno
      · intro n h; rw [h] at hno; simp [Pc.unl] at hno
      · intro w n h h'
        have := c11 w n h h'
        rw [hn, upd_apply]
        split
        · subst n; exact this
        · exact this

/-- Close a goal with `invN_client`. -/
macro "client_only" : tactic => `(tactic| (
  refine invN_client $(Lean.mkIdent `i) $(Lean.mkIdent `p) rfl rfl rfl rfl ?_ ?_ ?_ ?_ <;>
    (try simp only [refers_iff, $(Lean.mkIdent `hpc):ident, Pc.own, Pc.take, Pc.read]) <;>
    first
    | (constructor <;> simp [Pc.own, Pc.polling, Pc.read, Pc.rest] <;> grind)
    | grind))

theorem pstep_invN {s s' : State} (o : InvO s) (i : InvN s) {p : Nat} (hs : pstep s p = some s') : InvN s' := by
  have hc := i.cl p
  have hlive := i.live
  have hunt := i.unt
  unfold pstep at hs
  simp only at hs
  obtain ⟨c1, c2, c3, c4, c5, c6, c7, c8, c9, c10, c11⟩ := hc
  cases hpc : (s.client p).pc <;> simp only [hpc] at hs <;>
    simp only [hpc, Pc.own, Pc.polling, Pc.read, Pc.rest] at c1 c2 c3 c4 c5 c6 c7 c8 c9 c10 c11
  case ulDrain l =>
    cases l with
    | nil =>
      step_cases <;> simp only [Option.some.injEq, reduceCtorEq] at hs <;> (try subst hs)
      client_only
    | cons n l =>
      have := suffix_mem c8
      step_cases <;> simp only [Option.some.injEq, reduceCtorEq] at hs <;> (try subst hs) <;> client_only
  case ulScan l =>
    cases l with
    | nil =>
      step_cases <;> simp only [Option.some.injEq, reduceCtorEq] at hs <;> (try subst hs)
      client_only
    | cons n l =>
      have := suffix_mem c8
      step_cases <;> simp only [Option.some.injEq, reduceCtorEq] at hs <;> (try subst hs)
      · client_only
      · rename_i ht
        have ht : (s.node n).taken = false := by simpa using ht
        have hu := hunt n (hlive n this.1).1 ht
        refine invN_take i p rfl rfl rfl rfl (hlive n this.1).1 ht ?_ ?_ ?_ ?_
        · simp only [refers_iff, hpc, Pc.own]; grind
        · simp only [hpc, Pc.take]; grind
        · simp only [Pc.read]; grind
        · constructor <;> simp [Pc.own, Pc.polling, Pc.read, Pc.rest, upd_apply] <;> grind
  case ppush w =>
    step_cases
    simp only [Option.some.injEq, reduceCtorEq] at hs
    subst hs
    exact invN_push i p rfl rfl rfl rfl hpc rfl rfl rfl
  case ulCut n l =>
    step_cases <;>
    simp only [Option.some.injEq, reduceCtorEq] at hs
    subst hs
    exact invN_cut o i p rfl rfl rfl rfl hpc rfl rfl rfl
  case p1take n =>
    step_cases <;> simp only [Option.some.injEq, reduceCtorEq] at hs <;> (try subst hs)
    · client_only
    · rename_i ht
      have ht : (s.node n).taken = false := by simpa using ht
      have hu := hunt n (c2 n rfl).1 ht
      refine invN_take i p rfl rfl rfl rfl (c2 n rfl).1 ht ?_ ?_ ?_ ?_
      · simp only [refers_iff, hpc, Pc.own]; grind
      · simp only [hpc, Pc.take]; grind
      · simp only [Pc.read]; grind
      · constructor <;> simp [Pc.own, Pc.polling, Pc.read, Pc.rest, upd_apply] <;> grind
  case dTake n =>
    step_cases <;> simp only [Option.some.injEq, reduceCtorEq] at hs <;> (try subst hs)
    · client_only
    · rename_i ht
      have ht : (s.node n).taken = false := by simpa using ht
      have hu := hunt n (c2 n rfl).1 ht
      refine invN_take i p rfl rfl rfl rfl (c2 n rfl).1 ht ?_ ?_ ?_ ?_
      · simp only [refers_iff, hpc, Pc.own]; grind
      · simp only [hpc, Pc.take]; grind
      · simp only [Pc.read]; grind
      · constructor <;> simp [Pc.own, Pc.polling, Pc.read, Pc.rest, upd_apply] <;> grind
  all_goals
    step_cases <;>
    simp only [Option.some.injEq, reduceCtorEq] at hs <;> (try subst hs) <;>
      first
      | exact i
      | client_only
      | (refine invN_read i p rfl rfl rfl rfl (by rw [hpc]; rfl) ?_ ?_ ?_ ?_ <;> (try simp only [refers_iff, hpc, Pc.own, Pc.take, Pc.read]) <;>
          first
          | (constructor <;> simp [Pc.own, Pc.polling, Pc.read, Pc.rest, upd_apply] <;> grind)
          | grind)

end Verif.Mutex
