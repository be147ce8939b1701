import Verif.Mutex.OrderModel
import Verif.Mutex.Lemmas
import Verif.Order.MachineLemmas
/-! # Invariant of the mutex with memory orderings -/
namespace Verif.Mutex.Order

open Verif.Order

/-- The nodes that the traversal of `unlock` refers to. -/
def seen : Pc → List Nat
  | .ulDrain l | .ulScan l => l
  | .ulCut n l => n :: l
  | .ulRead n => [n]
  | _ => []

/-- The node that a call on the future refers to. -/
def mine : Pc → Option Nat
  | .p1take n | .p1read n | .pchk _ n | .dTake n | .dRead n => some n
  | _ => none

/-- `p` creates a node. -/
def Building (s : OState) (p : Nat) : Prop := (∃ w, (s.base.client p).pc = .ppush w) ∧ s.sub p ≠ 0

/-- Node `n` was pushed. -/
def Pub (s : OState) (n : Nat) : Prop := n < s.base.next ∧ ∀ q, Building s q → s.tag q ≠ n

structure Good (s : OState) : Prop where
  inv : InvO s.base
  use : ∀ p, s.use p = true → (s.base.client p).pc = .idle ∧ 0 < (s.base.client p).guards
  rel : ∀ p n, s.rel p = some n → (∃ l, (s.base.client p).pc = .ulDrain l) ∧ (s.base.node n).freed = true ∧ Pub s n
  sub : ∀ p, s.sub p ≠ 0 → (∃ w, (s.base.client p).pc = .ppush w) ∨ ∃ n l, (s.base.client p).pc = .ulCut n l
  tag : ∀ p, Building s p → s.tag p < s.base.next ∧ s.maker (s.tag p) = p
  nodup : s.base.list.Nodup
  list : ∀ n ∈ s.base.list, Pub s n ∧ (s.base.node n).freed = false
  seen : ∀ p, ∀ n ∈ seen (s.base.client p).pc, Pub s n
  mine : ∀ p n, mine (s.base.client p).pc = some n ∨ (s.base.client p).waiter = some n → Pub s n ∧ s.maker n = p

/-- An access to node `n`. -/
def At (n : Nat) (e : Ev) : Prop := e.loc = tk n ∨ e.loc = wk n

/-- Accesses that the lock orders. -/
def Prot (s : OState) (e : Ev) : Prop := e.loc = dataLoc ∨ ∃ n, At n e ∧ e.tid ≠ s.maker n

/-- The creation of node `n`. -/
def Made (s : OState) (n : Nat) (e : Ev) : Prop := At n e ∧ e.tid = s.maker n ∧ e.kind = .write

/-- How the locations are accessed. -/
structure EvOk (e : Ev) : Prop where
  free : e.kind ≠ .free
  word : e.loc = lockLoc ∨ e.loc = headLoc → e.kind.atomic = true
  none : e.loc = noLoc → e.kind = .read
  head : e.isStore headLoc = false
  tk : ∀ n, e.loc = tk n → e.kind ≠ .read
  wk : ∀ n, e.loc = wk n → e.kind = .read ∨ e.kind = .write

structure Own (tr : List Ev) (s : OState) : Prop where
  free : s.base.locked = false → Lasts tr lockLoc (Prot s)
  held : ∀ p, own (s.base.client p) = 1 → Knows tr p (Prot s)
  head : ∀ n, Pub s n → (s.base.node n).freed = false → Lasts tr headLoc (Made s n)
  seen : ∀ p, ∀ n ∈ seen (s.base.client p).pc, Knows tr p (Made s n)
  rel : ∀ p n, s.rel p = some n → Knows tr p (Made s n)
  build : ∀ p, Building s p → ∀ (i : Nat) (e : Ev), tr[i]? = some e → At (s.tag p) e → e.tid = p
  fresh : ∀ n, s.base.next ≤ n → ∀ (i : Nat) (e : Ev), tr[i]? = some e → ¬ At n e
  evs : ∀ (i : Nat) (e : Ev), tr[i]? = some e → EvOk e
  made : ∀ n, n < s.base.next → ∃ m : Nat, tr[m]? = some ⟨s.maker n, tk n, .write⟩ ∧
    ∀ (i : Nat) (e : Ev), tr[i]? = some e → At n e → m ≤ i
  /-- the memory of a node is written only to create and to release it -/
  writes : ∀ n, (s.base.node n).freed = false → Pub s n → ∀ (i : Nat) (e : Ev), tr[i]? = some e → At n e → e.kind = .write → e.tid = s.maker n

theorem at_inj {n m : Nat} {e : Ev} (h : At n e) (h' : At m e) : n = m := by
  unfold At tk wk at *
  omega

/-- What a step that is not a call does to the knowledge. -/
structure Keep (s s' : OState) (f : Ev) : Prop where
  next : s'.base.next = s.base.next
  maker : s'.maker = s.maker
  pub : ∀ n, Pub s' n → Pub s n
  freed : ∀ n, (s'.base.node n).freed = false → (s.base.node n).freed = false
  build : ∀ p, Building s' p → Building s p ∧ s'.tag p = s.tag p
  ev : EvOk f
  made : ∀ n, Made s n f → Pub s' n → (s'.base.node n).freed = true
  own : ∀ p, Building s' p → At (s.tag p) f → f.tid = p
  fresh : ∀ n, At n f → n < s.base.next
  writes : ∀ n, At n f → f.kind = .write → (s'.base.node n).freed = false → Pub s' n → f.tid = s.maker n

theorem prot_congr {s s' : OState} (h : s'.maker = s.maker) : Prot s' = Prot s := by
  funext e; simp only [Prot, h]

theorem made_congr {s s' : OState} (h : s'.maker = s.maker) (n : Nat) : Made s' n = Made s n := by
  funext e; simp only [Made, h]

theorem Keep.own_append {s s' : OState} {f : Ev} {tr : List Ev} (k : Keep s s' f) (o : Own tr s)
    (free : s'.base.locked = false → Lasts (tr ++ [f]) lockLoc (Prot s))
    (held : ∀ p, Mutex.own (s'.base.client p) = 1 → Knows (tr ++ [f]) p (Prot s))
    (seen : ∀ p, ∀ n ∈ Order.seen (s'.base.client p).pc, Knows (tr ++ [f]) p (Made s n))
    (rel : ∀ p n, s'.rel p = some n → Knows (tr ++ [f]) p (Made s n)) : Own (tr ++ [f]) s' := by
  have hp := prot_congr k.maker
  have hm := made_congr k.maker
  refine ⟨fun h => hp ▸ free h, fun p h => hp ▸ held p h, fun n h1 h2 => ?_, fun p n h => hm n ▸ seen p n h, fun p n h => hm n ▸ rel p n h,
    fun p h i e he ha => ?_, fun n h i e he ha => ?_, fun i e he => ?_, fun n h => ?_, fun n h1 h2 i e he ha hk => ?_⟩
  · rw [hm]
    refine (o.head n (k.pub n h1) (k.freed n h2)).append (fun h => ?_) k.ev.head
    rw [k.made n h h1] at h2; cases h2
  · obtain ⟨hb, ht⟩ := k.build p h
    rw [ht] at ha
    rcases get_append he with he | ⟨-, rfl⟩
    · exact o.build p hb i e he ha
    · exact k.own p h ha
  · rw [k.next] at h
    rcases get_append he with he | ⟨-, rfl⟩
    · exact o.fresh n h i e he ha
    · exact absurd (k.fresh n ha) (by omega)
  · rcases get_append he with he | ⟨-, rfl⟩
    · exact o.evs i e he
    · exact k.ev
  · rw [k.next] at h
    obtain ⟨m, h1, h2⟩ := o.made n h
    have hlt := (List.getElem?_eq_some_iff.1 h1).1
    rw [k.maker]
    refine ⟨m, by rw [List.getElem?_append_left hlt]; exact h1, fun i e he ha => ?_⟩
    rcases get_append he with he | ⟨rfl, -⟩
    · exact h2 i e he ha
    · omega
  · rw [k.maker]
    rcases get_append he with he | ⟨-, rfl⟩
    · exact o.writes n (k.freed n h1) (k.pub n h2) i e he ha hk
    · exact k.writes n ha hk h1 h2

/-- The lock does not change hands. -/
theorem held_append {s s' : OState} {f : Ev} {tr : List Ev} (g : Good s) (o : Own tr s) (h1 : s'.base.locked = s.base.locked)
    (h2 : ∀ p, own (s'.base.client p) = own (s.base.client p)) (h3 : Prot s f → own (s.base.client f.tid) = 1) (h4 : f.isStore lockLoc = false) :
    (s'.base.locked = false → Lasts (tr ++ [f]) lockLoc (Prot s)) ∧
    (∀ p, own (s'.base.client p) = 1 → Knows (tr ++ [f]) p (Prot s)) := by
  refine ⟨fun h => ?_, fun p h => ?_⟩
  · rw [h1] at h
    refine (o.free h).append (fun hp => ?_) h4
    have := h3 hp
    rw [g.inv.unlocked h] at this
    cases this
  · rw [h2] at h
    refine (o.held p h).append fun hp => g.inv.uniq (by omega) (by rw [h3 hp]; omega)

/-- The races that are not excluded: between the release of a node and an access of the future that created it. -/
def Allow (tr : List Ev) (i : Nat) (f : Ev) : Prop :=
  ∃ e n, tr[i]? = some e ∧ At n e ∧ e.loc = f.loc ∧ f.kind = .write ∧ e.kind ≠ .write ∧ ∃ m : Nat, m < i ∧ tr[m]? = some ⟨e.tid, tk n, .write⟩

theorem conf_write {e f : Ev} (he : EvOk e) (hf : EvOk f) {n : Nat} (ha : At n f) (hk : f.kind ≠ .write) (hc : Conflict e f) :
    e.kind = .write ∧ At n e := by
  obtain ⟨-, h | h | ⟨hl, hr, hw⟩⟩ := hc
  · exact absurd h he.free
  · exact absurd h hf.free
  · refine ⟨?_, by unfold At at *; rw [hl]; exact ha⟩
    rcases ha with ha | ha
    · have h1 := hf.tk n ha
      have h2 := he.tk n (hl.trans ha)
      have h3 := hf.free
      have h4 := he.free
      cases h : f.kind <;> cases h' : e.kind <;> simp_all [Kind.atomic]
    · have h1 := hf.wk n ha
      have h2 := he.wk n (hl.trans ha)
      simp_all

theorem ord_word {tr : List Ev} {s : OState} (o : Own tr s) {f : Ev} (hl : f.loc = lockLoc ∨ f.loc = headLoc) (hf : EvOk f) :
    Ordered Allow tr f := by
  rintro i e he ⟨-, h | h | ⟨h, -, hw⟩⟩
  · exact absurd h (o.evs i e he).free
  · exact absurd h hf.free
  · exact absurd ⟨(o.evs i e he).word (h ▸ hl), hf.word hl⟩ hw

theorem ord_none {tr : List Ev} {s : OState} (o : Own tr s) {f : Ev} (hl : f.loc = noLoc) (hf : EvOk f) : Ordered Allow tr f := by
  rintro i e he ⟨-, h | h | ⟨h, hr, -⟩⟩
  · exact absurd h (o.evs i e he).free
  · exact absurd h hf.free
  · exact absurd ⟨(o.evs i e he).none (h ▸ hl), hf.none hl⟩ hr

theorem ord_data {tr : List Ev} {s : OState} (o : Own tr s) {f : Ev} (hl : f.loc = dataLoc) (hf : EvOk f)
    (h1 : own (s.base.client f.tid) = 1) : Ordered Allow tr f := by
  rintro i e he ⟨-, h | h | ⟨h, -, -⟩⟩
  · exact absurd h (o.evs i e he).free
  · exact absurd h hf.free
  · exact .inl (hb_last.2 (.inl (o.held _ h1 i e he (.inl (h.trans hl)))))

theorem ord_mine {tr : List Ev} {s : OState} (o : Own tr s) {f : Ev} {n : Nat} (ha : At n f) (hf : EvOk f) (hk : f.kind ≠ .write)
    (hp : Pub s n) (hm : s.maker n = f.tid) (hfr : (s.base.node n).freed = false) : Ordered Allow tr f := by
  intro i e he hc
  obtain ⟨h1, h2⟩ := conf_write (o.evs i e he) hf ha hk hc
  exact absurd ((o.writes n hfr hp i e he h2 h1).trans hm) hc.1

theorem ord_seen {tr : List Ev} {s : OState} (o : Own tr s) {f : Ev} {n : Nat} (ha : At n f) (hf : EvOk f)
    (hn : n < s.base.next) (hs : Knows tr f.tid (Made s n)) (h1 : own (s.base.client f.tid) = 1) : Ordered Allow tr f := by
  intro i e he hc
  have key : At n e ∧ (e.kind = .write ∨ f.kind = .write) ∧ e.loc = f.loc := by
    by_cases hk : f.kind = .write
    · obtain ⟨-, h | h | ⟨h, -, -⟩⟩ := hc
      · exact absurd h (o.evs i e he).free
      · exact absurd h hf.free
      · exact ⟨by unfold At at *; rw [h]; exact ha, .inr hk, h⟩
    · obtain ⟨h1, h2⟩ := conf_write (o.evs i e he) hf ha hk hc
      refine ⟨h2, .inl h1, ?_⟩
      obtain ⟨-, h | h | ⟨h, -, -⟩⟩ := hc
      · exact absurd h (o.evs i e he).free
      · exact absurd h hf.free
      · exact h
  obtain ⟨hae, hw, hl⟩ := key
  by_cases ht : e.tid = s.maker n
  · by_cases hk : e.kind = .write
    · exact .inl (hb_last.2 (.inl (hs i e he ⟨hae, ht, hk⟩)))
    · obtain ⟨m, hm1, hm2⟩ := o.made n hn
      refine .inr ⟨e, n, he, hae, hl, hw.resolve_left hk, hk, m, ?_, ht ▸ hm1⟩
      have := hm2 i e he hae
      rcases Nat.lt_or_ge m i with h | h
      · exact h
      · have : m = i := by omega
        subst this
        rw [he, Option.some.injEq] at hm1
        exact absurd (by rw [hm1]) hk
  · exact .inl (hb_last.2 (.inl (o.held _ h1 i e he (.inr ⟨n, hae, ht⟩))))

end Verif.Mutex.Order
