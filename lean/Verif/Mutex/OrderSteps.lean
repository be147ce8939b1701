import Verif.Mutex.OrderLemmas
/-! # Steps of the mutex with memory orderings keep the invariant -/
namespace Verif.Mutex.Order

open Verif.Order

/-- A step of `p` that neither creates nor releases a node. -/
structure Move (s s' : OState) (p : Nat) (c : Client) : Prop where
  client : s'.base.client = upd s.base.client p c
  next : s'.base.next = s.base.next
  freed : ∀ n, (s'.base.node n).freed = (s.base.node n).freed
  list : s'.base.list = s.base.list
  use : s'.use = s.use
  rel : s'.rel = s.rel
  sub : ∀ q, q ≠ p → s'.sub q = s.sub q
  tag : s'.tag = s.tag
  maker : s'.maker = s.maker
  use0 : s.use p = false
  rel0 : s.rel p = none
  nb : ¬ Building s p
  nb' : ∀ w, c.pc = .ppush w → s'.sub p = 0
  sub0 : s'.sub p ≠ 0 → ∃ n l, c.pc = .ulCut n l
  seen : ∀ n ∈ seen c.pc, n ∈ Order.seen (s.base.client p).pc ∨ n ∈ s.base.list
  mine : ∀ n, mine c.pc = some n ∨ c.waiter = some n →
    Order.mine (s.base.client p).pc = some n ∨ (s.base.client p).waiter = some n

variable {s s' : OState} {p : Nat} {c : Client}

/-- The usual case. -/
theorem mv (h1 : s'.base.client = upd s.base.client p c) (h2 : s'.base.next = s.base.next)
    (h3 : ∀ n, (s'.base.node n).freed = (s.base.node n).freed) (h4 : s'.base.list = s.base.list) (h5 : s'.use = s.use)
    (h6 : s'.rel = s.rel) (h7 : s'.sub = s.sub) (h8 : s'.tag = s.tag) (h9 : s'.maker = s.maker) (hu : s.use p = false) (hr : s.rel p = none)
    (hs : s.sub p = 0) (hn : ∀ n ∈ seen c.pc, n ∈ Order.seen (s.base.client p).pc ∨ n ∈ s.base.list)
    (hm : ∀ n, mine c.pc = some n ∨ c.waiter = some n →
      Order.mine (s.base.client p).pc = some n ∨ (s.base.client p).waiter = some n) : Move s s' p c :=
  ⟨h1, h2, h3, h4, h5, h6, fun q _ => by rw [h7], h8, h9, hu, hr, fun h => h.2 hs, fun _ _ => by rw [h7, hs], fun h => by rw [h7] at h; exact absurd hs h, hn, hm⟩

theorem Move.at (m : Move s s' p c) : s'.base.client p = c := by rw [m.client, upd_apply, if_pos rfl]

theorem Move.ne (m : Move s s' p c) {q : Nat} (h : q ≠ p) : s'.base.client q = s.base.client q := by
  rw [m.client, upd_apply, if_neg h]

theorem Move.building (m : Move s s' p c) (q : Nat) : Building s' q ↔ Building s q := by
  by_cases h : q = p
  · subst h
    refine ⟨fun ⟨⟨w, h1⟩, h2⟩ => ?_, fun h => absurd h m.nb⟩
    rw [m.at] at h1
    exact absurd (m.nb' w h1) h2
  · unfold Building; rw [m.ne h, m.sub q h]

theorem Move.pub (m : Move s s' p c) (n : Nat) : Pub s' n ↔ Pub s n := by
  unfold Pub
  rw [m.next, m.tag]
  simp only [m.building]

theorem Move.good (m : Move s s' p c) (g : Good s) (i : InvO s'.base) : Good s' := by
  refine ⟨i, fun q h => ?_, fun q n h => ?_, fun q h => ?_, fun q h => ?_, ?_, fun n h => ?_, fun q n h => ?_, fun q n h => ?_⟩
  · rw [m.use] at h
    rw [m.ne (fun e => by rw [e, m.use0] at h; cases h)]
    exact g.use q h
  · rw [m.rel] at h
    rw [m.ne (fun e => by rw [e, m.rel0] at h; cases h), m.freed, m.pub]
    exact g.rel q n h
  · by_cases e : q = p
    · subst e; rw [m.at]; exact .inr (m.sub0 h)
    · rw [m.sub q e] at h
      rw [m.ne e]
      exact g.sub q h
  · rw [m.tag, m.next, m.maker]
    exact g.tag q ((m.building q).1 h)
  · rw [m.list]; exact g.nodup
  · rw [m.list] at h
    rw [m.pub, m.freed]
    exact g.list n h
  · rw [m.pub]
    by_cases e : q = p
    · subst e
      rw [m.at] at h
      rcases m.seen n h with h | h
      · exact g.seen q n h
      · exact (g.list n h).1
    · rw [m.ne e] at h
      exact g.seen q n h
  · rw [m.pub, m.maker]
    by_cases e : q = p
    · subst e
      rw [m.at] at h
      exact g.mine q n (m.mine n h)
    · rw [m.ne e] at h
      exact g.mine q n h

/-- The same without an access. -/
theorem Move.own_call (m : Move s s' p c) {tr : List Ev} (g : Good s) (o : Own tr s) (h1 : s'.base.locked = s.base.locked)
    (h2 : own c = own (s.base.client p)) (h3 : ∀ n ∈ Order.seen c.pc, n ∈ Order.seen (s.base.client p).pc) : Own tr s' := by
  have hp := prot_congr m.maker
  have hm := made_congr m.maker
  refine ⟨fun h => ?_, fun q h => ?_, fun n h h' => ?_, fun q n h => ?_, fun q n h => ?_, fun q h => ?_, fun n h => ?_, o.evs,
    fun n h => ?_, fun n h h' => ?_⟩
  · rw [hp]; exact o.free (h1 ▸ h)
  · rw [hp]
    by_cases e : q = p
    · subst e; rw [m.at, h2] at h; exact o.held q h
    · rw [m.ne e] at h; exact o.held q h
  · rw [hm]; exact o.head n ((m.pub n).1 h) (m.freed n ▸ h')
  · rw [hm]
    by_cases e : q = p
    · subst e; rw [m.at] at h; exact o.seen q n (h3 n h)
    · rw [m.ne e] at h; exact o.seen q n h
  · rw [hm]; rw [m.rel] at h; exact o.rel q n h
  · rw [m.tag]; exact o.build q ((m.building q).1 h)
  · rw [m.next] at h; exact o.fresh n h
  · rw [m.next] at h; rw [m.maker]; exact o.made n h
  · rw [m.freed] at h; rw [m.pub] at h'; rw [m.maker]; exact o.writes n h h'

theorem Move.keep (m : Move s s' p c) {f : Ev} (hf : EvOk f) (hk : f.kind ≠ .write) (hn : ∀ n, At n f → Pub s n) : Keep s s' f := by
  refine ⟨m.next, m.maker, fun n h => (m.pub n).1 h, fun n h => m.freed n ▸ h, fun q h => ⟨(m.building q).1 h, by rw [m.tag]⟩, hf,
    fun n h => absurd h.2.2 hk, fun q h ha => absurd rfl ((hn _ ha).2 q ((m.building q).1 h)), fun n ha => (hn n ha).1,
    fun n _ h => absurd h hk⟩

/-- Knowledge of nodes. -/
theorem Move.knows (m : Move s s' p c) {tr : List Ev} (g : Good s) (o : Own tr s) {f : Ev} (hk : f.kind ≠ .write)
    (hl : f.tid = p ∧ (f.loc = headLoc ∧ f.acq = true ∧ src tr f = cnt tr f.loc) ∨
      ∀ n ∈ Order.seen c.pc, n ∈ Order.seen (s.base.client p).pc) :
    (∀ q, ∀ n ∈ Order.seen (s'.base.client q).pc, Knows (tr ++ [f]) q (Made s n)) ∧
    (∀ q n, s'.rel q = some n → Knows (tr ++ [f]) q (Made s n)) := by
  have app : ∀ {q n}, Knows tr q (Made s n) → Knows (tr ++ [f]) q (Made s n) := fun h => h.append fun h => absurd h.2.2 hk
  refine ⟨fun q n h => ?_, fun q n h => app (o.rel q n (m.rel ▸ h))⟩
  by_cases e : q = p
  · subst e
    rw [m.at] at h
    by_cases hs : n ∈ Order.seen (s.base.client q).pc
    · exact app (o.seen q n hs)
    · rcases hl with ⟨rfl, hl, ha, hc⟩ | hl
      · obtain ⟨hp, hfr⟩ := g.list n ((m.seen n h).resolve_left hs)
        have := o.head n hp hfr
        rw [← hl] at this
        exact this.acquire ha hc
      · exact absurd (hl n h) hs
  · rw [m.ne e] at h
    exact app (o.seen q n h)

theorem Move.own_same (m : Move s s' p c) {tr : List Ev} (g : Good s) (o : Own tr s) {f : Ev} (hf : EvOk f) (hk : f.kind ≠ .write)
    (hn : ∀ n, At n f → Pub s n) (ht : f.tid = p)
    (hl : (f.loc = headLoc ∧ f.acq = true ∧ src tr f = cnt tr f.loc) ∨ ∀ n ∈ Order.seen c.pc, n ∈ Order.seen (s.base.client p).pc)
    (h1 : s'.base.locked = s.base.locked) (h2 : own c = own (s.base.client p))
    (h3 : Prot s f → own (s.base.client p) = 1) (h4 : f.isStore lockLoc = false) : Own (tr ++ [f]) s' := by
  obtain ⟨a, b⟩ := held_append g o (s' := s') (f := f) h1 (fun q => by
    by_cases e : q = p
    · subst e; rw [m.at, h2]
    · rw [m.ne e]) (fun h => ht ▸ h3 h) h4
  obtain ⟨c, d⟩ := m.knows g o hk (hl.imp (fun h => ⟨ht, h⟩) id)
  exact (m.keep hf hk hn).own_append o a b c d

theorem not_at_lock {f : Ev} (h : f.loc = lockLoc) (n : Nat) : ¬ At n f := by
  unfold At tk wk; rw [h]; unfold lockLoc; omega

theorem not_at_head {f : Ev} (h : f.loc = headLoc) (n : Nat) : ¬ At n f := by
  unfold At tk wk; rw [h]; unfold headLoc; omega

theorem not_at_no {f : Ev} (h : f.loc = noLoc) (n : Nat) : ¬ At n f := by
  unfold At tk wk; rw [h]; unfold noLoc; omega

theorem not_at_data {f : Ev} (h : f.loc = dataLoc) (n : Nat) : ¬ At n f := by
  unfold At tk wk; rw [h]; unfold dataLoc; omega

theorem not_prot {s : OState} {f : Ev} (h : f.loc = lockLoc ∨ f.loc = headLoc ∨ f.loc = noLoc) : ¬ Prot s f := by
  rintro (h' | ⟨n, ha, -⟩)
  · rw [h'] at h; revert h; decide
  · rcases h with h | h | h
    · exact not_at_lock h n ha
    · exact not_at_head h n ha
    · exact not_at_no h n ha

theorem Move.own_acq (m : Move s s' p c) {tr : List Ev} (g : Good s) (o : Own tr s) {f : Ev} (hf : EvOk f) (ht : f.tid = p)
    (hl : f.loc = lockLoc) (ha : f.acq = true) (hr : f.isStore lockLoc = false) (hs : src tr f = cnt tr f.loc)
    (h0 : ∀ n ∈ Order.seen c.pc, n ∈ Order.seen (s.base.client p).pc) (h1 : s.base.locked = false) (h2 : s'.base.locked = true) :
    Own (tr ++ [f]) s' := by
  have hk : f.kind ≠ .write := fun e => by have := hf.word (.inl hl); rw [e] at this; cases this
  obtain ⟨c, d⟩ := m.knows g o hk (.inr h0)
  refine (m.keep hf hk (fun n h => absurd h (not_at_lock hl n))).own_append o (fun h => by rw [h2] at h; cases h) (fun q h => ?_) c d
  by_cases e : q = p
  · subst e
    have := o.free h1
    rw [← hl] at this
    have := this.acquire ha hs
    rwa [ht] at this
  · rw [m.ne e, g.inv.unlocked h1] at h; cases h

theorem Move.own_rel (m : Move s s' p c) {tr : List Ev} (g : Good s) (o : Own tr s) {f : Ev} (hf : EvOk f) (ht : f.tid = p)
    (hl : f.loc = lockLoc) (hw : f.writes lockLoc = true) (hr : f.rel = true)
    (h0 : ∀ n ∈ Order.seen c.pc, n ∈ Order.seen (s.base.client p).pc) (h1 : own (s.base.client p) = 1) (h2 : own c = 0) :
    Own (tr ++ [f]) s' := by
  have hk : f.kind ≠ .write := fun e => by have := hf.word (.inl hl); rw [e] at this; cases this
  obtain ⟨c, d⟩ := m.knows g o hk (.inr h0)
  refine (m.keep hf hk (fun n h => absurd h (not_at_lock hl n))).own_append o (fun h => ?_) (fun q h => ?_) c d
  · refine Knows.release ?_ hw hr
    rw [ht]
    exact (o.held p h1).append fun h => absurd h (not_prot (.inl hl))
  · by_cases e : q = p
    · subst e; rw [m.at, h2] at h; cases h
    · rw [m.ne e] at h
      exact absurd (g.inv.uniq (p := q) (q := p) (by omega) (by omega)) e

/-- Enough orderings. -/
structure Most (o : Ords) : Prop where
  lock : o.lock.acq = true
  unlock : o.unlock = true
  push : o.push.rel = true
  drain : o.drain = true
  iter : o.iter = true

theorem acc_ok {o : Ords} {k : Nat} {a : Acc} (h : acc o p s = some a) : EvOk (a.ev p k) := by
  have hrw : ∀ (t n : Nat) (x : Kind), x = .read ∨ x = .write → EvOk ⟨t, wk n, x⟩ := by
    rintro t n x (rfl | rfl) <;>
      refine ⟨by simp, fun h => ?_, fun h => ?_, by simp [Ev.isStore], fun m h => ?_, fun m h => by simp⟩ <;>
      simp only [lockLoc, headLoc, noLoc, wk, tk] at h <;> omega
  have htk : ∀ (t n : Nat) (x : Kind), x ≠ .free → x ≠ .read → EvOk ⟨t, tk n, x⟩ := by
    intro t n x h1 h2
    refine ⟨h1, fun h => ?_, fun h => ?_, ?_, fun m h => h2, fun m h => ?_⟩
    · simp only [lockLoc, headLoc, tk] at h; omega
    · simp only [noLoc, tk] at h; omega
    · have : ¬ tk n = headLoc := by unfold tk headLoc; omega
      simp [Ev.isStore, this]
    · simp only [wk, tk] at h; omega
  have hword : ∀ (t l : Nat) (x : Kind), l = lockLoc ∨ l = headLoc → x.atomic = true → (∀ r, x = .store r → l = lockLoc) → EvOk ⟨t, l, x⟩ := by
    intro t l x h1 h2 h3
    refine ⟨fun e => ?_, fun _ => h2, fun e => ?_, ?_, fun m h => ?_, fun m h => ?_⟩
    · simp only at e; rw [e] at h2; cases h2
    · simp only at e; rw [e] at h1; simp [noLoc, lockLoc, headLoc] at h1
    · cases x with
      | store r => rw [h3 r rfl]; simp [Ev.isStore, lockLoc, headLoc]
      | _ => simp [Ev.isStore]
    · exact fun e => by simp only at e; rw [e] at h2; cases h2
    · simp only at h; rw [h] at h1; simp only [lockLoc, headLoc, wk] at h1; omega
  have hno : EvOk ⟨p, noLoc, .read⟩ := ⟨by simp, by simp [lockLoc, headLoc, noLoc], by simp, by simp [Ev.isStore],
    fun n h => by simp only [noLoc, tk] at h; omega, fun n h => by simp⟩
  have hdata : EvOk ⟨p, dataLoc, .write⟩ := ⟨by simp, by simp [lockLoc, headLoc, dataLoc], by simp [noLoc, dataLoc], by simp [Ev.isStore],
    fun n h => by simp, fun n h => by simp⟩
  unfold acc at h
  split at h
  · simp only [Option.some.injEq] at h; subst h; exact hdata
  · split at h
    · simp only [Option.some.injEq] at h; subst h; exact hrw _ _ _ (.inr rfl)
    · unfold accPc at h
      (repeat' split at h) <;> simp only [Option.some.injEq, reduceCtorEq] at h <;> subst h <;>
        first
        | exact hno
        | exact htk _ _ _ (by simp) (by simp)
        | exact hrw _ _ _ (.inl rfl)
        | exact hrw _ _ _ (.inr rfl)
        | exact hword _ _ _ (.inl rfl) rfl (fun _ _ => rfl)
        | exact hword _ _ _ (.inr rfl) rfl (by simp)

theorem init_own : Good oinit ∧ Own [] oinit := by
  refine ⟨⟨init_invO, by simp [oinit], by simp [oinit], by simp [oinit], fun q h => absurd rfl h.2, by simp [oinit, init],
    by simp [oinit, init], by simp [oinit, init, seen], by simp [oinit, init, mine]⟩,
    ⟨fun h i e he => by simp at he, fun q h i e he => by simp at he, fun n h h' i e he => by simp at he,
      fun q n h i e he => by simp at he, fun q n h i e he => by simp at he, fun q h i e he => by simp at he, fun n h i e he => by simp at he,
      fun i e he => by simp at he, fun n h => by simp [oinit, init] at h, fun n h h' i e he => by simp at he⟩⟩

/-- Calls. -/
theorem call_own {tr : List Ev} (g : Good s) (o : Own tr s) (a : OOp) : Good (ocall s a) ∧ Own tr (ocall s a) := by
  cases a with
  | op p op =>
    unfold ocall
    simp only
    split
    · exact ⟨g, o⟩
    · rename_i hu
      simp only [Bool.not_eq_true] at hu
      by_cases hi : (s.base.client p).pc = .idle
      · have hr : s.rel p = none := by
          cases h : s.rel p with
          | none => rfl
          | some n => obtain ⟨⟨l, hl⟩, -⟩ := g.rel p n h; rw [hl] at hi; cases hi
        have hsub : s.sub p = 0 := by
          by_cases h : s.sub p = 0
          · exact h
          · rcases g.sub p h with ⟨w, h⟩ | ⟨n, l, h⟩ <;> (rw [h] at hi; cases hi)
        have key : ∀ b, call s.base p op = b → b = s.base ∨ ∃ c, b.client = upd s.base.client p c ∧ b.next = s.base.next ∧
            b.node = s.base.node ∧ b.list = s.base.list ∧ b.locked = s.base.locked ∧ own c = own (s.base.client p) ∧ seen c.pc = [] ∧
            (∀ n, mine c.pc = some n ∨ c.waiter = some n → (s.base.client p).waiter = some n) := by
          intro b hb
          unfold call at hb
          simp only [hi, ne_eq, not_true_eq_false, if_false] at hb
          cases op <;> simp only at hb <;> (repeat' split at hb) <;> subst hb <;>
            first
            | exact .inl rfl
            | exact .inr ⟨_, rfl, rfl, rfl, rfl, rfl, by simp only [own, hi, Pc.unl] <;> omega, by simp [seen, hi], by simp [mine, *]⟩
        have hinv := call_invO g.inv p op
        generalize hb : call s.base p op = b at hinv
        rcases key b hb with rfl | ⟨c, h1, h2, h3, h4, h5, h6, h7, h8⟩
        · exact ⟨g, o⟩
        · have m : Move s { s with base := b } p c :=
            mv h1 h2 (fun n => by rw [h3]) h4 rfl rfl rfl rfl rfl hu hr hsub (fun n h => (by rw [h7] at h; cases h)) (fun n h => .inr (h8 n h))
          exact ⟨m.good g hinv, m.own_call g o h5 h6 fun n h => by rw [h7] at h; cases h⟩
      · have : call s.base p op = s.base := by unfold call; simp [hi]
        rw [this]; exact ⟨g, o⟩
  | access p =>
    unfold ocall
    simp only
    split
    · rename_i h
      refine ⟨⟨g.inv, fun q hq => ?_, g.rel, g.sub, g.tag, g.nodup, g.list, g.seen, g.mine⟩,
        ⟨o.free, o.held, o.head, o.seen, o.rel, o.build, o.fresh, o.evs, o.made, o.writes⟩⟩
      simp only [upd_apply] at hq
      split at hq
      · rename_i e; subst e; exact h
      · exact g.use q hq
    · exact ⟨g, o⟩

end Verif.Mutex.Order
