import Verif.Exec.ChanLemmas
import Verif.Exec.Inv
/-! # The invariant of futures that await oneshot channels -/
namespace Verif.Exec.Chan
open Verif.Soft (upd Frame InvA InvI)
open Verif.Exec (Task upd2 entering inside Due NoOther due_push due_pend pend_eq ret_eq frameStep_due frameStep_inside frameStep_other
  entering_cons noOther_push)

/-- Every task that was started sleeps or is about to be polled; `w` is a thread that is about
to be woken. -/
structure Inv (count : Nat) (s : State) (w : Option Nat) : Prop where
  a : InvA count s.soft
  o : NoOther s.soft
  thr : ∀ k, k < s.made → (s.task k).thr < count
  wait : ∀ k, k < s.made → (s.task k).live = true → (s.task k).done = false →
    ((s.task k).pos < (s.task k).len ∧ Sleep (s.chan k (s.task k).pos)) ∨
    k ∈ s.queue (s.task k).thr ∨ Due s.soft (s.task k).thr ∨ w = some (s.task k).thr
  fit : ∀ k i, k < s.made → Fit (s.task k).thr (s.chan k i)
  new : ∀ k i, s.made ≤ k → ∀ t, Fit t (s.chan k i) ∧ (s.chan k i).rpc = .idle
  nxt : ∀ k i, k < s.made → (s.task k).pos < i → (s.chan k i).rpc = .idle
  cur : ∀ k, k < s.made → (s.chan k (s.task k).pos).rpc ≠ .gone
  prv : ∀ k i, k < s.made → i < (s.task k).pos → (s.chan k i).rpc = .gone
  len : ∀ k, k < s.made → (s.task k).pos ≤ (s.task k).len
  fin : ∀ k, k < s.made → (s.task k).done = true → (s.task k).pos = (s.task k).len
  que : ∀ t k, k ∈ s.queue t → k < s.made ∧ (s.task k).thr = t ∧ (s.task k).done = false
  nod : ∀ t, (s.queue t).Nodup
  bod : ∀ t, s.queue t ≠ [] → ∃ f ∈ s.soft.stack, inside [f] = some t

theorem init_inv (count : Nat) {prio : Nat → Nat} (hp : ∀ t, prio t < 27) : Inv count (init prio) none :=
  ⟨Soft.init_invA count hp, by simp [NoOther, init, Soft.init], by simp [init], by simp [init], by simp [init],
    fun _ _ _ t => ⟨fit_init t, rfl⟩, by simp [init], by simp [init], by simp [init], by simp [init], by simp [init], by simp [init], by simp [init],
    by simp [init]⟩

theorem chain_mem {s : State} {t k : Nat} : k ∈ chain s t ↔ k < s.made ∧ (s.task k).thr = t ∧ (s.task k).done = false := by
  simp [chain]

theorem chain_nodup (s : State) (t : Nat) : (chain s t).Nodup := by
  unfold chain
  exact (List.pairwise_reverse.2 (List.nodup_range.imp Ne.symm)).filter _

/-- The wake. -/
theorem wake_inv {count : Nat} (hc : count ≤ 32) {s s' : State} {w : Option Nat} (i : Inv count s w) (h : wake count s w = some s') :
    Inv count s' none := by
  cases w with
  | none => simp only [wake, Option.some.injEq] at h; subst h; exact i
  | some t =>
    obtain ⟨a, o, thr, wait, fit, new, nxt, cur, prv, len, fin, que, nod, bod⟩ := i
    by_cases ht : t < count
    · have hs := pend_eq (s := s.soft) ht
      have a' := Soft.step_invA hc a hs
      simp only [wake, hs, Option.some.injEq] at h
      subst h
      refine ⟨a', noOther_push o, thr, ?_, fit, new, nxt, cur, prv, len, fin, que, nod, ?_⟩
      · intro k hk hl hd
        rcases wait k hk hl hd with h | h | h | h
        · exact .inl h
        · exact .inr (.inl h)
        · exact .inr (.inr (.inl (due_push h)))
        · simp only [Option.some.injEq] at h
          refine .inr (.inr (.inl ?_))
          dsimp only
          rw [← h]
          exact due_pend
      · intro u hu
        obtain ⟨f, hf, h⟩ := bod u hu
        exact ⟨f, by simp [hf], h⟩
    · simp only [wake, Soft.step, ht, ↓reduceIte, Option.some.injEq] at h
      subst h
      refine ⟨a, o, thr, ?_, fit, new, nxt, cur, prv, len, fin, que, nod, bod⟩
      intro k hk hl hd
      rcases wait k hk hl hd with h | h | h | h
      · exact .inl h
      · exact .inr (.inl h)
      · exact .inr (.inr (.inl h))
      · simp only [Option.some.injEq] at h
        exact absurd (thr k hk) (by rw [← h]; exact ht)

theorem act_step {count : Nat} (hc : count ≤ 32) {s s' : State} {w : Option Nat} (i : Inv count s none)
    (h : act count s .step = some (s', w)) : Inv count s' w := by
  have i0 := i
  obtain ⟨a, o, thr, wait, fit, new, nxt, cur, prv, len, fin, que, nod, i8⟩ := i
  simp only [act] at h
  cases hs : Soft.step count s.soft .step with
  | none => rw [hs] at h; simp at h
  | some soft =>
    rw [hs] at h
    have a' := Soft.step_invA hc a hs
    simp only [Soft.step] at hs
    cases hst : s.soft.stack with
    | nil =>
      rw [hst] at hs h
      simp only [Option.some.injEq] at hs
      subst hs
      simp only [entering, Option.some.injEq, Prod.mk.injEq] at h
      obtain ⟨rfl, rfl⟩ := h
      exact i0
    | cons f rest =>
      rw [hst] at hs h
      simp only at hs
      have o' := frameStep_other o hst hs
      have hnc := (o f (by rw [hst]; simp)).1
      have bod : ∀ t, s.queue t ≠ [] → ∃ f ∈ soft.stack, inside [f] = some t := by
        intro t ht
        obtain ⟨x, hx, hin⟩ := i8 t ht
        rw [hst] at hx
        rcases List.mem_cons.1 hx with rfl | hx
        · exact ⟨x, by rw [frameStep_inside hs hin]; simp, hin⟩
        · rcases Soft.frameStep_stack hs with e | ⟨y, e⟩
          · exact ⟨x, by rw [e]; exact hx, hin⟩
          · exact ⟨x, by rw [e]; simp [hx], hin⟩
      rw [entering_cons] at h
      cases he : entering [f] with
      | none =>
        rw [he] at h
        simp only [Option.some.injEq, Prod.mk.injEq] at h
        obtain ⟨rfl, rfl⟩ := h
        refine ⟨a', o', thr, ?_, fit, new, nxt, cur, prv, len, fin, que, nod, bod⟩
        intro k hk hl hd
        rcases wait k hk hl hd with h | h | h | h
        · exact .inl h
        · exact .inr (.inl h)
        · rcases frameStep_due hc a (thr k hk) hst hs hnc h with h | h
          · exact .inr (.inr (.inl h))
          · rw [he] at h; simp at h
        · simp at h
      | some t =>
        rw [he] at h
        simp only [Option.some.injEq, Prod.mk.injEq] at h
        obtain ⟨rfl, rfl⟩ := h
        have hbody : ∃ f ∈ soft.stack, inside [f] = some t := by
          cases f with
          | row r pc =>
            cases pc with
            | call thr cell bit c =>
              cases c with
              | store p =>
                simp only [entering, Option.some.injEq] at he
                subst he
                simp only [Soft.frameStep, Soft.callStep, Option.some.injEq] at hs
                subst hs
                exact ⟨_, List.mem_cons_self .., rfl⟩
              | _ => simp [entering] at he
            | _ => simp [entering] at he
          | _ => simp [entering] at he
        refine ⟨a', o', thr, ?_, fit, new, nxt, cur, prv, len, fin, ?_, ?_, ?_⟩
        · intro k hk hl hd
          by_cases e : (s.task k).thr = t
          · refine .inr (.inl ?_)
            simp only [upd, e, ↓reduceIte]
            exact chain_mem.2 ⟨hk, e, hd⟩
          · rcases wait k hk hl hd with h | h | h | h
            · exact .inl h
            · refine .inr (.inl ?_)
              simp only [upd, e, ↓reduceIte]; exact h
            · rcases frameStep_due hc a (thr k hk) hst hs hnc h with h | h
              · exact .inr (.inr (.inl h))
              · rw [he] at h; simp only [Option.some.injEq] at h; exact absurd h.symm e
            · simp at h
        · intro u k hk
          simp only [upd] at hk
          split at hk
          · rename_i e
            subst e
            exact chain_mem.1 hk
          · exact que u k hk
        · intro u
          simp only [upd]
          split
          · exact chain_nodup s t
          · exact nod u
        · intro u hu
          simp only [upd] at hu
          split at hu
          · rename_i e; subst e; exact hbody
          · exact bod u hu

theorem act_ret {count : Nat} (hc : count ≤ 32) {s s' : State} {w : Option Nat} (i : Inv count s none)
    (h : act count s .ret = some (s', w)) : Inv count s' w := by
  have i0 := i
  obtain ⟨a, o, thr, wait, fit, new, nxt, cur, prv, len, fin, que, nod, i8⟩ := i
  simp only [act] at h
  cases hin : inside s.soft.stack with
  | none => rw [hin] at h; simp only [Option.some.injEq, Prod.mk.injEq] at h; obtain ⟨rfl, rfl⟩ := h; exact i0
  | some t =>
    rw [hin] at h
    simp only at h
    split at h
    · rename_i hq
      have hs : Soft.step count s.soft .ret = some { s.soft with stack := Soft.ret s.soft.stack } := rfl
      have a' := Soft.step_invA hc a hs
      rw [hs] at h
      simp only [Option.some.injEq, Prod.mk.injEq] at h
      obtain ⟨rfl, rfl⟩ := h
      obtain ⟨r, cell, bit, p, rest, e1, e2⟩ := ret_eq hin
      refine ⟨a', ?_, thr, ?_, fit, new, nxt, cur, prv, len, fin, que, nod, ?_⟩
      · intro f hf
        dsimp only at hf
        rw [e2] at hf
        rcases List.mem_cons.1 hf with rfl | hf
        · exact ⟨by simp, by simp⟩
        · exact o f (by rw [e1]; simp [hf])
      · intro k hk hl hd
        rcases wait k hk hl hd with h | h | (h | ⟨f, hf, hlead⟩) | h
        · exact .inl h
        · exact .inr (.inl h)
        · exact .inr (.inr (.inl (.inl h)))
        · refine .inr (.inr (.inl (.inr ?_)))
          dsimp only
          rw [e1] at hf
          rw [e2]
          rcases List.mem_cons.1 hf with rfl | hf
          · exact absurd hlead id
          · exact ⟨f, by simp [hf], hlead⟩
        · simp at h
      · intro u hu
        dsimp only at hu ⊢
        obtain ⟨f, hf, hx⟩ := i8 u hu
        rw [e1] at hf
        rw [e2]
        rcases List.mem_cons.1 hf with rfl | hf
        · simp only [inside, Option.some.injEq] at hx
          subst hx
          exact absurd hq hu
        · exact ⟨f, by simp [hf], hx⟩
    · simp only [Option.some.injEq, Prod.mk.injEq] at h; obtain ⟨rfl, rfl⟩ := h; exact i0

/-- A new task that is not started, or whose thread is about to be woken. -/
theorem push_inv {count : Nat} {s : State} (i : Inv count s none) {thr' len' : Nat} {live : Bool} {w : Option Nat} (ht : thr' < count)
    (hl : live = true → w = some thr') : Inv count (s.push thr' len' live) w := by
  obtain ⟨a, o, thr, wait, fit, new, nxt, cur, prv, len, fin, que, nod, bod⟩ := i
  have hnew : (s.push thr' len' live).task s.made = ⟨thr', len', 0, live, false⟩ := by simp [State.push, upd]
  have old : ∀ k, k ≠ s.made → (s.push thr' len' live).task k = s.task k := by intro k hk; simp [State.push, upd, hk]
  have lt : ∀ k, k < s.made + 1 → k ≠ s.made → k < s.made := by intro k h1 h2; omega
  refine ⟨a, o, ?_, ?_, ?_, ?_, ?_, ?_, ?_, ?_, ?_, ?_, nod, bod⟩
  · intro k hk
    by_cases e : k = s.made
    · subst e; rw [hnew]; exact ht
    · rw [old k e]; exact thr k (lt k hk e)
  · intro k hk
    by_cases e : k = s.made
    · subst e; rw [hnew]; intro h1 h2
      exact .inr (.inr (.inr (hl h1)))
    · rw [old k e]
      intro h1 h2
      rcases wait k (lt k hk e) h1 h2 with h | h | h | h
      · exact .inl h
      · exact .inr (.inl h)
      · exact .inr (.inr (.inl h))
      · simp at h
  · intro k i hk
    by_cases e : k = s.made
    · subst e; exact (new s.made i (Nat.le_refl _) _).1
    · rw [old k e]; exact fit k i (lt k hk e)
  · intro k i hk
    exact new k i (Nat.le_of_succ_le hk)
  · intro k i hk
    by_cases e : k = s.made
    · subst e; intro _; exact (new s.made i (Nat.le_refl _) 0).2
    · rw [old k e]; exact nxt k i (lt k hk e)
  · intro k hk
    by_cases e : k = s.made
    · subst e; have := (new s.made ((s.push thr' len' live).task s.made).pos (Nat.le_refl _) 0).2
      intro e'; rw [show (s.push thr' len' live).chan = s.chan from rfl, this] at e'; simp at e'
    · rw [old k e]; exact cur k (lt k hk e)
  · intro k i hk
    by_cases e : k = s.made
    · subst e; rw [hnew]; intro h; exact absurd h (Nat.not_lt_zero i)
    · rw [old k e]; exact prv k i (lt k hk e)
  · intro k hk
    by_cases e : k = s.made
    · subst e; rw [hnew]; exact Nat.zero_le _
    · rw [old k e]; exact len k (lt k hk e)
  · intro k hk
    by_cases e : k = s.made
    · subst e; rw [hnew]; intro h; simp at h
    · rw [old k e]; exact fin k (lt k hk e)
  · intro t k h
    obtain ⟨h1, h2⟩ := que t k h
    refine ⟨Nat.lt_succ_of_lt h1, ?_⟩
    rw [old k (by omega)]; exact h2

/-- A step of a sender. -/
theorem sender_inv {count : Nat} {s : State} (i : Inv count s none) {k₀ i₀ : Nat} {c' : Ch} {w : Option Nat}
    (hr : ∃ as, Oneshot.run (Oneshot.init Nat) as = some c') (rel : SRel (s.chan k₀ i₀) c')
    (sl : ∀ t, Fit t (s.chan k₀ i₀) → Sleep (s.chan k₀ i₀) → Sleep c' ∨ w = some t) :
    Inv count { s with chan := upd2 s.chan k₀ i₀ c' } w := by
  obtain ⟨a, o, thr, wait, fit, new, nxt, cur, prv, len, fin, que, nod, bod⟩ := i
  have rp : ∀ k i, (upd2 s.chan k₀ i₀ c' k i).rpc = (s.chan k i).rpc := by
    intro k i
    simp only [upd2]
    split
    · rename_i e; rw [e.1, e.2]; exact rel.rpc
    · rfl
  have ft : ∀ k i t, Fit t (s.chan k i) → Fit t (upd2 s.chan k₀ i₀ c' k i) := by
    intro k i t h
    simp only [upd2]
    split
    · rename_i e; rw [e.1, e.2] at h; exact fit_sender h rel hr
    · exact h
  refine ⟨a, o, thr, ?_, fun k i hk => ft k i _ (fit k i hk), fun k i hk t => ⟨ft k i t (new k i hk t).1, by rw [rp]; exact (new k i hk t).2⟩,
    fun k i => by dsimp only; rw [rp]; exact nxt k i, fun k => by dsimp only; rw [rp]; exact cur k, fun k i => by dsimp only; rw [rp]; exact prv k i,
    len, fin, que, nod, bod⟩
  intro k hk hl hd
  rcases wait k hk hl hd with ⟨h1, h2⟩ | h | h | h
  · dsimp only
    by_cases e : k = k₀ ∧ (s.task k).pos = i₀
    · obtain ⟨rfl, rfl⟩ := e
      rcases sl _ (fit k _ hk) h2 with h | h
      · exact .inl ⟨h1, by simp only [upd2, and_self, ↓reduceIte]; exact h⟩
      · exact .inr (.inr (.inr h))
    · exact .inl ⟨h1, by simp only [upd2, e, ↓reduceIte]; exact h2⟩
  · exact .inr (.inl h)
  · exact .inr (.inr (.inl h))
  · simp at h

/-- The chain of a thread after one of its tasks is done with. -/
theorem queue_facts {count : Nat} {s : State} (i : Inv count s none) {t k : Nat} {ks : List Nat} (hq : s.queue t = k :: ks) :
    (∀ q, q < s.made → q ≠ k → q ∈ s.queue (s.task q).thr → q ∈ upd s.queue t ks (s.task q).thr) ∧
    (∀ u q, q ∈ upd s.queue t ks u → q ∈ s.queue u ∧ q ≠ k) ∧ (∀ u, (upd s.queue t ks u).Nodup) ∧
    (∀ u, upd s.queue t ks u ≠ [] → ∃ f ∈ s.soft.stack, inside [f] = some u) := by
  obtain ⟨-, -, -, -, -, -, -, -, -, -, -, i6, i7, i8⟩ := i
  obtain ⟨hk, hkt, hkd⟩ := i6 t k (by rw [hq]; simp)
  have hnd := i7 t
  rw [hq, List.nodup_cons] at hnd
  refine ⟨?_, ?_, ?_, ?_⟩
  · intro q hqm hqk hmem
    simp only [upd]
    split
    · rename_i e
      rw [e, hq] at hmem
      rcases List.mem_cons.1 hmem with h | h
      · exact absurd h hqk
      · exact h
    · exact hmem
  · intro u q hx
    simp only [upd] at hx
    split at hx
    · rename_i e
      rw [e, hq]
      exact ⟨by simp [hx], fun e => hnd.1 (e ▸ hx)⟩
    · rename_i e
      refine ⟨hx, fun e' => e ?_⟩
      rw [e'] at hx
      have := (i6 u k hx).2.1
      rw [hkt] at this; exact this.symm
  · intro u
    simp only [upd]
    split
    · exact hnd.2
    · exact i7 u
  · intro u hu
    simp only [upd] at hu
    split at hu
    · rename_i e
      rw [e]
      exact i8 t (by rw [hq]; simp)
    · exact i8 u hu

/-- The running task goes on. -/
theorem poll_update {count : Nat} {s : State} (i : Inv count s none) {t k : Nat} {ks : List Nat} (hq : s.queue t = k :: ks) {x : Task}
    {ch : Nat → Nat → Ch} {qu : Nat → List Nat} {w : Option Nat} (hthr : x.thr = (s.task k).thr)
    (hch : ∀ q j, q ≠ k → ch q j = s.chan q j) (hfit : ∀ j, Fit (s.task k).thr (ch k j)) (hnxt : ∀ j, x.pos < j → (ch k j).rpc = .idle)
    (hcur : (ch k x.pos).rpc ≠ .gone) (hprv : ∀ j, j < x.pos → (ch k j).rpc = .gone) (hle : x.pos ≤ x.len) (hfin : x.done = true → x.pos = x.len)
    (hqu : qu = s.queue ∧ x.done = false ∨ qu = upd s.queue t ks ∧ (x.done = false → x.pos < x.len ∧ Sleep (ch k x.pos))) :
    Inv count { s with task := upd s.task k x, chan := ch, queue := qu } w := by
  obtain ⟨q1, q2, q3, q4⟩ := queue_facts i hq
  obtain ⟨a, o, thr, wait, fit, new, nxt, cur, prv, len, fin, que, nod, bod⟩ := i
  obtain ⟨hk, hkt, hkd⟩ := que t k (by rw [hq]; simp)
  have tk : upd s.task k x k = x := by simp [upd]
  have tq : ∀ q, q ≠ k → upd s.task k x q = s.task q := by intro q h; simp [upd, h]
  have hne : ∀ q, s.made ≤ q → q ≠ k := by intro q h e; omega
  refine ⟨a, o, ?_, ?_, ?_, ?_, ?_, ?_, ?_, ?_, ?_, ?_, ?_, ?_⟩ <;> dsimp only
  · intro q hm
    by_cases e : q = k
    · subst e; rw [tk, hthr]; exact thr q hm
    · rw [tq q e]; exact thr q hm
  · intro q hm
    by_cases e : q = k
    · subst e; rw [tk]
      intro _ hd
      rcases hqu with ⟨rfl, -⟩ | ⟨-, h⟩
      · refine .inr (.inl ?_)
        rw [hthr, hkt, hq]; simp
      · exact .inl (h hd)
    · rw [tq q e]
      intro hl hd
      rcases wait q hm hl hd with h | h | h | h
      · rw [hch q _ e]; exact .inl h
      · refine .inr (.inl ?_)
        rcases hqu with ⟨rfl, -⟩ | ⟨rfl, -⟩
        · exact h
        · exact q1 q hm e h
      · exact .inr (.inr (.inl h))
      · simp at h
  · intro q j hm
    by_cases e : q = k
    · subst e; rw [tk, hthr]; exact hfit j
    · rw [tq q e, hch q j e]; exact fit q j hm
  · intro q j hm u
    rw [hch q j (hne q hm)]; exact new q j hm u
  · intro q j hm
    by_cases e : q = k
    · subst e; rw [tk]; exact hnxt j
    · rw [tq q e, hch q j e]; exact nxt q j hm
  · intro q hm
    by_cases e : q = k
    · subst e; rw [tk]; exact hcur
    · rw [tq q e, hch q _ e]; exact cur q hm
  · intro q j hm
    by_cases e : q = k
    · subst e; rw [tk]; exact hprv j
    · rw [tq q e, hch q j e]; exact prv q j hm
  · intro q hm
    by_cases e : q = k
    · subst e; rw [tk]; exact hle
    · rw [tq q e]; exact len q hm
  · intro q hm
    by_cases e : q = k
    · subst e; rw [tk]; exact hfin
    · rw [tq q e]; exact fin q hm
  · intro u q hx
    rcases hqu with ⟨rfl, hd⟩ | ⟨rfl, -⟩
    · obtain ⟨h1, h2, h3⟩ := que u q hx
      refine ⟨h1, ?_⟩
      by_cases e : q = k
      · subst e; rw [tk, hthr]; exact ⟨h2, hd⟩
      · rw [tq q e]; exact ⟨h2, h3⟩
    · obtain ⟨h1, h2⟩ := q2 u q hx
      rw [tq q h2]; exact que u q h1
  · rcases hqu with ⟨rfl, -⟩ | ⟨rfl, -⟩
    · exact nod
    · exact q3
  · rcases hqu with ⟨rfl, -⟩ | ⟨rfl, -⟩
    · exact bod
    · exact q4

theorem act_poll {count : Nat} {s s' : State} {w : Option Nat} (i : Inv count s none) (h : act count s .poll = some (s', w)) : Inv count s' w := by
  simp only [act] at h
  split at h
  · simp only [Option.some.injEq, Prod.mk.injEq] at h; obtain ⟨rfl, rfl⟩ := h; exact i
  rename_i t hin
  split at h
  · simp only [Option.some.injEq, Prod.mk.injEq] at h; obtain ⟨rfl, rfl⟩ := h; exact i
  rename_i k ks hq
  obtain ⟨hk, hkt, hkd⟩ := i.que t k (by rw [hq]; simp)
  rw [if_neg (by rw [hkd]; simp)] at h
  split at h
  · rename_i hlen
    simp only [Option.some.injEq, Prod.mk.injEq] at h; obtain ⟨rfl, rfl⟩ := h
    exact poll_update i hq (ch := s.chan) rfl (fun _ _ _ => rfl) (fun j => i.fit k j hk) (fun j => i.nxt k j hk) (i.cur k hk) (fun j => i.prv k j hk)
      (i.len k hk) (fun _ => hlen) (.inr ⟨rfl, by simp⟩)
  rename_i hlen
  have hlt : (s.task k).pos < (s.task k).len := by have := i.len k hk; omega
  have same : ∀ c', upd2 s.chan k (s.task k).pos c' k (s.task k).pos = c' := by intro c'; simp [upd2]
  have oth : ∀ c' j, j ≠ (s.task k).pos → upd2 s.chan k (s.task k).pos c' k j = s.chan k j := by intro c' j h; simp [upd2, h]
  have hch : ∀ c' q j, q ≠ k → upd2 s.chan k (s.task k).pos c' q j = s.chan q j := by intro c' q j h; simp [upd2, h]
  have ftj : ∀ c', Fit (s.task k).thr c' → ∀ j, Fit (s.task k).thr (upd2 s.chan k (s.task k).pos c' k j) := by
    intro c' hf j
    by_cases e : j = (s.task k).pos
    · rw [e, same]; exact hf
    · rw [oth c' j e]; exact i.fit k j hk
  cases hr : recvStep (s.task k).thr (s.chan k (s.task k).pos) with
  | none => rw [hr] at h; simp at h
  | some p =>
    obtain ⟨c', r⟩ := p
    rw [hr] at h
    obtain ⟨f1, f2, f3, f4⟩ := recv_fit (i.fit k _ hk) (i.cur k hk) hr
    have nx : ∀ j, (s.task k).pos < j → (upd2 s.chan k (s.task k).pos c' k j).rpc = .idle := by
      intro j hj; rw [oth c' j (by omega)]; exact i.nxt k j hk hj
    have pv : ∀ j, j < (s.task k).pos → (upd2 s.chan k (s.task k).pos c' k j).rpc = .gone := by
      intro j hj; rw [oth c' j (by omega)]; exact i.prv k j hk hj
    cases r with
    | more =>
      simp only [Option.some.injEq, Prod.mk.injEq] at h; obtain ⟨rfl, rfl⟩ := h
      exact poll_update i hq (x := { s.task k with live := true }) rfl (hch c') (ftj c' f1) nx (by dsimp only; rw [same]; exact f4 rfl) pv (i.len k hk)
        (by dsimp only; rw [hkd]; simp) (.inl ⟨rfl, hkd⟩)
    | pending =>
      simp only [Option.some.injEq, Prod.mk.injEq] at h; obtain ⟨rfl, rfl⟩ := h
      exact poll_update i hq (x := { s.task k with live := true }) rfl (hch c') (ftj c' f1) nx (by dsimp only; rw [same, (f2 rfl).idle]; simp) pv
        (i.len k hk) (by dsimp only; rw [hkd]; simp) (.inr ⟨rfl, fun _ => ⟨hlt, by dsimp only; rw [same]; exact f2 rfl⟩⟩)
    | ready =>
      simp only [Option.some.injEq, Prod.mk.injEq] at h; obtain ⟨rfl, rfl⟩ := h
      refine poll_update i hq (x := { s.task k with live := true, pos := (s.task k).pos + 1 }) rfl (hch c') (ftj c' f1) (fun j hj => nx j ?_) ?_ ?_ ?_
        (by dsimp only; rw [hkd]; simp) (.inl ⟨rfl, hkd⟩)
      · dsimp only at hj; omega
      · dsimp only; rw [nx _ (by omega)]; simp
      · intro j hj
        dsimp only at hj
        by_cases e : j = (s.task k).pos
        · rw [e, same]; exact f3 rfl
        · exact pv j (by omega)
      · dsimp only; omega

theorem act_inv {count : Nat} (hc : count ≤ 32) {s s' : State} {w : Option Nat} {a : Act} (i : Inv count s none)
    (h : act count s a = some (s', w)) : Inv count s' w := by
  cases a with
  | step => exact act_step hc i h
  | poll => exact act_poll i h
  | ret => exact act_ret hc i h
  | call k j op =>
    simp only [act] at h
    cases hs : Oneshot.step (s.chan k j) (.sCall op) with
    | none => rw [hs] at h; simp at h
    | some c' =>
      rw [hs] at h
      simp only [Option.some.injEq, Prod.mk.injEq] at h; obtain ⟨rfl, rfl⟩ := h
      have hr : ∃ as, Oneshot.run (Oneshot.init Nat) as = some (s.chan k j) := by
        by_cases hk : k < s.made
        · exact (i.fit k j hk).reach
        · exact (i.new k j (by omega) 0).1.reach
      exact sender_inv i (reach_step hr hs) (sCall_rel hs) fun t _ sl => .inl (sleep_call sl hs)
  | send k j =>
    simp only [act] at h
    cases hs : Oneshot.step (s.chan k j) .sStep with
    | none => rw [hs] at h; simp at h
    | some c' =>
      rw [hs] at h
      simp only [Option.some.injEq, Prod.mk.injEq] at h; obtain ⟨rfl, rfl⟩ := h
      have hr : ∃ as, Oneshot.run (Oneshot.init Nat) as = some (s.chan k j) := by
        by_cases hk : k < s.made
        · exact (i.fit k j hk).reach
        · exact (i.new k j (by omega) 0).1.reach
      exact sender_inv i (reach_step hr hs) (sStep_rel hs) fun t f sl => sleep_send f sl hs
  | add thr len =>
    simp only [act, Option.some.injEq, Prod.mk.injEq] at h
    obtain ⟨rfl, rfl⟩ := h
    split
    · rename_i ht; exact push_inv i ht (by simp)
    · exact i
  | exec thr len =>
    simp only [act, Option.some.injEq] at h
    split at h <;> (simp only [Prod.mk.injEq] at h; obtain ⟨rfl, rfl⟩ := h)
    · rename_i ht; exact push_inv i ht fun _ => rfl
    · exact i

theorem step_inv {count : Nat} (hc : count ≤ 32) {s s' : State} {a : Act} (i : Inv count s none) (h : step count s a = some s') :
    Inv count s' none := by
  simp only [step] at h
  split at h
  · simp at h
  · rename_i m w hm; exact wake_inv hc (act_inv hc i hm) h

theorem run_inv {count : Nat} (hc : count ≤ 32) : ∀ {acts : List Act} {s s' : State}, Inv count s none → run count s acts = some s' →
    Inv count s' none
  | [], s, s', g, h => by simp only [run, Option.some.injEq] at h; exact h ▸ g
  | a :: as, s, s', g, h => by
    simp only [run] at h
    split at h
    · simp at h
    · rename_i m hm; exact run_inv hc (step_inv hc g hm) h

/-- The wake apart, the software threads make at most one step of their own. -/
theorem act_invI {count : Nat} (hc : count ≤ 32) {s s' : State} {w : Option Nat} {a : Act} (i : Inv count s none) (v : InvI count s.soft)
    (h : act count s a = some (s', w)) : InvI count s'.soft ∧ (w ≠ none → s'.soft = s.soft) := by
  cases a with
  | step =>
    simp only [act] at h
    cases hs : Soft.step count s.soft .step with
    | none => rw [hs] at h; simp at h
    | some soft =>
      have v' := Soft.step_invI (a := .step) hc trivial trivial i.a v hs
      rw [hs] at h
      simp only at h
      split at h <;> (simp only [Option.some.injEq, Prod.mk.injEq] at h; obtain ⟨rfl, rfl⟩ := h; exact ⟨v', by simp⟩)
  | poll =>
    simp only [act] at h
    repeat' (split at h)
    all_goals first
      | (simp at h; done)
      | (simp only [Option.some.injEq, Prod.mk.injEq] at h; obtain ⟨rfl, -⟩ := h; exact ⟨v, fun _ => rfl⟩)
  | ret =>
    simp only [act] at h
    split at h
    · simp only [Option.some.injEq, Prod.mk.injEq] at h; obtain ⟨rfl, rfl⟩ := h; exact ⟨v, by simp⟩
    · split at h
      · cases hs : Soft.step count s.soft .ret with
        | none => rw [hs] at h; simp at h
        | some soft =>
          have v' := Soft.step_invI (a := .ret) hc trivial trivial i.a v hs
          rw [hs] at h
          simp only [Option.some.injEq, Prod.mk.injEq] at h; obtain ⟨rfl, rfl⟩ := h; exact ⟨v', by simp⟩
      · simp only [Option.some.injEq, Prod.mk.injEq] at h; obtain ⟨rfl, rfl⟩ := h; exact ⟨v, by simp⟩
  | call k j op =>
    simp only [act] at h
    split at h
    · simp at h
    · simp only [Option.some.injEq, Prod.mk.injEq] at h; obtain ⟨rfl, rfl⟩ := h; exact ⟨v, by simp⟩
  | send k j =>
    simp only [act] at h
    split at h
    · simp at h
    · simp only [Option.some.injEq, Prod.mk.injEq] at h; obtain ⟨rfl, -⟩ := h; exact ⟨v, fun _ => rfl⟩
  | add thr len =>
    simp only [act, Option.some.injEq, Prod.mk.injEq] at h
    obtain ⟨rfl, rfl⟩ := h
    split <;> exact ⟨v, by simp⟩
  | exec thr len =>
    simp only [act, Option.some.injEq] at h
    split at h <;> (simp only [Prod.mk.injEq] at h; obtain ⟨rfl, -⟩ := h; exact ⟨v, fun _ => rfl⟩)

theorem step_invI {count : Nat} (hc : count ≤ 32) {s s' : State} {a : Act} (i : Inv count s none) (v : InvI count s.soft) (hn : NoSame count s a)
    (h : step count s a = some s') : InvI count s'.soft := by
  simp only [step] at h
  split at h
  · simp at h
  · rename_i m w hm
    obtain ⟨v', hw⟩ := act_invI hc i v hm
    have im := act_inv hc i hm
    cases w with
    | none => simp only [wake, Option.some.injEq] at h; subst h; exact v'
    | some t =>
      have e := hw (by simp)
      have hn' : Soft.NoSame m.soft (.pend t) := by
        rw [e]; exact hn t (by simp only [wakes, hm])
      simp only [wake] at h
      cases hs : Soft.step count m.soft (.pend t) with
      | none => rw [hs] at h; simp at h
      | some soft =>
        have v'' := Soft.step_invI (a := .pend t) hc trivial hn' im.a v' hs
        rw [hs] at h
        simp only [Option.some.injEq] at h; subst h; exact v''

theorem run_invI {count : Nat} (hc : count ≤ 32) : ∀ {acts : List Act} {s s' : State}, Always count (NoSame count) s acts → Inv count s none →
    InvI count s.soft → run count s acts = some s' → InvI count s'.soft
  | [], s, s', _, _, v, h => by simp only [run, Option.some.injEq] at h; exact h ▸ v
  | a :: as, s, s', n, g, v, h => by
    simp only [run] at h
    split at h
    · simp at h
    · rename_i m hm; exact run_invI hc (n.2 m hm) (step_inv hc g hm) (step_invI hc g v n.1 hm) h

/-- All channels are sane. -/
def Sane (s : State) : Prop := ∀ k i, Oneshot.Inv (s.chan k i)

theorem recv_sane {t : Nat} {c : Ch} (v : Oneshot.Inv c) (ap : Oneshot.Apart c) : ∃ c' r, recvStep t c = some (c', r) ∧ Oneshot.Inv c' := by
  obtain ⟨c1, h1, v1⟩ := Oneshot.step_inv v ap .rStep
  have h1' : Oneshot.rStep c = some c1 := h1
  unfold recvStep
  split
  · rename_i e
    exact ⟨_, _, rfl, Oneshot.rCall_inv v (by rw [e]; rfl) _⟩
  · rw [h1']
    simp only
    split
    · rename_i e
      split
      · exact ⟨_, _, rfl, v1⟩
      · exact ⟨_, _, rfl, Oneshot.rCall_inv v1 (by rw [e]; rfl) _⟩
    · exact ⟨_, _, rfl, v1⟩
    · exact ⟨_, _, rfl, v1⟩

theorem sane_upd {s : State} (v : Sane s) {k j : Nat} {c : Ch} (h : Oneshot.Inv c) : ∀ q i, Oneshot.Inv (upd2 s.chan k j c q i) := by
  intro q i
  simp only [upd2]
  split
  · exact h
  · exact v q i

/-- Nothing faults as long as no channel is released too early. -/
theorem act_some {count : Nat} (hc : count ≤ 32) {s : State} (a : Act) (i : Inv count s none) (v : Sane s) (ap : ∀ k j, Oneshot.Apart (s.chan k j)) :
    ∃ s' w, act count s a = some (s', w) ∧ Sane s' := by
  cases a with
  | step =>
    have : ∃ m, Soft.step count s.soft .step = some m := by
      simp only [Soft.step]
      split
      · exact ⟨_, rfl⟩
      · rename_i f rest hst; exact Soft.frameStep_some hc i.a hst
    obtain ⟨m, hm⟩ := this
    simp only [act, hm]
    split <;> exact ⟨_, _, rfl, v⟩
  | poll =>
    simp only [act]
    split
    · exact ⟨_, _, rfl, v⟩
    · rename_i t ht
      split
      · exact ⟨_, _, rfl, v⟩
      · rename_i k ks hq
        have := (i.que t k (by rw [hq]; simp)).2.2
        rw [this]
        simp only [Bool.false_eq_true, ↓reduceIte]
        split
        · exact ⟨_, _, rfl, v⟩
        · obtain ⟨c', r, hr, vc⟩ := recv_sane (t := (s.task k).thr) (v k (s.task k).pos) (ap k _)
          rw [hr]
          cases r <;> exact ⟨_, _, rfl, sane_upd v vc⟩
  | ret =>
    simp only [act]
    split
    · exact ⟨_, _, rfl, v⟩
    · split <;> exact ⟨_, _, rfl, v⟩
  | call k j op =>
    obtain ⟨c', h1, vc⟩ := Oneshot.step_inv (v k j) (ap k j) (.sCall op)
    simp only [act, h1]
    exact ⟨_, _, rfl, sane_upd v vc⟩
  | send k j =>
    obtain ⟨c', h1, vc⟩ := Oneshot.step_inv (v k j) (ap k j) .sStep
    simp only [act, h1]
    exact ⟨_, _, rfl, sane_upd v vc⟩
  | add thr len =>
    refine ⟨_, _, rfl, ?_⟩
    split <;> exact v
  | exec thr len =>
    simp only [act]
    split <;> exact ⟨_, _, rfl, v⟩

theorem run_some {count : Nat} (hc : count ≤ 32) : ∀ {acts : List Act} {s : State}, Inv count s none → Sane s → Always count AllApart s acts →
    ∃ s', run count s acts = some s'
  | [], s, _, _, _ => ⟨s, rfl⟩
  | a :: as, s, g, v, ap => by
    obtain ⟨m, w, hm, vm⟩ := act_some hc a g v ap.1
    have : ∃ s', step count s a = some s' ∧ Sane s' := by
      simp only [step, hm]
      cases w with
      | none => exact ⟨_, rfl, vm⟩
      | some t => simp only [wake, Soft.step]; exact ⟨_, rfl, vm⟩
    obtain ⟨s', hs, vs⟩ := this
    simp only [run, hs]
    exact run_some hc (step_inv hc g hs) vs (ap.2 s' hs)

end Verif.Exec.Chan
