import Verif.Mutex.OrderLoads
/-! # The other steps of the mutex with memory orderings -/
namespace Verif.Mutex.Order

open Verif.Order

variable {s s' : OState} {p : Nat} {c : Client}

/-- Use of the guard. -/
theorem use_own {tr : List Ev} (g : Good s) (w : Own tr s) (hu : s.use p = true) (hev : EvOk ⟨p, dataLoc, .write⟩) :
    Good { s with use := upd s.use p false } ∧ Own (tr ++ [⟨p, dataLoc, .write⟩]) { s with use := upd s.use p false } ∧
    Ordered Allow tr ⟨p, dataLoc, .write⟩ := by
  obtain ⟨h1, h2⟩ := g.use p hu
  have hown : own (s.base.client p) = 1 := by
    have := g.inv.le p
    unfold own at *
    omega
  have hn : ∀ n, ¬ At n ⟨p, dataLoc, .write⟩ := not_at_data rfl
  refine ⟨⟨g.inv, fun q hq => ?_, g.rel, g.sub, g.tag, g.nodup, g.list, g.seen, g.mine⟩, ?_, ord_data w rfl hev hown⟩
  · simp only [upd_apply] at hq
    split at hq
    · cases hq
    · exact g.use q hq
  · have k : Keep s { s with use := upd s.use p false } ⟨p, dataLoc, .write⟩ :=
      ⟨rfl, rfl, fun n h => h, fun n h => h, fun q h => ⟨h, rfl⟩, hev, fun n h => absurd h.1 (hn n), fun q h ha => absurd ha (hn _),
        fun n ha => absurd ha (hn n), fun n ha => absurd ha (hn n)⟩
    obtain ⟨a, b⟩ := held_append (s' := { s with use := upd s.use p false }) (f := ⟨p, dataLoc, .write⟩) g w rfl (fun _ => rfl)
      (fun _ => hown) (by simp [Ev.isStore])
    exact k.own_append w a b (fun q n h => (w.seen q n h).append fun h => absurd h.1 (hn n))
      fun q n h => (w.rel q n h).append fun h => absurd h.1 (hn n)

/-- Release of the memory of the waker. -/
theorem rel_own {tr : List Ev} (g : Good s) (w : Own tr s) {n : Nat} (hr : s.rel p = some n) (hev : EvOk ⟨p, wk n, .write⟩) :
    Good { s with rel := upd s.rel p none } ∧ Own (tr ++ [⟨p, wk n, .write⟩]) { s with rel := upd s.rel p none } ∧
    Ordered Allow tr ⟨p, wk n, .write⟩ := by
  obtain ⟨⟨l, hpc⟩, hfr, hn⟩ := g.rel p n hr
  have hown := own_unl (p := p) g (by rw [hpc]; rfl)
  have one : ∀ q, (s.base.client q).pc.unl = 1 → q = p := fun q h => g.inv.uniq (by rw [own_unl g h]; simp) (by rw [hown]; simp)
  refine ⟨⟨g.inv, g.use, fun q m hq => ?_, g.sub, g.tag, g.nodup, g.list, g.seen, g.mine⟩, ?_, ?_⟩
  · simp only [upd_apply] at hq
    split at hq
    · cases hq
    · exact g.rel q m hq
  · have hsn : ∀ q m, s.rel q = some m → q = p := fun q m h => one q (by obtain ⟨⟨l, h⟩, -⟩ := g.rel q m h; rw [h]; rfl)
    have hse : ∀ q, ∀ m ∈ seen (s.base.client q).pc, q = p := by
      intro q m h
      refine one q ?_
      revert h
      cases (s.base.client q).pc <;> simp [seen, Pc.unl]
    have k : Keep s { s with rel := upd s.rel p none } ⟨p, wk n, .write⟩ := by
      refine ⟨rfl, rfl, fun n h => h, fun n h => h, fun q h => ⟨h, rfl⟩, hev, fun m h _ => ?_, fun q h ha => ?_, fun m ha => ?_,
        fun m ha _ h => ?_⟩
      · rw [at_wk_eq h.1]; exact hfr
      · exact absurd (at_wk_eq ha) (hn.2 q h)
      · rw [at_wk_eq ha]; exact hn.1
      · rw [at_wk_eq ha] at h; rw [hfr] at h; cases h
    obtain ⟨a, b⟩ := held_append (s' := { s with rel := upd s.rel p none }) (f := ⟨p, wk n, .write⟩) g w rfl (fun _ => rfl)
      (fun _ => hown) (by simp [Ev.isStore])
    refine k.own_append w a b (fun q m h => (w.seen q m h).append fun _ => hse q m h) fun q m h => ?_
    simp only [upd_apply] at h
    split at h
    · cases h
    · exact (w.rel q m h).append fun _ => hsn q m h
  · exact ord_seen w (at_wk _ _ _) hev hn.1 (w.rel p n hr) hown

/-- Creation of a node, first part. -/
theorem alloc_own {tr : List Ev} (g : Good s) (w : Own tr s) {wk' : Waker} (hu : s.use p = false) (hr : s.rel p = none)
    (hpc : (s.base.client p).pc = .ppush wk') (hsub : s.sub p = 0)
    (h0 : s' = ⟨{ s.base with next := s.base.next + 1 }, s.use, upd s.sub p 1, upd s.tag p s.base.next, s.rel, upd s.maker s.base.next p⟩)
    (hev : EvOk ⟨p, tk s.base.next, .write⟩) :
    Good s' ∧ Own (tr ++ [⟨p, tk s.base.next, .write⟩]) s' ∧ Ordered Allow tr ⟨p, tk s.base.next, .write⟩ := by
  have hnb : ¬ Building s p := fun h => h.2 hsub
  have hcl : s'.base.client = s.base.client := by rw [h0]
  have hmk : ∀ n, n < s.base.next → s'.maker n = s.maker n := by
    intro n hn
    rw [h0]
    simp only [upd_apply]
    rw [if_neg (by omega)]
  have hb : ∀ q, q ≠ p → (Building s' q ↔ Building s q) := by
    intro q hq
    simp only [Building, h0, upd_apply, if_neg hq]
  have htag : ∀ q, q ≠ p → s'.tag q = s.tag q := by
    intro q hq
    simp only [h0, upd_apply, if_neg hq]
  have htag' : s'.tag p = s.base.next := by simp [h0, upd_apply]
  have hnext : s'.base.next = s.base.next + 1 := by rw [h0]
  have hpub : ∀ n, Pub s' n ↔ Pub s n := by
    intro n
    constructor
    · rintro ⟨h1, h2⟩
      rw [hnext] at h1
      have hne : n ≠ s.base.next := fun e => h2 p ⟨⟨wk', by rw [hcl, hpc]⟩, by simp [h0, upd_apply]⟩ (htag'.trans e.symm)
      refine ⟨by omega, fun q hq => ?_⟩
      have : q ≠ p := fun e => hnb (e ▸ hq)
      rw [← htag q this]
      exact h2 q ((hb q this).2 hq)
    · rintro ⟨h1, h2⟩
      refine ⟨by omega, fun q hq => ?_⟩
      by_cases e : q = p
      · subst e; rw [htag']; omega
      · rw [htag q e]; exact h2 q ((hb q e).1 hq)
  have hfr : ∀ (i : Nat) (e : Ev), tr[i]? = some e → ¬ At s.base.next e := w.fresh _ (Nat.le_refl _)
  have hprot : ∀ (i : Nat) (e : Ev), tr[i]? = some e → Prot s' e → Prot s e := by
    rintro i e he (h | ⟨n, h1, h2⟩)
    · exact .inl h
    · refine .inr ⟨n, h1, ?_⟩
      have : n < s.base.next := by
        rcases Nat.lt_or_ge n s.base.next with h | h
        · exact h
        · exact absurd h1 (w.fresh n h i e he)
      rwa [hmk n this] at h2
  have hnp : ¬ Prot s' ⟨p, tk s.base.next, .write⟩ := fun h => prot_tk h (by simp [h0, upd_apply])
  have hmd : ∀ n, n < s.base.next → Made s' n = Made s n := by
    intro n hn
    funext e
    simp only [Made, hmk n hn]
  have hnm : ∀ n, n < s.base.next → ¬ Made s n ⟨p, tk s.base.next, .write⟩ := by
    intro n hn h
    have := at_tk_eq h.1
    omega
  refine ⟨⟨?_, ?_, ?_, fun q h => ?_, fun q h => ?_, ?_, ?_, ?_, ?_⟩, ⟨?_, ?_, ?_, ?_, ?_, ?_, ?_, ?_, ?_, ?_⟩, ?_⟩
  · have := g.inv
    rw [h0]
    exact ⟨this.own, this.tk⟩
  · intro q h; rw [hcl]; exact g.use q (by rw [h0] at h; exact h)
  · intro q n h
    obtain ⟨h1, h2, h3⟩ := g.rel q n (by rw [h0] at h; exact h)
    exact ⟨hcl ▸ h1, by rw [h0]; exact h2, (hpub n).2 h3⟩
  · rw [hcl]
    by_cases e : q = p
    · subst e; exact .inl ⟨_, hpc⟩
    · refine g.sub q ?_
      simpa only [h0, upd_apply, if_neg e] using h
  · by_cases e : q = p
    · subst e; rw [htag', hnext]; simp [h0, upd_apply]
    · rw [htag q e, hnext]
      obtain ⟨h1, h2⟩ := g.tag q ((hb q e).1 h)
      exact ⟨by omega, by rw [hmk _ h1]; exact h2⟩
  · rw [h0]; exact g.nodup
  · intro n h
    rw [hpub]
    rw [h0] at h ⊢
    exact g.list n h
  · intro q n h
    rw [hcl] at h
    rw [hpub]
    exact g.seen q n h
  · intro q n h
    rw [hcl] at h
    rw [hpub]
    obtain ⟨h1, h2⟩ := g.mine q n h
    exact ⟨h1, by rw [hmk n h1.1]; exact h2⟩
  · intro h i e he hp
    rcases get_append he with he' | ⟨-, rfl⟩
    · have : Lasts (tr ++ [⟨p, tk s.base.next, .write⟩]) lockLoc (fun e => Prot s e ∧ Prot s' e) :=
        Lasts.append (fun i e he hp => w.free (by rw [h0] at h; exact h) i e he hp.1) (fun h => hnp h.2) (by simp [Ev.isStore])
      exact this i e he ⟨hprot i e he' hp, hp⟩
    · exact absurd hp hnp
  · intro q h i e he hp
    rw [hcl] at h
    rcases get_append he with he' | ⟨-, rfl⟩
    · exact know_append.2 (.inl (w.held q h i e he' (hprot i e he' hp)))
    · exact absurd hp hnp
  · intro n h h'
    have h1 := (hpub n).1 h
    rw [hmd n h1.1]
    exact (w.head n h1 (by rw [h0] at h'; exact h')).append (hnm n h1.1) (by simp [Ev.isStore])
  · intro q n h
    rw [hcl] at h
    have h1 := g.seen q n h
    rw [hmd n h1.1]
    exact (w.seen q n h).append fun h => absurd h (hnm n h1.1)
  · intro q n h
    have h : s.rel q = some n := by rw [h0] at h; exact h
    have h1 := (g.rel q n h).2.2
    rw [hmd n h1.1]
    exact (w.rel q n h).append fun h => absurd h (hnm n h1.1)
  · intro q h i e he ha
    by_cases hq : q = p
    · subst hq
      rw [htag'] at ha
      rcases get_append he with he | ⟨-, rfl⟩
      · exact absurd ha (hfr i e he)
      · rfl
    · rw [htag q hq] at ha
      have hb' := (hb q hq).1 h
      rcases get_append he with he | ⟨-, rfl⟩
      · exact w.build q hb' i e he ha
      · have := at_tk_eq ha
        have := (g.tag q hb').1
        omega
  · intro n h i e he ha
    rw [hnext] at h
    rcases get_append he with he | ⟨-, rfl⟩
    · exact w.fresh n (by omega) i e he ha
    · have := at_tk_eq ha; omega
  · intro i e he
    rcases get_append he with he | ⟨-, rfl⟩
    · exact w.evs i e he
    · exact hev
  · intro n h
    rw [hnext] at h
    by_cases hn : n = s.base.next
    · subst hn
      refine ⟨tr.length, by simp [h0, upd_apply], fun i e he ha => ?_⟩
      rcases get_append he with he | ⟨rfl, -⟩
      · exact absurd ha (hfr i e he)
      · exact Nat.le_refl _
    · obtain ⟨m, h1, h2⟩ := w.made n (by omega)
      have hlt := (List.getElem?_eq_some_iff.1 h1).1
      rw [hmk n (by omega)]
      refine ⟨m, by rw [List.getElem?_append_left hlt]; exact h1, fun i e he ha => ?_⟩
      rcases get_append he with he | ⟨rfl, -⟩
      · exact h2 i e he ha
      · omega
  · intro n h h' i e he ha hk
    have h1 := (hpub n).1 h'
    rw [hmk n h1.1]
    rcases get_append he with he | ⟨-, rfl⟩
    · exact w.writes n (by rw [h0] at h; exact h) h1 i e he ha hk
    · have := at_tk_eq ha
      have := h1.1
      omega
  · rintro i e he ⟨-, h | h | ⟨h, -, -⟩⟩
    · exact absurd h (w.evs i e he).free
    · exact absurd h hev.free
    · exact absurd (show At s.base.next e from .inl h) (hfr i e he)

/-- Creation of a node, second part. -/
theorem store_own {tr : List Ev} (g : Good s) (w : Own tr s) {wk' : Waker} (hu : s.use p = false) (hr : s.rel p = none)
    (hpc : (s.base.client p).pc = .ppush wk') (hsub : s.sub p ≠ 0) (h0 : s' = { s with sub := upd s.sub p 2 })
    (hev : EvOk ⟨p, wk (s.tag p), .write⟩) :
    Good s' ∧ Own (tr ++ [⟨p, wk (s.tag p), .write⟩]) s' ∧ Ordered Allow tr ⟨p, wk (s.tag p), .write⟩ := by
  have hbp : Building s p := ⟨⟨wk', hpc⟩, hsub⟩
  have hb : ∀ q, Building s' q ↔ Building s q := by
    intro q
    by_cases e : q = p
    · subst e
      exact ⟨fun _ => hbp, fun _ => ⟨⟨wk', by rw [h0]; exact hpc⟩, by simp [h0, upd_apply]⟩⟩
    · simp only [Building, h0, upd_apply, if_neg e]
  have hpub : ∀ n, Pub s' n ↔ Pub s n := by
    intro n
    simp only [Pub, hb]
    rw [h0]
  obtain ⟨ht1, ht2⟩ := g.tag p hbp
  have hnp : ¬ Prot s ⟨p, wk (s.tag p), .write⟩ := fun h => prot_wk h ht2.symm
  have hnm : ∀ n, Pub s n → ¬ Made s n ⟨p, wk (s.tag p), .write⟩ := fun n h h' => h.2 p hbp (at_wk_eq h'.1).symm
  refine ⟨⟨?_, ?_, ?_, fun q h => ?_, fun q h => ?_, ?_, ?_, ?_, ?_⟩, ?_, ?_⟩
  · rw [h0]; exact g.inv
  · rw [h0]; exact g.use
  · intro q n h
    rw [hpub]
    rw [h0] at h ⊢
    exact g.rel q n h
  · by_cases e : q = p
    · subst e; rw [h0]; exact .inl ⟨_, hpc⟩
    · have : s.sub q ≠ 0 := by simpa only [h0, upd_apply, if_neg e] using h
      rw [h0]; exact g.sub q this
  · have := g.tag q ((hb q).1 h)
    rw [h0]; exact this
  · rw [h0]; exact g.nodup
  · intro n h
    rw [hpub]
    rw [h0] at h ⊢
    exact g.list n h
  · intro q n h
    rw [hpub]
    rw [h0] at h
    exact g.seen q n h
  · intro q n h
    rw [hpub]
    rw [h0] at h ⊢
    exact g.mine q n h
  · have k : Keep s s' ⟨p, wk (s.tag p), .write⟩ := by
      refine ⟨by rw [h0], by rw [h0], fun n h => (hpub n).1 h, fun n h => by rw [h0] at h; exact h, fun q h => ⟨(hb q).1 h, by rw [h0]⟩, hev,
        fun m h h' => absurd h (hnm m ((hpub m).1 h')), fun q h ha => ?_, fun m ha => ?_, fun m ha _ _ h' => ?_⟩
      · have := at_wk_eq ha
        obtain ⟨-, h2⟩ := g.tag q ((hb q).1 h)
        rw [← h2, this, ht2]
      · rw [at_wk_eq ha]; exact ht1
      · exact absurd (at_wk_eq ha).symm (((hpub m).1 h').2 p hbp)
    obtain ⟨a, b⟩ := held_append (s' := s') (f := ⟨p, wk (s.tag p), .write⟩) g w (by rw [h0]) (fun _ => by rw [h0])
      (fun h => absurd h hnp) (by simp [Ev.isStore])
    refine k.own_append w a b (fun q m h => ?_) fun q m h => ?_
    · rw [h0] at h
      exact (w.seen q m h).append fun h' => absurd h' (hnm m (g.seen q m h))
    · rw [h0] at h
      exact (w.rel q m h).append fun h' => absurd h' (hnm m (g.rel q m h).2.2)
  · rintro i e he ⟨hne, h | h | ⟨h, -, -⟩⟩
    · exact absurd h (w.evs i e he).free
    · exact absurd h hev.free
    · exact absurd (w.build p hbp i e he (.inr h)) hne

/-- The node is pushed. -/
theorem push_own {o : Ords} (ho : o.push.rel = true) {tr : List Ev} (g : Good s) (w : Own tr s) {wk' : Waker} (hu : s.use p = false)
    (hr : s.rel p = none) (hpc : (s.base.client p).pc = .ppush wk') (hsub : s.sub p ≠ 0) {n : Nat} (hn : n = s.tag p) {c : Client} {log : List Event}
    (hc : c = { s.base.client p with pc := .p2, waiter := some n })
    (h0 : s' = ⟨⟨s.base.locked, n :: s.base.list, upd s.base.node n ⟨false, some wk', false⟩, s.base.next, upd s.base.client p c, log⟩,
      s.use, upd s.sub p 0, s.tag, s.rel, s.maker⟩) (hev : EvOk ⟨p, headLoc, .rmw o.push.acq o.push.rel⟩) :
    Good s' ∧ Own (tr ++ [⟨p, headLoc, .rmw o.push.acq o.push.rel⟩]) s' ∧ Ordered Allow tr ⟨p, headLoc, .rmw o.push.acq o.push.rel⟩ := by
  have hbp : Building s p := ⟨⟨wk', hpc⟩, hsub⟩
  obtain ⟨ht1, ht2⟩ := g.tag p hbp
  rw [← hn] at ht1 ht2
  have hat : s'.base.client p = c := by simp [h0, upd_apply]
  have hne : ∀ q, q ≠ p → s'.base.client q = s.base.client q := fun q h => by simp [h0, upd_apply, h]
  have hb : ∀ q, Building s' q ↔ Building s q ∧ q ≠ p := by
    intro q
    by_cases e : q = p
    · subst e
      simp [Building, h0, upd_apply]
    · simp only [Building, hne q e]
      simp [h0, upd_apply, e]
  have hpub : ∀ m, Pub s' m ↔ Pub s m ∨ m = n := by
    intro m
    simp only [Pub, hb]
    constructor
    · rintro ⟨h1, h2⟩
      by_cases e : m = n
      · exact .inr e
      · refine .inl ⟨by rw [h0] at h1; exact h1, fun q hq => ?_⟩
        by_cases eq : q = p
        · rw [eq, ← hn]; exact fun h => e h.symm
        · have := h2 q ⟨hq, eq⟩
          rw [h0] at this; exact this
    · rintro (⟨h1, h2⟩ | rfl)
      · exact ⟨by rw [h0]; exact h1, fun q hq => by rw [h0]; exact h2 q hq.1⟩
      · refine ⟨by rw [h0]; exact ht1, fun q hq e => ?_⟩
        have h := (g.tag q hq.1).2
        have e' : s.tag q = m := by rw [h0] at e; exact e
        rw [e', ht2] at h
        exact hq.2 h.symm
  have hnp : ¬ Pub s n := fun h => h.2 p hbp hn.symm
  have hfr : ∀ m, m ≠ n → (s'.base.node m).freed = (s.base.node m).freed := fun m h => by simp [h0, upd_apply, h]
  have hmk : s'.maker = s.maker := by rw [h0]
  have hnm : ∀ m, ¬ Made s m ⟨p, headLoc, .rmw o.push.acq o.push.rel⟩ := fun m h => not_at_head rfl m h.1
  have hown : ∀ q, own (s'.base.client q) = own (s.base.client q) := by
    intro q
    by_cases e : q = p
    · subst e
      rw [hat, hc]
      simp only [own, hpc, Pc.unl]
    · rw [hne q e]
  have hseen : ∀ q, ∀ m ∈ seen (s'.base.client q).pc, m ∈ seen (s.base.client q).pc := by
    intro q m h
    by_cases e : q = p
    · subst e
      rw [hat, hc] at h
      simp [seen] at h
    · rwa [hne q e] at h
  have hinv : InvO s'.base := invO_same g.inv p (by rw [h0]) (by rw [h0]) (by have := hown p; rwa [hat] at this) (by rw [hc]; simp [Pc.taking])
  refine ⟨⟨hinv, fun q h => ?_, fun q m h => ?_, fun q h => ?_, fun q h => ?_, ?_, fun m h => ?_, fun q m h => (hpub m).2 (.inl (g.seen q m (hseen q m h))),
    fun q m h => ?_⟩, ?_, ord_word w (.inr rfl) hev⟩
  · have h : s.use q = true := by rw [h0] at h; exact h
    rw [hne q (fun e => by rw [e, hu] at h; cases h)]
    exact g.use q h
  · have h : s.rel q = some m := by rw [h0] at h; exact h
    rw [hne q (fun e => by rw [e, hr] at h; cases h)]
    obtain ⟨h1, h2, h3⟩ := g.rel q m h
    exact ⟨h1, by rw [hfr m (fun e => hnp (e ▸ h3))]; exact h2, (hpub m).2 (.inl h3)⟩
  · by_cases e : q = p
    · subst e; simp [h0, upd_apply] at h
    · rw [hne q e]
      refine g.sub q ?_
      simpa only [h0, upd_apply, if_neg e] using h
  · obtain ⟨h1, -⟩ := (hb q).1 h
    have := g.tag q h1
    rw [h0]; exact this
  · have : s'.base.list = n :: s.base.list := by rw [h0]
    rw [this]
    exact List.nodup_cons.2 ⟨fun h => hnp (g.list n h).1, g.nodup⟩
  · have : s'.base.list = n :: s.base.list := by rw [h0]
    rw [this] at h
    rcases List.mem_cons.1 h with rfl | h
    · exact ⟨(hpub m).2 (.inr rfl), by simp [h0, upd_apply]⟩
    · obtain ⟨h1, h2⟩ := g.list m h
      exact ⟨(hpub m).2 (.inl h1), by rw [hfr m (fun e => hnp (e ▸ h1))]; exact h2⟩
  · rw [hmk]
    by_cases e : q = p
    · subst e
      rw [hat, hc] at h
      have : m = n := by
        rcases h with h | h
        · simp [mine] at h
        · simpa using h.symm
      subst this
      exact ⟨(hpub m).2 (.inr rfl), ht2⟩
    · rw [hne q e] at h
      obtain ⟨h1, h2⟩ := g.mine q m h
      exact ⟨(hpub m).2 (.inl h1), h2⟩
  · have hp := prot_congr hmk
    have hm := made_congr hmk
    have hnext : s'.base.next = s.base.next := by rw [h0]
    obtain ⟨a, b⟩ := held_append (s' := s') (f := ⟨p, headLoc, .rmw o.push.acq o.push.rel⟩) g w (by rw [h0]) hown
      (fun h => absurd h (not_prot (.inr (.inl rfl)))) (by simp [Ev.isStore])
    refine ⟨fun h => hp ▸ a h, fun q h => hp ▸ b q h, fun m h h' => ?_, fun q m h => ?_, fun q m h => ?_, fun q h i e he ha => ?_,
      fun m h i e he ha => ?_, fun i e he => ?_, fun m h => ?_, fun m h h' i e he ha hk => ?_⟩
    · rw [hm]
      by_cases e : m = n
      · subst e
        refine Knows.release (knows_own fun e he => ?_) (by simp [Ev.writes]) (by simp [Ev.rel, ho])
        rw [he.2.1, ht2]
      · rw [hfr m e] at h'
        exact (w.head m (((hpub m).1 h).resolve_right e) h').append (hnm m) (by simp [Ev.isStore])
    · rw [hm]
      exact (w.seen q m (hseen q m h)).append fun h => absurd h (hnm m)
    · rw [hm]
      exact (w.rel q m (by rw [h0] at h; exact h)).append fun h => absurd h (hnm m)
    · have ha : At (s.tag q) e := by rw [h0] at ha; exact ha
      rcases get_append he with he | ⟨-, rfl⟩
      · exact w.build q ((hb q).1 h).1 i e he ha
      · exact absurd ha (not_at_head rfl _)
    · rw [hnext] at h
      rcases get_append he with he | ⟨-, rfl⟩
      · exact w.fresh m h i e he ha
      · exact absurd ha (not_at_head rfl _)
    · rcases get_append he with he | ⟨-, rfl⟩
      · exact w.evs i e he
      · exact hev
    · rw [hnext] at h
      obtain ⟨k, h1, h2⟩ := w.made m h
      have hlt := (List.getElem?_eq_some_iff.1 h1).1
      rw [hmk]
      refine ⟨k, by rw [List.getElem?_append_left hlt]; exact h1, fun i e he ha => ?_⟩
      rcases get_append he with he | ⟨rfl, -⟩
      · exact h2 i e he ha
      · omega
    · rw [hmk]
      rcases get_append he with he | ⟨-, rfl⟩
      · by_cases en : m = n
        · subst en
          rw [ht2]
          exact w.build p hbp i e he (hn ▸ ha)
        · rw [hfr m en] at h
          exact w.writes m h (((hpub m).1 h').resolve_right en) i e he ha hk
      · exact absurd ha (not_at_head rfl _)

/-- A node is removed and its flag released. -/
theorem cut_own {tr : List Ev} (g : Good s) (w : Own tr s) {n : Nat} {l : List Nat} (hu : s.use p = false) (hr : s.rel p = none)
    (hpc : (s.base.client p).pc = .ulCut n l) {log : List Event} {c : Client} (hc : c = { s.base.client p with pc := .ulDrain l })
    (h0 : s' = ⟨⟨s.base.locked, s.base.list.erase n, upd s.base.node n { s.base.node n with freed := true }, s.base.next, upd s.base.client p c, log⟩,
      s.use, upd s.sub p 0, s.tag, upd s.rel p (some n), s.maker⟩) (hev : EvOk ⟨p, tk n, .write⟩) :
    Good s' ∧ Own (tr ++ [⟨p, tk n, .write⟩]) s' ∧ Ordered Allow tr ⟨p, tk n, .write⟩ := by
  have hsn : n ∈ seen (s.base.client p).pc := by rw [hpc]; exact List.mem_cons_self
  have hpn := g.seen p n hsn
  have hown := own_unl (p := p) g (by rw [hpc]; rfl)
  have one : ∀ q, (s.base.client q).pc.unl = 1 → q = p := fun q h => g.inv.uniq (by rw [own_unl g h]; simp) (by rw [hown]; simp)
  have hsn' : ∀ q m, s.rel q = some m → q = p := fun q m h => one q (by obtain ⟨⟨l, h⟩, -⟩ := g.rel q m h; rw [h]; rfl)
  have hse : ∀ q, ∀ m ∈ seen (s.base.client q).pc, q = p := by
    intro q m h
    refine one q ?_
    revert h
    cases (s.base.client q).pc <;> simp [seen, Pc.unl]
  have hat : s'.base.client p = c := by simp [h0, upd_apply]
  have hne : ∀ q, q ≠ p → s'.base.client q = s.base.client q := fun q h => by simp [h0, upd_apply, h]
  have hb : ∀ q, Building s' q ↔ Building s q := by
    intro q
    by_cases e : q = p
    · subst e
      simp [Building, h0, upd_apply, hpc]
    · simp only [Building, hne q e]
      simp [h0, upd_apply, e]
  have hpub : ∀ m, Pub s' m ↔ Pub s m := by
    intro m
    simp only [Pub, hb]
    rw [h0]
  have hfr : ∀ m, m ≠ n → (s'.base.node m).freed = (s.base.node m).freed := fun m h => by simp [h0, upd_apply, h]
  have hfn : (s'.base.node n).freed = true := by simp [h0, upd_apply]
  have hmk : s'.maker = s.maker := by rw [h0]
  have hown' : ∀ q, own (s'.base.client q) = own (s.base.client q) := by
    intro q
    by_cases e : q = p
    · subst e
      rw [hat, hc]
      simp only [own, hpc, Pc.unl]
    · rw [hne q e]
  have hseen : ∀ q, ∀ m ∈ seen (s'.base.client q).pc, m ∈ seen (s.base.client q).pc := by
    intro q m h
    by_cases e : q = p
    · subst e
      rw [hat, hc] at h
      rw [hpc]
      exact List.mem_cons_of_mem _ h
    · rwa [hne q e] at h
  have hinv : InvO s'.base := invO_same g.inv p (by rw [h0]) (by rw [h0]) (by have := hown' p; rwa [hat] at this) (by rw [hc]; simp [Pc.taking])
  have hrel : ∀ q m, s'.rel q = some m → (q = p ∧ m = n) ∨ (q ≠ p ∧ s.rel q = some m) := by
    intro q m h
    by_cases e : q = p
    · subst e
      simp only [h0, upd_apply, if_true, Option.some.injEq] at h
      exact .inl ⟨rfl, h.symm⟩
    · simp only [h0, upd_apply, if_neg e] at h
      exact .inr ⟨e, h⟩
  have hlist : ∀ m ∈ s'.base.list, m ∈ s.base.list ∧ m ≠ n := by
    intro m h
    have : s'.base.list = s.base.list.erase n := by rw [h0]
    rw [this, g.nodup.mem_erase_iff] at h
    exact ⟨h.2, h.1⟩
  refine ⟨⟨hinv, fun q h => ?_, fun q m h => ?_, fun q h => ?_, fun q h => ?_, ?_, fun m h => ?_, fun q m h => (hpub m).2 (g.seen q m (hseen q m h)),
    fun q m h => ?_⟩, ?_, ord_seen w (at_tk _ _ _) hev hpn.1 (w.seen p n hsn) hown⟩
  · have h : s.use q = true := by rw [h0] at h; exact h
    rw [hne q (fun e => by rw [e, hu] at h; cases h)]
    exact g.use q h
  · rw [hpub]
    rcases hrel q m h with ⟨rfl, rfl⟩ | ⟨hq, h⟩
    · exact ⟨⟨l, by rw [hat, hc]⟩, hfn, hpn⟩
    · exact absurd (hsn' q m h) hq
  · by_cases e : q = p
    · subst e; simp [h0, upd_apply] at h
    · rw [hne q e]
      refine g.sub q ?_
      simpa only [h0, upd_apply, if_neg e] using h
  · have := g.tag q ((hb q).1 h)
    rw [h0]; exact this
  · rw [h0]; exact g.nodup.erase n
  · obtain ⟨h1, h2⟩ := hlist m h
    rw [hpub, hfr m h2]
    exact g.list m h1
  · rw [hmk, hpub]
    by_cases e : q = p
    · subst e
      rw [hat, hc] at h
      exact g.mine q m (.inr (h.resolve_left (by simp [mine])))
    · rw [hne q e] at h
      exact g.mine q m h
  · have k : Keep s s' ⟨p, tk n, .write⟩ := by
      refine ⟨by rw [h0], hmk, fun m h => (hpub m).1 h, fun m h => ?_, fun q h => ⟨(hb q).1 h, by rw [h0]⟩, hev,
        fun m h _ => (by rw [at_tk_eq h.1]; exact hfn), fun q h ha => absurd (at_tk_eq ha) (hpn.2 q ((hb q).1 h)), fun m ha => (by rw [at_tk_eq ha]; exact hpn.1),
        fun m ha _ h => (by rw [at_tk_eq ha, hfn] at h; cases h)⟩
      rwa [hfr m (fun e => by rw [e, hfn] at h; cases h)] at h
    obtain ⟨a, b⟩ := held_append (s' := s') (f := ⟨p, tk n, .write⟩) g w (by rw [h0]) hown' (fun _ => hown) (by simp [Ev.isStore])
    refine k.own_append w a b (fun q m h => (w.seen q m (hseen q m h)).append fun _ => hse q m (hseen q m h)) fun q m h => ?_
    rcases hrel q m h with ⟨rfl, rfl⟩ | ⟨hq, h⟩
    · exact (w.seen q m hsn).append fun _ => rfl
    · exact absurd (hsn' q m h) hq

end Verif.Mutex.Order
