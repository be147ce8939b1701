import Verif.Ring.OrderIdx
/-! # The receiver reads a slot after the sender has written it -/
namespace Verif.Ring

open Verif.Spsc Verif.Order

variable {k cap : Nat} {τ ε : Type}

/-- What is known about the writes to the slots. -/
structure SOwn (cap : Nat) (tr : List Ev) (s : State k τ ε) : Prop where
  sane : ∀ (i : Nat) (e : Ev), tr[i]? = some e → Sane true e ∧ (e.tid = 1 → 4 ≤ e.loc → e.kind = .read)
  nf : s.freed = false → Nones tr (fun e => e.kind = .free)
  sent : ∀ i, sAt s.spc ≠ some i → Lasts tr 0 (ByW 0 (4 + i))
  got : ∀ i, i ∈ s.rpc.slots cap → Knows tr 1 (ByW 0 (4 + i))

/-- Other cells, the release, and the reuse of slots. -/
def SAllow (tr : List Ev) (i : Nat) (f : Ev) : Prop :=
  f.loc < 4 ∨ f.kind = .free ∨ (f.tid = 0 ∧ ∃ x, tr[i]? = some x ∧ x.kind = .read)

def SGood (cap : Nat) (s : State k τ ε) : Prop := Inv cap s ∧ Idx cap s.st s.spc s.rpc

def okW (cap : Nat) (t : Nat) (s : State k τ ε) (l : Nat) (v : Word k) : Prop :=
  t = 0 → l = 0 → OkW cap s.st (rDone s.rpc) v

theorem sane_app {tr : List Ev} (h : ∀ (i : Nat) (e : Ev), tr[i]? = some e → Sane true e ∧ (e.tid = 1 → 4 ≤ e.loc → e.kind = .read))
    {f : Ev} (hf : Sane true f ∧ (f.tid = 1 → 4 ≤ f.loc → f.kind = .read)) :
    ∀ (i : Nat) (e : Ev), (tr ++ [f])[i]? = some e → Sane true e ∧ (e.tid = 1 → 4 ≤ e.loc → e.kind = .read) := by
  intro i e he
  rcases get_append he with he | ⟨-, rfl⟩
  · exact h i e he
  · exact hf

theorem atomic_ns {e : Ev} (hs : ∀ b, e.kind ≠ .store b) : e.isStore 0 = false := by
  unfold Ev.isStore
  cases hk : e.kind with
  | store b => exact absurd hk (hs b)
  | _ => simp

/-- The ordering of an access that is no write to a slot. -/
theorem ordered_of {tr : List Ev} {e : Ev}
    (h : ∀ (i : Nat) (x : Ev), tr[i]? = some x → Conflict x e → 4 ≤ e.loc → e.kind ≠ .free → Know tr e.tid i ∨ (e.tid = 0 ∧ x.kind = .read)) :
    Ordered SAllow tr e := by
  intro i x hx hc
  by_cases h1 : e.loc < 4
  · exact .inr (.inl h1)
  by_cases h2 : e.kind = .free
  · exact .inr (.inr (.inl h2))
  rcases h i x hx hc (by omega) h2 with h | h
  · exact .inl (hb_last.2 (.inl h))
  · exact .inr (.inr (.inr ⟨h.1, x, hx, h.2⟩))

theorem okW_mono {s s' : State k τ ε} (htx : hasWaker s'.st = hasWaker s.st)
    (h : rDone s'.rpc = false → rDone s.rpc = false ∧ addCursor (cur s'.st) (len s'.st) cap = addCursor (cur s.st) (len s.st) cap ∧
      len s'.st ≤ len s.st) {v : Word k} (hv : OkW cap s.st (rDone s.rpc) v) : OkW cap s'.st (rDone s'.rpc) v := by
  refine ⟨hv.tx.trans htx.symm, hv.cur, hv.len, fun hd => ?_⟩
  obtain ⟨h1, h2, h3⟩ := h hd
  obtain ⟨h4, h5⟩ := hv.same h1
  exact ⟨h4.trans h2.symm, by omega⟩

theorem slots_nil {s : State k τ ε} (h : s.rpc.isIdle = true) (op : ROp) : (rCall s op).rpc.slots cap = [] ∧
    rDone (rCall s op).rpc = rDone s.rpc ∧ rIn (rCall s op).rpc = true ∧ (rCall s op).spc = s.spc := by
  obtain ⟨st, buf, err, rxw, txw, freed, spc, rpc, log⟩ := s
  cases rpc <;> simp [RPc.isIdle] at h
  cases op <;> exact ⟨rfl, rfl, rfl, rfl⟩

theorem slot_none {s : State k τ ε} (h : s.spc.isIdle = true) (op : SOp τ ε) : (sCall s op).spc.slot = none ∧
    sAt (sCall s op).spc = none ∧ sAt s.spc = none ∧ (sCall s op).rpc = s.rpc := by
  obtain ⟨st, buf, err, rxw, txw, freed, spc, rpc, log⟩ := s
  cases spc <;> simp [SPc.isIdle] at h
  cases op <;> exact ⟨rfl, rfl, rfl, rfl⟩

theorem rmw_nw {t l : Nat} {a b : Bool} {i : Nat} : ¬ ByW 0 (4 + i) ⟨t, l, .rmw a b⟩ := fun h => nomatch h.2.2

theorem load_nw {t l : Nat} {a : Bool} {n i : Nat} : ¬ ByW 0 (4 + i) ⟨t, l, .load a n⟩ := fun h => nomatch h.2.2

theorem slots_sound {o : Ords} (en : Enough o) (hp : o.push.rel = true) (h1 : 1 < cap) (hcap : cap < 2 ^ k) :
    Sound (guarded k τ ε cap o (calm cap)) (SGood cap) Doomed (SOwn cap) (okW cap) SAllow := by
  have D := duo (k := k) (τ := τ) (ε := ε) (cap := cap) (ok := calm cap) en
  refine ⟨⟨⟨init_inv cap k τ ε, ?_⟩, ⟨(fun i e h => nomatch h), (fun _ i e h => nomatch h), (fun _ _ i e h => nomatch h),
    (fun _ _ i e h => nomatch h)⟩, fun t l ht hl => ?_⟩,
    fun {tr s} a hg ho => ?_, D.doomCall, D.doomStep, fun {tr s t l a v s'} n hg ho ha hok hk hs => ?_,
    fun {tr s t a s'} hg ho ha hl hs => ?_⟩
  · exact ⟨by simp [guarded, init, cur_zero]; omega, by simp [guarded, init, len_zero],
      fun i h => by simp [guarded, init, SPc.slot] at h, rfl⟩
  · subst hl
    exact ⟨rfl, by simp [guarded, init, cur_zero]; omega, by simp [guarded, init, len_zero], fun _ => ⟨rfl, Nat.le_refl _⟩⟩
  · rcases a with op | op
    · by_cases h : s.spc.isIdle = true
      · obtain ⟨a1, a2, a3, a4⟩ := slot_none h op
        obtain ⟨-, b2, -, -, b5⟩ := sCall_flags (cap := cap) h op
        simp only [guarded, h, if_true]
        refine ⟨⟨sCall_inv hg.1 h op, ?_⟩, ⟨ho.sane, ?_, fun i _ => ho.sent i (by rw [a3]; simp), by rw [a4]; exact ho.got⟩, ?_⟩
        · rw [b5, a4]
          exact ⟨hg.2.cur, hg.2.len, (fun i hi => by rw [a1] at hi; cases hi), hg.2.loop⟩
        · rw [b2]; exact ho.nf
        · intro t l v hv ht hl
          rw [b5, a4]; exact hv ht hl
      · simp only [guarded, h]
        exact ⟨hg, ho, fun t l v hv => hv⟩
    · by_cases h : s.rpc.isIdle = true
      · obtain ⟨a1, a2, a3, a4⟩ := slots_nil (cap := cap) h op
        obtain ⟨-, b2, -, -, b5⟩ := rCall_flags (cap := cap) h op
        simp only [guarded, h, if_true]
        refine ⟨⟨rCall_inv hg.1 h op, ?_⟩, ⟨ho.sane, ?_, by rw [a4]; exact ho.sent, fun i hi => ?_⟩, ?_⟩
        · rw [b5, a4]
          exact ⟨hg.2.cur, hg.2.len, by rw [a2]; exact hg.2.slot, a3⟩
        · rw [b2]; exact ho.nf
        · rw [a1] at hi; cases hi
        · intro t l v hv ht hl
          rw [b5, a2]; exact hv ht hl
      · simp only [guarded, h]
        exact ⟨hg, ho, fun t l v hv => hv⟩
  · have app : ∀ {s2 : State k τ ε}, l = 0 → (t = 0 ∨ t = 1) → s.freed = false → (∀ i, sAt s2.spc ≠ some i → sAt s.spc ≠ some i) →
        (∀ i, i ∈ s2.rpc.slots cap → i ∈ s.rpc.slots cap) → SOwn cap (tr ++ [⟨t, l, .load a n⟩]) s2 := by
      intro s2 hl0 ht hf c1 c2
      refine ⟨sane_app ho.sane ⟨⟨ht, .inl ⟨hl0, rfl, by simp⟩⟩, fun _ h => ?_⟩, fun _ => (ho.nf hf).append (by simp),
        fun i hi => (ho.sent i (c1 i hi)).append load_nw (atomic_ns (by simp)),
        fun i hi => (ho.got i (c2 i hi)).append fun h => absurd h load_nw⟩
      dsimp only at h; omega
    have ord : l = 0 → Ordered SAllow tr ⟨t, l, .load a n⟩ := fun hl0 => ordered_of fun i x _ _ h4 _ => by dsimp only at h4; omega
    rcases t with _ | _ | t
    · have hl : l = 0 := (s_acc0 ha).1
      subst hl
      replace hs := of_ok hs
      obtain ⟨a1, a2, a3, a4⟩ := s_idxL hg.2 (hok rfl rfl) hs ha
      have hf := s_alive (s := { s with st := v }) hs ha
      refine ⟨⟨(s_load hg.1 (hok rfl rfl).tx hs ha n).2.2.1, a1⟩, app rfl (.inl rfl) hf (fun i _ => by rw [a3]; simp)
        (fun i hi => by simpa [guarded, a2] using hi), ord rfl, fun u m v hv ht hm => ?_⟩
      have := hv ht hm
      simpa [guarded, a2] using this
    · have hl : l = 0 := (r_acc0 ha).1
      subst hl
      obtain ⟨a1, a2, a3⟩ := r_slotsL hs ha
      have hf := r_alive (s := { s with st := v }) hs ha
      refine ⟨⟨(r_load hg.1 hs ha n).2.2.1, ?_⟩, app rfl (.inr rfl) hf (fun i hi => by simpa [guarded, a2] using hi)
        (fun i hi => ?_), ord rfl, fun u m v hv ht hm => ?_⟩
      · simp only [guarded, if_true, a1, a2]
        exact ⟨hg.2.cur, hg.2.len, fun i hi _ => hg.2.slot i hi a3, rfl⟩
      · simp [guarded, a1, RPc.slots] at hi
      · have h2 := hv ht hm
        rw [a3] at h2
        simp only [guarded, if_true, a1]
        exact h2
    · cases ha
  · rcases t with _ | _ | t
    · have hgd : (∀ v i, s.spc = .wrWrite v i → i ∉ s.rpc.slots cap) := by
        intro v i hc hm
        have : calm cap s = false := by simp [calm, hc, hm]
        simp [guarded, this] at hs
      replace hs := of_ok hs
      have hf := s_alive hs ha
      obtain ⟨a1, a2⟩ := s_at hs ha hl
      have hx := s_idx h1 hcap hg.1 hg.2 hs
      have hsane : Sane true (a.ev 0 0) := by
        cases a with
        | load l b => exact absurd rfl (hl l b)
        | store l r => exact absurd ha D.store
        | rmw l w =>
          have := (s_rmw en hg.1 hs ha).1
          exact ⟨.inl rfl, .inl ⟨this, rfl, by simp [Acc.ev]⟩⟩
        | other l κ => exact (s_other hg.1 hs ha).1
      have hns : (a.ev 0 0).isStore 0 = false := by
        refine atomic_ns fun b hb => ?_
        cases a with
        | store l r => exact absurd ha D.store
        | other l κ =>
          have := (s_other hg.1 hs ha).2.1
          simp only [Acc.ev] at hb
          rw [hb] at this; cases this
        | _ => cases hb
      refine ⟨?_, ordered_of fun i x hx hc h4 hnf => .inr ⟨by cases a <;> rfl, ?_⟩⟩
      · rcases step_good hg.1 (a := .sStep) hs with hi | hd
        · refine .inl ⟨⟨hi, hx⟩, ⟨sane_app ho.sane ⟨hsane, fun h => ?_⟩, fun hf' => (ho.nf hf).append fun hk => ?_, fun i hi => ?_,
            fun i hi => ?_⟩, fun u l v hv hu => ?_, fun u l hw hu hl0 => ?_⟩
          · cases a <;> cases h
          · cases a with
            | other l κ =>
              have := (s_other hg.1 hs ha).2.2.1 hk
              rw [this] at hf'; cases hf'
            | _ => cases hk
          · rcases a2 with ⟨j, v, b1, rfl, b3⟩ | ⟨b1, b2, b3⟩
            · rw [b3] at hi
              refine (ho.sent i (by rw [b1]; simp [sAt])).append (fun hb => hi ?_) hns
              have := hb.2.1
              simp only [Acc.ev] at this
              rw [Option.some.injEq]; omega
            · have nb : ¬ ByW 0 (4 + i) (a.ev 0 0) := by
                intro hb
                cases a with
                | other l κ => 
                  have e1 := hb.2.1; have e2 := hb.2.2
                  simp only [Acc.ev] at e1 e2
                  exact b1 i (by rw [e1, e2])
                | _ => exact nomatch hb.2.2
              rcases b3 with b3 | ⟨j, b3, rfl⟩
              · exact (ho.sent i (by rw [b3]; simp)).append nb hns
              · exact Knows.release (knows_own (fun e h => h.1)) rfl hp
          · rw [a1] at hi
            refine (ho.got i hi).append fun hb => ?_
            exfalso
            rcases a2 with ⟨j, v, b1, rfl, b3⟩ | ⟨b1, b2, b3⟩
            · have e1 := hb.2.1
              simp only [Acc.ev] at e1
              exact hgd v j b1 (by have : j = i := by omega
                                   rw [this]; exact hi)
            · cases a with
              | other l κ => 
                have e1 := hb.2.1; have e2 := hb.2.2
                simp only [Acc.ev] at e1 e2
                exact b1 i (by rw [e1, e2])
              | _ => exact nomatch hb.2.2
          · intro ht hl0
            subst ht hl0
            have hst := s_word hs ha (fun h => hu rfl h)
            have := hv rfl rfl
            rw [hst, a1]; exact this
          · subst hu hl0
            exact ⟨rfl, hx.cur, hx.len, fun _ => ⟨rfl, Nat.le_refl _⟩⟩
        · exact .inr hd
      · -- the sender accesses a slot
        have hxs := ho.sane i x hx
        have hxt : x.tid = 1 := by
          have h2 := hc.1
          have h3 : (a.ev 0 0).tid = 0 := by cases a <;> rfl
          rw [h3] at h2
          have := hxs.1.1
          omega
        have hxf := ho.nf hf i x hx
        refine hxs.2 hxt ?_
        rcases hc.2 with hk | hk | ⟨hk, -⟩
        · exact absurd hk hxf
        · exact absurd hk hnf
        · rw [hk]; exact h4
    · have hs : rStep cap s = some s' := hs
      have hf := r_alive hs ha
      obtain ⟨b1, b2, b3⟩ := r_idx h1 hcap hg.1 hg.2 hs
      cases a with
      | load l b => exact absurd rfl (hl l b)
      | store l r => exact absurd ha D.store
      | rmw l w =>
        obtain ⟨rfl, -⟩ := r_rmw en hg.1 hs ha
        refine ⟨?_, ordered_of fun i x hx hc h4 hnf => by simp [Acc.ev] at h4⟩
        rcases step_good hg.1 (a := .rStep) hs with hi | hd
        · refine .inl ⟨⟨hi, b1⟩, ⟨sane_app ho.sane ⟨⟨.inr rfl, .inl ⟨rfl, rfl, by simp [Acc.ev]⟩⟩, fun _ h => by simp [Acc.ev] at h⟩,
            fun hf' => (ho.nf hf).append (by simp [Acc.ev]), fun i hi => (ho.sent i (by rw [b2] at hi; exact hi)).append rmw_nw (atomic_ns (by simp [Acc.ev])),
            fun i hi => ?_⟩, fun u l v hv hu h1 h2 => ?_, fun u l hw hu hl0 => ?_⟩
          · rcases r_slots hg.2 hs ha en i hi with hi | ⟨h2, h3⟩
            · exact (ho.got i hi).append fun h => absurd h rmw_nw
            · refine Lasts.acquire (f := (Acc.rmw 0 w).ev 1 0) (ho.sent i fun h => h3 ?_) h2 rfl
              cases hc : s.spc <;> simp [hc, sAt] at h <;> simp [SPc.slot, h]
          · exact okW_mono (r_tx hg.1 hs ha) b3 (hv h1 h2)
          · subst hu hl0
            exact ⟨rfl, b1.cur, b1.len, fun _ => ⟨rfl, Nat.le_refl _⟩⟩
        · exact .inr hd
      | other l κ =>
        obtain ⟨c1, c2, c3, c4, -⟩ := r_other hg.1 hs ha
        have c5 : 4 ≤ l → κ = .read ∧ ∃ i, l = 4 + i ∧ i ∈ s.rpc.slots cap := r_reads hg.2 ha
        have nw : ∀ i, ¬ ByW 0 (4 + i) ((Acc.other l κ).ev 1 0) := fun i h => nomatch h.1
        refine ⟨?_, ordered_of fun i x hx hc h4 hnf => .inl ?_⟩
        · rcases step_good hg.1 (a := .rStep) hs with hi | hd
          · refine .inl ⟨⟨hi, b1⟩, ⟨sane_app ho.sane ⟨c1, fun _ h => (c5 h).1⟩,
              fun hf' => (ho.nf hf).append (fun hk => by rw [c3 hk] at hf'; cases hf'),
              fun i hi => (ho.sent i (by rw [b2] at hi; exact hi)).append (nw i) (atomic_ns (fun b hb => ?_)),
              fun i hi => (ho.got i (r_slots' hs ha i hi)).append fun h => absurd h (nw i)⟩, fun u l v hv hu h1 h2 => ?_, fun u l hw => ?_⟩
            · simp only [Acc.ev] at hb
              rw [hb] at c2; cases c2
            · exact okW_mono (by rw [c4]) b3 (hv h1 h2)
            · simp [Acc.wr] at hw
          · exact .inr hd
        · obtain ⟨rfl, m, rfl, hm⟩ := c5 h4
          have hxs := ho.sane i x hx
          have hxf := ho.nf hf i x hx
          have h2 := hc.1
          simp only [Acc.ev] at h2
          have hx0 : x.tid = 0 := by have := hxs.1.1; omega
          rcases hc.2 with hk | hk | ⟨hk, hrr, -⟩
          · exact absurd hk hxf
          · exact absurd hk hnf
          · simp only [Acc.ev] at hk hrr
            refine ho.got m hm i x hx ⟨hx0, hk, ?_⟩
            rcases hxs.1.2 with ⟨h, -⟩ | ⟨h, -⟩ | ⟨h, -⟩ | ⟨-, -, h | h⟩
            · omega
            · omega
            · omega
            · exact absurd ⟨h, trivial⟩ hrr
            · exact h
    · cases ha

end Verif.Ring
