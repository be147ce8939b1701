import Verif.Oneshot.OrderRun
/-! # Accesses before the last update of the state word -/
namespace Verif.Oneshot

open Verif.Spsc Verif.Order

variable {α : Type}

/-- Access `i` is one of thread `t`, not after its last update of the state word. -/
def Early (tr : List Ev) (t i : Nat) : Prop :=
  ∃ e, tr[i]? = some e ∧ e.tid = t ∧ ∃ (m : Nat) (e' : Ev), i ≤ m ∧ tr[m]? = some e' ∧ e'.tid = t ∧ e'.kind.atomic = true

theorem early_append {tr : List Ev} {f : Ev} {t i : Nat} (h : f.tid = t → f.kind.atomic = false)
    (hi : Early (tr ++ [f]) t i) : Early tr t i := by
  obtain ⟨e, he, ht, m, e', him, he', ht', ha⟩ := hi
  rcases get_append he' with he' | ⟨rfl, rfl⟩
  · refine ⟨e, ?_, ht, m, e', him, he', ht', ha⟩
    rwa [List.getElem?_append_left (by have := (List.getElem?_eq_some_iff.1 he').1; omega)] at he
  · rw [h ht'] at ha; cases ha

/-- `D t`: thread `t` has updated the state word for the last time; `K t`: and it has seen that the other one has, too. -/
structure LF (tr : List Ev) (D K : Nat → Bool) : Prop where
  l : ∀ t, D t = true → ∀ i, Early tr t i → Last tr 0 i
  k : ∀ t, K t = true → ∀ i, Early tr (1 - t) i → Know tr t i

theorem LF.step {tr : List Ev} {D K D' K' : Nat → Bool} (h : LF tr D K) {f : Ev} (ht : f.tid ≤ 1)
    (hs : ∀ b, f.kind ≠ .store b) (h0 : ∀ u, 1 < u → K' u = false)
    (h1 : D f.tid = true → f.kind.atomic = false) (h2 : D' f.tid = true → D f.tid = true ∨ (f.writes 0 = true ∧ f.rel = true))
    (h3 : K' f.tid = true → K f.tid = true ∨ (D (1 - f.tid) = true ∧ f.loc = 0 ∧ f.acq = true ∧ src tr f = cnt tr 0))
    (h4 : K (1 - f.tid) = true → D f.tid = true)
    (h5 : ∀ u, u ≠ f.tid → D' u = D u ∧ K' u = K u) : LF (tr ++ [f]) D' K' := by
  have ns : f.isStore 0 = false := by
    unfold Ev.isStore
    cases hk : f.kind with
    | store b => exact absurd hk (hs b)
    | _ => simp
  have keep : ∀ i, Last tr 0 i → Last (tr ++ [f]) 0 i := by
    intro i hl
    rw [last_append]
    split
    · exact .inl ⟨ns, hl⟩
    · exact hl
  refine ⟨fun t hd i hi => ?_, fun t hk i hi => ?_⟩
  · by_cases e : t = f.tid
    · subst e
      rcases h2 hd with hd | ⟨hw, hr⟩
      · exact keep i (h.l _ hd i (early_append (fun _ => h1 hd) hi))
      · rw [last_append, if_pos hw]
        obtain ⟨x, hx, hxt, -⟩ := hi
        exact .inr ⟨hr, i, x, hx, hxt, .inl rfl⟩
    · rw [(h5 t e).1] at hd
      exact keep i (h.l t hd i (early_append (fun he => absurd he.symm e) hi))
  · by_cases e : t = f.tid
    · subst e
      have hi' : Early tr (1 - f.tid) i := early_append (fun he => by omega) hi
      rcases h3 hk with hk | ⟨hd, hl, ha, hsrc⟩
      · exact know_append.2 (.inl (h.k _ hk i hi'))
      · exact know_append.2 (.inr ⟨rfl, .inr ⟨ha, by rw [hl, hsrc]; exact h.l _ hd i hi'⟩⟩)
    · have ht1 : t ≤ 1 := by
        rcases Nat.lt_or_ge 1 t with h | h
        · rw [h0 t h] at hk; cases hk
        · exact h
      rw [(h5 t e).2] at hk
      have : t = 1 - f.tid := by omega
      subst this
      have hd := h4 hk
      exact know_append.2 (.inl (h.k _ hk i (early_append (fun _ => h1 hd) hi)))

def dn (s : State α) : Nat → Bool
  | 0 => sDone s.spc
  | 1 => rDone s.rpc
  | _ => false

def kn (s : State α) : Nat → Bool
  | 0 => sSt s.spc == some true
  | 1 => rSt s.rpc == some true
  | _ => false

/-- What a step does to `dn` and `kn`. -/
structure StepD (tr : List Ev) (s s' : State α) (f : Ev) : Prop where
  ht : f.tid ≤ 1
  hs : ∀ b, f.kind ≠ .store b
  h1 : dn s f.tid = true → f.kind.atomic = false
  h2 : dn s' f.tid = true → dn s f.tid = true ∨ (f.writes 0 = true ∧ f.rel = true)
  h3 : kn s' f.tid = true →
    kn s f.tid = true ∨ (dn s (1 - f.tid) = true ∧ f.loc = 0 ∧ f.acq = true ∧ src tr f = cnt tr 0)
  h4 : f.kind = .free → kn s f.tid = true
  h5 : ∀ u, u ≠ f.tid → dn s' u = dn s u ∧ kn s' u = kn s u

set_option maxHeartbeats 4000000 in
theorem s_stepD {o : Ords} (en : Enough o) (dr : DropsRelease o) {tr : List Ev} {s s' : State α} (inv : Inv s) {v : BitVec 8}
    (hs : sStep { s with st := v } = some s') {a : Acc} (ha : sAcc o s.spc = some a) {f : Ev} (ht : f.tid = 0)
    (hl : a = .load ∧ (∃ k, f.kind = .load false k) ∨
      (∃ w, a = .rmw w ∧ f.loc = 0 ∧ f.kind = .rmw w.acq w.rel ∧ v = s.st) ∨
      (∃ l k, a = .other l k ∧ f.kind = k ∧ v = s.st)) {st : BitVec 8} : StepD tr s { s' with st := st } f := by
  obtain ⟨st, data, rxw, txw, freed, spc, rpc, log⟩ := s
  obtain ⟨tid, loc, kind⟩ := f
  obtain ⟨e1, -, e3, -⟩ := en
  obtain ⟨d1, -⟩ := dr
  have hhalf := inv.half
  dsimp only at *
  subst ht
  unfold sStep at hs
  cases spc <;> simp only [sAcc, Option.some.injEq, reduceCtorEq] at ha <;> subst ha <;>
    simp only [reduceCtorEq, false_and, exists_false, false_or, or_false, true_and, Acc.rmw.injEq, Acc.other.injEq,
      exists_eq_left', and_assoc, exists_and_left] at hl <;>
    simp only [SPc.resting, Bool.false_eq_true, if_false] at hs <;> cases freed <;>
    simp only [if_true, Bool.false_eq_true, if_false, reduceCtorEq] at hs
  all_goals
    first
      | obtain ⟨k, rfl⟩ := hl
      | obtain ⟨rfl, rfl, rfl⟩ := hl
      | obtain ⟨-, rfl, rfl⟩ := hl
      | obtain ⟨rfl, rfl⟩ := hl
      | skip
    (try simp only [sendTail, State.emit, State.release] at hs) <;> (repeat' (split at hs)) <;>
    simp only [Option.some.injEq, reduceCtorEq] at hs <;> subst hs <;>
    refine ⟨?_, ?_, ?_, ?_, ?_, ?_, ?_⟩ <;> simp only [dn, kn, sDone, sSt] at hhalf ⊢
    all_goals first
      | (intro u hu; rcases u with _ | _ | u <;> simp_all; done)
      | (simp_all [Ev.writes, Ev.rel, Ev.acq, Kind.atomic, src]; done)

set_option maxHeartbeats 4000000 in
theorem r_stepD {o : Ords} (en : Enough o) (dr : DropsRelease o) {tr : List Ev} {s s' : State α} (inv : Inv s) {v : BitVec 8}
    (hs : rStep { s with st := v } = some s') {a : Acc} (ha : rAcc o s.rpc = some a) {f : Ev} (ht : f.tid = 1)
    (hl : a = .load ∧ (∃ k, f.kind = .load false k) ∨
      (∃ w, a = .rmw w ∧ f.loc = 0 ∧ f.kind = .rmw w.acq w.rel ∧ v = s.st) ∨
      (∃ l k, a = .other l k ∧ f.kind = k ∧ v = s.st)) {st : BitVec 8} : StepD tr s { s' with st := st } f := by
  obtain ⟨st, data, rxw, txw, freed, spc, rpc, log⟩ := s
  obtain ⟨tid, loc, kind⟩ := f
  obtain ⟨-, -, -, -, -, -, -, e8⟩ := en
  obtain ⟨-, d2⟩ := dr
  have hhalf := inv.half
  dsimp only at *
  subst ht
  unfold rStep at hs
  cases rpc <;> simp only [rAcc, Option.some.injEq, reduceCtorEq] at ha <;> subst ha <;>
    simp only [reduceCtorEq, false_and, exists_false, false_or, or_false, true_and, Acc.rmw.injEq, Acc.other.injEq,
      exists_eq_left', and_assoc, exists_and_left] at hl <;>
    simp only [RPc.resting, Bool.false_eq_true, if_false] at hs <;> cases freed <;>
    simp only [if_true, Bool.false_eq_true, if_false, reduceCtorEq] at hs
  all_goals
    first
      | obtain ⟨k, rfl⟩ := hl
      | obtain ⟨rfl, rfl, rfl⟩ := hl
      | obtain ⟨-, rfl, rfl⟩ := hl
      | obtain ⟨rfl, rfl⟩ := hl
      | skip
    (try simp only [dropTail, State.emit, State.release] at hs) <;> (repeat' (split at hs)) <;>
    simp only [Option.some.injEq, reduceCtorEq] at hs <;> subst hs <;>
    refine ⟨?_, ?_, ?_, ?_, ?_, ?_, ?_⟩ <;> simp only [dn, kn, rDone, rSt] at hhalf ⊢
    all_goals first
      | (intro u hu; rcases u with _ | _ | u <;> simp_all; done)
      | (simp_all [Ev.writes, Ev.rel, Ev.acq, Kind.atomic, src]; done)

theorem LateRace.append {tr : List Ev} {i j : Nat} (h : LateRace tr i j) (hj : j ≤ tr.length) {f : Ev} :
    LateRace (tr ++ [f]) i j := by
  obtain ⟨e, he, h⟩ := h
  refine ⟨e, by rw [List.getElem?_append_left (List.getElem?_eq_some_iff.1 he).1]; exact he, fun m e' h1 h2 h3 h4 => ?_⟩
  rw [List.getElem?_append_left (by omega)] at h3
  exact h m e' h1 h2 h3 h4

structure FInv (p : PState α) : Prop where
  inv : PInv p
  late : ∀ i j, Race p.tr i j → LateRace p.tr i j
  lf : ¬ Doomed p.s → LF p.tr (dn p.s) (kn p.s)

theorem FInv.step {p p' : PState α} (h : FInv p) (nd : ¬ Doomed p.s) (hi : PInv p') {f : Ev} (htr : p'.tr = p.tr ++ [f])
    (hd : StepD p.tr p.s p'.s f) : FInv p' := by
  have inv : Inv p.s := by
    rcases h.inv.base with ⟨h, -⟩ | h
    · exact h
    · exact absurd h nd
  have nf : (p.s.freed = false → Nones p.tr (fun e => e.kind = .free)) := by
    rcases h.inv.base with ⟨-, -, h⟩ | h
    · exact h
    · exact absurd h nd
  have lf := h.lf nd
  refine ⟨hi, fun i j hr => ?_, fun _ => ?_⟩
  · rw [htr] at hr ⊢
    obtain ⟨e, g, h1, h2, hc, hb⟩ := hr.2
    rcases get_append h2 with h2' | ⟨rfl, rfl⟩
    · have hj := (List.getElem?_eq_some_iff.1 h2').1
      have hij := hr.1
      rw [List.getElem?_append_left (by omega)] at h1
      exact (h.late i j ⟨hij, e, g, h1, h2', hc, fun hb' => hb ((hb_append hj).2 hb')⟩).append (by omega)
    · obtain ⟨x, hx, hk⟩ := hi.races i p.tr.length (htr ▸ hr)
      rw [htr, h2, Option.some.injEq] at hx
      subst hx
      have hkn := hd.h4 hk
      rw [List.getElem?_append_left hr.1] at h1
      refine LateRace.append ⟨e, h1, fun m e' hm1 hm2 hm3 hm4 => ?_⟩ (Nat.le_refl _)
      cases hat : e'.kind.atomic
      · rfl
      · exfalso
        have het : e.tid = 1 - g.tid := by
          have h1 := (h.inv.sane i e h1).1
          have h2 := hd.ht
          have h3 := hc.1
          omega
        exact hb (hb_last.2 (.inl (lf.k _ hkn i (by rw [← het]; exact ⟨e, h1, rfl, m, e', hm1, hm3, hm4, hat⟩))))
  · rw [htr]
    refine lf.step hd.ht hd.hs (fun u hu => ?_) hd.h1 hd.h2 hd.h3 (fun hk => ?_) hd.h5
    · rcases u with _ | _ | u
      · omega
      · omega
      · rfl
    · have ht := hd.ht
      have e : f.tid = 0 ∨ f.tid = 1 := by omega
      rcases e with e | e <;> rw [e] at hk ⊢ <;> simp only [kn, beq_iff_eq] at hk
      · exact inv.first2 hk
      · exact inv.first1 hk

theorem pstep_fix {o : Ords} (en : Enough o) (dr : DropsRelease o) {p p' : PState α} (h : FInv p) {a : PAct α}
    (hs : pstep o p a = some p') : FInv p' := by
  have hi := pstep_inv en h.inv hs
  by_cases nd : Doomed p.s
  · suffices p' = p by subst this; exact h
    obtain ⟨⟨st, data, rxw, txw, freed, spc, rpc, log⟩, hist, seenS, seenR, tr⟩ := p
    obtain ⟨d1, d2⟩ := nd
    clear h
    dsimp only at d1 d2
    subst d1
    cases a
    · cases spc <;> simp_all [pstep, SPc.isIdle, sGone, SPc.leaving]
    · cases spc <;> simp_all [pstep, sAcc, PState.go, sStep, SPc.resting, sGone, SPc.leaving]
    · cases rpc <;> simp_all [pstep, RPc.isIdle, rGone, RPc.leaving]
    · cases rpc <;> simp_all [pstep, rAcc, PState.go, rStep, RPc.resting, rGone, RPc.leaving]
  have inv : Inv p.s := by
    rcases h.inv.base with ⟨h, -⟩ | h
    · exact h
    · exact absurd h nd
  have same : p'.tr = p.tr → (∀ u, dn p'.s u = dn p.s u ∧ (kn p'.s u = true → kn p.s u = true)) → FInv p' := by
    intro h1 h2
    refine ⟨hi, by rw [h1]; exact h.late, fun _ => ?_⟩
    rw [h1]
    exact ⟨fun t hd => (h.lf nd).l t (by rw [← (h2 t).1]; exact hd), fun t hk => (h.lf nd).k t ((h2 t).2 hk)⟩
  cases a with
  | sCall op =>
    simp only [pstep] at hs
    split at hs <;> simp only [Option.some.injEq] at hs <;> subst hs
    · rename_i hid
      refine same rfl fun u => ?_
      obtain ⟨⟨st, data, rxw, txw, freed, spc, rpc, log⟩, hist, seenS, seenR, tr⟩ := p
      cases spc <;> simp only [SPc.isIdle, reduceCtorEq] at hid
      rcases u with _ | _ | u <;> cases op <;> simp [dn, kn, sCall, State.emit, sDone, sSt]
    · exact h
  | rCall op =>
    simp only [pstep] at hs
    split at hs <;> simp only [Option.some.injEq] at hs <;> subst hs
    · rename_i hid
      refine same rfl fun u => ?_
      obtain ⟨⟨st, data, rxw, txw, freed, spc, rpc, log⟩, hist, seenS, seenR, tr⟩ := p
      cases rpc <;> simp only [RPc.isIdle, reduceCtorEq] at hid
      rcases u with _ | _ | u <;> cases op <;> simp [dn, kn, rCall, rDone, rSt]
    · exact h
  | sStep k =>
    simp only [pstep, Option.map_eq_some_iff] at hs
    obtain ⟨⟨q, n⟩, hg, rfl⟩ := hs
    match ha : sAcc o p.s.spc with
    | none =>
      simp only [ha, PState.go, Option.some.injEq, Prod.mk.injEq] at hg
      obtain ⟨rfl, rfl⟩ := hg
      exact same rfl fun u => ⟨rfl, id⟩
    | some .load =>
      simp only [ha, PState.go] at hg
      split at hg
      · split at hg
        · simp only [Option.some.injEq, Prod.mk.injEq] at hg
          obtain ⟨rfl, rfl⟩ := hg
          exact same rfl fun u => ⟨rfl, id⟩
        · rename_i v hv
          split at hg
          · cases hg
          · rename_i s' hs'
            simp only [Option.some.injEq, Prod.mk.injEq] at hg
            obtain ⟨rfl, rfl⟩ := hg
            exact h.step nd hi rfl (s_stepD en dr inv hs' ha rfl (.inl ⟨rfl, _, rfl⟩))
      · simp only [Option.some.injEq, Prod.mk.injEq] at hg
        obtain ⟨rfl, rfl⟩ := hg
        exact same rfl fun u => ⟨rfl, id⟩
    | some (.rmw w) =>
      simp only [ha, PState.go] at hg
      split at hg
      · cases hg
      · rename_i s' hs'
        simp only [Option.some.injEq, Prod.mk.injEq] at hg
        obtain ⟨rfl, rfl⟩ := hg
        exact h.step nd hi rfl (s_stepD (v := p.s.st) (st := s'.st) en dr inv hs' ha rfl (.inr (.inl ⟨w, rfl, rfl, rfl, rfl⟩)))
    | some (.other l kd) =>
      simp only [ha, PState.go] at hg
      split at hg
      · cases hg
      · rename_i s' hs'
        simp only [Option.some.injEq, Prod.mk.injEq] at hg
        obtain ⟨rfl, rfl⟩ := hg
        exact h.step nd hi rfl (s_stepD (v := p.s.st) (st := s'.st) en dr inv hs' ha rfl (.inr (.inr ⟨l, kd, rfl, rfl, rfl⟩)))
  | rStep k =>
    simp only [pstep, Option.map_eq_some_iff] at hs
    obtain ⟨⟨q, n⟩, hg, rfl⟩ := hs
    match ha : rAcc o p.s.rpc with
    | none =>
      simp only [ha, PState.go, Option.some.injEq, Prod.mk.injEq] at hg
      obtain ⟨rfl, rfl⟩ := hg
      exact same rfl fun u => ⟨rfl, id⟩
    | some .load =>
      simp only [ha, PState.go] at hg
      split at hg
      · split at hg
        · simp only [Option.some.injEq, Prod.mk.injEq] at hg
          obtain ⟨rfl, rfl⟩ := hg
          exact same rfl fun u => ⟨rfl, id⟩
        · rename_i v hv
          split at hg
          · cases hg
          · rename_i s' hs'
            simp only [Option.some.injEq, Prod.mk.injEq] at hg
            obtain ⟨rfl, rfl⟩ := hg
            exact h.step nd hi rfl (r_stepD en dr inv hs' ha rfl (.inl ⟨rfl, _, rfl⟩))
      · simp only [Option.some.injEq, Prod.mk.injEq] at hg
        obtain ⟨rfl, rfl⟩ := hg
        exact same rfl fun u => ⟨rfl, id⟩
    | some (.rmw w) =>
      simp only [ha, PState.go] at hg
      split at hg
      · cases hg
      · rename_i s' hs'
        simp only [Option.some.injEq, Prod.mk.injEq] at hg
        obtain ⟨rfl, rfl⟩ := hg
        exact h.step nd hi rfl (r_stepD (v := p.s.st) (st := s'.st) en dr inv hs' ha rfl (.inr (.inl ⟨w, rfl, rfl, rfl, rfl⟩)))
    | some (.other l kd) =>
      simp only [ha, PState.go] at hg
      split at hg
      · cases hg
      · rename_i s' hs'
        simp only [Option.some.injEq, Prod.mk.injEq] at hg
        obtain ⟨rfl, rfl⟩ := hg
        exact h.step nd hi rfl (r_stepD (v := p.s.st) (st := s'.st) en dr inv hs' ha rfl (.inr (.inr ⟨l, kd, rfl, rfl, rfl⟩)))

theorem prun_fix {o : Ords} (en : Enough o) (dr : DropsRelease o) {p p' : PState α} (h : FInv p) {as : List (PAct α)}
    (hs : prun o p as = some p') : FInv p' := by
  induction as generalizing p with
  | nil => simp only [prun, Option.some.injEq] at hs; exact hs ▸ h
  | cons a as ih =>
    simp only [prun] at hs
    split at hs
    · cases hs
    · rename_i q hq
      exact ih (pstep_fix en dr h hq) hs

theorem pinit_fix : FInv (pinit α) := by
  refine ⟨pinit_inv, fun i j h => ?_, fun _ => ⟨fun t h => ?_, fun t h => ?_⟩⟩
  · obtain ⟨-, e, f, h, -⟩ := h
    simp [pinit] at h
  · rcases t with _ | _ | t <;> simp [dn, pinit, init, sDone, rDone] at h
  · rcases t with _ | _ | t <;> simp [kn, pinit, init, sSt, rSt] at h

/-! ### Without old values -/

/-- The values of the state word, without those of the waker bit. -/
structure Fresh (p : PState α) : Prop where
  last : p.hist.getLast? = some p.s.st
  seenS : p.seenS < p.hist.length
  seenR : p.seenR < p.hist.length

theorem load_st {o : Ords} {s s' : State α} (ha : sAcc o s.spc = some .load) (hs : sStep s = some s') : s'.st = s.st := by
  obtain ⟨st, data, rxw, txw, freed, spc, rpc, log⟩ := s
  unfold sStep at hs
  cases spc <;> simp only [sAcc, Option.some.injEq, reduceCtorEq] at ha <;>
    simp only [SPc.resting, Bool.false_eq_true, if_false] at hs <;> cases freed <;>
    simp only [if_true, Bool.false_eq_true, if_false, reduceCtorEq] at hs <;>
    (try simp only [State.emit] at hs) <;> (repeat' (split at hs)) <;>
    simp only [Option.some.injEq] at hs <;> subst hs <;> rfl

theorem load_st' {o : Ords} {s s' : State α} (ha : rAcc o s.rpc = some .load) (hs : rStep s = some s') : s'.st = s.st := by
  obtain ⟨st, data, rxw, txw, freed, spc, rpc, log⟩ := s
  unfold rStep at hs
  cases rpc <;> simp only [rAcc, Option.some.injEq, reduceCtorEq] at ha <;>
    simp only [RPc.resting, Bool.false_eq_true, if_false] at hs <;> cases freed <;>
    simp only [if_true, Bool.false_eq_true, if_false, reduceCtorEq] at hs <;>
    simp only [State.emit, Option.some.injEq] at hs <;> subst hs <;> rfl

theorem other_st {o : Ords} {s s' : State α} {l : Nat} {k : Kind} (ha : sAcc o s.spc = some (.other l k)) (hs : sStep s = some s') :
    s'.st = s.st := by
  obtain ⟨st, data, rxw, txw, freed, spc, rpc, log⟩ := s
  unfold sStep at hs
  cases spc <;> simp only [sAcc, Option.some.injEq, reduceCtorEq, Acc.other.injEq] at ha <;>
    simp only [SPc.resting, Bool.false_eq_true, if_false] at hs <;> cases freed <;>
    simp only [if_true, Bool.false_eq_true, if_false, reduceCtorEq] at hs <;>
    (try simp only [sendTail, State.emit, State.release] at hs) <;> (repeat' (split at hs)) <;>
    simp only [Option.some.injEq, reduceCtorEq] at hs <;> subst hs <;> rfl

theorem other_st' {o : Ords} {s s' : State α} {l : Nat} {k : Kind} (ha : rAcc o s.rpc = some (.other l k)) (hs : rStep s = some s') :
    s'.st = s.st := by
  obtain ⟨st, data, rxw, txw, freed, spc, rpc, log⟩ := s
  unfold rStep at hs
  cases rpc <;> simp only [rAcc, Option.some.injEq, reduceCtorEq, Acc.other.injEq] at ha <;>
    simp only [RPc.resting, Bool.false_eq_true, if_false] at hs <;> cases freed <;>
    simp only [if_true, Bool.false_eq_true, if_false, reduceCtorEq] at hs <;>
    (try simp only [dropTail, State.emit, State.release] at hs) <;> (repeat' (split at hs)) <;>
    simp only [Option.some.injEq, reduceCtorEq] at hs <;> subst hs <;> rfl

theorem none_st {o : Ords} {s s' : State α} (ha : sAcc o s.spc = none) (hs : sStep s = some s') : s' = s := by
  obtain ⟨st, data, rxw, txw, freed, spc, rpc, log⟩ := s
  cases spc <;> simp_all [sAcc, sStep, SPc.resting]

theorem none_st' {o : Ords} {s s' : State α} (ha : rAcc o s.rpc = none) (hs : rStep s = some s') : s' = s := by
  obtain ⟨st, data, rxw, txw, freed, spc, rpc, log⟩ := s
  cases rpc <;> simp_all [rAcc, rStep, RPc.resting]

theorem covers_step {o : Ords} {p : PState α} (h : Fresh p) {a : Act α} {s' : State α}
    (hs : step p.s a = some s') : ∃ b p', pstep o p b = some p' ∧ p'.s = s' ∧ Fresh p' := by
  have hk : p.hist[p.hist.length - 1]? = some p.s.st := by rw [← h.last, List.getLast?_eq_getElem?]
  have h1 := h.seenS
  have h2 := h.seenR
  cases a with
  | sCall op =>
    simp only [step] at hs
    split at hs <;> simp only [Option.some.injEq] at hs <;> subst hs
    · rename_i hi
      exact ⟨.sCall op, { p with s := sCall p.s op }, by simp only [pstep, if_pos hi], rfl, ⟨by cases op <;> exact h.last, h1, h2⟩⟩
    · rename_i hi
      exact ⟨.sCall op, p, by simp only [pstep, if_neg hi], rfl, h⟩
  | rCall op =>
    simp only [step] at hs
    split at hs <;> simp only [Option.some.injEq] at hs <;> subst hs
    · rename_i hi
      exact ⟨.rCall op, { p with s := rCall p.s op }, by simp only [pstep, if_pos hi], rfl, ⟨by cases op <;> exact h.last, h1, h2⟩⟩
    · rename_i hi
      exact ⟨.rCall op, p, by simp only [pstep, if_neg hi], rfl, h⟩
  | sStep =>
    simp only [step] at hs
    match ha : sAcc o p.s.spc with
    | none =>
      obtain rfl := none_st ha hs
      exact ⟨.sStep 0, p, by simp [pstep, ha, PState.go], rfl, h⟩
    | some .load =>
      have hst := load_st ha hs
      refine ⟨.sStep (p.hist.length - 1), { p with s := s', seenS := p.hist.length - 1, tr := p.tr ++ [⟨0, 0, .load false (p.hist.length - 1)⟩] }, ?_, rfl,
        ⟨by rw [hst]; exact h.last, by dsimp only; omega, h2⟩⟩
      simp only [pstep, ha, PState.go, hk, if_pos (show p.seenS ≤ p.hist.length - 1 by omega)]
      rw [show ({ p.s with st := p.s.st } : State α) = p.s from rfl, hs]
      simp only [Option.map_some, ← hst]
    | some (.rmw w) =>
      refine ⟨.sStep 0, { p with s := s', hist := p.hist ++ [s'.st], seenS := p.hist.length, tr := p.tr ++ [⟨0, 0, .rmw w.acq w.rel⟩] },
        by simp [pstep, ha, PState.go, hs], rfl, ⟨by simp, by simp, by simp; omega⟩⟩
    | some (.other l k) =>
      have hst := other_st ha hs
      refine ⟨.sStep 0, { p with s := s', tr := p.tr ++ [⟨0, l, k⟩] }, by simp [pstep, ha, PState.go, hs], rfl,
        ⟨by rw [hst]; exact h.last, h1, h2⟩⟩
  | rStep =>
    simp only [step] at hs
    match ha : rAcc o p.s.rpc with
    | none =>
      obtain rfl := none_st' ha hs
      exact ⟨.rStep 0, p, by simp [pstep, ha, PState.go], rfl, h⟩
    | some .load =>
      have hst := load_st' ha hs
      refine ⟨.rStep (p.hist.length - 1), { p with s := s', seenR := p.hist.length - 1, tr := p.tr ++ [⟨1, 0, .load false (p.hist.length - 1)⟩] }, ?_, rfl,
        ⟨by rw [hst]; exact h.last, h1, by dsimp only; omega⟩⟩
      simp only [pstep, ha, PState.go, hk, if_pos (show p.seenR ≤ p.hist.length - 1 by omega)]
      rw [show ({ p.s with st := p.s.st } : State α) = p.s from rfl, hs]
      simp only [Option.map_some, ← hst]
    | some (.rmw w) =>
      refine ⟨.rStep 0, { p with s := s', hist := p.hist ++ [s'.st], seenR := p.hist.length, tr := p.tr ++ [⟨1, 0, .rmw w.acq w.rel⟩] },
        by simp [pstep, ha, PState.go, hs], rfl, ⟨by simp, by simp; omega, by simp⟩⟩
    | some (.other l k) =>
      have hst := other_st' ha hs
      refine ⟨.rStep 0, { p with s := s', tr := p.tr ++ [⟨1, l, k⟩] }, by simp [pstep, ha, PState.go, hs], rfl,
        ⟨by rw [hst]; exact h.last, h1, h2⟩⟩

theorem covers {o : Ords} {as : List (Act α)} {s : State α} (h : run (init α) as = some s) :
    ∃ as' p, prun o (pinit α) as' = some p ∧ p.s = s := by
  suffices ∀ as (p : PState α), Fresh p → run p.s as = some s → ∃ as' p', prun o p as' = some p' ∧ p'.s = s by
    exact this as (pinit α) ⟨rfl, by simp [pinit], by simp [pinit]⟩ h
  intro as
  induction as with
  | nil => intro p _ h; exact ⟨[], p, rfl, by simpa [run] using h⟩
  | cons a as ih =>
    intro p hp h
    simp only [run] at h
    split at h
    · cases h
    · rename_i s1 hs1
      obtain ⟨b, p1, hb, hps, hp1⟩ := covers_step (o := o) hp hs1
      obtain ⟨as', p', h1, h2⟩ := ih p1 hp1 (by rw [hps]; exact h)
      exact ⟨b :: as', p', by simp only [prun, hb]; exact h1, h2⟩

end Verif.Oneshot
