import Verif.Oneshot.OrderSpec
import Verif.Oneshot.Run
import Verif.Order.Lemmas
/-! # Who knows what in the oneshot channel -/
namespace Verif.Oneshot

open Verif.Spsc Verif.Order

variable {α : Type}

/-- Accesses of `l` by thread `t`. -/
def By (t l : Nat) (e : Ev) : Prop := e.tid = t ∧ e.loc = l

/-- Writes. -/
def ByW (t l : Nat) (e : Ev) : Prop := e.tid = t ∧ e.loc = l ∧ e.kind = .write

/-- What the accesses depend on. -/
structure Fl where
  data : Bool
  rx : Bool
  tx : Bool
  /-- the receiver cannot have accessed the data -/
  early : Bool
  rread : Bool
  swk : Bool
  rtx : Bool

def flags (s : State α) : Fl :=
  { data := has s.st DATA, rx := has s.st RX, tx := has s.st TX, early := !sDone s.spc || sFail s.spc,
    rread := rRead s.rpc, swk := sWk s.spc, rtx := rTx s.rpc }

/-- Sorts of accesses there are. -/
def Sane (e : Ev) : Prop :=
  (e.tid = 0 ∨ e.tid = 1) ∧
  ((e.loc = 0 ∧ e.kind.atomic = true ∧ ∀ b, e.kind ≠ .store b) ∨ (e.loc = 0 ∧ e.kind = .free) ∨
    ((e.loc = 1 ∨ e.loc = 2 ∨ e.loc = 3) ∧ (e.kind = .read ∨ (e.kind = .write ∧ (e.tid = 1 ↔ e.loc = 2)))))

structure OF (tr : List Ev) (f : Fl) : Prop where
  d1 : f.early = true → Nones tr (By 1 lData)
  d2 : f.data = true → Lasts tr lState (By 0 lData)
  d3 : f.rread = true → Knows tr 1 (By 0 lData)
  r1 : f.rx = false → Nones tr (By 0 lRxw)
  r2 : f.rx = true → Lasts tr lState (ByW 1 lRxw)
  r3 : f.swk = true → Knows tr 0 (ByW 1 lRxw)
  t1 : f.tx = false → Nones tr (By 1 lTxw)
  t2 : f.tx = true → Lasts tr lState (ByW 0 lTxw)
  t3 : f.rtx = true → Knows tr 1 (ByW 0 lTxw)

/-- An access of the state word. -/
theorem OF.atomic {tr : List Ev} {f g : Fl} (h : OF tr f) {e : Ev} (he : e.loc = 0) (hs : ∀ b, e.kind ≠ .store b)
    (hsrc : e.acq = true → src tr e = cnt tr 0)
    (hearly : g.early = true → f.early = true)
    (hdata : g.data = true → f.data = true ∨ (e.tid = 0 ∧ e.writes 0 = true ∧ e.rel = true))
    (hrread : g.rread = true → f.rread = true ∨ (f.data = true ∧ e.tid = 1 ∧ e.acq = true))
    (hrx0 : g.rx = false → f.rx = false)
    (hrx : g.rx = true → f.rx = true ∨ (e.tid = 1 ∧ e.writes 0 = true ∧ e.rel = true))
    (hswk : g.swk = true → f.swk = true ∨ (f.rx = true ∧ e.tid = 0 ∧ e.acq = true))
    (htx0 : g.tx = false → f.tx = false)
    (htx : g.tx = true → f.tx = true ∨ (e.tid = 0 ∧ e.writes 0 = true ∧ e.rel = true))
    (hrtx : g.rtx = true → f.rtx = true ∨ (f.tx = true ∧ e.tid = 1 ∧ e.acq = true)) : OF (tr ++ [e]) g := by
  have nb : ∀ t l, l ≠ 0 → ¬ By t l e := fun t l hl hb => hl (by rw [← hb.2, he])
  have nbw : ∀ t l, l ≠ 0 → ¬ ByW t l e := fun t l hl hb => hl (by rw [← hb.2.1, he])
  have ns : e.isStore 0 = false := by
    unfold Ev.isStore
    cases hk : e.kind with
    | store b => exact absurd hk (hs b)
    | _ => simp
  have acq : ∀ {P : Ev → Prop} {t : Nat}, Lasts tr 0 P → e.tid = t → e.acq = true → Knows (tr ++ [e]) t P := by
    intro P t hl ht ha
    subst ht
    refine Lasts.acquire (by rw [he]; exact hl) ha (by rw [he]; exact hsrc ha)
  have rel : ∀ {P : Ev → Prop} {t : Nat}, (∀ x, P x → x.tid = t) → (e.tid = t ∧ e.writes 0 = true ∧ e.rel = true) →
      Lasts (tr ++ [e]) 0 P := by
    intro P t hP ⟨ht, hw, hr⟩
    subst ht
    exact Knows.release (knows_own hP) hw hr
  refine ⟨fun hg => (h.d1 (hearly hg)).append (nb _ _ (by decide)), fun hg => ?_, fun hg => ?_, fun hg => ?_, fun hg => ?_,
    fun hg => ?_, fun hg => ?_, fun hg => ?_, fun hg => ?_⟩
  · rcases hdata hg with hf | hf
    · exact (h.d2 hf).append (nb _ _ (by decide)) ns
    · exact rel (fun x hx => hx.1) hf
  · rcases hrread hg with hf | ⟨h1, h2, h3⟩
    · exact (h.d3 hf).append fun hb => absurd hb (nb _ _ (by decide))
    · exact acq (h.d2 h1) h2 h3
  · exact (h.r1 (hrx0 hg)).append (nb _ _ (by decide))
  · rcases hrx hg with hf | hf
    · exact (h.r2 hf).append (nbw _ _ (by decide)) ns
    · exact rel (fun x hx => hx.1) hf
  · rcases hswk hg with hf | ⟨h1, h2, h3⟩
    · exact (h.r3 hf).append fun hb => absurd hb (nbw _ _ (by decide))
    · exact acq (h.r2 h1) h2 h3
  · exact (h.t1 (htx0 hg)).append (nb _ _ (by decide))
  · rcases htx hg with hf | hf
    · exact (h.t2 hf).append (nbw _ _ (by decide)) ns
    · exact rel (fun x hx => hx.1) hf
  · rcases hrtx hg with hf | ⟨h1, h2, h3⟩
    · exact (h.t3 hf).append fun hb => absurd hb (nbw _ _ (by decide))
    · exact acq (h.t2 h1) h2 h3

/-- Another access. -/
theorem OF.other {tr : List Ev} {f g : Fl} (h : OF tr f) {e : Ev} (hk : e.kind.atomic = false)
    (hearly : g.early = true → f.early = true) (hdata : g.data = f.data) (hrx : g.rx = f.rx) (htx : g.tx = f.tx)
    (hrread : g.rread = true → f.rread = true) (hswk : g.swk = true → f.swk = true) (hrtx : g.rtx = true → f.rtx = true)
    (h1 : By 0 lData e → f.data = false ∧ g.rread = false) (h2 : By 1 lData e → g.early = false)
    (h3 : By 0 lRxw e → f.rx = true) (h4 : ByW 1 lRxw e → f.rx = false ∧ g.swk = false)
    (h5 : By 1 lTxw e → f.tx = true) (h6 : ByW 0 lTxw e → f.tx = false ∧ g.rtx = false) : OF (tr ++ [e]) g := by
  have ns : e.isStore 0 = false := by
    unfold Ev.isStore
    cases hk' : e.kind <;> simp_all [Kind.atomic]
  refine ⟨fun hg => (h.d1 (hearly hg)).append fun hb => ?_, fun hg => (h.d2 (hdata ▸ hg)).append (fun hb => ?_) ns,
    fun hg => (h.d3 (hrread hg)).append fun hb => ?_, fun hg => (h.r1 (hrx ▸ hg)).append fun hb => ?_,
    fun hg => (h.r2 (hrx ▸ hg)).append (fun hb => ?_) ns, fun hg => (h.r3 (hswk hg)).append fun hb => ?_,
    fun hg => (h.t1 (htx ▸ hg)).append fun hb => ?_, fun hg => (h.t2 (htx ▸ hg)).append (fun hb => ?_) ns,
    fun hg => (h.t3 (hrtx hg)).append fun hb => ?_⟩
  · rw [h2 hb] at hg; cases hg
  · rw [hdata, (h1 hb).1] at hg; cases hg
  · rw [(h1 hb).2] at hg; cases hg
  · rw [hrx, h3 hb] at hg; cases hg
  · rw [hrx, (h4 hb).1] at hg; cases hg
  · rw [(h4 hb).2] at hg; cases hg
  · rw [htx, h5 hb] at hg; cases hg
  · rw [htx, (h6 hb).1] at hg; cases hg
  · rw [(h6 hb).2] at hg; cases hg

/-- A call. -/
theorem OF.mono {tr : List Ev} {f g : Fl} (h : OF tr f)
    (hearly : g.early = true → f.early = true) (hdata : g.data = f.data) (hrx : g.rx = f.rx) (htx : g.tx = f.tx)
    (hrread : g.rread = true → f.rread = true) (hswk : g.swk = true → f.swk = true) (hrtx : g.rtx = true → f.rtx = true) :
    OF tr g :=
  ⟨fun hg => h.d1 (hearly hg), fun hg => h.d2 (hdata ▸ hg), fun hg => h.d3 (hrread hg), fun hg => h.r1 (hrx ▸ hg),
    fun hg => h.r2 (hrx ▸ hg), fun hg => h.r3 (hswk hg), fun hg => h.t1 (htx ▸ hg), fun hg => h.t2 (htx ▸ hg),
    fun hg => h.t3 (hrtx hg)⟩

/-- Which accesses the new one can be in conflict with. -/
theorem conflict_cases {tr : List Ev} {f : Fl} (h : OF tr f) (hsane : ∀ (i : Nat) (e : Ev), tr[i]? = some e → Sane e)
    (hnf : Nones tr (fun e => e.kind = .free)) {e : Ev} (he : Sane e)
    (h1 : By 0 lData e → f.early = true) (h2 : By 1 lData e → f.rread = true)
    (h3 : By 0 lRxw e → f.swk = true) (h4 : ByW 1 lRxw e → f.rx = false)
    (h5 : By 1 lTxw e → f.rtx = true) (h6 : ByW 0 lTxw e → f.tx = false) :
    ∀ (i : Nat) (x : Ev), tr[i]? = some x → Conflict x e → Know tr e.tid i ∨ e.kind = .free := by
  intro i x hx ⟨hne, hc⟩
  obtain ⟨ht, hs⟩ := hsane i x hx
  obtain ⟨ht', hs'⟩ := he
  have hxf := hnf i x hx
  rcases hc with hc | hc | ⟨hl, hrr, haa⟩
  · exact absurd hc hxf
  · exact .inr hc
  · by_cases hef : e.kind = .free
    · exact .inr hef
    left
    have hat : ∀ k : Kind, k = .read ∨ k = .write → k.atomic = false := by rintro k (rfl | rfl) <;> rfl
    rcases hs with ⟨hl0, ha, -⟩ | ⟨-, hf⟩ | ⟨hl1, hk⟩
    · rcases hs' with ⟨-, ha', -⟩ | ⟨-, hf⟩ | ⟨hl1, -⟩
      · exact absurd ⟨ha, ha'⟩ haa
      · exact absurd hf hef
      · omega
    · exact absurd hf hxf
    · rcases hs' with ⟨hl0, -⟩ | ⟨-, hf⟩ | ⟨-, hk'⟩
      · omega
      · exact absurd hf hef
      · rcases ht' with ht' | ht'
        · have hx1 : x.tid = 1 := by omega
          rw [ht']
          rcases hl1 with hl1 | hl1 | hl1
          · exact absurd ⟨hx1, hl1⟩ (h.d1 (h1 ⟨ht', hl.symm.trans hl1⟩) i x hx)
          · have hw : x.kind = .write := by
              rcases hk with hk | hk
              · rcases hk' with hk' | hk'
                · exact absurd ⟨hk, hk'⟩ hrr
                · have := hk'.2; omega
              · exact hk.1
            exact h.r3 (h3 ⟨ht', hl.symm.trans hl1⟩) i x hx ⟨hx1, hl1, hw⟩
          · have hr : x.kind = .read := by
              rcases hk with hk | hk
              · exact hk
              · have := hk.2; omega
            have hw : e.kind = .write := by
              rcases hk' with hk' | hk'
              · exact absurd ⟨hr, hk'⟩ hrr
              · exact hk'.1
            exact absurd ⟨hx1, hl1⟩ (h.t1 (h6 ⟨ht', hl.symm.trans hl1, hw⟩) i x hx)
        · have hx0 : x.tid = 0 := by omega
          rw [ht']
          rcases hl1 with hl1 | hl1 | hl1
          · exact h.d3 (h2 ⟨ht', hl.symm.trans hl1⟩) i x hx ⟨hx0, hl1⟩
          · have hr : x.kind = .read := by
              rcases hk with hk | hk
              · exact hk
              · have := hk.2; omega
            have hw : e.kind = .write := by
              rcases hk' with hk' | hk'
              · exact absurd ⟨hr, hk'⟩ hrr
              · exact hk'.1
            exact absurd ⟨hx0, hl1⟩ (h.r1 (h4 ⟨ht', hl.symm.trans hl1, hw⟩) i x hx)
          · have hw : x.kind = .write := by
              rcases hk with hk | hk
              · rcases hk' with hk' | hk'
                · exact absurd ⟨hk, hk'⟩ hrr
                · have := hk'.2; omega
              · exact hk.1
            exact h.t3 (h5 ⟨ht', hl.symm.trans hl1⟩) i x hx ⟨hx0, hl1, hw⟩

end Verif.Oneshot
