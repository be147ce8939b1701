import Verif.Order.MachineLemmas
import Verif.Order.Spec
/-! # Who knows what in a channel: two ends that share one object

Thread 0 is the sender, 1 the receiver; location 0 is the state word, 1 the data that is handed over once, 2 the receiver's
waker, 3 the sender's; from 4 on there are the slots of a buffer. -/
namespace Verif.Order

/-- Accesses of `l` by thread `t`. -/
def By (t l : Nat) (e : Ev) : Prop := e.tid = t ∧ e.loc = l

/-- Writes. -/
def ByW (t l : Nat) (e : Ev) : Prop := e.tid = t ∧ e.loc = l ∧ e.kind = .write

/-- What the accesses depend on. -/
structure Fl where
  /-- the data is announced -/
  data : Bool
  rx : Bool
  tx : Bool
  /-- the receiver cannot have accessed the data -/
  early : Bool
  /-- the receiver may access the data -/
  rread : Bool
  /-- the sender may access the receiver's waker -/
  swk : Bool
  /-- the receiver may access the sender's waker -/
  rtx : Bool

/-- Sorts of accesses there are. -/
def Sane (sl : Bool) (e : Ev) : Prop :=
  (e.tid = 0 ∨ e.tid = 1) ∧
  ((e.loc = 0 ∧ e.kind.atomic = true ∧ ∀ b, e.kind ≠ .store b) ∨ (e.loc = 0 ∧ e.kind = .free) ∨
    ((e.loc = 1 ∨ e.loc = 2 ∨ e.loc = 3) ∧ (e.kind = .read ∨ (e.kind = .write ∧ (e.tid = 1 ↔ e.loc = 2)))) ∨
    (sl = true ∧ 4 ≤ e.loc ∧ (e.kind = .read ∨ e.kind = .write)))

structure OF (tr : List Ev) (f : Fl) : Prop where
  d1 : f.early = true → Nones tr (By 1 1)
  d2 : f.data = true → Lasts tr 0 (By 0 1)
  d3 : f.rread = true → Knows tr 1 (By 0 1)
  r1 : f.rx = false → Nones tr (By 0 2)
  r2 : f.rx = true → Lasts tr 0 (ByW 1 2)
  r3 : f.swk = true → Knows tr 0 (ByW 1 2)
  t1 : f.tx = false → Nones tr (By 1 3)
  t2 : f.tx = true → Lasts tr 0 (ByW 0 3)
  t3 : f.rtx = true → Knows tr 1 (ByW 0 3)

/-- What an access of the state word does. -/
structure TransA (f g : Fl) (e : Ev) : Prop where
  early : g.early = true → f.early = true
  data : g.data = true → f.data = true ∨ (e.tid = 0 ∧ e.writes 0 = true ∧ e.rel = true)
  rread : g.rread = true → f.rread = true ∨ (f.data = true ∧ e.tid = 1 ∧ e.acq = true)
  rx0 : g.rx = false → f.rx = false
  rx : g.rx = true → f.rx = true ∨ (e.tid = 1 ∧ e.writes 0 = true ∧ e.rel = true)
  swk : g.swk = true → f.swk = true ∨ (f.rx = true ∧ e.tid = 0 ∧ e.acq = true)
  tx0 : g.tx = false → f.tx = false
  tx : g.tx = true → f.tx = true ∨ (e.tid = 0 ∧ e.writes 0 = true ∧ e.rel = true)
  rtx : g.rtx = true → f.rtx = true ∨ (f.tx = true ∧ e.tid = 1 ∧ e.acq = true)

theorem OF.atomic {tr : List Ev} {f g : Fl} (h : OF tr f) {e : Ev} (he : e.loc = 0) (hs : ∀ b, e.kind ≠ .store b)
    (hsrc : e.acq = true → src tr e = cnt tr 0) (t : TransA f g e) : OF (tr ++ [e]) g := by
  have nb : ∀ t l, l ≠ 0 → ¬ By t l e := fun t l hl hb => hl (by rw [← hb.2, he])
  have nbw : ∀ t l, l ≠ 0 → ¬ ByW t l e := fun t l hl hb => hl (by rw [← hb.2.1, he])
  have ns : e.isStore 0 = false := by
    unfold Ev.isStore
    cases hk : e.kind with
    | store b => exact absurd hk (hs b)
    | _ => simp
  have acq : ∀ {P : Ev → Prop} {t : Nat}, Lasts tr 0 P → e.tid = t → e.acq = true → Knows (tr ++ [e]) t P := by
    intro P t hl ht ha
    subst ht
    refine Lasts.acquire (by rw [he]; exact hl) ha (by rw [he]; exact hsrc ha)
  have rel : ∀ {P : Ev → Prop} {t : Nat}, (∀ x, P x → x.tid = t) → (e.tid = t ∧ e.writes 0 = true ∧ e.rel = true) →
      Lasts (tr ++ [e]) 0 P := by
    intro P t hP ⟨ht, hw, hr⟩
    subst ht
    exact Knows.release (knows_own hP) hw hr
  refine ⟨fun hg => (h.d1 (t.early hg)).append (nb _ _ (by decide)), fun hg => ?_, fun hg => ?_, fun hg => ?_, fun hg => ?_,
    fun hg => ?_, fun hg => ?_, fun hg => ?_, fun hg => ?_⟩
  · rcases t.data hg with hf | hf
    · exact (h.d2 hf).append (nb _ _ (by decide)) ns
    · exact rel (fun x hx => hx.1) hf
  · rcases t.rread hg with hf | ⟨h1, h2, h3⟩
    · exact (h.d3 hf).append fun hb => absurd hb (nb _ _ (by decide))
    · exact acq (h.d2 h1) h2 h3
  · exact (h.r1 (t.rx0 hg)).append (nb _ _ (by decide))
  · rcases t.rx hg with hf | hf
    · exact (h.r2 hf).append (nbw _ _ (by decide)) ns
    · exact rel (fun x hx => hx.1) hf
  · rcases t.swk hg with hf | ⟨h1, h2, h3⟩
    · exact (h.r3 hf).append fun hb => absurd hb (nbw _ _ (by decide))
    · exact acq (h.r2 h1) h2 h3
  · exact (h.t1 (t.tx0 hg)).append (nb _ _ (by decide))
  · rcases t.tx hg with hf | hf
    · exact (h.t2 hf).append (nbw _ _ (by decide)) ns
    · exact rel (fun x hx => hx.1) hf
  · rcases t.rtx hg with hf | ⟨h1, h2, h3⟩
    · exact (h.t3 hf).append fun hb => absurd hb (nbw _ _ (by decide))
    · exact acq (h.t2 h1) h2 h3

/-- What does not change by itself. -/
structure Mono (f g : Fl) : Prop where
  early : g.early = true → f.early = true
  data : g.data = true → f.data = true
  rx : g.rx = f.rx
  tx : g.tx = f.tx
  rread : g.rread = true → f.rread = true
  swk : g.swk = true → f.swk = true
  rtx : g.rtx = true → f.rtx = true

/-- What another access needs and does. -/
structure TransO (f g : Fl) (e : Ev) : Prop extends Mono f g where
  h1 : By 0 1 e → f.early = true ∧ f.data = false ∧ g.rread = false
  h2 : By 1 1 e → f.rread = true ∧ g.early = false
  h3 : By 0 2 e → f.swk = true ∧ f.rx = true
  h4 : ByW 1 2 e → f.rx = false ∧ g.swk = false
  h5 : By 1 3 e → f.rtx = true ∧ f.tx = true
  h6 : ByW 0 3 e → f.tx = false ∧ g.rtx = false

theorem OF.other {tr : List Ev} {f g : Fl} (h : OF tr f) {e : Ev} (hk : e.kind.atomic = false) (t : TransO f g e) :
    OF (tr ++ [e]) g := by
  have ns : e.isStore 0 = false := by
    unfold Ev.isStore
    cases hk' : e.kind <;> simp_all [Kind.atomic]
  refine ⟨fun hg => (h.d1 (t.early hg)).append fun hb => ?_, fun hg => (h.d2 (t.data hg)).append (fun hb => ?_) ns,
    fun hg => (h.d3 (t.rread hg)).append fun hb => ?_, fun hg => (h.r1 (t.rx ▸ hg)).append fun hb => ?_,
    fun hg => (h.r2 (t.rx ▸ hg)).append (fun hb => ?_) ns, fun hg => (h.r3 (t.swk hg)).append fun hb => ?_,
    fun hg => (h.t1 (t.tx ▸ hg)).append fun hb => ?_, fun hg => (h.t2 (t.tx ▸ hg)).append (fun hb => ?_) ns,
    fun hg => (h.t3 (t.rtx hg)).append fun hb => ?_⟩
  · rw [(t.h2 hb).2] at hg; cases hg
  · have := t.data hg; rw [(t.h1 hb).2.1] at this; cases this
  · rw [(t.h1 hb).2.2] at hg; cases hg
  · rw [t.rx, (t.h3 hb).2] at hg; cases hg
  · rw [t.rx, (t.h4 hb).1] at hg; cases hg
  · rw [(t.h4 hb).2] at hg; cases hg
  · rw [t.tx, (t.h5 hb).2] at hg; cases hg
  · rw [t.tx, (t.h6 hb).1] at hg; cases hg
  · rw [(t.h6 hb).2] at hg; cases hg

theorem OF.mono {tr : List Ev} {f g : Fl} (h : OF tr f) (t : Mono f g) : OF tr g :=
  ⟨fun hg => h.d1 (t.early hg), fun hg => h.d2 (t.data hg), fun hg => h.d3 (t.rread hg), fun hg => h.r1 (t.rx ▸ hg),
    fun hg => h.r2 (t.rx ▸ hg), fun hg => h.r3 (t.swk hg), fun hg => h.t1 (t.tx ▸ hg), fun hg => h.t2 (t.tx ▸ hg),
    fun hg => h.t3 (t.rtx hg)⟩

/-- Which accesses the new one can be in conflict with. -/
theorem conflict_cases {sl : Bool} {tr : List Ev} {f g : Fl} (h : OF tr f) (hsane : ∀ (i : Nat) (e : Ev), tr[i]? = some e → Sane sl e)
    (hnf : Nones tr (fun e => e.kind = .free)) {e : Ev} (he : Sane sl e) (t : TransO f g e) :
    ∀ (i : Nat) (x : Ev), tr[i]? = some x → Conflict x e → Know tr e.tid i ∨ e.kind = .free ∨ (sl = true ∧ 4 ≤ e.loc) := by
  intro i x hx ⟨hne, hc⟩
  obtain ⟨ht, hs⟩ := hsane i x hx
  obtain ⟨ht', hs'⟩ := he
  have hxf := hnf i x hx
  rcases hc with hc | hc | ⟨hl, hrr, haa⟩
  · exact absurd hc hxf
  · exact .inr (.inl hc)
  · by_cases hef : e.kind = .free
    · exact .inr (.inl hef)
    by_cases hsl : 4 ≤ e.loc
    · right; right
      refine ⟨?_, hsl⟩
      rcases hs' with ⟨h, -⟩ | ⟨h, -⟩ | ⟨h, -⟩ | ⟨h, -⟩
      · omega
      · omega
      · omega
      · exact h
    left
    rcases hs with ⟨hl0, ha, -⟩ | ⟨-, hf⟩ | ⟨hl1, hk⟩ | ⟨-, h4, -⟩
    · rcases hs' with ⟨-, ha', -⟩ | ⟨-, hf⟩ | ⟨hl1, -⟩ | ⟨-, h4, -⟩
      · exact absurd ⟨ha, ha'⟩ haa
      · exact absurd hf hef
      · omega
      · omega
    · exact absurd hf hxf
    · rcases hs' with ⟨hl0, -⟩ | ⟨-, hf⟩ | ⟨-, hk'⟩ | ⟨-, h4, -⟩
      · omega
      · exact absurd hf hef
      · rcases ht' with ht' | ht'
        · have hx1 : x.tid = 1 := by omega
          rw [ht']
          rcases hl1 with hl1 | hl1 | hl1
          · exact absurd ⟨hx1, hl1⟩ (h.d1 (t.h1 ⟨ht', hl.symm.trans hl1⟩).1 i x hx)
          · have hw : x.kind = .write := by
              rcases hk with hk | hk
              · rcases hk' with hk' | hk'
                · exact absurd ⟨hk, hk'⟩ hrr
                · have := hk'.2; omega
              · exact hk.1
            exact h.r3 (t.h3 ⟨ht', hl.symm.trans hl1⟩).1 i x hx ⟨hx1, hl1, hw⟩
          · have hr : x.kind = .read := by
              rcases hk with hk | hk
              · exact hk
              · have := hk.2; omega
            have hw : e.kind = .write := by
              rcases hk' with hk' | hk'
              · exact absurd ⟨hr, hk'⟩ hrr
              · exact hk'.1
            exact absurd ⟨hx1, hl1⟩ (h.t1 (t.h6 ⟨ht', hl.symm.trans hl1, hw⟩).1 i x hx)
        · have hx0 : x.tid = 0 := by omega
          rw [ht']
          rcases hl1 with hl1 | hl1 | hl1
          · exact h.d3 (t.h2 ⟨ht', hl.symm.trans hl1⟩).1 i x hx ⟨hx0, hl1⟩
          · have hr : x.kind = .read := by
              rcases hk with hk | hk
              · exact hk
              · have := hk.2; omega
            have hw : e.kind = .write := by
              rcases hk' with hk' | hk'
              · exact absurd ⟨hr, hk'⟩ hrr
              · exact hk'.1
            exact absurd ⟨hx0, hl1⟩ (h.r1 (t.h4 ⟨ht', hl.symm.trans hl1, hw⟩).1 i x hx)
          · have hw : x.kind = .write := by
              rcases hk with hk | hk
              · rcases hk' with hk' | hk'
                · exact absurd ⟨hk, hk'⟩ hrr
                · have := hk'.2; omega
              · exact hk.1
            exact h.t3 (t.h5 ⟨ht', hl.symm.trans hl1⟩).1 i x hx ⟨hx0, hl1, hw⟩
      · omega
    · omega

theorem sane_append {sl : Bool} {tr : List Ev} (h : ∀ (i : Nat) (e : Ev), tr[i]? = some e → Sane sl e) {f : Ev} (hf : Sane sl f) :
    ∀ (i : Nat) (e : Ev), (tr ++ [f])[i]? = some e → Sane sl e := by
  intro i e he
  rcases get_append he with he | ⟨-, rfl⟩
  · exact h i e he
  · exact hf

/-- Accesses of the state word conflict with nothing but the release. -/
theorem atomic_conflict {sl : Bool} {tr : List Ev} (hsane : ∀ (i : Nat) (e : Ev), tr[i]? = some e → Sane sl e)
    (hnf : Nones tr (fun e => e.kind = .free)) {e : Ev} (he : e.loc = 0) (ha : e.kind.atomic = true) :
    ∀ (i : Nat) (x : Ev), tr[i]? = some x → ¬ Conflict x e := by
  intro i x hx ⟨_, hc⟩
  rcases hc with hc | hc | ⟨hl, -, haa⟩
  · exact absurd hc (hnf i x hx)
  · rw [hc] at ha; cases ha
  · rcases (hsane i x hx).2 with ⟨-, h, -⟩ | ⟨-, h⟩ | ⟨h, -⟩ | ⟨-, h, -⟩
    · exact absurd ⟨h, ha⟩ haa
    · exact absurd h (hnf i x hx)
    · omega
    · omega

/-! ### Up to the last update of the state word -/

/-- Access `i` is one of thread `t`, not after its last update of the state word. -/
def Early (tr : List Ev) (t i : Nat) : Prop :=
  ∃ e, tr[i]? = some e ∧ e.tid = t ∧ ∃ (m : Nat) (e' : Ev), i ≤ m ∧ tr[m]? = some e' ∧ e'.tid = t ∧ e'.kind.atomic = true

theorem early_append {tr : List Ev} {f : Ev} {t i : Nat} (h : f.tid = t → f.kind.atomic = false)
    (hi : Early (tr ++ [f]) t i) : Early tr t i := by
  obtain ⟨e, he, ht, m, e', him, he', ht', ha⟩ := hi
  rcases get_append he' with he' | ⟨rfl, rfl⟩
  · refine ⟨e, ?_, ht, m, e', him, he', ht', ha⟩
    rwa [List.getElem?_append_left (by have := (List.getElem?_eq_some_iff.1 he').1; omega)] at he
  · rw [h ht'] at ha; cases ha

/-- `D t`: thread `t` has updated the state word for the last time; `K t`: and it has seen that the other one has, too. -/
structure LF (tr : List Ev) (D K : Nat → Bool) : Prop where
  l : ∀ t, D t = true → ∀ i, Early tr t i → Last tr 0 i
  k : ∀ t, K t = true → ∀ i, Early tr (1 - t) i → Know tr t i

/-- What an access does to `D` and `K`. -/
structure StepD (D K D' K' : Nat → Bool) (f : Ev) : Prop where
  h1 : D f.tid = true → f.kind.atomic = false
  h2 : D' f.tid = true → D f.tid = true ∨ (f.writes 0 = true ∧ f.rel = true)
  h3 : K' f.tid = true → K f.tid = true ∨ (D (1 - f.tid) = true ∧ f.loc = 0 ∧ ∃ r, f.kind = .rmw true r)
  h4 : f.kind = .free → K f.tid = true
  h5 : ∀ u, u ≠ f.tid → D' u = D u ∧ K' u = K u

theorem LF.step {tr : List Ev} {D K D' K' : Nat → Bool} (h : LF tr D K) {f : Ev} (ht : f.tid ≤ 1)
    (hs : ∀ b, f.kind ≠ .store b) (h0 : ∀ u, 1 < u → K' u = false) (sd : StepD D K D' K' f)
    (h4 : K (1 - f.tid) = true → D f.tid = true) : LF (tr ++ [f]) D' K' := by
  have ns : f.isStore 0 = false := by
    unfold Ev.isStore
    cases hk : f.kind with
    | store b => exact absurd hk (hs b)
    | _ => simp
  have keep : ∀ i, Last tr 0 i → Last (tr ++ [f]) 0 i := by
    intro i hl
    rw [last_append]
    split
    · exact .inl ⟨ns, hl⟩
    · exact hl
  refine ⟨fun t hd i hi => ?_, fun t hk i hi => ?_⟩
  · by_cases e : t = f.tid
    · subst e
      rcases sd.h2 hd with hd | ⟨hw, hr⟩
      · exact keep i (h.l _ hd i (early_append (fun _ => sd.h1 hd) hi))
      · rw [last_append, if_pos hw]
        obtain ⟨x, hx, hxt, -⟩ := hi
        exact .inr ⟨hr, i, x, hx, hxt, .inl rfl⟩
    · rw [(sd.h5 t e).1] at hd
      exact keep i (h.l t hd i (early_append (fun he => absurd he.symm e) hi))
  · by_cases e : t = f.tid
    · subst e
      have hi' : Early tr (1 - f.tid) i := early_append (fun he => by omega) hi
      rcases sd.h3 hk with hk | ⟨hd, hl, r, hr⟩
      · exact know_append.2 (.inl (h.k _ hk i hi'))
      · refine know_append.2 (.inr ⟨rfl, .inr ⟨by simp [Ev.acq, hr], ?_⟩⟩)
        have : src tr f = cnt tr 0 := by simp [src, hr, hl]
        rw [hl, this]; exact h.l _ hd i hi'
    · have ht1 : t ≤ 1 := by
        rcases Nat.lt_or_ge 1 t with h | h
        · rw [h0 t h] at hk; cases hk
        · exact h
      rw [(sd.h5 t e).2] at hk
      have : t = 1 - f.tid := by omega
      subst this
      have hd := h4 hk
      exact know_append.2 (.inl (h.k _ hk i (early_append (fun _ => sd.h1 hd) hi)))

/-! ### As a machine -/

/-- Everything that is known about the trace. `dr`: giving up an end releases. -/
structure DOwn (sl : Bool) (dr : Prop) (tr : List Ev) (f : Fl) (alive : Bool) (D K : Nat → Bool) : Prop where
  sane : ∀ (i : Nat) (e : Ev), tr[i]? = some e → Sane sl e
  of : OF tr f
  nf : alive = true → Nones tr (fun e => e.kind = .free)
  lf : dr → LF tr D K

/-- Races with the release, or of slots. -/
def DAllow (sl : Bool) (dr : Prop) (tr : List Ev) (i : Nat) (f : Ev) : Prop :=
  (f.kind = .free ∧ (dr → ¬ Early tr (1 - f.tid) i)) ∨ (sl = true ∧ 4 ≤ f.loc)

variable {S W A : Type}

/-- What has to be shown of a channel. -/
structure Duo (M : Machine S W A) (Good Doom : S → Prop) (flags : S → Fl) (alive : S → Bool) (dn kn : S → Nat → Bool)
    (ok : Nat → S → Nat → W → Prop) (sl : Bool) (dr : Prop) : Prop where
  init : Good M.init ∧ (∀ t l, ok t M.init l (M.word M.init l)) ∧ (∀ t, dn M.init t = false ∧ kn M.init t = false)
  call : ∀ {s} a, Good s → Good (M.call s a) ∧ Mono (flags s) (flags (M.call s a)) ∧ (alive (M.call s a) = alive s) ∧
    (dn (M.call s a) = dn s) ∧ (kn (M.call s a) = kn s) ∧ ∀ t l v, ok t s l v → ok t (M.call s a) l v
  doomCall : ∀ {s} a, Doom s → M.call s a = s
  doomStep : ∀ {s t a}, Doom s → M.acc t s = some a → M.step t s = none ∧ ∀ l v, M.step t (M.setWord s l v) = none
  kn0 : ∀ s u, 1 < u → kn s u = false
  knd : ∀ {s t}, Good s → (t = 0 ∨ t = 1) → kn s (1 - t) = true → dn s t = true
  load : ∀ {s t l a v s'} k, Good s → M.acc t s = some (.load l a) → ok t s l v → M.step t (M.setWord s l v) = some s' →
    (t = 0 ∨ t = 1) ∧ l = 0 ∧ a = false ∧ alive s = true ∧
    Good (M.setWord s' l (M.word s l)) ∧ TransA (flags s) (flags (M.setWord s' l (M.word s l))) ⟨t, l, .load a k⟩ ∧
    (dr → StepD (dn s) (kn s) (dn (M.setWord s' l (M.word s l))) (kn (M.setWord s' l (M.word s l))) ⟨t, l, .load a k⟩) ∧
    ∀ u m v, ok u s m v → ok u (M.setWord s' l (M.word s l)) m v
  rmw : ∀ {s t l o s'}, Good s → M.acc t s = some (.rmw l o) → M.step t s = some s' →
    (t = 0 ∨ t = 1) ∧ l = 0 ∧ alive s = true ∧ (Good s' ∨ Doom s') ∧ TransA (flags s) (flags s') ⟨t, l, .rmw o.acq o.rel⟩ ∧
    (dr → StepD (dn s) (kn s) (dn s') (kn s') ⟨t, l, .rmw o.acq o.rel⟩) ∧
    (∀ u m v, ok u s m v → (u = t → l ≠ m) → ok u s' m v) ∧ ∀ u, ok u s' l (M.word s' l)
  other : ∀ {s t l k s'}, Good s → M.acc t s = some (.other l k) → M.step t s = some s' →
    Sane sl ⟨t, l, k⟩ ∧ k.atomic = false ∧ alive s = true ∧ (k = .free → alive s' = false) ∧
    (Good s' ∨ Doom s') ∧ TransO (flags s) (flags s') ⟨t, l, k⟩ ∧ (dr → StepD (dn s) (kn s) (dn s') (kn s') ⟨t, l, k⟩) ∧
    ∀ u m v, ok u s m v → ok u s' m v
  store : ∀ {s t l r}, M.acc t s ≠ some (.store l r)
  two : ∀ {s t a}, M.acc t s = some a → t = 0 ∨ t = 1

variable {M : Machine S W A} {Good Doom : S → Prop} {flags : S → Fl} {alive : S → Bool} {dn kn : S → Nat → Bool}
    {ok : Nat → S → Nat → W → Prop} {sl : Bool} {dr : Prop}

theorem Duo.sound (h : Duo M Good Doom flags alive dn kn ok sl dr) :
    Sound M Good Doom (fun tr s => DOwn sl dr tr (flags s) (alive s) (dn s) (kn s)) ok (DAllow sl dr) := by
  refine ⟨⟨h.init.1, ⟨(fun i e h => nomatch h), ?_, (fun _ i e h => nomatch h), fun _ => ⟨fun t hd => ?_, fun t hk => ?_⟩⟩, h.init.2.1⟩,
    fun {tr s} a hg ho => ?_, h.doomCall, h.doomStep, fun {tr s t l a v s'} k hg ho ha hok hk hs => ?_,
    fun {tr s t a s'} hg ho ha hl hs => ?_⟩
  · exact ⟨(fun _ i e h => nomatch h), (fun _ i e h => nomatch h), (fun _ i e h => nomatch h), (fun _ i e h => nomatch h),
      (fun _ i e h => nomatch h), (fun _ i e h => nomatch h), (fun _ i e h => nomatch h), (fun _ i e h => nomatch h),
      (fun _ i e h => nomatch h)⟩
  · have := (h.init.2.2 t).1; rw [this] at hd; cases hd
  · have := (h.init.2.2 t).2; rw [this] at hk; cases hk
  · obtain ⟨h1, h2, h3, h4, h5, h6⟩ := h.call a hg
    refine ⟨h1, ⟨ho.sane, ho.of.mono h2, by rw [h3]; exact ho.nf, by rw [h4, h5]; exact ho.lf⟩, h6⟩
  · obtain ⟨h1, rfl, rfl, h4, h5, h6, h7, h8⟩ := h.load k hg ha hok hs
    have hsane : Sane sl ⟨t, 0, .load false k⟩ := ⟨h1, .inl ⟨rfl, rfl, by simp⟩⟩
    refine ⟨h5, ⟨sane_append ho.sane hsane, ho.of.atomic rfl (by simp) (fun h => nomatch h) h6, fun _ => (ho.nf h4).append (by simp),
      fun d => (ho.lf d).step (f := ⟨t, 0, .load false k⟩) (by dsimp only; omega) (by simp) (fun u hu => h.kn0 _ u hu) (h7 d) (h.knd hg h1)⟩,
      fun i x hx hc => absurd hc (atomic_conflict ho.sane (ho.nf h4) rfl rfl i x hx), h8⟩
  · match a, ha, hl with
    | .load l b, _, hl => exact absurd rfl (hl l b)
    | .store l r, ha, _ => exact absurd ha h.store
    | .rmw l o, ha, _ =>
      obtain ⟨h1, rfl, h4, h5, h6, h7, h8, h9⟩ := h.rmw hg ha hs
      have hsane : Sane sl ⟨t, 0, .rmw o.acq o.rel⟩ := ⟨h1, .inl ⟨rfl, rfl, by simp⟩⟩
      refine ⟨?_, fun i x hx hc => absurd hc (atomic_conflict ho.sane (ho.nf h4) rfl rfl i x hx)⟩
      rcases h5 with h5 | h5
      · refine .inl ⟨h5, ⟨sane_append ho.sane hsane, ho.of.atomic rfl (by simp [Acc.ev]) (fun _ => rfl) h6,
          fun _ => (ho.nf h4).append (by simp [Acc.ev]),
          fun d => (ho.lf d).step (f := ⟨t, 0, .rmw o.acq o.rel⟩) (by dsimp only; omega) (by simp) (fun u hu => h.kn0 _ u hu) (h7 d) (h.knd hg h1)⟩,
          fun u m v hv hu => h8 u m v hv (fun e => ?_), fun u m hm => ?_⟩
        · have := hu e
          simpa [Acc.wr] using this
        · simp only [Acc.wr, Option.some.injEq] at hm
          subst hm
          exact h9 u
      · exact .inr h5
    | .other l k, ha, _ =>
      obtain ⟨h1, h2, h3, h4, h5, h6, h7, h8⟩ := h.other hg ha hs
      have h1' := h1.1
      dsimp only at h1'
      refine ⟨?_, fun i x hx hc => ?_⟩
      · rcases h5 with h5 | h5
        · refine .inl ⟨h5, ⟨sane_append ho.sane h1, ho.of.other h2 h6,
            fun hal => (ho.nf h3).append (fun hk => ?_),
            fun d => (ho.lf d).step (f := ⟨t, l, k⟩) (by dsimp only; omega) (fun b hb => ?_) (fun u hu => h.kn0 _ u hu) (h7 d) (h.knd hg h1')⟩,
            fun u m v hv _ => h8 u m v hv, fun u m hm => ?_⟩
          · rw [h4 hk] at hal; cases hal
          · dsimp only at hb; rw [hb] at h2; cases h2
          · simp [Acc.wr] at hm
        · exact .inr h5
      · rcases conflict_cases ho.of ho.sane (ho.nf h3) h1 h6 i x hx hc with hk | hk | hk
        · exact .inl (hb_last.2 (.inl hk))
        · by_cases hb : Hb (tr ++ [(Acc.other l k).ev t 0]) i tr.length
          · exact .inl hb
          · refine .inr (.inl ⟨hk, fun d he => hb (hb_last.2 (.inl ?_))⟩)
            exact (ho.lf d).k t ((h7 d).h4 hk) i he
        · exact .inr (.inr hk)

/-- Races of a channel. -/
theorem Duo.races (h : Duo M Good Doom flags alive dn kn ok sl dr) (hp : M.Plain) {tr : List Ev} (ht : M.Trace tr) {i j : Nat}
    (hr : Race tr i j) : (WithFree tr j ∧ (dr → LateRace tr i j)) ∨ (sl = true ∧ ∃ f, tr[j]? = some f ∧ 4 ≤ f.loc) := by
  obtain ⟨hij, e, f, he, hf, hc, hn⟩ := hr
  obtain ⟨f', hf', hal⟩ := h.sound.races hp ht ⟨hij, e, f, he, hf, hc, hn⟩
  rw [hf, Option.some.injEq] at hf'
  subst hf'
  rcases hal with ⟨hk, hd⟩ | ⟨h1, h2⟩
  · refine .inl ⟨⟨f, hf, hk⟩, fun d => ⟨e, he, fun m e' h1 h2 h3 h4 => ?_⟩⟩
    cases ha : e'.kind.atomic
    · rfl
    · exfalso
      have hs := trace_all (P := fun e => e.tid = 0 ∨ e.tid = 1) (fun t s a k ha => by cases a <;> exact h.two ha) ht
      have h5 := hs i e he
      have h6 := hs j f hf
      have h7 := hc.1
      have h8 : e.tid = 1 - f.tid := by omega
      refine hd d ⟨e, by rw [List.getElem?_take_of_lt hij]; exact he, h8, m, e', h1, by rw [List.getElem?_take_of_lt h2]; exact h3,
        by rw [h4, h8], ha⟩
  · exact .inr ⟨h1, f, hf, h2⟩

end Verif.Order
