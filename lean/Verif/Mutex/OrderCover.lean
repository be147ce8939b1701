import Verif.Mutex.OrderSound
import Verif.Mutex.OrderSpec
/-! # The mutex with memory orderings: results -/
namespace Verif.Mutex.Order

open Verif.Order

variable {o : Ords}

theorem plain : (machine o).Plain := by
  intro t s l k h
  simp only [machine, acc] at h
  split at h
  · simp only [Option.some.injEq, Acc.other.injEq] at h; rw [← h.2]; rfl
  · split at h
    · simp only [Option.some.injEq, Acc.other.injEq] at h; rw [← h.2]; rfl
    · unfold accPc at h
      (repeat' split at h) <;> simp only [Option.some.injEq, reduceCtorEq, Acc.other.injEq] at h <;> rw [← h.2] <;> rfl

theorem sound (ho : Most o) : Sound (machine o) Good (fun _ => False) Own (fun _ _ _ _ => True) Allow where
  init := ⟨init_own.1, init_own.2, fun _ _ => trivial⟩
  call a g w := ⟨(call_own g w a).1, (call_own g w a).2, fun _ _ _ _ => trivial⟩
  doomCall a h := h.elim
  doomStep h := h.elim
  load k g w ha _ _ hs := by
    obtain ⟨h1, h2, h3⟩ := load_own k g w ha hs
    exact ⟨h1, h2, h3, fun _ _ _ _ => trivial⟩
  step g w ha hl hs := by
    obtain ⟨h1, h2, h3⟩ := step_own ho g w ha hl hs
    exact ⟨.inl ⟨h1, h2, fun _ _ _ _ _ => trivial, fun _ _ _ => trivial⟩, h3⟩

/-! ### The data only -/

/-- Accesses to the data. -/
def IsData (e : Ev) : Prop := e.loc = dataLoc

structure GoodD (s : OState) : Prop where
  inv : InvO s.base
  use : ∀ p, s.use p = true → (s.base.client p).pc = .idle ∧ 0 < (s.base.client p).guards

structure OwnD (tr : List Ev) (s : OState) : Prop where
  free : s.base.locked = false → Lasts tr lockLoc IsData
  held : ∀ p, own (s.base.client p) = 1 → Knows tr p IsData
  evs : ∀ (i : Nat) (e : Ev), tr[i]? = some e → e.kind ≠ .free

def AllowD (_ : List Ev) (_ : Nat) (f : Ev) : Prop := f.loc ≠ dataLoc ∨ f.kind = .free

theorem ordD {tr : List Ev} {f : Ev} (h : f.loc = dataLoc → Knows tr f.tid IsData) (h2 : ∀ (i : Nat) (e : Ev), tr[i]? = some e → e.kind ≠ .free) :
    Ordered AllowD tr f := by
  intro i e he hc
  by_cases hl : f.loc = dataLoc
  · have h1 := h hl
    rcases hc with ⟨-, h | h | ⟨h, -⟩⟩
    · exact absurd h (h2 i e he)
    · exact .inr (.inr h)
    · exact .inl (hb_last.2 (.inl (h1 i e he (h.trans hl))))
  · exact .inr (.inl hl)

/-- What a step does with the lock. -/
theorem pstep_lock {b b' : State} {p : Nat} (i : InvO b) (hs : pstep b p = some b') :
    (b'.locked = b.locked ∧ (∀ q, own (b'.client q) = own (b.client q)) ∧ ∀ nw, (b.client p).pc ≠ .ulStore nw) ∨
    (b.locked = false ∧ b'.locked = true ∧ (∀ q, own (b'.client q) = 1 → q = p) ∧
      ((b.client p).pc = .tl ∨ (∃ w, (b.client p).pc = .p1 w) ∨ (b.client p).pc = .p2 ∨ (b.client p).pc = .dTry)) ∨
    (own (b.client p) = 1 ∧ (∀ q, own (b'.client q) = 0) ∧ ∃ nw, (b.client p).pc = .ulStore nw) := by
  have hi := pstep_invO i hs
  have same : ∀ {c : Client}, b'.client = upd b.client p c → own c = own (b.client p) → ∀ q, own (b'.client q) = own (b.client q) := by
    intro c h1 h2 q
    rw [h1, upd_apply]
    split
    · rename_i e; rw [e, h2]
    · rfl
  have acq : ∀ {c : Client}, b.locked = false → b'.client = upd b.client p c → ∀ q, own (b'.client q) = 1 → q = p := by
    intro c h1 h2 q h
    rw [h2, upd_apply] at h
    split at h
    · assumption
    · rw [i.unlocked h1] at h; cases h
  unfold pstep at hs
  simp only at hs
  cases hpc : (b.client p).pc <;> simp only [hpc] at hs
  case ulStore nw =>
    refine .inr (.inr ⟨?_, fun q => hi.unlocked ?_ q, nw, rfl⟩)
    · have := i.le p
      simp only [own, hpc, Pc.unl] at this ⊢
      omega
    · split at hs <;> simp only [Option.some.injEq] at hs <;> subst hs <;> rfl
  all_goals
    step_cases <;>
    simp only [Option.some.injEq, reduceCtorEq] at hs <;> (try subst hs) <;>
    first
    | exact .inl ⟨rfl, fun q => rfl, by simp⟩
    | exact .inl ⟨rfl, same rfl (by simp only [own, hpc, Pc.unl]; done), by simp⟩
    | exact .inr (.inl ⟨by simp_all, rfl, acq (by simp_all) rfl, by simp⟩)

theorem pstep_ne {b b' : State} {p q : Nat} (hs : pstep b p = some b') (hq : q ≠ p) : b'.client q = b.client q := by
  unfold pstep at hs
  simp only at hs
  cases hpc : (b.client p).pc <;> simp only [hpc] at hs <;>
    step_cases <;>
    simp only [Option.some.injEq, reduceCtorEq] at hs <;> (try subst hs) <;>
    first
    | rfl
    | simp only [upd_apply, if_neg hq]

/-- The access to the lock at `pc`. -/
def LockEv (o : Ords) (pc : Pc) (p : Nat) (f : Ev) : Prop :=
  (pc = .tl ∨ (∃ w, pc = .p1 w) ∨ pc = .p2 ∨ pc = .dTry → f = ⟨p, lockLoc, .rmw o.lock.acq o.lock.rel⟩) ∧
  ((∃ nw, pc = .ulStore nw) → f = ⟨p, lockLoc, .store o.unlock⟩) ∧ ((∀ nw, pc ≠ .ulStore nw) → f.isStore lockLoc = false)

/-- A step that does not use the guard. -/
theorem stepD {s s' : OState} {tr : List Ev} {p : Nat} {f : Ev} {b0 b1 : State} (hd : DataOrds o) (g : GoodD s) (w : OwnD tr s)
    (h1 : b0.locked = s.base.locked) (h2 : b0.client = s.base.client) (h3 : s'.base.locked = b1.locked) (h4 : s'.base.client = b1.client)
    (h5 : s'.use = s.use) (hu : s.use p = false) (ht : f.tid = p) (hl : f.loc ≠ dataLoc) (hk : f.kind ≠ .free)
    (hb : (b1 = b0 ∧ f.isStore lockLoc = false) ∨ (pstep b0 p = some b1 ∧ LockEv o (s.base.client p).pc p f)) :
    GoodD s' ∧ OwnD (tr ++ [f]) s' ∧ Ordered AllowD tr f := by
  have i0 : InvO b0 := ⟨by rw [h1, h2]; exact g.inv.own, by rw [h2]; exact g.inv.tk⟩
  have i1 : InvO b1 := by
    rcases hb with ⟨rfl, -⟩ | ⟨hb, -⟩
    · exact i0
    · exact pstep_invO i0 hb
  have hne : ∀ q, q ≠ p → b1.client q = s.base.client q := by
    intro q hq
    rw [← h2]
    rcases hb with ⟨rfl, -⟩ | ⟨hb, -⟩
    · rfl
    · exact pstep_ne hb hq
  have evs : ∀ (i : Nat) (e : Ev), (tr ++ [f])[i]? = some e → e.kind ≠ .free := by
    intro i e he
    rcases get_append he with he | ⟨-, rfl⟩
    · exact w.evs i e he
    · exact hk
  refine ⟨⟨⟨by rw [h3, h4]; exact i1.own, by rw [h4]; exact i1.tk⟩, fun q hq => ?_⟩, ?_, ordD (fun h => absurd h hl) w.evs⟩
  · rw [h5] at hq
    rw [h4, hne q (fun e => by rw [e, hu] at hq; cases hq)]
    exact g.use q hq
  · have same : s'.base.locked = s.base.locked → (∀ q, own (s'.base.client q) = own (s.base.client q)) → f.isStore lockLoc = false →
        OwnD (tr ++ [f]) s' := fun e1 e2 e3 =>
      ⟨fun h => (w.free (e1 ▸ h)).append hl e3, fun q h => (w.held q (e2 q ▸ h)).append fun h => absurd h hl, evs⟩
    rcases hb with ⟨rfl, hns⟩ | ⟨hb, ha, hst, hns⟩
    · exact same (h3.trans h1) (fun q => by rw [h4, h2]) hns
    · rcases pstep_lock i0 hb with ⟨e1, e2, e3⟩ | ⟨e1, e2, e3, e4⟩ | ⟨e1, e2, e3⟩
      · rw [h2] at e2 e3
        exact same (by rw [h3, e1, h1]) (fun q => by rw [h4, e2]) (hns e3)
      · rw [h2] at e4
        rw [h1] at e1
        have hf := ha e4
        refine ⟨fun h => (by rw [h3, e2] at h; cases h), fun q h => ?_, evs⟩
        rw [h4] at h
        rw [e3 q h, hf]
        exact Lasts.acquire (f := ⟨p, lockLoc, .rmw o.lock.acq o.lock.rel⟩) (w.free e1) hd.lock rfl
      · rw [h2] at e1 e3
        have hf := hst e3
        refine ⟨fun _ => ?_, fun q h => (by rw [h4, e2] at h; cases h), evs⟩
        rw [hf]
        refine Knows.release (f := ⟨p, lockLoc, .store o.unlock⟩) ((w.held p e1).append fun h => absurd h (by simp [IsData, lockLoc, dataLoc])) ?_ hd.unlock
        simp [Ev.writes]

theorem accPc_lock {s : OState} {p k : Nat} {a : Acc} (h : accPc o s p (s.base.client p).pc = some a) :
    LockEv o (s.base.client p).pc p (a.ev p k) ∧ (a.ev p k).tid = p ∧ (a.ev p k).loc ≠ dataLoc ∧ (a.ev p k).kind ≠ .free := by
  have h1 : ∀ n, tk n ≠ dataLoc := fun n => by unfold tk dataLoc; omega
  have h2 : ∀ n, wk n ≠ dataLoc := fun n => by unfold wk dataLoc; omega
  have h3 : ∀ {l : Nat} {x : Kind}, (∀ r, x ≠ .store r) → (⟨p, l, x⟩ : Ev).isStore lockLoc = false := store_tk
  unfold accPc at h
  generalize (s.base.client p).pc = pc at h
  (repeat' split at h) <;> simp only [Option.some.injEq, reduceCtorEq] at h <;> subst h <;>
    refine ⟨⟨?_, ?_, ?_⟩, rfl, ?_, ?_⟩ <;> simp [Acc.ev, h1, h2, lockLoc, headLoc, dataLoc, noLoc] <;> (try first | exact h3 (by simp) | exact h1 _ | exact h2 _)

theorem load_tk {s : OState} {p l : Nat} {a : Bool} (h : acc o p s = some (.load l a)) :
    s.use p = false ∧ s.rel p = none ∧ accPc o s p (s.base.client p).pc = some (.load l a) ∧ ∃ n, l = tk n ∧
      ((∃ w, (s.base.client p).pc = .pchk w n) ∨ (∃ r, (s.base.client p).pc = .ulDrain (n :: r)) ∨
        ∃ r, (s.base.client p).pc = .ulCut n r ∧ s.sub p = 0) := by
  unfold acc at h
  split at h
  · cases h
  · rename_i hu
    split at h
    · cases h
    · rename_i hr
      refine ⟨by simpa using hu, hr, h, ?_⟩
      unfold accPc at h
      (repeat' split at h) <;> simp only [Option.some.injEq, reduceCtorEq, Acc.load.injEq] at h <;> simp_all

theorem soundD (hd : DataOrds o) : Sound (machine o) GoodD (fun _ => False) OwnD (fun _ _ _ _ => True) AllowD where
  init := ⟨⟨init_invO, by simp [machine, oinit]⟩, ⟨fun h i e he => by simp at he, fun q h i e he => by simp at he, fun i e he => by simp at he⟩,
    fun _ _ => trivial⟩
  call {tr s} a g w := by
    refine (fun h => ⟨h.1, h.2, fun _ _ _ _ => trivial⟩) (?_ : GoodD (ocall s a) ∧ OwnD tr (ocall s a))
    have hg := g.inv
    cases a with
    | op p op =>
      unfold ocall
      simp only
      split
      · exact ⟨g, w⟩
      · rename_i hu
        simp only [Bool.not_eq_true] at hu
        have hc := call_invO g.inv p op
        have hk : (call s.base p op).locked = s.base.locked ∧ (∀ q, own ((call s.base p op).client q) = own (s.base.client q)) ∧
            ∀ q, q ≠ p → (call s.base p op).client q = s.base.client q := by
          unfold call
          simp only
          split
          · exact ⟨rfl, fun _ => rfl, fun _ _ => rfl⟩
          · rename_i hi
            simp only [Classical.not_not] at hi
            cases op <;> simp only <;> (repeat' split) <;>
              first
              | exact ⟨rfl, fun _ => rfl, fun _ _ => rfl⟩
              | (refine ⟨rfl, fun q => ?_, fun q hq => ?_⟩ <;> simp only [State.emit, State.setC, State.goto, upd_apply]
                 · split
                   · rename_i e; subst e; simp only [own, hi, Pc.unl] <;> omega
                   · rfl
                 · rw [if_neg hq])
        refine ⟨⟨hc, fun q hq => ?_⟩, ⟨fun h => w.free (hk.1 ▸ h), fun q h => w.held q (hk.2.1 q ▸ h), w.evs⟩⟩
        show (((call s.base p op).client q).pc = _ ∧ _)
        rw [hk.2.2 q (fun e => by simp only at hq; rw [e, hu] at hq; cases hq)]
        exact g.use q hq
    | access p =>
      unfold ocall
      simp only
      split
      · rename_i h
        refine ⟨⟨g.inv, fun q hq => ?_⟩, ⟨w.free, w.held, w.evs⟩⟩
        simp only [upd_apply] at hq
        split at hq
        · rename_i e; subst e; exact h
        · exact g.use q hq
      · exact ⟨g, w⟩
  doomCall a h := h.elim
  doomStep h := h.elim
  load {tr s t l a v s'} k g w ha _ _ hs := by
    refine (fun h => ⟨h.1, h.2.1, h.2.2, fun _ _ _ _ => trivial⟩)
      (?_ : GoodD (setWord s' l (word s l)) ∧ OwnD (tr ++ [⟨t, l, .load a k⟩]) (setWord s' l (word s l)) ∧ Ordered AllowD tr ⟨t, l, .load a k⟩)
    change acc o t s = some _ at ha
    change ostep t (setWord s l v) = some s' at hs
    obtain ⟨hu, hr, hac, n, rfl, hp⟩ := load_tk ha
    obtain ⟨h1, h2, h3, h4⟩ := accPc_lock (k := k) hac
    rw [setWord_tk] at hs ⊢
    rcases hp with ⟨x, hpc⟩ | ⟨r, hpc⟩ | ⟨r, hpc, hsub⟩
    · simp only [ostep, hu, hr, hpc, State.setN, Bool.false_eq_true, if_false] at hs
      obtain ⟨b, hb, rfl⟩ := Option.map_eq_some_iff.1 hs
      exact stepD hd g w (b0 := s.base.setN n { s.base.node n with taken := v }) (b1 := b) rfl rfl rfl rfl rfl hu h2 h3 h4 (.inr ⟨hb, h1⟩)
    · simp only [ostep, hu, hr, hpc, State.setN, Bool.false_eq_true, if_false] at hs
      obtain ⟨b, hb, rfl⟩ := Option.map_eq_some_iff.1 hs
      exact stepD hd g w (b0 := s.base.setN n { s.base.node n with taken := v }) (b1 := b) rfl rfl rfl rfl rfl hu h2 h3 h4 (.inr ⟨hb, h1⟩)
    · simp only [ostep, hu, hr, hpc, hsub, State.setN, upd_apply, Bool.false_eq_true, if_false, if_true] at hs
      split at hs <;> simp only [Option.some.injEq, reduceCtorEq] at hs
      subst hs
      exact stepD hd g w (b0 := s.base) (b1 := s.base) rfl rfl rfl rfl rfl hu h2 h3 h4 (.inl ⟨rfl, h1.2.2 (by simp [hpc])⟩)
  step {tr s t a s'} g w ha hl hs := by
    refine (fun h => ⟨.inl ⟨h.1, h.2.1, fun _ _ _ _ _ => trivial, fun _ _ _ => trivial⟩, h.2.2⟩)
      (?_ : GoodD s' ∧ OwnD (tr ++ [a.ev t 0]) s' ∧ Ordered AllowD tr (a.ev t 0))
    change acc o t s = some a at ha
    change ostep t s = some s' at hs
    unfold acc at ha
    split at ha
    · rename_i hu
      simp only [Option.some.injEq] at ha
      subst ha
      simp only [ostep, hu, if_true, Option.some.injEq] at hs
      subst hs
      obtain ⟨h1, h2⟩ := g.use t hu
      have hown : own (s.base.client t) = 1 := by
        have := g.inv.le t
        unfold own at *
        omega
      refine ⟨⟨g.inv, fun q hq => ?_⟩, ⟨fun h => ?_, fun q h => ?_, fun i e he => ?_⟩, ordD (fun _ => w.held t hown) w.evs⟩
      · simp only [upd_apply] at hq
        split at hq
        · cases hq
        · exact g.use q hq
      · have := g.inv.unlocked h t
        rw [hown] at this; cases this
      · exact (w.held q h).append fun _ => g.inv.uniq (by rw [h]; simp) (by rw [show (Acc.ev t 0 (.other dataLoc .write)).tid = t from rfl, hown]; simp)
      · rcases get_append he with he | ⟨-, rfl⟩
        · exact w.evs i e he
        · simp [Acc.ev]
    · rename_i hu
      simp only [Bool.not_eq_true] at hu
      split at ha
      · rename_i n hr
        simp only [Option.some.injEq] at ha
        subst ha
        simp only [ostep, hu, Bool.false_eq_true, if_false, hr, Option.some.injEq] at hs
        subst hs
        exact stepD hd g w (b0 := s.base) (b1 := s.base) rfl rfl rfl rfl rfl hu rfl (by simp only [Acc.ev]; unfold wk dataLoc; omega) (by simp [Acc.ev])
          (.inl ⟨rfl, by simp [Acc.ev, Ev.isStore]⟩)
      · rename_i hr
        obtain ⟨h1, h2, h3, h4⟩ := accPc_lock (k := 0) ha
        simp only [ostep, hu, hr, Bool.false_eq_true, if_false] at hs
        cases hpc : (s.base.client t).pc <;> simp only [hpc] at hs
        case ppush x =>
          (repeat' split at hs)
          · simp only [Option.some.injEq] at hs
            subst hs
            exact stepD hd g w (b0 := s.base) (b1 := s.base) rfl rfl rfl rfl rfl hu h2 h3 h4 (.inl ⟨rfl, h1.2.2 (by simp [hpc])⟩)
          · simp only [Option.some.injEq] at hs
            subst hs
            exact stepD hd g w (b0 := s.base) (b1 := s.base) rfl rfl rfl rfl rfl hu h2 h3 h4 (.inl ⟨rfl, h1.2.2 (by simp [hpc])⟩)
          · obtain ⟨b, hb, rfl⟩ := Option.map_eq_some_iff.1 hs
            exact stepD hd g w (b0 := { s.base with next := s.tag t }) (b1 := b) rfl rfl rfl rfl rfl hu h2 h3 h4 (.inr ⟨hb, h1⟩)
        case ulCut n r =>
          (repeat' split at hs)
          · cases hs
          · simp only [Option.some.injEq] at hs
            subst hs
            exact stepD hd g w (b0 := s.base) (b1 := s.base) rfl rfl rfl rfl rfl hu h2 h3 h4 (.inl ⟨rfl, h1.2.2 (by simp [hpc])⟩)
          · obtain ⟨b, hb, rfl⟩ := Option.map_eq_some_iff.1 hs
            exact stepD hd g w rfl rfl rfl rfl rfl hu h2 h3 h4 (.inr ⟨hb, h1⟩)
        all_goals
          obtain ⟨b, hb, rfl⟩ := Option.map_eq_some_iff.1 hs
          exact stepD hd g w rfl rfl rfl rfl rfl hu h2 h3 h4 (.inr ⟨hb, h1⟩)

end Verif.Mutex.Order
