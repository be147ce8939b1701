import Verif.Exec.LockLemmas
import Verif.Exec.Level
/-! # The invariant of futures that share a mutex -/
namespace Verif.Exec.Lock
open Verif.Soft (upd Frame InvA InvI)
open Verif.Exec (Task upd2 entering inside Due NoOther due_push due_pend pend_eq ret_eq frameStep_due frameStep_inside frameStep_other
  entering_cons noOther_push Level)
open Verif.Mutex (Pc Client wokenSince own pstep call OwnWaker)

/-- Task `k` sleeps with the guard until its signal occurs. -/
structure SleepSig (s : State) (k : Nat) : Prop where
  idle : (s.mutex.client (me k)).pc = .idle
  fut : (s.mutex.client (me k)).fut = false
  own : (s.mutex.client (me k)).guards ≠ 0
  fired : s.fired k (s.task k).pos = false
  waker : s.waker k (s.task k).pos = some (s.task k).thr

/-- Task `k` sleeps until it is woken to take the lock. -/
structure SleepLock (m : Mutex.State) (k : Nat) : Prop where
  idle : (m.client (me k)).pc = .idle
  fut : (m.client (me k)).fut = true
  own : (m.client (me k)).guards = 0
  wtr : (m.client (me k)).waiter ≠ none
  wok : wokenSince (me k) (me k) m.log = false

/-- The mutex was used by clients with wakers of their own. -/
def Reached (m : Mutex.State) : Prop := ∃ acts, OwnWaker acts ∧ Mutex.run Mutex.init acts = some m

/-- Every task that was started sleeps or is about to be polled; `w` is a thread that is about
to be woken. -/
structure Inv (count : Nat) (s : State) (w : Option Nat) : Prop where
  a : InvA count s.soft
  o : NoOther s.soft
  l : Level count s.soft
  reach : Reached s.mutex
  thr : ∀ k, k < s.made → (s.task k).thr < count
  wait : ∀ k, k < s.made → (s.task k).live = true → (s.task k).done = false → SleepSig s k ∨ SleepLock s.mutex k ∨
    k ∈ s.queue (s.task k).thr ∨ Due s.soft (s.task k).thr ∨ w = some (s.task k).thr
  wok : ∀ k, k < s.made → (s.mutex.client (me k)).fut = true → wokenSince (me k) (me k) s.mutex.log = true →
    (k ∈ s.queue (s.task k).thr ∧ (s.mutex.client (me k)).pc = .idle) ∨ Due s.soft (s.task k).thr ∨ w = some (s.task k).thr
  busy : ∀ k, k < s.made → (s.mutex.client (me k)).pc ≠ .idle → k ∈ s.queue (s.task k).thr
  shp : ∀ k, k < s.made → Shape (s.mutex.client (me k))
  new : ∀ k, s.made ≤ k ∨ (s.task k).live = false → s.mutex.client (me k) = ⟨.idle, false, none, 0⟩ ∧ acquisitions (me k) s.mutex.log = 0
  xt : ∀ p, (s.mutex.client (ext p)).fut = false
  acq : ∀ k, k < s.made → acquisitions (me k) s.mutex.log = (s.task k).pos + late (s.mutex.client (me k))
  rnd : ∀ k, k < s.made → (s.mutex.client (me k)).pc ≠ .idle ∨ (s.mutex.client (me k)).fut = true ∨ (s.mutex.client (me k)).guards ≠ 0 →
    (s.task k).pos < (s.task k).len
  len : ∀ k, k < s.made → (s.task k).pos ≤ (s.task k).len
  fin : ∀ k, k < s.made → (s.task k).done = true → (s.task k).pos = (s.task k).len
  wak : ∀ k i t, s.waker k i = some t → k < s.made ∧ t = (s.task k).thr
  que : ∀ t k, k ∈ s.queue t → k < s.made ∧ (s.task k).thr = t ∧ (s.task k).done = false
  nod : ∀ t, (s.queue t).Nodup
  bod : ∀ t, s.queue t ≠ [] → ∃ f ∈ s.soft.stack, inside [f] = some t

theorem init_reached : Reached Mutex.init := ⟨[], by intro p w h; simp at h, rfl⟩

theorem init_inv (count : Nat) {prio : Nat → Nat} (hp : ∀ t, prio t < 27) (fired : Nat → Nat → Bool) : Inv count (init prio fired) none :=
  ⟨Soft.init_invA count hp, by simp [NoOther, init, Soft.init], init_level count prio, init_reached, by simp [init], by simp [init], by simp [init],
    by simp [init], by simp [init], fun _ _ => ⟨rfl, rfl⟩, fun _ => rfl, by simp [init], by simp [init], by simp [init], by simp [init], by simp [init],
    by simp [init], by simp [init], by simp [init]⟩

theorem Reached.step {m m' : Mutex.State} (h : Reached m) {a : Mutex.Act} (ha : ∀ p w, a = .call p (.poll w) → w = p) (hs : Mutex.step m a = some m') :
    Reached m' := by
  obtain ⟨acts, h1, h2⟩ := h
  refine ⟨acts ++ [a], ?_, ?_⟩
  · intro p w hm
    rcases List.mem_append.1 hm with hm | hm
    · exact h1 p w hm
    · simp only [List.mem_singleton] at hm; exact ha p w hm.symm
  · rw [Mutex.run_append h2]; simp only [Mutex.run, hs]

theorem Reached.pstep {m m' : Mutex.State} (h : Reached m) {p : Nat} (hs : pstep m p = some m') : Reached m' :=
  h.step (a := .step p) (by simp) hs

theorem Reached.call {m : Mutex.State} (h : Reached m) {p : Nat} {op : Mutex.Op} (ho : ∀ w, op = .poll w → w = p) : Reached (call m p op) :=
  h.step (a := .call p op) (by intro q w e; simp only [Mutex.Act.call.injEq] at e; obtain ⟨rfl, e⟩ := e; exact ho w e) rfl

theorem Reached.inv {m : Mutex.State} (h : Reached m) : Mutex.Inv m := by
  obtain ⟨acts, -, h⟩ := h
  exact Mutex.run_inv Mutex.init_inv h

theorem Reached.invK {m : Mutex.State} (h : Reached m) : Mutex.InvK m := by
  obtain ⟨acts, ho, h⟩ := h
  exact Mutex.run_own Mutex.init_inv Mutex.init_invK ho h

theorem chain_mem {s : State} {t k : Nat} : k ∈ chain s t ↔ k < s.made ∧ (s.task k).thr = t ∧ (s.task k).done = false := by
  simp [chain]

theorem chain_nodup (s : State) (t : Nat) : (chain s t).Nodup := by
  unfold chain
  exact (List.pairwise_reverse.2 (List.nodup_range.imp Ne.symm)).filter _

/-- The software threads go on. -/
theorem soft_inv {count : Nat} {s : State} {w w' : Option Nat} (i : Inv count s w) {soft : Soft.State} (a : InvA count soft) (o : NoOther soft)
    (l : Level count soft) (due : ∀ t, t < count → Due s.soft t ∨ w = some t → Due soft t ∨ w' = some t)
    (bod : ∀ t, s.queue t ≠ [] → ∃ f ∈ soft.stack, inside [f] = some t) : Inv count { s with soft := soft } w' := by
  obtain ⟨-, -, -, reach, thr, wait, wok, busy, shp, new, xt, acq, rnd, len, fin, wak, que, nod, -⟩ := i
  refine ⟨a, o, l, reach, thr, ?_, ?_, busy, shp, new, xt, acq, rnd, len, fin, wak, que, nod, bod⟩
  · intro k hk hl hd
    rcases wait k hk hl hd with h | h | h | h
    · exact .inl ⟨h.1, h.2, h.3, h.4, h.5⟩
    · exact .inr (.inl h)
    · exact .inr (.inr (.inl h))
    · exact .inr (.inr (.inr (due _ (thr k hk) h)))
  · intro k hk hf hw
    rcases wok k hk hf hw with h | h
    · exact .inl h
    · exact .inr (due _ (thr k hk) h)

theorem level_push {count : Nat} {s : Soft.State} {t : Nat} (l : Level count s) : Level count { s with stack := .req t .load :: s.stack } := by
  refine ⟨l.bit, ?_⟩
  intro f hf
  rcases List.mem_cons.1 hf with rfl | hf
  · trivial
  · exact l.fr f hf

/-- The wake. -/
theorem wake_inv {count : Nat} (hc : count ≤ 32) {s s' : State} {w : Option Nat} (i : Inv count s w) (h : wake count s w = some s') :
    Inv count s' none := by
  cases w with
  | none => simp only [wake, Option.some.injEq] at h; subst h; exact i
  | some t =>
    by_cases ht : t < count
    · have hs := pend_eq (s := s.soft) ht
      have a' := Soft.step_invA hc i.a hs
      simp only [wake, hs, Option.some.injEq] at h
      subst h
      refine soft_inv i a' (noOther_push i.o) (level_push i.l) ?_ ?_
      · intro u _ h
        left
        rcases h with h | h
        · exact due_push h
        · simp only [Option.some.injEq] at h
          rw [← h]
          exact due_pend
      · intro u hu
        obtain ⟨f, hf, h⟩ := i.bod u hu
        exact ⟨f, by simp [hf], h⟩
    · simp only [wake, Soft.step, ht, ↓reduceIte, Option.some.injEq] at h
      subst h
      refine soft_inv i i.a i.o i.l ?_ i.bod
      intro u hu h
      rcases h with h | h
      · exact .inl h
      · simp only [Option.some.injEq] at h
        exact absurd hu (by rw [← h]; exact ht)

theorem act_step {count : Nat} (hc : count ≤ 32) {s s' : State} {w : Option Nat} (i : Inv count s none)
    (h : act count s .step = some (s', w)) : Inv count s' w := by
  have i0 := i
  obtain ⟨a, o, l, reach, thr, wait, wok, busy, shp, new, xt, acq, rnd, len, fin, wak, que, nod, i8⟩ := i
  simp only [act] at h
  cases hs : Soft.step count s.soft .step with
  | none => rw [hs] at h; simp at h
  | some soft =>
    rw [hs] at h
    have a' := Soft.step_invA hc a hs
    simp only [Soft.step] at hs
    cases hst : s.soft.stack with
    | nil =>
      rw [hst] at hs h
      simp only [Option.some.injEq] at hs
      subst hs
      simp only [entering, Option.some.injEq, Prod.mk.injEq] at h
      obtain ⟨rfl, rfl⟩ := h
      exact i0
    | cons f rest =>
      rw [hst] at hs h
      simp only at hs
      have o' := frameStep_other o hst hs
      have hnc := (o f (by rw [hst]; simp)).1
      have l' := frameStep_level hc a l hst hs hnc
      have bod : ∀ t, s.queue t ≠ [] → ∃ f ∈ soft.stack, inside [f] = some t := by
        intro t ht
        obtain ⟨x, hx, hin⟩ := i8 t ht
        rw [hst] at hx
        rcases List.mem_cons.1 hx with rfl | hx
        · exact ⟨x, by rw [frameStep_inside hs hin]; simp, hin⟩
        · rcases Soft.frameStep_stack hs with e | ⟨y, e⟩
          · exact ⟨x, by rw [e]; exact hx, hin⟩
          · exact ⟨x, by rw [e]; simp [hx], hin⟩
      rw [entering_cons] at h
      cases he : entering [f] with
      | none =>
        rw [he] at h
        simp only [Option.some.injEq, Prod.mk.injEq] at h
        obtain ⟨rfl, rfl⟩ := h
        refine soft_inv i0 a' o' l' ?_ bod
        intro t ht h
        rcases h with h | h
        · rcases frameStep_due hc a ht hst hs hnc h with h | h
          · exact .inl h
          · rw [he] at h; simp at h
        · simp at h
      | some t =>
        rw [he] at h
        simp only [Option.some.injEq, Prod.mk.injEq] at h
        obtain ⟨rfl, rfl⟩ := h
        have hbody : ∃ f ∈ soft.stack, inside [f] = some t := by
          cases f with
          | row r pc =>
            cases pc with
            | call thr cell bit c =>
              cases c with
              | store p =>
                simp only [entering, Option.some.injEq] at he
                subst he
                simp only [Soft.frameStep, Soft.callStep, Option.some.injEq] at hs
                subst hs
                exact ⟨_, List.mem_cons_self .., rfl⟩
              | _ => simp [entering] at he
            | _ => simp [entering] at he
          | _ => simp [entering] at he
        have hnone : s.queue t = [] := by
          apply Classical.byContradiction
          intro hne
          obtain ⟨g, hg, hin⟩ := i8 t hne
          exact enter_once a l hst he g hg hin
        have hidle : ∀ k, k < s.made → (s.task k).thr = t → (s.mutex.client (me k)).pc = .idle := by
          intro k hk e
          apply Classical.byContradiction
          intro hne
          have := busy k hk hne
          rw [e, hnone] at this
          simp at this
        have old : ∀ k, (s.task k).thr ≠ t → upd s.queue t (chain s t) (s.task k).thr = s.queue (s.task k).thr := by
          intro k e; simp only [upd, e, ↓reduceIte]
        have mine : ∀ k, k < s.made → (s.task k).thr = t → (s.task k).done = false → k ∈ upd s.queue t (chain s t) (s.task k).thr := by
          intro k hk e hd
          simp only [upd, e, ↓reduceIte]
          exact chain_mem.2 ⟨hk, e, hd⟩
        refine ⟨a', o', l', reach, thr, ?_, ?_, ?_, shp, new, xt, acq, rnd, len, fin, wak, ?_, ?_, ?_⟩
        · intro k hk hl hd
          by_cases e : (s.task k).thr = t
          · exact .inr (.inr (.inl (mine k hk e hd)))
          · dsimp only
            rw [old k e]
            rcases wait k hk hl hd with h | h | h | h | h
            · exact .inl ⟨h.1, h.2, h.3, h.4, h.5⟩
            · exact .inr (.inl h)
            · exact .inr (.inr (.inl h))
            · rcases frameStep_due hc a (thr k hk) hst hs hnc h with h | h
              · exact .inr (.inr (.inr (.inl h)))
              · rw [he] at h; simp only [Option.some.injEq] at h; exact absurd h.symm e
            · simp at h
        · intro k hk hf hw
          by_cases e : (s.task k).thr = t
          · refine .inl ⟨mine k hk e ?_, hidle k hk e⟩
            cases hd : (s.task k).done
            · rfl
            · have h1 := fin k hk hd
              have h2 := rnd k hk (.inr (.inl hf))
              omega
          · dsimp only
            rw [old k e]
            rcases wok k hk hf hw with h | h | h
            · exact .inl h
            · rcases frameStep_due hc a (thr k hk) hst hs hnc h with h | h
              · exact .inr (.inl h)
              · rw [he] at h; simp only [Option.some.injEq] at h; exact absurd h.symm e
            · simp at h
        · intro k hk hn
          by_cases e : (s.task k).thr = t
          · exact absurd (hidle k hk e) hn
          · dsimp only; rw [old k e]; exact busy k hk hn
        · intro u k hk
          simp only [upd] at hk
          split at hk
          · rename_i e
            subst e
            exact chain_mem.1 hk
          · exact que u k hk
        · intro u
          simp only [upd]
          split
          · exact chain_nodup s t
          · exact nod u
        · intro u hu
          simp only [upd] at hu
          split at hu
          · rename_i e; subst e; exact hbody
          · exact bod u hu

theorem act_ret {count : Nat} (hc : count ≤ 32) {s s' : State} {w : Option Nat} (i : Inv count s none)
    (h : act count s .ret = some (s', w)) : Inv count s' w := by
  simp only [act] at h
  cases hin : inside s.soft.stack with
  | none => rw [hin] at h; simp only [Option.some.injEq, Prod.mk.injEq] at h; obtain ⟨rfl, rfl⟩ := h; exact i
  | some t =>
    rw [hin] at h
    simp only at h
    split at h
    · rename_i hq
      have hs : Soft.step count s.soft .ret = some { s.soft with stack := Soft.ret s.soft.stack } := rfl
      have a' := Soft.step_invA hc i.a hs
      rw [hs] at h
      simp only [Option.some.injEq, Prod.mk.injEq] at h
      obtain ⟨rfl, rfl⟩ := h
      obtain ⟨r, cell, bit, p, rest, e1, e2⟩ := ret_eq hin
      refine soft_inv i a' ?_ ⟨i.l.bit, ?_⟩ ?_ ?_
      · intro f hf
        dsimp only at hf
        rw [e2] at hf
        rcases List.mem_cons.1 hf with rfl | hf
        · exact ⟨by simp, by simp⟩
        · exact i.o f (by rw [e1]; simp [hf])
      · intro f hf
        dsimp only at hf
        rw [e2] at hf
        rcases List.mem_cons.1 hf with rfl | hf
        · exact i.l.fr (.row r (.call t cell bit (.body p))) (by rw [e1]; simp)
        · exact i.l.fr f (by rw [e1]; simp [hf])
      · intro u _ h
        rcases h with (h | ⟨f, hf, hlead⟩) | h
        · exact .inl (.inl h)
        · refine .inl (.inr ?_)
          dsimp only
          rw [e1] at hf
          rw [e2]
          rcases List.mem_cons.1 hf with rfl | hf
          · exact absurd hlead id
          · exact ⟨f, by simp [hf], hlead⟩
        · simp at h
      · intro u hu
        dsimp only at hu ⊢
        obtain ⟨f, hf, hx⟩ := i.bod u hu
        rw [e1] at hf
        rw [e2]
        rcases List.mem_cons.1 hf with rfl | hf
        · simp only [inside, Option.some.injEq] at hx
          subst hx
          exact absurd hq hu
        · exact ⟨f, by simp [hf], hx⟩
    · simp only [Option.some.injEq, Prod.mk.injEq] at h; obtain ⟨rfl, rfl⟩ := h; exact i

/-- A new task that is not started, or whose thread is about to be woken. -/
theorem push_inv {count : Nat} {s : State} (i : Inv count s none) {thr' len' : Nat} {live : Bool} {w : Option Nat} (ht : thr' < count)
    (hl : live = true → w = some thr') : Inv count (s.push thr' len' live) w := by
  obtain ⟨a, o, l, reach, thr, wait, wok, busy, shp, new, xt, acq, rnd, len, fin, wak, que, nod, bod⟩ := i
  have hnew : (s.push thr' len' live).task s.made = ⟨thr', len', 0, live, false⟩ := by simp [State.push, upd]
  have old : ∀ k, k ≠ s.made → (s.push thr' len' live).task k = s.task k := by intro k hk; simp [State.push, upd, hk]
  have lt : ∀ k, k < s.made + 1 → k ≠ s.made → k < s.made := by intro k h1 h2; omega
  have hm : (s.push thr' len' live).mutex = s.mutex := rfl
  obtain ⟨n1, n2⟩ := new s.made (.inl (Nat.le_refl _))
  refine ⟨a, o, l, reach, ?_, ?_, ?_, ?_, ?_, ?_, xt, ?_, ?_, ?_, ?_, ?_, ?_, nod, bod⟩
  · intro k hk
    by_cases e : k = s.made
    · subst e; rw [hnew]; exact ht
    · rw [old k e]; exact thr k (lt k hk e)
  · intro k hk
    by_cases e : k = s.made
    · subst e; rw [hnew]; intro h1 h2
      exact .inr (.inr (.inr (.inr (hl h1))))
    · rw [old k e]
      intro h1 h2
      rcases wait k (lt k hk e) h1 h2 with h | h | h | h | h
      · refine .inl ⟨h.1, h.2, h.3, ?_, ?_⟩
        · rw [old k e]; exact h.4
        · rw [old k e]; exact h.5
      · exact .inr (.inl h)
      · exact .inr (.inr (.inl h))
      · exact .inr (.inr (.inr (.inl h)))
      · simp at h
  · intro k hk
    by_cases e : k = s.made
    · subst e; intro h; rw [hm, n1] at h; simp at h
    · rw [old k e]; intro h1 h2
      rcases wok k (lt k hk e) h1 h2 with h | h | h
      · exact .inl h
      · exact .inr (.inl h)
      · simp at h
  · intro k hk
    by_cases e : k = s.made
    · subst e; intro h; rw [hm, n1] at h; simp at h
    · rw [old k e]; exact busy k (lt k hk e)
  · intro k hk
    by_cases e : k = s.made
    · subst e; rw [hm, n1]; constructor <;> simp
    · exact shp k (lt k hk e)
  · intro k hk
    by_cases e : k = s.made
    · subst e; exact ⟨n1, n2⟩
    · rw [old k e] at hk
      exact new k (hk.imp Nat.le_of_succ_le id)
  · intro k hk
    by_cases e : k = s.made
    · subst e; rw [hnew, hm, n1, n2]; simp [late, own, Pc.unl, waking]
    · rw [old k e]; exact acq k (lt k hk e)
  · intro k hk
    by_cases e : k = s.made
    · subst e; intro h; rw [hm, n1] at h; simp at h
    · rw [old k e]; exact rnd k (lt k hk e)
  · intro k hk
    by_cases e : k = s.made
    · subst e; rw [hnew]; exact Nat.zero_le _
    · rw [old k e]; exact len k (lt k hk e)
  · intro k hk
    by_cases e : k = s.made
    · subst e; rw [hnew]; intro h; simp at h
    · rw [old k e]; exact fin k (lt k hk e)
  · intro k j t h
    obtain ⟨h1, h2⟩ := wak k j t h
    refine ⟨Nat.lt_succ_of_lt h1, ?_⟩
    rw [old k (by omega)]; exact h2
  · intro t k h
    obtain ⟨h1, h2⟩ := que t k h
    refine ⟨Nat.lt_succ_of_lt h1, ?_⟩
    rw [old k (by omega)]; exact h2

theorem me_inj {j k : Nat} (h : me j = me k) : j = k := by simp only [me] at h; omega

theorem me_ext (k p : Nat) : me k ≠ ext p := by simp only [me, ext]; omega

theorem ext_inj {p q : Nat} (h : ext p = ext q) : p = q := by simp only [ext] at h; omega

/-- Another client uses the mutex. -/
theorem ext_inv {count : Nat} {s : State} (i : Inv count s none) {m : Mutex.State} {w : Option Nat} {p : Nat} (hr : Reached m)
    (hc : ∀ q, q ≠ ext p → m.client q = s.mutex.client q) (hf : (m.client (ext p)).fut = false)
    (hw : ∀ k, wokenSince (me k) (me k) m.log = true → wokenSince (me k) (me k) s.mutex.log = true ∨ w = some (s.task k).thr)
    (ha : ∀ k, acquisitions (me k) m.log = acquisitions (me k) s.mutex.log) : Inv count { s with mutex := m } w := by
  obtain ⟨a, o, l, reach, thr, wait, wok, busy, shp, new, xt, acq, rnd, len, fin, wak, que, nod, bod⟩ := i
  have hm : ∀ k, m.client (me k) = s.mutex.client (me k) := fun k => hc _ (me_ext k p)
  refine ⟨a, o, l, hr, thr, ?_, ?_, ?_, ?_, ?_, ?_, ?_, ?_, len, fin, wak, que, nod, bod⟩ <;> dsimp only
  · intro k hk hl hd
    rcases wait k hk hl hd with h | h | h | h | h
    · exact .inl ⟨by rw [hm]; exact h.1, by rw [hm]; exact h.2, by rw [hm]; exact h.3, h.4, h.5⟩
    · cases e : wokenSince (me k) (me k) m.log
      · exact .inr (.inl ⟨by rw [hm]; exact h.1, by rw [hm]; exact h.2, by rw [hm]; exact h.3, by rw [hm]; exact h.4, e⟩)
      · rcases hw k e with h' | h'
        · rw [h.wok] at h'; simp at h'
        · exact .inr (.inr (.inr (.inr h')))
    · exact .inr (.inr (.inl h))
    · exact .inr (.inr (.inr (.inl h)))
    · simp at h
  · intro k hk h1 h2
    rw [hm] at h1 ⊢
    rcases hw k h2 with h | h
    · rcases wok k hk h1 h with h | h | h
      · exact .inl h
      · exact .inr (.inl h)
      · simp at h
    · exact .inr (.inr h)
  · intro k hk; rw [hm]; exact busy k hk
  · intro k hk; rw [hm]; exact shp k hk
  · intro k hk; rw [hm, ha]; exact new k hk
  · intro q
    by_cases e : q = p
    · subst e; exact hf
    · rw [hc _ (fun h => e (ext_inj h))]; exact xt q
  · intro k hk; rw [hm, ha]; exact acq k hk
  · intro k hk; rw [hm]; exact rnd k hk

/-- The queue of a thread after one of its tasks is done with. -/
theorem queue_facts {count : Nat} {s : State} (i : Inv count s none) {t k : Nat} {ks : List Nat} (hq : s.queue t = k :: ks) :
    (∀ q, q < s.made → q ≠ k → q ∈ s.queue (s.task q).thr → q ∈ upd s.queue t ks (s.task q).thr) ∧
    (∀ u q, q ∈ upd s.queue t ks u → q ∈ s.queue u ∧ q ≠ k) ∧ (∀ u, (upd s.queue t ks u).Nodup) ∧
    (∀ u, upd s.queue t ks u ≠ [] → ∃ f ∈ s.soft.stack, inside [f] = some u) := by
  have i6 := i.que
  have i7 := i.nod
  have i8 := i.bod
  obtain ⟨hk, hkt, hkd⟩ := i6 t k (by rw [hq]; simp)
  have hnd := i7 t
  rw [hq, List.nodup_cons] at hnd
  refine ⟨?_, ?_, ?_, ?_⟩
  · intro q hqm hqk hmem
    simp only [upd]
    split
    · rename_i e
      rw [e, hq] at hmem
      rcases List.mem_cons.1 hmem with h | h
      · exact absurd h hqk
      · exact h
    · exact hmem
  · intro u q hx
    simp only [upd] at hx
    split at hx
    · rename_i e
      rw [e, hq]
      exact ⟨by simp [hx], fun e => hnd.1 (e ▸ hx)⟩
    · rename_i e
      refine ⟨hx, fun e' => e ?_⟩
      rw [e'] at hx
      have := (i6 u k hx).2.1
      rw [hkt] at this; exact this.symm
  · intro u
    simp only [upd]
    split
    · exact hnd.2
    · exact i7 u
  · intro u hu
    simp only [upd] at hu
    split at hu
    · rename_i e
      rw [e]
      exact i8 t (by rw [hq]; simp)
    · exact i8 u hu

/-- The running task goes on. -/
theorem task_update {count : Nat} {s : State} (i : Inv count s none) {t k : Nat} {ks : List Nat} (hq : s.queue t = k :: ks) {x : Task}
    {m : Mutex.State} {wk : Nat → Nat → Option Nat} {qu : Nat → List Nat} {w : Option Nat} (hthr : x.thr = (s.task k).thr) (hlv : x.live = true) (hr : Reached m)
    (hc : ∀ q, q ≠ me k → m.client q = s.mutex.client q)
    (hw : ∀ q, q ≠ k → wokenSince (me q) (me q) m.log = true → wokenSince (me q) (me q) s.mutex.log = true ∨ w = some (s.task q).thr)
    (ha : ∀ q, q ≠ k → acquisitions (me q) m.log = acquisitions (me q) s.mutex.log)
    (hsh : Shape (m.client (me k))) (hak : acquisitions (me k) m.log = x.pos + late (m.client (me k)))
    (hrn : (m.client (me k)).pc ≠ .idle ∨ (m.client (me k)).fut = true ∨ (m.client (me k)).guards ≠ 0 → x.pos < x.len)
    (hle : x.pos ≤ x.len) (hfin : x.done = true → x.pos = x.len)
    (hwk : ∀ q j u, wk q j = some u → s.waker q j = some u ∨ q = k ∧ u = x.thr) (hwq : ∀ q j, q ≠ k → wk q j = s.waker q j)
    (hwo : (m.client (me k)).fut = true → wokenSince (me k) (me k) m.log = true →
      (qu = s.queue ∧ (m.client (me k)).pc = .idle) ∨ Due s.soft (s.task k).thr ∨ w = some (s.task k).thr)
    (hqu : qu = s.queue ∧ x.done = false ∨ qu = upd s.queue t ks ∧ (m.client (me k)).pc = .idle ∧ (x.done = false →
      SleepSig { s with task := upd s.task k x, mutex := m, waker := wk } k ∨
      ((m.client (me k)).fut = true ∧ (m.client (me k)).guards = 0 ∧ (m.client (me k)).waiter ≠ none))) :
    Inv count { s with task := upd s.task k x, mutex := m, waker := wk, queue := qu } w := by
  obtain ⟨q1, q2, q3, q4⟩ := queue_facts i hq
  obtain ⟨a, o, l, reach, thr, wait, wok, busy, shp, new, xt, acq, rnd, len, fin, wak, que, nod, bod⟩ := i
  obtain ⟨hk, hkt, hkd⟩ := que t k (by rw [hq]; simp)
  have tk : upd s.task k x k = x := by simp [upd]
  have tq : ∀ q, q ≠ k → upd s.task k x q = s.task q := by intro q h; simp [upd, h]
  have hne : ∀ q, s.made ≤ q → q ≠ k := by intro q h e; omega
  have hm : ∀ q, q ≠ k → m.client (me q) = s.mutex.client (me q) := fun q h => hc _ (fun e => h (me_inj e))
  have inq : ∀ q, q < s.made → q ≠ k → q ∈ s.queue (s.task q).thr → q ∈ qu (s.task q).thr := by
    intro q h1 h2 h3
    rcases hqu with ⟨rfl, -⟩ | ⟨rfl, -⟩
    · exact h3
    · exact q1 q h1 h2 h3
  have kin : k ∈ s.queue x.thr := by rw [hthr, hkt, hq]; simp
  have hwo' : (m.client (me k)).fut = true → wokenSince (me k) (me k) m.log = true →
      (k ∈ qu x.thr ∧ (m.client (me k)).pc = .idle) ∨ Due s.soft x.thr ∨ w = some x.thr := by
    intro h1 h2
    rcases hwo h1 h2 with ⟨rfl, h⟩ | h
    · exact .inl ⟨kin, h⟩
    · rw [hthr]; exact .inr h
  refine ⟨a, o, l, hr, ?_, ?_, ?_, ?_, ?_, ?_, ?_, ?_, ?_, ?_, ?_, ?_, ?_, ?_, ?_⟩ <;> dsimp only
  · intro q hqm
    by_cases e : q = k
    · subst e; rw [tk, hthr]; exact thr q hqm
    · rw [tq q e]; exact thr q hqm
  · intro q hqm
    by_cases e : q = k
    · subst e; rw [tk]
      intro _ hd
      rcases hqu with ⟨rfl, -⟩ | ⟨rfl, hi, h⟩
      · exact .inr (.inr (.inl kin))
      · rcases h hd with h | ⟨h1, h2, h3⟩
        · exact .inl ⟨h.1, h.2, h.3, h.4, h.5⟩
        · cases ew : wokenSince (me q) (me q) m.log
          · exact .inr (.inl ⟨hi, h1, h2, h3, ew⟩)
          · rcases hwo' h1 ew with h | h
            · exact .inr (.inr (.inl h.1))
            · exact .inr (.inr (.inr h))
    · rw [tq q e]
      intro hl hd
      rcases wait q hqm hl hd with h | h | h | h | h
      · exact .inl ⟨by dsimp only; rw [hm q e]; exact h.1, by dsimp only; rw [hm q e]; exact h.2, by dsimp only; rw [hm q e]; exact h.3,
          by dsimp only; rw [tq q e]; exact h.4, by dsimp only; rw [tq q e, hwq q _ e]; exact h.5⟩
      · cases ew : wokenSince (me q) (me q) m.log
        · exact .inr (.inl ⟨by rw [hm q e]; exact h.1, by rw [hm q e]; exact h.2, by rw [hm q e]; exact h.3, by rw [hm q e]; exact h.4, ew⟩)
        · rcases hw q e ew with h' | h'
          · rw [h.wok] at h'; simp at h'
          · exact .inr (.inr (.inr (.inr h')))
      · exact .inr (.inr (.inl (inq q hqm e h)))
      · exact .inr (.inr (.inr (.inl h)))
      · simp at h
  · intro q hqm
    by_cases e : q = k
    · subst e; rw [tk]; exact hwo'
    · rw [tq q e, hm q e]
      intro h1 h2
      rcases hw q e h2 with h | h
      · rcases wok q hqm h1 h with h | h | h
        · exact .inl ⟨inq q hqm e h.1, h.2⟩
        · exact .inr (.inl h)
        · simp at h
      · exact .inr (.inr h)
  · intro q hqm
    by_cases e : q = k
    · subst e; rw [tk]
      intro hn
      rcases hqu with ⟨rfl, -⟩ | ⟨-, hi, -⟩
      · exact kin
      · exact absurd hi hn
    · rw [tq q e, hm q e]
      intro hn
      exact inq q hqm e (busy q hqm hn)
  · intro q hqm
    by_cases e : q = k
    · subst e; exact hsh
    · rw [hm q e]; exact shp q hqm
  · intro q hqm
    have e : q ≠ k := by
      rintro rfl
      rw [tk, hlv] at hqm
      rcases hqm with h | h
      · omega
      · simp at h
    rw [tq q e] at hqm
    rw [hm q e, ha q e]; exact new q hqm
  · intro p
    rw [hc _ (fun e => me_ext k p e.symm)]; exact xt p
  · intro q hqm
    by_cases e : q = k
    · subst e; rw [tk]; exact hak
    · rw [tq q e, hm q e, ha q e]; exact acq q hqm
  · intro q hqm
    by_cases e : q = k
    · subst e; rw [tk]; exact hrn
    · rw [tq q e, hm q e]; exact rnd q hqm
  · intro q hqm
    by_cases e : q = k
    · subst e; rw [tk]; exact hle
    · rw [tq q e]; exact len q hqm
  · intro q hqm
    by_cases e : q = k
    · subst e; rw [tk]; exact hfin
    · rw [tq q e]; exact fin q hqm
  · intro q j u h
    rcases hwk q j u h with h | ⟨rfl, rfl⟩
    · obtain ⟨h1, h2⟩ := wak q j u h
      refine ⟨h1, ?_⟩
      by_cases e : q = k
      · subst e; rw [tk, hthr]; exact h2
      · rw [tq q e]; exact h2
    · exact ⟨hk, by rw [tk]⟩
  · intro u q hx
    rcases hqu with ⟨rfl, hd⟩ | ⟨rfl, -⟩
    · obtain ⟨h1, h2, h3⟩ := que u q hx
      refine ⟨h1, ?_⟩
      by_cases e : q = k
      · subst e; rw [tk, hthr]; exact ⟨h2, hd⟩
      · rw [tq q e]; exact ⟨h2, h3⟩
    · obtain ⟨h1, h2⟩ := q2 u q hx
      rw [tq q h2]; exact que u q h1
  · rcases hqu with ⟨rfl, -⟩ | ⟨rfl, -⟩
    · exact nod
    · exact q3
  · rcases hqu with ⟨rfl, -⟩ | ⟨rfl, -⟩
    · exact bod
    · exact q4

/-- Any access of a client that wakes a waker of the mutex is known. -/
theorem wokenBy_me {s : State} {p k : Nat} (h : waking (s.mutex.client p).pc = some (me k)) : wokenBy s p = some (s.task k).thr := by
  simp only [wokenBy, h, Option.map_some, me, Option.some.injEq]
  rw [show 2 * k / 2 = k by omega]

theorem task_inv {count : Nat} {s s' : State} {w : Option Nat} (i : Inv count s none) {t k : Nat} {ks : List Nat} (hq : s.queue t = k :: ks)
    (h : taskStep s t k ks = some (s', w)) : Inv count s' w := by
  obtain ⟨hk, hkt, hkd⟩ := i.que t k (by rw [hq]; simp)
  have mi := i.reach.inv
  have shp := i.shp k hk
  have acq := i.acq k hk
  have len := i.len k hk
  have rnd := i.rnd k hk
  have hdn : ∀ {p : Prop}, (s.task k).done = true → p := by intro p e; rw [hkd] at e; simp at e
  -- calls
  have called : ∀ {op : Mutex.Op} {c : Client}, Called s.mutex (me k) op c → (∀ v, op = .poll v → v = me k) → Shape c →
      (c.pc ≠ .idle ∨ c.fut = true ∨ c.guards ≠ 0 → (s.task k).pos < (s.task k).len) →
      (c.fut = true → wokenSince (me k) (me k) (call s.mutex (me k) op).log = true → c.pc = .idle) →
      Inv count { s with task := upd s.task k { s.task k with live := true }, mutex := call s.mutex (me k) op } none := by
    intro op c hcl hop hsh hr hwo
    refine task_update i hq (x := { s.task k with live := true }) (wk := s.waker) rfl rfl (i.reach.call hop) (fun q hq => Mutex.call_other hq)
      (fun q _ h => .inl (call_woken h)) (fun q _ => call_acq) (by rw [hcl.client]; exact hsh) (by rw [hcl.client, hcl.acq, hcl.late]; exact acq)
      (by rw [hcl.client]; exact hr) len (fun e => hdn e) (fun q j u h => .inl h) (fun _ _ _ => rfl) ?_ (.inl ⟨rfl, hkd⟩)
    rw [hcl.client]
    intro h1 h2
    exact .inl ⟨rfl, hwo h1 h2⟩
  simp only [taskStep] at h
  split at h
  · -- an access of the mutex
    rename_i hn
    have rn := rnd (.inl hn)
    split at h
    · simp at h
    rename_i m hm
    obtain ⟨f1, f2, f3, f4, f5⟩ := pstep_moved mi shp hn hm
    have due : (m.client (me k)).fut = true → wokenSince (me k) (me k) m.log = true →
        Due s.soft (s.task k).thr ∨ wokenBy s (me k) = some (s.task k).thr := by
      intro h1 h2
      rcases (pstep_woken hm _ _).1 h2 with h | h
      · rcases i.wok k hk (by rw [← f1]; exact h1) h with h | h | h
        · exact absurd h.2 hn
        · exact .inl h
        · simp at h
      · exact .inr (wokenBy_me h)
    have hw : ∀ q, q ≠ k → wokenSince (me q) (me q) m.log = true →
        wokenSince (me q) (me q) s.mutex.log = true ∨ wokenBy s (me k) = some (s.task q).thr := by
      intro q _ h
      rcases (pstep_woken hm _ _).1 h with h | h
      · exact .inl h
      · exact .inr (wokenBy_me h)
    have hoth : ∀ q, q ≠ me k → m.client q = s.mutex.client q := fun q hq => Mutex.pstep_other hm hq
    have hacq : ∀ q, q ≠ k → acquisitions (me q) m.log = acquisitions (me q) s.mutex.log := fun q hq =>
      pstep_acq hm (fun e => hq (me_inj e))
    split at h
    · rename_i hn'
      have f4 := f4 (.inl hn')
      simp only [Option.some.injEq, Prod.mk.injEq] at h; obtain ⟨rfl, rfl⟩ := h
      exact task_update i hq (x := { s.task k with live := true }) (wk := s.waker) rfl rfl (i.reach.pstep hm) hoth hw hacq f2 (by dsimp only; omega)
        (fun _ => rn) len (fun e => hdn e) (fun q j u h => .inl h) (fun _ _ _ => rfl) (fun h1 h2 => .inr (due h1 h2)) (.inl ⟨rfl, hkd⟩)
    rename_i hn'
    simp only [ne_eq, Classical.not_not] at hn'
    split at h
    · rename_i hf
      obtain ⟨g1, g2, g3⟩ := f5 hn' hf
      have g4 : late (m.client (me k)) = 0 := by simp [late, own, hn', g3, Pc.unl, waking]
      simp only [Option.some.injEq, Prod.mk.injEq] at h; obtain ⟨rfl, rfl⟩ := h
      refine task_update i hq (x := { s.task k with live := true, pos := (s.task k).pos + 1 }) (wk := s.waker) rfl rfl (i.reach.pstep hm) hoth hw hacq f2
        (by dsimp only; omega) ?_ (by dsimp only; omega) (fun e => hdn e) (fun q j u h => .inl h) (fun _ _ _ => rfl) (fun h1 h2 => .inr (due h1 h2))
        (.inl ⟨rfl, hkd⟩)
      rintro (h | h | h)
      · exact absurd hn' h
      · rw [hf] at h; simp at h
      · exact absurd g3 h
    rename_i hf
    simp only [Bool.not_eq_false] at hf
    have f4 := f4 (.inr hf)
    split at h
    · rename_i hg
      simp only [Option.some.injEq, Prod.mk.injEq] at h; obtain ⟨rfl, rfl⟩ := h
      exact task_update i hq (x := { s.task k with live := true }) (wk := s.waker) rfl rfl (i.reach.pstep hm) hoth hw hacq f2 (by dsimp only; omega)
        (fun _ => rn) len (fun e => hdn e) (fun q j u h => .inl h) (fun _ _ _ => rfl) (fun h1 h2 => .inr (due h1 h2))
        (.inr ⟨rfl, hn', fun _ => .inr ⟨hf, hg, f3 hn' hf hg⟩⟩)
    · simp only [Option.some.injEq, Prod.mk.injEq] at h; obtain ⟨rfl, rfl⟩ := h
      exact task_update i hq (x := { s.task k with live := true }) (wk := s.waker) rfl rfl (i.reach.pstep hm) hoth hw hacq f2 (by dsimp only; omega)
        (fun _ => rn) len (fun e => hdn e) (fun q j u h => .inl h) (fun _ _ _ => rfl) (fun h1 h2 => .inr (due h1 h2)) (.inl ⟨rfl, hkd⟩)
  rename_i hi
  simp only [ne_eq, Classical.not_not] at hi
  split at h
  · rename_i hf
    have rn := rnd (.inr (.inl hf))
    split at h
    · rename_i hg
      simp only [Option.some.injEq, Prod.mk.injEq] at h; obtain ⟨rfl, rfl⟩ := h
      refine called (called_poll (me k) hi hf) (by simp) ⟨fun _ _ => .inl ⟨rfl, hg⟩, fun _ h => ?_, shp.hold⟩ (fun _ => rn) ?_
      · dsimp only at h; rw [hf] at h; simp at h
      · rw [poll_woken hi hf]; simp
    · rename_i hg
      simp only [Option.some.injEq, Prod.mk.injEq] at h; obtain ⟨rfl, rfl⟩ := h
      refine called (called_dropFut hi hf (shp.hold hg)) (by simp) ⟨fun h => absurd hi h, fun h => absurd hi h, shp.hold⟩ (fun _ => rn) ?_
      dsimp only; simp
  rename_i hf
  simp only [Bool.not_eq_true] at hf
  split at h
  · rename_i hg
    have rn := rnd (.inr (.inr hg))
    split at h
    · have hle := mi.o.le (me k)
      simp only [Option.some.injEq, Prod.mk.injEq] at h; obtain ⟨rfl, rfl⟩ := h
      refine called (called_unlock hi hg) (by simp) ⟨fun _ h => ?_, fun _ _ => ⟨?_, .inl rfl⟩, fun _ => shp.hold hg⟩ (fun _ => rn) ?_
      · dsimp only at h; rw [hf] at h; simp at h
      · dsimp only; simp only [own] at hle; omega
      · dsimp only; rw [hf]; simp
    · rename_i hfi
      simp only [Bool.not_eq_true] at hfi
      simp only [Option.some.injEq, Prod.mk.injEq] at h; obtain ⟨rfl, rfl⟩ := h
      refine task_update i hq (x := { s.task k with live := true }) rfl rfl i.reach (fun _ _ => rfl) (fun q _ h => .inl h) (fun _ _ => rfl) shp acq rnd len
        (fun e => hdn e) ?_ ?_ ?_ (.inr ⟨rfl, hi, fun _ => .inl ⟨hi, hf, hg, ?_, ?_⟩⟩)
      · intro q j u h
        simp only [upd2] at h
        split at h
        · rename_i e
          simp only [Option.some.injEq] at h
          exact .inr ⟨e.1, h.symm⟩
        · exact .inl h
      · intro q j e; simp [upd2, e]
      · rw [hf]; simp
      · simp only [upd, ↓reduceIte]; exact hfi
      · simp [upd, upd2]
  rename_i hg
  simp only [ne_eq, Classical.not_not] at hg
  split at h
  · rename_i hp
    simp only [Option.some.injEq, Prod.mk.injEq] at h; obtain ⟨rfl, rfl⟩ := h
    refine task_update i hq (x := { s.task k with live := true, done := true }) (wk := s.waker) rfl rfl i.reach (fun _ _ => rfl) (fun q _ h => .inl h)
      (fun _ _ => rfl) shp acq rnd len (fun _ => hp) (fun q j u h => .inl h) (fun _ _ _ => rfl) ?_ (.inr ⟨rfl, hi, by simp⟩)
    rw [hf]; simp
  · rename_i hp
    simp only [Option.some.injEq, Prod.mk.injEq] at h; obtain ⟨rfl, rfl⟩ := h
    exact called (called_lock hi hf) (by simp) ⟨fun h => absurd hi h, fun h => absurd hi h, fun _ => rfl⟩ (fun _ => by omega) (fun _ _ => hi)

theorem act_inv {count : Nat} (hc : count ≤ 32) {s s' : State} {w : Option Nat} {a : Act} (i : Inv count s none)
    (h : act count s a = some (s', w)) : Inv count s' w := by
  cases a with
  | step => exact act_step hc i h
  | poll =>
    simp only [act] at h
    split at h
    · simp only [Option.some.injEq, Prod.mk.injEq] at h; obtain ⟨rfl, rfl⟩ := h; exact i
    split at h
    · simp only [Option.some.injEq, Prod.mk.injEq] at h; obtain ⟨rfl, rfl⟩ := h; exact i
    rename_i k ks hq
    split at h
    · simp at h
    · exact task_inv i hq h
  | ret => exact act_ret hc i h
  | signal k j =>
    simp only [act, Option.some.injEq, Prod.mk.injEq] at h
    obtain ⟨rfl, rfl⟩ := h
    obtain ⟨a, o, l, reach, thr, wait, wok, busy, shp, new, xt, acq, rnd, len, fin, wak, que, nod, bod⟩ := i
    refine ⟨a, o, l, reach, thr, ?_, ?_, busy, shp, new, xt, acq, rnd, len, fin, ?_, que, nod, bod⟩ <;> dsimp only
    · intro q hq hl hd
      rcases wait q hq hl hd with h | h | h | h | h
      · by_cases e : q = k ∧ (s.task q).pos = j
        · obtain ⟨rfl, rfl⟩ := e
          exact .inr (.inr (.inr (.inr h.waker)))
        · exact .inl ⟨h.1, h.2, h.3, by simp only [upd2, e, ↓reduceIte]; exact h.4, by simp only [upd2, e, ↓reduceIte]; exact h.5⟩
      · exact .inr (.inl h)
      · exact .inr (.inr (.inl h))
      · exact .inr (.inr (.inr (.inl h)))
      · simp at h
    · intro q hq h1 h2
      rcases wok q hq h1 h2 with h | h | h
      · exact .inl h
      · exact .inr (.inl h)
      · simp at h
    · intro q i u h
      simp only [upd2] at h
      split at h
      · simp at h
      · exact wak q i u h
  | grab p =>
    simp only [act, Option.some.injEq, Prod.mk.injEq] at h
    obtain ⟨rfl, rfl⟩ := h
    exact ext_inv i (p := p) (i.reach.call (by simp)) (fun q hq => Mutex.call_other hq) (call_fut (.inl rfl) (i.xt p)) (fun k h => .inl (call_woken h))
      fun k => call_acq
  | drop p =>
    simp only [act, Option.some.injEq, Prod.mk.injEq] at h
    obtain ⟨rfl, rfl⟩ := h
    exact ext_inv i (p := p) (i.reach.call (by simp)) (fun q hq => Mutex.call_other hq) (call_fut (.inr rfl) (i.xt p)) (fun k h => .inl (call_woken h))
      fun k => call_acq
  | work p =>
    simp only [act] at h
    split at h
    · simp at h
    rename_i m hm
    simp only [Option.some.injEq, Prod.mk.injEq] at h
    obtain ⟨rfl, rfl⟩ := h
    refine ext_inv i (p := p) (i.reach.pstep hm) (fun q hq => Mutex.pstep_other hm hq) (by rw [pstep_fut hm]; exact i.xt p) (fun k h => ?_)
      fun k => pstep_acq hm (me_ext k p)
    rcases (pstep_woken hm _ _).1 h with h | h
    · exact .inl h
    · exact .inr (wokenBy_me h)
  | add thr len =>
    simp only [act, Option.some.injEq, Prod.mk.injEq] at h
    obtain ⟨rfl, rfl⟩ := h
    split
    · rename_i ht; exact push_inv i ht (by simp)
    · exact i
  | exec thr len =>
    simp only [act, Option.some.injEq] at h
    split at h <;> (simp only [Prod.mk.injEq] at h; obtain ⟨rfl, rfl⟩ := h)
    · rename_i ht; exact push_inv i ht fun _ => rfl
    · exact i

theorem step_inv {count : Nat} (hc : count ≤ 32) {s s' : State} {a : Act} (i : Inv count s none) (h : step count s a = some s') :
    Inv count s' none := by
  simp only [step] at h
  split at h
  · simp at h
  · rename_i m w hm; exact wake_inv hc (act_inv hc i hm) h

theorem run_inv {count : Nat} (hc : count ≤ 32) : ∀ {acts : List Act} {s s' : State}, Inv count s none → run count s acts = some s' →
    Inv count s' none
  | [], s, s', g, h => by simp only [run, Option.some.injEq] at h; exact h ▸ g
  | a :: as, s, s', g, h => by
    simp only [run] at h
    split at h
    · simp at h
    · rename_i m hm; exact run_inv hc (step_inv hc g hm) h

/-- A task does nothing to the software threads. -/
theorem task_soft {s s' : State} {w : Option Nat} {t k : Nat} {ks : List Nat} (h : taskStep s t k ks = some (s', w)) : s'.soft = s.soft := by
  simp only [taskStep] at h
  repeat' (split at h)
  all_goals first
    | (simp at h; done)
    | (simp only [Option.some.injEq, Prod.mk.injEq] at h; obtain ⟨rfl, -⟩ := h; rfl)

/-- The wake apart, the software threads make at most one step of their own. -/
theorem act_invI {count : Nat} (hc : count ≤ 32) {s s' : State} {w : Option Nat} {a : Act} (i : Inv count s none) (v : InvI count s.soft)
    (h : act count s a = some (s', w)) : InvI count s'.soft ∧ (w ≠ none → s'.soft = s.soft) := by
  cases a with
  | step =>
    simp only [act] at h
    cases hs : Soft.step count s.soft .step with
    | none => rw [hs] at h; simp at h
    | some soft =>
      have v' := Soft.step_invI (a := .step) hc trivial trivial i.a v hs
      rw [hs] at h
      simp only at h
      split at h <;> (simp only [Option.some.injEq, Prod.mk.injEq] at h; obtain ⟨rfl, rfl⟩ := h; exact ⟨v', by simp⟩)
  | poll =>
    simp only [act] at h
    repeat' (split at h)
    all_goals first
      | (simp at h; done)
      | (simp only [Option.some.injEq, Prod.mk.injEq] at h; obtain ⟨rfl, -⟩ := h; exact ⟨v, fun _ => rfl⟩)
      | (rw [task_soft h]; exact ⟨v, fun _ => rfl⟩)
  | ret =>
    simp only [act] at h
    split at h
    · simp only [Option.some.injEq, Prod.mk.injEq] at h; obtain ⟨rfl, rfl⟩ := h; exact ⟨v, by simp⟩
    · split at h
      · cases hs : Soft.step count s.soft .ret with
        | none => rw [hs] at h; simp at h
        | some soft =>
          have v' := Soft.step_invI (a := .ret) hc trivial trivial i.a v hs
          rw [hs] at h
          simp only [Option.some.injEq, Prod.mk.injEq] at h; obtain ⟨rfl, rfl⟩ := h; exact ⟨v', by simp⟩
      · simp only [Option.some.injEq, Prod.mk.injEq] at h; obtain ⟨rfl, rfl⟩ := h; exact ⟨v, by simp⟩
  | work p =>
    simp only [act] at h
    split at h
    · simp at h
    · simp only [Option.some.injEq, Prod.mk.injEq] at h; obtain ⟨rfl, -⟩ := h; exact ⟨v, fun _ => rfl⟩
  | add thr len =>
    simp only [act, Option.some.injEq, Prod.mk.injEq] at h
    obtain ⟨rfl, rfl⟩ := h
    split <;> exact ⟨v, by simp⟩
  | exec thr len =>
    simp only [act, Option.some.injEq] at h
    split at h <;> (simp only [Prod.mk.injEq] at h; obtain ⟨rfl, -⟩ := h; exact ⟨v, fun _ => rfl⟩)
  | _ => simp only [act, Option.some.injEq, Prod.mk.injEq] at h; obtain ⟨rfl, -⟩ := h; exact ⟨v, fun _ => rfl⟩

theorem step_invI {count : Nat} (hc : count ≤ 32) {s s' : State} {a : Act} (i : Inv count s none) (v : InvI count s.soft) (hn : NoSame count s a)
    (h : step count s a = some s') : InvI count s'.soft := by
  simp only [step] at h
  split at h
  · simp at h
  · rename_i m w hm
    obtain ⟨v', hw⟩ := act_invI hc i v hm
    have im := act_inv hc i hm
    cases w with
    | none => simp only [wake, Option.some.injEq] at h; subst h; exact v'
    | some t =>
      have e := hw (by simp)
      have hn' : Soft.NoSame m.soft (.pend t) := by
        rw [e]; exact hn t (by simp only [wakes, hm])
      simp only [wake] at h
      cases hs : Soft.step count m.soft (.pend t) with
      | none => rw [hs] at h; simp at h
      | some soft =>
        have v'' := Soft.step_invI (a := .pend t) hc trivial hn' im.a v' hs
        rw [hs] at h
        simp only [Option.some.injEq] at h; subst h; exact v''

theorem run_invI {count : Nat} (hc : count ≤ 32) : ∀ {acts : List Act} {s s' : State}, Always count (NoSame count) s acts → Inv count s none →
    InvI count s.soft → run count s acts = some s' → InvI count s'.soft
  | [], s, s', _, _, v, h => by simp only [run, Option.some.injEq] at h; exact h ▸ v
  | a :: as, s, s', n, g, v, h => by
    simp only [run] at h
    split at h
    · simp at h
    · rename_i m hm; exact run_invI hc (n.2 m hm) (step_inv hc g hm) (step_invI hc g v n.1 hm) h

/-- The client of the mutex that an element of a history belongs to. -/
def who (s : State) : Act → Option Nat
  | .grab p => some (ext p)
  | .drop p => some (ext p)
  | a => acting s a

/-- What an element of a history does to the mutex. -/
theorem act_mutex {count : Nat} {s s' : State} {w : Option Nat} {a : Act} (h : act count s a = some (s', w)) :
    s'.mutex = s.mutex ∨ (∃ p op, who s a = some p ∧ s'.mutex = call s.mutex p op) ∨ ∃ p, acting s a = some p ∧ pstep s.mutex p = some s'.mutex := by
  cases a with
  | step =>
    simp only [act] at h
    repeat' (split at h)
    all_goals first
      | (simp at h; done)
      | (simp only [Option.some.injEq, Prod.mk.injEq] at h; obtain ⟨rfl, -⟩ := h; exact .inl rfl)
  | poll =>
    simp only [act] at h
    split at h
    · simp only [Option.some.injEq, Prod.mk.injEq] at h; obtain ⟨rfl, -⟩ := h; exact .inl rfl
    rename_i t hin
    split at h
    · simp only [Option.some.injEq, Prod.mk.injEq] at h; obtain ⟨rfl, -⟩ := h; exact .inl rfl
    rename_i k ks hq
    have ha : acting s .poll = some (me k) := by simp [acting, hin, hq]
    split at h
    · simp at h
    simp only [taskStep] at h
    repeat' (split at h)
    all_goals first
      | (simp at h; done)
      | (simp only [Option.some.injEq, Prod.mk.injEq] at h; obtain ⟨rfl, -⟩ := h; exact .inr (.inr ⟨_, ha, by assumption⟩))
      | (simp only [Option.some.injEq, Prod.mk.injEq] at h; obtain ⟨rfl, -⟩ := h; exact .inr (.inl ⟨me k, .poll (me k), ha, rfl⟩))
      | (simp only [Option.some.injEq, Prod.mk.injEq] at h; obtain ⟨rfl, -⟩ := h; exact .inr (.inl ⟨me k, .dropFut, ha, rfl⟩))
      | (simp only [Option.some.injEq, Prod.mk.injEq] at h; obtain ⟨rfl, -⟩ := h; exact .inr (.inl ⟨me k, .unlock, ha, rfl⟩))
      | (simp only [Option.some.injEq, Prod.mk.injEq] at h; obtain ⟨rfl, -⟩ := h; exact .inr (.inl ⟨me k, .lock, ha, rfl⟩))
      | (simp only [Option.some.injEq, Prod.mk.injEq] at h; obtain ⟨rfl, -⟩ := h; exact .inl rfl)
  | ret =>
    simp only [act] at h
    repeat' (split at h)
    all_goals first
      | (simp at h; done)
      | (simp only [Option.some.injEq, Prod.mk.injEq] at h; obtain ⟨rfl, -⟩ := h; exact .inl rfl)
  | work p =>
    simp only [act] at h
    split at h
    · simp at h
    · rename_i m hm
      simp only [Option.some.injEq, Prod.mk.injEq] at h; obtain ⟨rfl, -⟩ := h; exact .inr (.inr ⟨_, rfl, hm⟩)
  | add thr len =>
    simp only [act, Option.some.injEq, Prod.mk.injEq] at h
    obtain ⟨rfl, -⟩ := h
    left
    split <;> rfl
  | exec thr len =>
    simp only [act, Option.some.injEq] at h
    split at h <;> (simp only [Prod.mk.injEq] at h; obtain ⟨rfl, -⟩ := h; exact .inl rfl)
  | signal k j => simp only [act, Option.some.injEq, Prod.mk.injEq] at h; obtain ⟨rfl, -⟩ := h; exact .inl rfl
  | grab p => simp only [act, Option.some.injEq, Prod.mk.injEq] at h; obtain ⟨rfl, -⟩ := h; exact .inr (.inl ⟨ext p, .tryLock, rfl, rfl⟩)
  | drop p => simp only [act, Option.some.injEq, Prod.mk.injEq] at h; obtain ⟨rfl, -⟩ := h; exact .inr (.inl ⟨ext p, .unlock, rfl, rfl⟩)

theorem wake_mutex {count : Nat} {s s' : State} {w : Option Nat} (h : wake count s w = some s') : s'.mutex = s.mutex := by
  cases w with
  | none => simp only [wake, Option.some.injEq] at h; subst h; rfl
  | some t =>
    simp only [wake] at h
    split at h
    · simp at h
    · simp only [Option.some.injEq] at h; subst h; rfl

theorem step_invJ {count : Nat} {s s' : State} {a : Act} (i : Inv count s none) (j : Mutex.InvJ s.mutex) (ht : Timely s a)
    (h : step count s a = some s') : Mutex.InvJ s'.mutex := by
  simp only [step] at h
  split at h
  · simp at h
  · rename_i m w hm
    rw [wake_mutex h]
    have mi := i.reach.inv
    rcases act_mutex hm with e | ⟨p, op, -, e⟩ | ⟨p, h1, h2⟩
    · rw [e]; exact j
    · rw [e]; exact Mutex.call_invJ mi.n j p op
    · exact Mutex.pstep_invJ mi.o mi.n j (ht p h1) h2

theorem run_invJ {count : Nat} (hc : count ≤ 32) : ∀ {acts : List Act} {s s' : State}, Always count Timely s acts → Inv count s none →
    Mutex.InvJ s.mutex → run count s acts = some s' → Mutex.InvJ s'.mutex
  | [], s, s', _, _, v, h => by simp only [run, Option.some.injEq] at h; exact h ▸ v
  | a :: as, s, s', n, g, v, h => by
    simp only [run] at h
    split at h
    · simp at h
    · rename_i m hm; exact run_invJ hc (n.2 m hm) (step_inv hc g hm) (step_invJ g v n.1 hm) h

theorem step_invP {count : Nat} {s s' : State} {a : Act} (j : Mutex.InvP s.mutex) (ht : Prompt s a) (h : step count s a = some s') :
    Mutex.InvP s'.mutex := by
  simp only [step] at h
  split at h
  · simp at h
  · rename_i m w hm
    rw [wake_mutex h]
    rcases act_mutex hm with e | ⟨p, op, -, e⟩ | ⟨p, h1, h2⟩
    · rw [e]; exact j
    · rw [e]; exact Mutex.call_invP j p op
    · exact Mutex.pstep_invP j (ht p h1) h2

/-- Nothing faults as long as no node is released too early. -/
theorem act_some {count : Nat} (hc : count ≤ 32) {s : State} (a : Act) (i : Inv count s none) (v : Mutex.InvP s.mutex) :
    ∃ x, act count s a = some x := by
  have ps := fun p => Mutex.pstep_some i.reach.inv.n v p
  cases a with
  | step =>
    have : ∃ m, Soft.step count s.soft .step = some m := by
      simp only [Soft.step]
      split
      · exact ⟨_, rfl⟩
      · rename_i f rest hst; exact Soft.frameStep_some hc i.a hst
    obtain ⟨m, hm⟩ := this
    simp only [act, hm]
    split <;> exact ⟨_, rfl⟩
  | poll =>
    simp only [act]
    split
    · exact ⟨_, rfl⟩
    · rename_i t ht
      split
      · exact ⟨_, rfl⟩
      · rename_i k ks hq
        have := (i.que t k (by rw [hq]; simp)).2.2
        rw [this]
        obtain ⟨m, hm⟩ := ps (me k)
        simp only [Bool.false_eq_true, ↓reduceIte, taskStep, hm]
        repeat' split
        all_goals exact ⟨_, rfl⟩
  | ret =>
    simp only [act]
    split
    · exact ⟨_, rfl⟩
    · split <;> exact ⟨_, rfl⟩
  | work p =>
    obtain ⟨m, hm⟩ := ps (ext p)
    simp only [act, hm]
    exact ⟨_, rfl⟩
  | _ => exact ⟨_, rfl⟩

theorem run_some {count : Nat} (hc : count ≤ 32) : ∀ {acts : List Act} {s : State}, Inv count s none → Mutex.InvP s.mutex → Always count Prompt s acts →
    ∃ s', run count s acts = some s'
  | [], s, _, _, _ => ⟨s, rfl⟩
  | a :: as, s, g, v, ap => by
    obtain ⟨⟨m, w⟩, hm⟩ := act_some hc a g v
    have : ∃ s', step count s a = some s' := by
      simp only [step, hm]
      cases w with
      | none => exact ⟨_, rfl⟩
      | some t => simp only [wake, Soft.step]; exact ⟨_, rfl⟩
    obtain ⟨s', hs⟩ := this
    simp only [run, hs]
    exact run_some hc (step_inv hc g hs) (step_invP v ap.1 hs) (ap.2 s' hs)

end Verif.Exec.Lock
