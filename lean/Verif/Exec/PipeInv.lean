import Verif.Exec.PipeSpec
import Verif.Exec.ChanInv
import Verif.Exec.Level
import Verif.Ring.Feed
/-! # The invariant of tasks that send to each other -/
namespace Verif.Exec.Pipe
open Verif.Soft (upd Frame InvA InvI)
open Verif.Exec (entering inside Due NoOther due_push due_pend pend_eq ret_eq frameStep_due frameStep_inside frameStep_other
  entering_cons noOther_push Level frameStep_level)
open Verif.Exec.Chan (Res)
open Verif.Exec.Str (fresh ringWake ringRecv)

variable {k : Nat} {N : Prop} {g : Cfg}

/-- Task `q` has returned `Poll::Pending` from the channel and will be woken. -/
def Asleep (q : Nat) (c : Ring.State k Nat Nat) : Prop := (q % 2 = 0 → Ring.Read.Sleep c) ∧ (q % 2 ≠ 0 → Ring.Feed.Sleep c)

/-- Every task that was started sleeps or is about to be polled; `w` is a thread that is about
to be woken. -/
structure Inv (N : Prop) (g : Cfg) (s : State k) (w : Option Nat) : Prop where
  a : InvA g.count s.soft
  o : NoOther s.soft
  thr : ∀ q, q ∈ s.fibs → g.thr q < g.count
  nf : s.fibs.Nodup
  wait : ∀ q, q ∈ s.fibs → s.live q = true → s.done q = false →
    Asleep q (s.chan (q / 2)) ∨ q ∈ s.queue (g.thr q) ∨ Due s.soft (g.thr q) ∨ w = some (g.thr q)
  rx : ∀ j, Ring.Read.Fit (g.cap j) N (g.thr (2 * j)) (s.chan j)
  tx : ∀ j, Ring.Feed.Fit (g.cap j) (g.thr (2 * j + 1)) (g.list j) (s.chan j) (s.prog j)
  gr : ∀ j, s.done (2 * j) = true ↔ (s.chan j).rpc = .gone
  gs : ∀ j, s.done (2 * j + 1) = true ↔ (s.chan j).spc = .gone
  que : ∀ t q, q ∈ s.queue t → q ∈ s.fibs ∧ g.thr q = t ∧ s.done q = false
  nod : ∀ t, (s.queue t).Nodup
  bod : ∀ t, s.queue t ≠ [] → ∃ f ∈ s.soft.stack, inside [f] = some t

theorem init_inv (hg : g.Valid k) : Inv N g (init k g) none :=
  ⟨Soft.init_invA g.count hg.prio, by simp [NoOther, init, Soft.init], by simp [init], by simp [init], by simp [init],
    fun j => Ring.Read.fit_init _, fun j => Ring.Feed.fit_init _ _ _, by simp [init, Ring.init], by simp [init, Ring.init], by simp [init], by simp [init], by simp [init]⟩

theorem chain_mem {s : State k} {t q : Nat} : q ∈ chain g s t ↔ q ∈ s.fibs ∧ g.thr q = t ∧ s.done q = false := by
  simp [chain]

theorem chain_nodup {s : State k} (h : s.fibs.Nodup) (t : Nat) : (chain g s t).Nodup := h.filter _

/-- The wake. -/
theorem wake_inv (hc : g.count ≤ 32) {s s' : State k} {w : Option Nat} (i : Inv N g s w) (h : wake g s w = some s') :
    Inv N g s' none := by
  cases w with
  | none => simp only [wake, Option.some.injEq] at h; subst h; exact i
  | some t =>
    obtain ⟨a, o, thr, nf, wait, rx, tx, gr, gs, que, nod, bod⟩ := i
    by_cases ht : t < g.count
    · have hs := pend_eq (s := s.soft) ht
      have a' := Soft.step_invA hc a hs
      simp only [wake, hs, Option.some.injEq] at h
      subst h
      refine ⟨a', noOther_push o, thr, nf, ?_, rx, tx, gr, gs, que, nod, ?_⟩
      · intro q hk hl hd
        rcases wait q hk hl hd with h | h | h | h
        · exact .inl h
        · exact .inr (.inl h)
        · exact .inr (.inr (.inl (due_push h)))
        · simp only [Option.some.injEq] at h
          refine .inr (.inr (.inl ?_))
          dsimp only
          rw [← h]
          exact due_pend
      · intro u hu
        obtain ⟨f, hf, h⟩ := bod u hu
        exact ⟨f, by simp [hf], h⟩
    · simp only [wake, Soft.step, ht, ↓reduceIte, Option.some.injEq] at h
      subst h
      refine ⟨a, o, thr, nf, ?_, rx, tx, gr, gs, que, nod, bod⟩
      intro q hk hl hd
      rcases wait q hk hl hd with h | h | h | h
      · exact .inl h
      · exact .inr (.inl h)
      · exact .inr (.inr (.inl h))
      · simp only [Option.some.injEq] at h
        exact absurd (thr q hk) (by rw [← h]; exact ht)

theorem act_step (hc : g.count ≤ 32) {s s' : State k} {w : Option Nat} (i : Inv N g s none)
    (h : act g s .step = some (s', w)) : Inv N g s' w := by
  have i0 := i
  obtain ⟨a, o, thr, nf, wait, rx, tx, gr, gs, que, nod, i8⟩ := i
  simp only [act] at h
  cases hs : Soft.step g.count s.soft .step with
  | none => rw [hs] at h; simp at h
  | some soft =>
    rw [hs] at h
    have a' := Soft.step_invA hc a hs
    simp only [Soft.step] at hs
    cases hst : s.soft.stack with
    | nil =>
      rw [hst] at hs h
      simp only [Option.some.injEq] at hs
      subst hs
      simp only [entering, Option.some.injEq, Prod.mk.injEq] at h
      obtain ⟨rfl, rfl⟩ := h
      exact i0
    | cons f rest =>
      rw [hst] at hs h
      simp only at hs
      have o' := frameStep_other o hst hs
      have hnc := (o f (by rw [hst]; simp)).1
      have bod : ∀ t, s.queue t ≠ [] → ∃ f ∈ soft.stack, inside [f] = some t := by
        intro t ht
        obtain ⟨x, hx, hin⟩ := i8 t ht
        rw [hst] at hx
        rcases List.mem_cons.1 hx with rfl | hx
        · exact ⟨x, by rw [frameStep_inside hs hin]; simp, hin⟩
        · rcases Soft.frameStep_stack hs with e | ⟨y, e⟩
          · exact ⟨x, by rw [e]; exact hx, hin⟩
          · exact ⟨x, by rw [e]; simp [hx], hin⟩
      rw [entering_cons] at h
      cases he : entering [f] with
      | none =>
        rw [he] at h
        simp only [Option.some.injEq, Prod.mk.injEq] at h
        obtain ⟨rfl, rfl⟩ := h
        refine ⟨a', o', thr, nf, ?_, rx, tx, gr, gs, que, nod, bod⟩
        intro q hk hl hd
        rcases wait q hk hl hd with h | h | h | h
        · exact .inl h
        · exact .inr (.inl h)
        · rcases frameStep_due hc a (thr q hk) hst hs hnc h with h | h
          · exact .inr (.inr (.inl h))
          · rw [he] at h; simp at h
        · simp at h
      | some t =>
        rw [he] at h
        simp only [Option.some.injEq, Prod.mk.injEq] at h
        obtain ⟨rfl, rfl⟩ := h
        have hbody : ∃ f ∈ soft.stack, inside [f] = some t := by
          cases f with
          | row r pc =>
            cases pc with
            | call thr cell bit c =>
              cases c with
              | store p =>
                simp only [entering, Option.some.injEq] at he
                subst he
                simp only [Soft.frameStep, Soft.callStep, Option.some.injEq] at hs
                subst hs
                exact ⟨_, List.mem_cons_self .., rfl⟩
              | _ => simp [entering] at he
            | _ => simp [entering] at he
          | _ => simp [entering] at he
        refine ⟨a', o', thr, nf, ?_, rx, tx, gr, gs, ?_, ?_, ?_⟩
        · intro q hk hl hd
          by_cases e : g.thr q = t
          · refine .inr (.inl ?_)
            simp only [upd, e, ↓reduceIte]
            exact chain_mem.2 ⟨hk, e, hd⟩
          · rcases wait q hk hl hd with h | h | h | h
            · exact .inl h
            · refine .inr (.inl ?_)
              simp only [upd, e, ↓reduceIte]; exact h
            · rcases frameStep_due hc a (thr q hk) hst hs hnc h with h | h
              · exact .inr (.inr (.inl h))
              · rw [he] at h; simp only [Option.some.injEq] at h; exact absurd h.symm e
            · simp at h
        · intro u q hk
          simp only [upd] at hk
          split at hk
          · rename_i e
            subst e
            exact chain_mem.1 hk
          · exact que u q hk
        · intro u
          simp only [upd]
          split
          · exact chain_nodup nf t
          · exact nod u
        · intro u hu
          simp only [upd] at hu
          split at hu
          · rename_i e; subst e; exact hbody
          · exact bod u hu

theorem act_ret (hc : g.count ≤ 32) {s s' : State k} {w : Option Nat} (i : Inv N g s none)
    (h : act g s .ret = some (s', w)) : Inv N g s' w := by
  have i0 := i
  obtain ⟨a, o, thr, nf, wait, rx, tx, gr, gs, que, nod, i8⟩ := i
  simp only [act] at h
  cases hin : inside s.soft.stack with
  | none => rw [hin] at h; simp only [Option.some.injEq, Prod.mk.injEq] at h; obtain ⟨rfl, rfl⟩ := h; exact i0
  | some t =>
    rw [hin] at h
    simp only at h
    split at h
    · rename_i hq
      have hs : Soft.step g.count s.soft .ret = some { s.soft with stack := Soft.ret s.soft.stack } := rfl
      have a' := Soft.step_invA hc a hs
      rw [hs] at h
      simp only [Option.some.injEq, Prod.mk.injEq] at h
      obtain ⟨rfl, rfl⟩ := h
      obtain ⟨r, cell, bit, p, rest, e1, e2⟩ := ret_eq hin
      refine ⟨a', ?_, thr, nf, ?_, rx, tx, gr, gs, que, nod, ?_⟩
      · intro f hf
        dsimp only at hf
        rw [e2] at hf
        rcases List.mem_cons.1 hf with rfl | hf
        · exact ⟨by simp, by simp⟩
        · exact o f (by rw [e1]; simp [hf])
      · intro q hk hl hd
        rcases wait q hk hl hd with h | h | (h | ⟨f, hf, hlead⟩) | h
        · exact .inl h
        · exact .inr (.inl h)
        · exact .inr (.inr (.inl (.inl h)))
        · refine .inr (.inr (.inl (.inr ?_)))
          dsimp only
          rw [e1] at hf
          rw [e2]
          rcases List.mem_cons.1 hf with rfl | hf
          · exact absurd hlead id
          · exact ⟨f, by simp [hf], hlead⟩
        · simp at h
      · intro u hu
        dsimp only at hu ⊢
        obtain ⟨f, hf, hx⟩ := i8 u hu
        rw [e1] at hf
        rw [e2]
        rcases List.mem_cons.1 hf with rfl | hf
        · simp only [inside, Option.some.injEq] at hx
          subst hx
          exact absurd hq hu
        · exact ⟨f, by simp [hf], hx⟩
    · simp only [Option.some.injEq, Prod.mk.injEq] at h; obtain ⟨rfl, rfl⟩ := h; exact i0

/-- A new task that is not started, or whose thread is about to be woken. -/
theorem push_inv {s : State k} (i : Inv N g s none) {q₀ : Nat} {lv : Nat → Bool} {w : Option Nat} (ht : g.thr q₀ < g.count) (hq : q₀ ∉ s.fibs)
    (h0 : lv q₀ = true → s.live q₀ = true ∨ w = some (g.thr q₀)) (h1 : ∀ q, q ≠ q₀ → lv q = s.live q) (h2 : s.live q₀ = false) :
    Inv N g { s with fibs := q₀ :: s.fibs, live := lv } w := by
  obtain ⟨a, o, thr, nf, wait, rx, tx, gr, gs, que, nod, bod⟩ := i
  refine ⟨a, o, ?_, List.nodup_cons.2 ⟨hq, nf⟩, ?_, rx, tx, gr, gs, fun t q h => ?_, nod, bod⟩
  · intro q h
    rcases List.mem_cons.1 h with rfl | h
    · exact ht
    · exact thr q h
  · intro q h hl hd
    rcases List.mem_cons.1 h with rfl | h'
    · rcases h0 hl with e | e
      · rw [h2] at e; simp at e
      · exact .inr (.inr (.inr e))
    · have hne : q ≠ q₀ := by rintro rfl; exact hq h'
      dsimp only at hl
      rw [h1 q hne] at hl
      rcases wait q h' hl hd with h | h | h | h
      · exact .inl h
      · exact .inr (.inl h)
      · exact .inr (.inr (.inl h))
      · simp at h
  · obtain ⟨e1, e2⟩ := que t q h
    exact ⟨by simp [e1], e2⟩

/-- The chain of a thread after one of its tasks is done with. -/
theorem queue_facts {s : State k} (i : Inv N g s none) {t q₀ : Nat} {qs : List Nat} (hq : s.queue t = q₀ :: qs) :
    (∀ q, q ≠ q₀ → q ∈ s.queue (g.thr q) → q ∈ upd s.queue t qs (g.thr q)) ∧
    (∀ u q, q ∈ upd s.queue t qs u → q ∈ s.queue u ∧ q ≠ q₀) ∧ (∀ u, (upd s.queue t qs u).Nodup) ∧
    (∀ u, upd s.queue t qs u ≠ [] → ∃ f ∈ s.soft.stack, inside [f] = some u) := by
  obtain ⟨-, -, -, -, -, -, -, -, -, i6, i7, i8⟩ := i
  obtain ⟨hk, hkt, hkd⟩ := i6 t q₀ (by rw [hq]; simp)
  have hnd := i7 t
  rw [hq, List.nodup_cons] at hnd
  refine ⟨?_, ?_, ?_, ?_⟩
  · intro q hqk hmem
    simp only [upd]
    split
    · rename_i e
      rw [e, hq] at hmem
      rcases List.mem_cons.1 hmem with h | h
      · exact absurd h hqk
      · exact h
    · exact hmem
  · intro u q hx
    simp only [upd] at hx
    split at hx
    · rename_i e
      rw [e, hq]
      exact ⟨by simp [hx], fun e => hnd.1 (e ▸ hx)⟩
    · rename_i e
      refine ⟨hx, fun e' => e ?_⟩
      rw [e'] at hx
      have := (i6 u q₀ hx).2.1
      rw [hkt] at this; exact this.symm
  · intro u
    simp only [upd]
    split
    · exact hnd.2
    · exact i7 u
  · intro u hu
    simp only [upd] at hu
    split at hu
    · rename_i e
      rw [e]
      exact i8 t (by rw [hq]; simp)
    · exact i8 u hu

/-- The running task goes on. -/
theorem task_update {s : State k} (i : Inv N g s none) {t q : Nat} {qs : List Nat} (hq : s.queue t = q :: qs) {c : Ring.State k Nat Nat}
    {pr : Nat → Prog} {dn : Nat → Bool} {qu : Nat → List Nat} {w : Option Nat}
    (hrx : Ring.Read.Fit (g.cap (q / 2)) N (g.thr (2 * (q / 2))) c)
    (htx : Ring.Feed.Fit (g.cap (q / 2)) (g.thr (2 * (q / 2) + 1)) (g.list (q / 2)) c (pr (q / 2)))
    (hpr : ∀ j, j ≠ q / 2 → pr j = s.prog j) (hdn : ∀ x, x ≠ q → dn x = s.done x)
    (hgr : dn (2 * (q / 2)) = true ↔ c.rpc = .gone) (hgs : dn (2 * (q / 2) + 1) = true ↔ c.spc = .gone)
    (hoth : ∀ x, x ≠ q → x / 2 = q / 2 → Asleep x (s.chan (q / 2)) → Asleep x c ∨ w = some (g.thr x))
    (hqu : qu = s.queue ∧ dn q = false ∨ qu = upd s.queue t qs ∧ (dn q = false → Asleep q c)) :
    Inv N g { s with live := upd s.live q true, chan := upd s.chan (q / 2) c, prog := pr, done := dn, queue := qu } w := by
  obtain ⟨q1, q2, q3, q4⟩ := queue_facts i hq
  obtain ⟨a, o, thr, nf, wait, rx, tx, gr, gs, que, nod, bod⟩ := i
  obtain ⟨hk, hkt, hkd⟩ := que t q (by rw [hq]; simp)
  have hev : ∀ j, j ≠ q / 2 → 2 * j ≠ q ∧ 2 * j + 1 ≠ q := by intro j h; omega
  have cs : upd s.chan (q / 2) c (q / 2) = c := by simp [upd]
  have co : ∀ j, j ≠ q / 2 → upd s.chan (q / 2) c j = s.chan j := by intro j h; simp [upd, h]
  refine ⟨a, o, thr, nf, ?_, ?_, ?_, ?_, ?_, ?_, ?_, ?_⟩ <;> dsimp only
  · intro x hm hl hd
    by_cases e : x = q
    · subst e
      rcases hqu with ⟨rfl, -⟩ | ⟨-, h⟩
      · refine .inr (.inl ?_)
        rw [hkt, hq]; simp
      · exact .inl (by rw [cs]; exact h hd)
    · rw [hdn x e] at hd
      simp only [upd, e, ↓reduceIte] at hl
      rcases wait x hm hl hd with h | h | h | h
      · by_cases hj : x / 2 = q / 2
        · rw [hj] at h ⊢
          rw [cs]
          rcases hoth x e hj h with h | h
          · exact .inl h
          · exact .inr (.inr (.inr h))
        · rw [co _ hj]; exact .inl h
      · refine .inr (.inl ?_)
        rcases hqu with ⟨rfl, -⟩ | ⟨rfl, -⟩
        · exact h
        · exact q1 x e h
      · exact .inr (.inr (.inl h))
      · simp at h
  · intro j
    by_cases e : j = q / 2
    · subst e; rw [cs]; exact hrx
    · rw [co j e]; exact rx j
  · intro j
    by_cases e : j = q / 2
    · subst e; rw [cs]; exact htx
    · rw [co j e, hpr j e]; exact tx j
  · intro j
    by_cases e : j = q / 2
    · subst e; rw [cs]; exact hgr
    · rw [co j e, hdn _ (hev j e).1]; exact gr j
  · intro j
    by_cases e : j = q / 2
    · subst e; rw [cs]; exact hgs
    · rw [co j e, hdn _ (hev j e).2]; exact gs j
  · intro u x hx
    rcases hqu with ⟨rfl, hd⟩ | ⟨rfl, -⟩
    · obtain ⟨h1, h2, h3⟩ := que u x hx
      refine ⟨h1, h2, ?_⟩
      by_cases e : x = q
      · subst e; exact hd
      · rw [hdn x e]; exact h3
    · obtain ⟨h1, h2⟩ := q2 u x hx
      rw [hdn x h2]; exact que u x h1
  · rcases hqu with ⟨rfl, -⟩ | ⟨rfl, -⟩
    · exact nod
    · exact q3
  · rcases hqu with ⟨rfl, -⟩ | ⟨rfl, -⟩
    · exact bod
    · exact q4

theorem task_inv (hg : g.Valid k) {s s' : State k} {w : Option Nat} (i : Inv N g s none) (hn : N → NoClash g s') {t q : Nat} {qs : List Nat}
    (hq : s.queue t = q :: qs) (h : taskStep g s t q qs = some (s', w)) : Inv N g s' w := by
  obtain ⟨hk, hkt, hkd⟩ := i.que t q (by rw [hq]; simp)
  have hcap := hg.cap (q / 2)
  have cs : ∀ c, upd s.chan (q / 2) c (q / 2) = c := by intro c; simp [upd]
  have up : ∀ (d : Bool) x, x ≠ q → upd s.done q d x = s.done x := by intro d x h; simp [upd, h]
  have us : ∀ d : Bool, upd s.done q d q = d := by intro d; simp [upd]
  have f := i.rx (q / 2)
  have e := i.tx (q / 2)
  have hgr := i.gr (q / 2)
  have hgs := i.gs (q / 2)
  have hcur := (Ring.Read.reach_inv hcap.1 hcap.2 f.reach).2.1.1.cur
  simp only [taskStep] at h
  split at h
  · rename_i hpar
    have hev : 2 * (q / 2) = q := by omega
    have hodd : 2 * (q / 2) + 1 ≠ q := by omega
    rw [hev] at hgr
    have hgone : (s.chan (q / 2)).rpc ≠ .gone := fun e => by rw [hgr.2 e] at hkd; simp at hkd
    cases hr : ringRecv (g.cap (q / 2)) (g.thr q) (s.chan (q / 2)) with
    | none => rw [hr] at h; simp at h
    | some p =>
      obtain ⟨c, r⟩ := p
      rw [hr] at h
      have hn' : N → ¬ Ring.Clash (g.cap (q / 2)) c := fun hN => by
        have := hn hN (q / 2)
        cases r <;> (simp only [Option.some.injEq, Prod.mk.injEq] at h; obtain ⟨rfl, rfl⟩ := h; simpa [upd] using this)
      rw [hev] at f
      obtain ⟨f1, f2, f3, f4⟩ := Ring.Read.recv_fit hcap.1 hcap.2 f hgone hr hn'
      have rel := Ring.Feed.recv_rel hcap.2 hcur hr
      have hoth : ∀ x, x ≠ q → x / 2 = q / 2 → Asleep x (s.chan (q / 2)) →
          Asleep x c ∨ (fresh (s.chan (q / 2)).log c.log).findSome? ringWake = some (g.thr x) := by
        intro x hx hj sl
        have ho : x = 2 * (q / 2) + 1 := by omega
        rcases Ring.Feed.sleep_recv e rel (sl.2 (by omega)) with h | h
        · exact .inl ⟨fun h => by omega, fun _ => h⟩
        · rw [ho]; exact .inr h
      have e' := Ring.Feed.fit_recv e rel
      have hgs' : s.done (2 * (q / 2) + 1) = true ↔ c.spc = .gone := by rw [rel.spc]; exact hgs
      cases r with
      | more =>
        simp only [Option.some.injEq, Prod.mk.injEq] at h; obtain ⟨rfl, rfl⟩ := h
        refine task_update i hq (by rw [hev]; exact f1) e' (fun _ _ => rfl) (fun _ _ => rfl) ?_ hgs' hoth (.inl ⟨rfl, hkd⟩)
        rw [hev, hkd]; exact ⟨by simp, fun e => absurd e (f4 (by simp))⟩
      | pending =>
        simp only [Option.some.injEq, Prod.mk.injEq] at h; obtain ⟨rfl, rfl⟩ := h
        refine task_update i hq (by rw [hev]; exact f1) e' (fun _ _ => rfl) (fun _ _ => rfl) ?_ hgs' hoth
          (.inr ⟨rfl, fun _ => ⟨fun _ => f2 rfl, fun h => absurd hpar h⟩⟩)
        rw [hev, hkd]; exact ⟨by simp, fun e => absurd e (f4 (by simp))⟩
      | ready =>
        simp only [Option.some.injEq, Prod.mk.injEq] at h; obtain ⟨rfl, rfl⟩ := h
        refine task_update i hq (by rw [hev]; exact f1) e' (fun _ _ => rfl) (up true) ?_ ?_ hoth (.inr ⟨rfl, by rw [us]; simp⟩)
        · rw [hev, us]; exact ⟨fun _ => f3 rfl, fun _ => rfl⟩
        · rw [up _ _ hodd]; exact hgs'
  · rename_i hpar
    have hev : 2 * (q / 2) + 1 = q := by omega
    have hne : 2 * (q / 2) ≠ q := by omega
    rw [hev] at hgs
    have hgone : (s.chan (q / 2)).spc ≠ .gone := fun e => by rw [hgs.2 e] at hkd; simp at hkd
    cases hr : feed (g.cap (q / 2)) (g.thr q) (s.chan (q / 2)) (s.prog (q / 2)) with
    | none => rw [hr] at h; simp at h
    | some p =>
      obtain ⟨c, p', r, w'⟩ := p
      rw [hr] at h
      have hn' : N → ¬ Ring.Clash (g.cap (q / 2)) c := fun hN => by
        have := hn hN (q / 2)
        cases r <;> (simp only [Option.some.injEq, Prod.mk.injEq] at h; obtain ⟨rfl, rfl⟩ := h; simpa [upd] using this)
      rw [hev] at e
      obtain ⟨f1, f2, f3, f4, f5, f6, f7⟩ := Ring.Feed.feed_fit hcap.1 hcap.2 f e hgone hr hn'
      have hoth : ∀ x, x ≠ q → x / 2 = q / 2 → Asleep x (s.chan (q / 2)) → Asleep x c ∨ w' = some (g.thr x) := by
        intro x hx hj sl
        have ho : x = 2 * (q / 2) := by omega
        rcases f6 (sl.1 (by omega)) with h | h
        · exact .inl ⟨fun _ => h, fun h => by omega⟩
        · rw [ho]; exact .inr h
      have ps : upd s.prog (q / 2) p' (q / 2) = p' := by simp [upd]
      have po : ∀ j, j ≠ q / 2 → upd s.prog (q / 2) p' j = s.prog j := by intro j h; simp [upd, h]
      have hgr' : s.done (2 * (q / 2)) = true ↔ c.rpc = .gone := by rw [f7]; exact hgr
      have ft : Ring.Feed.Fit (g.cap (q / 2)) (g.thr (2 * (q / 2) + 1)) (g.list (q / 2)) c (upd s.prog (q / 2) p' (q / 2)) := by
        rw [ps, hev]; exact f2
      cases r with
      | more =>
        simp only [Option.some.injEq, Prod.mk.injEq] at h; obtain ⟨rfl, rfl⟩ := h
        refine task_update i hq f1 ft po (fun _ _ => rfl) hgr' ?_ hoth (.inl ⟨rfl, hkd⟩)
        rw [hev, hkd]; exact ⟨by simp, fun e => absurd e (f5 (by simp))⟩
      | pending =>
        simp only [Option.some.injEq, Prod.mk.injEq] at h; obtain ⟨rfl, rfl⟩ := h
        refine task_update i hq f1 ft po (fun _ _ => rfl) hgr' ?_ hoth (.inr ⟨rfl, fun _ => ⟨fun h => absurd h hpar, fun _ => f3 rfl⟩⟩)
        rw [hev, hkd]; exact ⟨by simp, fun e => absurd e (f5 (by simp))⟩
      | ready =>
        simp only [Option.some.injEq, Prod.mk.injEq] at h; obtain ⟨rfl, rfl⟩ := h
        refine task_update i hq f1 ft po (up true) ?_ ?_ hoth (.inr ⟨rfl, by rw [us]; simp⟩)
        · rw [up _ _ hne]; exact hgr'
        · rw [hev, us]; exact ⟨fun _ => f4 rfl, fun _ => rfl⟩

/-- A task that the executor was not given is not started. -/
def Fresh (s : State k) : Prop := ∀ q, q ∉ s.fibs → s.live q = false

theorem act_inv (hg : g.Valid k) {s s' : State k} {w : Option Nat} {a : Act} (i : Inv N g s none) (fr : Fresh s)
    (hn : N → NoClash g s') (h : act g s a = some (s', w)) : Inv N g s' w ∧ Fresh s' := by
  cases a with
  | step =>
    refine ⟨act_step hg.count i h, ?_⟩
    simp only [act] at h
    split at h
    · simp at h
    · split at h <;> (simp only [Option.some.injEq, Prod.mk.injEq] at h; obtain ⟨rfl, rfl⟩ := h; exact fr)
  | poll =>
    simp only [act] at h
    split at h
    · simp only [Option.some.injEq, Prod.mk.injEq] at h; obtain ⟨rfl, rfl⟩ := h; exact ⟨i, fr⟩
    split at h
    · simp only [Option.some.injEq, Prod.mk.injEq] at h; obtain ⟨rfl, rfl⟩ := h; exact ⟨i, fr⟩
    rename_i q qs hq
    split at h
    · simp at h
    refine ⟨task_inv hg i hn hq h, ?_⟩
    have hk := (i.que _ q (by rw [hq]; simp)).1
    have fr' : ∀ x, x ∉ s.fibs → upd s.live q true x = false := by
      intro x hx
      have : x ≠ q := by rintro rfl; exact hx hk
      simp only [upd, this, ↓reduceIte]; exact fr x hx
    simp only [taskStep] at h
    repeat' (split at h)
    all_goals first
      | (simp at h; done)
      | (simp only [Option.some.injEq, Prod.mk.injEq] at h; obtain ⟨rfl, -⟩ := h; exact fr')
  | ret =>
    refine ⟨act_ret hg.count i h, ?_⟩
    simp only [act] at h
    repeat' (split at h)
    all_goals first
      | (simp at h; done)
      | (simp only [Option.some.injEq, Prod.mk.injEq] at h; obtain ⟨rfl, -⟩ := h; exact fr)
  | add q =>
    simp only [act, Option.some.injEq, Prod.mk.injEq] at h
    obtain ⟨rfl, rfl⟩ := h
    split
    · rename_i ht
      refine ⟨push_inv i (lv := s.live) ht.1 ht.2 (fun h => .inl h) (fun _ _ => rfl) (fr q ht.2), ?_⟩
      intro x hx
      exact fr x fun h => hx (by simp [h])
    · exact ⟨i, fr⟩
  | exec q =>
    simp only [act, Option.some.injEq] at h
    split at h <;> (simp only [Prod.mk.injEq] at h; obtain ⟨rfl, rfl⟩ := h)
    · rename_i ht
      refine ⟨push_inv i ht.1 ht.2 (fun _ => .inr rfl) (fun x hx => by simp [upd, hx]) (fr q ht.2), ?_⟩
      intro x hx
      simp only [List.mem_cons, not_or] at hx
      simp only [upd, hx.1, ↓reduceIte]; exact fr x hx.2
    · exact ⟨i, fr⟩

theorem wake_eq {s s' : State k} {w : Option Nat} (h : wake g s w = some s') :
    s'.chan = s.chan ∧ s'.fibs = s.fibs ∧ s'.live = s.live ∧ s'.queue = s.queue := by
  cases w with
  | none => simp only [wake, Option.some.injEq] at h; rw [h]; simp
  | some t => simp only [wake, Soft.step, Option.some.injEq] at h; rw [← h]; simp

theorem step_inv (hg : g.Valid k) {s s' : State k} {a : Act} (i : Inv N g s none) (fr : Fresh s) (hn : N → NoClash g s')
    (h : step g s a = some s') : Inv N g s' none ∧ Fresh s' := by
  simp only [step] at h
  split at h
  · simp at h
  · rename_i s1 w hm
    have we := wake_eq h
    obtain ⟨i1, f1⟩ := act_inv hg i fr (fun hN => by have := hn hN; unfold NoClash at this ⊢; rwa [we.1] at this) hm
    refine ⟨wake_inv hg.count i1 h, ?_⟩
    unfold Fresh
    rw [we.2.1, we.2.2.1]; exact f1

theorem always_head {P : State k → Prop} {s : State k} {acts : List Act} (h : Always g P s acts) : P s := by
  cases acts with
  | nil => exact h
  | cons => exact h.1

theorem run_inv (hg : g.Valid k) : ∀ {acts : List Act} {s s' : State k}, Inv N g s none → Fresh s → (N → Always g (NoClash g) s acts) →
    run g s acts = some s' → Inv N g s' none
  | [], s, s', i, _, _, h => by simp only [run, Option.some.injEq] at h; exact h ▸ i
  | a :: as, s, s', i, fr, al, h => by
    simp only [run] at h
    split at h
    · simp at h
    · rename_i s1 hm
      obtain ⟨i1, f1⟩ := step_inv hg i fr (fun hN => always_head ((al hN).2 _ hm)) hm
      exact run_inv hg i1 f1 (fun hN => (al hN).2 _ hm) h

theorem task_soft {s s' : State k} {w : Option Nat} {t q : Nat} {qs : List Nat} (h : taskStep g s t q qs = some (s', w)) : s'.soft = s.soft := by
  simp only [taskStep] at h
  repeat' (split at h)
  all_goals first
    | (simp at h; done)
    | (simp only [Option.some.injEq, Prod.mk.injEq] at h; obtain ⟨rfl, -⟩ := h; rfl)

/-- The wake apart, the software threads make at most one step of their own. -/
theorem act_invI (hg : g.Valid k) {s s' : State k} {w : Option Nat} {a : Act} (i : Inv N g s none) (v : InvI g.count s.soft)
    (h : act g s a = some (s', w)) : InvI g.count s'.soft ∧ (w ≠ none → s'.soft = s.soft) := by
  cases a with
  | step =>
    simp only [act] at h
    cases hs : Soft.step g.count s.soft .step with
    | none => rw [hs] at h; simp at h
    | some soft =>
      have v' := Soft.step_invI (a := .step) hg.count trivial trivial i.a v hs
      rw [hs] at h
      simp only at h
      split at h <;> (simp only [Option.some.injEq, Prod.mk.injEq] at h; obtain ⟨rfl, rfl⟩ := h; exact ⟨v', by simp⟩)
  | poll =>
    simp only [act] at h
    split at h
    · simp only [Option.some.injEq, Prod.mk.injEq] at h; obtain ⟨rfl, -⟩ := h; exact ⟨v, fun _ => rfl⟩
    split at h
    · simp only [Option.some.injEq, Prod.mk.injEq] at h; obtain ⟨rfl, -⟩ := h; exact ⟨v, fun _ => rfl⟩
    split at h
    · simp at h
    · have := task_soft h
      exact ⟨by rw [this]; exact v, fun _ => this⟩
  | ret =>
    simp only [act] at h
    split at h
    · simp only [Option.some.injEq, Prod.mk.injEq] at h; obtain ⟨rfl, rfl⟩ := h; exact ⟨v, by simp⟩
    · split at h
      · cases hs : Soft.step g.count s.soft .ret with
        | none => rw [hs] at h; simp at h
        | some soft =>
          have v' := Soft.step_invI (a := .ret) hg.count trivial trivial i.a v hs
          rw [hs] at h
          simp only [Option.some.injEq, Prod.mk.injEq] at h; obtain ⟨rfl, rfl⟩ := h; exact ⟨v', by simp⟩
      · simp only [Option.some.injEq, Prod.mk.injEq] at h; obtain ⟨rfl, rfl⟩ := h; exact ⟨v, by simp⟩
  | add q =>
    simp only [act, Option.some.injEq, Prod.mk.injEq] at h
    obtain ⟨rfl, rfl⟩ := h
    split <;> exact ⟨v, by simp⟩
  | exec q =>
    simp only [act, Option.some.injEq] at h
    split at h <;> (simp only [Prod.mk.injEq] at h; obtain ⟨rfl, -⟩ := h; exact ⟨v, fun _ => rfl⟩)

theorem step_invI (hg : g.Valid k) {s s' : State k} {a : Act} (i : Inv False g s none) (fr : Fresh s) (v : InvI g.count s.soft) (hn : NoSame g s a)
    (h : step g s a = some s') : InvI g.count s'.soft := by
  simp only [step] at h
  split at h
  · simp at h
  · rename_i s1 w hm
    obtain ⟨v', hw⟩ := act_invI hg i v hm
    have im := (act_inv hg i fr False.elim hm).1
    cases w with
    | none => simp only [wake, Option.some.injEq] at h; subst h; exact v'
    | some t =>
      have e := hw (by simp)
      have hn' : Soft.NoSame s1.soft (.pend t) := by
        rw [e]; exact hn t (by simp only [wakes, hm])
      simp only [wake] at h
      cases hs : Soft.step g.count s1.soft (.pend t) with
      | none => rw [hs] at h; simp at h
      | some soft =>
        have v'' := Soft.step_invI (a := .pend t) hg.count trivial hn' im.a v' hs
        rw [hs] at h
        simp only [Option.some.injEq] at h; subst h; exact v''

theorem run_invI (hg : g.Valid k) : ∀ {acts : List Act} {s s' : State k}, AlwaysAct g (NoSame g) s acts → Inv False g s none → Fresh s →
    InvI g.count s.soft → run g s acts = some s' → InvI g.count s'.soft
  | [], s, s', _, _, _, v, h => by simp only [run, Option.some.injEq] at h; exact h ▸ v
  | a :: as, s, s', n, i, fr, v, h => by
    simp only [run] at h
    split at h
    · simp at h
    · rename_i s1 hm
      obtain ⟨i1, f1⟩ := step_inv hg i fr False.elim hm
      exact run_invI hg (n.2 s1 hm) i1 f1 (step_invI hg i fr v n.1 hm) h

/-- All channels are sane. -/
def Sane (g : Cfg) (s : State k) : Prop := ∀ j, Ring.Inv (g.cap j) (s.chan j)

theorem sane_upd {s : State k} (v : Sane g s) {j : Nat} {c : Ring.State k Nat Nat} (h : Ring.Inv (g.cap j) c) :
    ∀ i, Ring.Inv (g.cap i) (upd s.chan j c i) := by
  intro i
  simp only [upd]
  split
  · rename_i e; rw [e]; exact h
  · exact v i

/-- Nothing faults as long as no channel is released too early. -/
theorem act_some (hg : g.Valid k) {s : State k} (a : Act) (i : Inv True g s none) (v : Sane g s) (ap : AllApart s) :
    ∃ s' w, act g s a = some (s', w) ∧ Sane g s' := by
  cases a with
  | step =>
    have : ∃ m, Soft.step g.count s.soft .step = some m := by
      simp only [Soft.step]
      split
      · exact ⟨_, rfl⟩
      · rename_i f rest hst; exact Soft.frameStep_some hg.count i.a hst
    obtain ⟨m, hm⟩ := this
    simp only [act, hm]
    split <;> exact ⟨_, _, rfl, v⟩
  | poll =>
    simp only [act]
    split
    · exact ⟨_, _, rfl, v⟩
    · rename_i t ht
      split
      · exact ⟨_, _, rfl, v⟩
      · rename_i q qs hq
        obtain ⟨hk, -, this⟩ := i.que t q (by rw [hq]; simp)
        rw [this]
        have hcap := hg.cap (q / 2)
        simp only [Bool.false_eq_true, ↓reduceIte, taskStep]
        split
        · rename_i hpar
          have hev : 2 * (q / 2) = q := by omega
          have f := i.rx (q / 2)
          rw [hev] at f
          obtain ⟨c', r, hr, vc⟩ := Ring.Read.recv_sane (t := g.thr q) hcap.1 hcap.2 f trivial (v (q / 2)) (ap _)
          rw [hr]
          cases r <;> exact ⟨_, _, rfl, sane_upd v vc⟩
        · obtain ⟨c', p', r, w, hr, vc⟩ := Ring.Feed.feed_sane (t := g.thr q) hcap.1 hcap.2 (s.prog (q / 2)) (i.rx (q / 2)) trivial (v (q / 2)) (ap _)
          rw [hr]
          cases r <;> exact ⟨_, _, rfl, sane_upd v vc⟩
  | ret =>
    simp only [act]
    split
    · exact ⟨_, _, rfl, v⟩
    · split <;> exact ⟨_, _, rfl, v⟩
  | add q =>
    refine ⟨_, _, rfl, ?_⟩
    split <;> exact v
  | exec q =>
    simp only [act]
    split <;> exact ⟨_, _, rfl, v⟩

theorem run_some (hg : g.Valid k) : ∀ {acts : List Act} {s : State k}, Inv True g s none → Fresh s → Sane g s → Always g (NoClash g) s acts →
    Always g AllApart s acts → ∃ s', run g s acts = some s'
  | [], s, _, _, _, _, _ => ⟨s, rfl⟩
  | a :: as, s, i, fr, v, nc, ap => by
    obtain ⟨m, w, hm, vm⟩ := act_some hg a i v ap.1
    have : ∃ s', step g s a = some s' ∧ Sane g s' := by
      simp only [step, hm]
      cases w with
      | none => exact ⟨_, rfl, vm⟩
      | some t => simp only [wake, Soft.step]; exact ⟨_, rfl, vm⟩
    obtain ⟨s', hs, vs⟩ := this
    simp only [run, hs]
    obtain ⟨i1, f1⟩ := step_inv hg i fr (fun _ => always_head (nc.2 s' hs)) hs
    exact run_some hg i1 f1 vs (nc.2 s' hs) (ap.2 s' hs)

end Verif.Exec.Pipe
