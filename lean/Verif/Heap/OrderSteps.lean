import Verif.Order.Cases
import Verif.Heap.OrderLemmas
/-! # The steps of the pool with memory orderings -/
namespace Verif.Heap.Conc.Order

open Verif.Heap.Conc
open Verif.Order

/-- The block that is being deallocated. -/
def mine : Pc → Option Nat
  | .deLoad p | .deWrite p _ | .deCas p _ => some p
  | _ => none

def allocs : Pc → Bool
  | .afLoad | .afRead _ | .afCas _ _ | .auLoad | .auCas _ => true
  | _ => false

/-- What the allocating context has found. -/
def Found (r : Nat) (link : Nat → Nat) (tr : List Ev) (FL : List Nat) : Pc → Prop
  | .afRead old => Held r tr FL old
  | .afCas old next => Held r tr FL old ∧ next = link old
  | _ => True

structure Ctrl (r : Nat) (s : HState) (tr : List Ev) (FL : List Nat) : Prop where
  linked : Linked s.base.link s.base.free FL
  de : ∀ t p, mine (s.base.pc t) = some p → s.own p = .ctx t ∧ s.task t = .none
  deCas : ∀ t p old, s.base.pc t = .deCas p old → s.base.link p = old
  work : ∀ t, (s.task t).fits s.own t
  idle : ∀ t, s.task t ≠ .none → s.base.pc t = .idle
  others : ∀ t, t ≠ r → allocs (s.base.pc t) = false
  found : Found r s.base.link tr FL (s.base.pc r)

/-- The blocks that are handed out. -/
structure Hands (s : HState) : Prop where
  nodup : s.base.held.Nodup
  pool : ∀ q ∈ s.base.held, s.own q ≠ .pool
  de : ∀ t q, mine (s.base.pc t) = some q → q ∉ s.base.held

theorem hands_pc {s s' : HState} (h : Hands s) (h1 : s'.base.held = s.base.held) (h2 : ∀ q, s.own q ≠ .pool → s'.own q ≠ .pool)
    (h3 : ∀ t q, mine (s'.base.pc t) = some q → mine (s.base.pc t) = some q) : Hands s' :=
  ⟨h1 ▸ h.nodup, fun q hq => h2 q (h.pool q (h1 ▸ hq)), fun t q hq => h1 ▸ h.de t q (h3 t q hq)⟩

theorem hands_goto {s s' : HState} (h : Hands s) (h1 : s'.base.held = s.base.held) (h2 : s'.own = s.own) {t : Nat} {pc : Pc}
    (h3 : s'.base.pc = fun u => if u = t then pc else s.base.pc u) (h4 : mine pc = none ∨ mine pc = mine (s.base.pc t)) : Hands s' := by
  refine hands_pc h h1 (fun q hq => h2 ▸ hq) fun u q hq => ?_
  rw [h3] at hq
  dsimp only at hq
  split at hq
  · rename_i e
    rcases h4 with h4 | h4
    · rw [h4] at hq; cases hq
    · rw [e, ← h4]; exact hq
  · exact hq

/-- The invariant. -/
def HInv (r : Nat) (p : PState HState Nat) : Prop :=
  (0 < p.s.base.size ∧ Hands p.s) ∧ ∃ FL, Data r p.s.own p.s.base.uninit (p.hist 0) (p.seen r 0) p.tr FL ∧ Ctrl r p.s p.tr FL

variable {address size count : Nat} {link : Nat → Nat} {may : Nat → Bool} {o : Ords} {r : Nat}

theorem linked_head {l : Nat → Nat} {p : Nat} {FL : List Nat} (h : Linked l p FL) : p = FL.headD 0 := by
  cases FL with
  | nil => exact h
  | cons a FL => exact h.1

theorem linked_congr {l l' : Nat → Nat} {p : Nat} {FL : List Nat} (hl : ∀ v ∈ FL, l' v = l v) (h : Linked l p FL) : Linked l' p FL := by
  induction FL generalizing p with
  | nil => exact h
  | cons a FL ih =>
    obtain ⟨h1, h2, h3⟩ := h
    refine ⟨h1, h2, ?_⟩
    rw [hl a (by simp)]
    exact ih (fun v hv => hl v (List.mem_cons_of_mem _ hv)) h3

/-- What a step leads to, and that its access does not race. -/
def Next (r : Nat) (p p' : PState HState Nat) (t : Nat) : Prop :=
  p' = p ∨ ∃ f, f.tid = t ∧ p'.tr = p.tr ++ [f] ∧ HInv r p' ∧ ∀ (i : Nat) (e : Ev), p.tr[i]? = some e → Conflict e f → Know p.tr t i

theorem safe_atomic {own : Nat → Owner} {un sn : Nat} {H FL : List Nat} {tr : List Ev} (h : Data r own un H sn tr FL) {f : Ev} (m : Mild f)
    (ha : f.kind.atomic = true) (i : Nat) (e : Ev) (he : tr[i]? = some e) (hc : Conflict e f) : Know tr f.tid i := by
  obtain ⟨h1, h2, h3, -⟩ := h.evs i e he
  rcases hc.2 with h4 | h4 | ⟨h4, -, h5⟩
  · exact absurd h4 h1
  · exact absurd h4 m.free
  · cases hk : e.kind.atomic
    · obtain ⟨p, hp⟩ := h3 hk
      exact absurd (h4.symm.trans hp) (m.atomic ha p)
    · exact absurd ⟨hk, ha⟩ h5

theorem safe_plain {own : Nat → Owner} {un sn : Nat} {H FL : List Nat} {tr : List Ev} (h : Data r own un H sn tr FL) {f : Ev} (m : Mild f)
    {p : Nat} (hp : At p f) (hk : Knows tr f.tid (At p)) (i : Nat) (e : Ev) (he : tr[i]? = some e) (hc : Conflict e f) : Know tr f.tid i := by
  rcases hc.2 with h4 | h4 | ⟨h4, -⟩
  · exact absurd h4 (h.evs i e he).1
  · exact absurd h4 m.free
  · exact hk i e he (h4.trans hp)

theorem mild_atomic {t l : Nat} {k : Kind} (hk : k.atomic = true) (hs : ∀ b, k ≠ .store b) (hl : ∀ p, l ≠ blk p) : Mild ⟨t, l, k⟩ :=
  ⟨by rintro rfl; (cases hk), fun _ p hp => hl p hp, fun h => by rw [hk] at h; (cases h),
    fun m => by cases k <;> simp_all [Ev.isStore]⟩

theorem mild_plain {t p : Nat} {k : Kind} (hk : k = .read ∨ k = .write) : Mild ⟨t, blk p, k⟩ := by
  rcases hk with rfl | rfl <;>
    exact ⟨nofun, nofun, fun _ => ⟨p, rfl⟩, fun m => by simp [Ev.isStore]⟩

/-- Context `t` moves on in the pool, and the free list stays. -/
theorem ctrl_move {s s' : HState} {tr : List Ev} {FL : List Nat} {un sn : Nat} {H : List Nat} (hd : Data r s.own un H sn tr FL)
    (h : Ctrl r s tr FL) {f : Ev} (ht : Touch r s.own FL f) {pc : Pc} (h1 : s'.base.free = s.base.free) (h2 : s'.own = s.own)
    (h3 : s'.task = s.task) (h4 : s'.base.pc = fun u => if u = f.tid then pc else s.base.pc u)
    (h5 : ∀ v, s.own v ≠ .ctx f.tid → s'.base.link v = s.base.link v) (h6 : mine pc = none ∨ mine pc = mine (s.base.pc f.tid))
    (h7 : ∀ p old, pc = .deCas p old → s'.base.link p = old) (h8 : s.task f.tid = .none)
    (h9 : allocs pc = true → f.tid = r) (h10 : f.tid = r → Found r s'.base.link (tr ++ [f]) FL pc) : Ctrl r s' (tr ++ [f]) FL := by
  have hfl : ∀ v ∈ FL, s'.base.link v = s.base.link v := fun v hv => h5 v (by rw [(hd.pool v hv).1]; nofun)
  refine ⟨h1 ▸ linked_congr hfl h.linked, fun t p hp => ?_, fun t p old hp => ?_, by rw [h2, h3]; exact h.work, fun t ht => ?_,
    fun t ht => ?_, ?_⟩
  · rw [h2, h3]
    rw [h4] at hp
    dsimp only at hp
    split at hp
    · rename_i e
      subst e
      rcases h6 with h6 | h6
      · rw [h6] at hp; cases hp
      · exact h.de _ p (h6 ▸ hp)
    · exact h.de t p hp
  · rw [h4] at hp
    dsimp only at hp
    split at hp
    · exact h7 p old hp
    · rename_i e
      have := (h.de t p (by rw [hp]; rfl)).1
      rw [h5 p (by rw [this]; exact fun e' => e (Owner.ctx.inj e'))]
      exact h.deCas t p old hp
  · rw [h3] at ht
    rw [h4]
    dsimp only
    rw [if_neg (fun e : t = f.tid => ht (e ▸ h8))]
    exact h.idle t ht
  · rw [h4]
    dsimp only
    split
    · rename_i e
      cases hb : allocs pc
      · rfl
      · exact absurd (e.trans (h9 hb)) ht
    · exact h.others t ht
  · rw [h4]
    dsimp only
    split
    · rename_i e; exact h10 e.symm
    · have hf := h.found
      revert hf
      cases s.base.pc r <;> simp only [Found, imp_self]
      · exact fun h => held_append h (touch_fl hd ht)
      · rintro ⟨hh, hn⟩
        refine ⟨held_append hh (touch_fl hd ht), ?_⟩
        obtain ⟨pre, post, hfe, -⟩ := hh
        rw [hfl _ (by rw [hfe]; simp)]; exact hn

/-- Context `t` acts outside of the pool. -/
theorem ctrl_task {s s' : HState} {tr : List Ev} {FL : List Nat} {un sn : Nat} {H : List Nat} (hd : Data r s.own un H sn tr FL)
    (h : Ctrl r s tr FL) {f : Ev} (ht : Touch r s.own FL f) (h1 : s'.base.free = s.base.free)
    (h2 : ∀ p, s'.own p = s.own p ∨ s.own p = .ctx f.tid ∨ s.own p = .sent)
    (h3 : s'.task = fun u => if u = f.tid then .none else s.task u) (h4 : s'.base.pc = s.base.pc)
    (h5 : ∀ v, s.own v ≠ .ctx f.tid → s'.base.link v = s.base.link v) (h8 : s.task f.tid ≠ .none) : Ctrl r s' (tr ++ [f]) FL := by
  have hfl : ∀ v ∈ FL, s'.base.link v = s.base.link v := fun v hv => h5 v (by rw [(hd.pool v hv).1]; nofun)
  have hde : ∀ t p, mine (s.base.pc t) = some p → t ≠ f.tid := fun t p hp e => h8 (e ▸ (h.de t p hp).2)
  have hown : ∀ t p, t ≠ f.tid → s.own p = .ctx t → s'.own p = .ctx t := by
    intro t p ht hp
    rcases h2 p with e | e | e
    · rw [e]; exact hp
    · rw [hp] at e; exact absurd (Owner.ctx.inj e) ht
    · rw [hp] at e; cases e
  refine ⟨h1 ▸ linked_congr hfl h.linked, fun t p hp => ?_, fun t p old hp => ?_, fun t => ?_, fun t ht => ?_, by rw [h4]; exact h.others, ?_⟩
  · rw [h4] at hp
    have hne := hde t p hp
    rw [h3]
    dsimp only
    rw [if_neg hne]
    exact ⟨hown t p hne (h.de t p hp).1, (h.de t p hp).2⟩
  · rw [h4] at hp
    have hm : mine (s.base.pc t) = some p := by rw [hp]; rfl
    have := (h.de t p hm).1
    rw [h5 p (by rw [this]; exact fun e => hde t p hm (Owner.ctx.inj e))]
    exact h.deCas t p old hp
  · rw [h3]
    dsimp only
    split
    · trivial
    · rename_i hne
      have := h.work t
      revert this
      cases s.task t <;> simp only [Task.fits, imp_self] <;> exact hown t _ hne
  · rw [h3] at ht
    dsimp only at ht
    rw [h4]
    split at ht
    · exact absurd rfl ht
    · exact h.idle t ht
  · rw [h4]
    have hf := h.found
    revert hf
    cases s.base.pc r <;> simp only [Found, imp_self]
    · exact fun h => held_append h (touch_fl hd ht)
    · rintro ⟨hh, hn⟩
      refine ⟨held_append hh (touch_fl hd ht), ?_⟩
      obtain ⟨pre, post, hfe, -⟩ := hh
      rw [hfl _ (by rw [hfe]; simp)]; exact hn

/-- A load. -/
theorem next_load {p p' : PState HState Nat} (h : HInv r p) {t l k v : Nat} {a : Bool} (hl : l = 0 ∨ l = 1) (hk : p.seen t l ≤ k)
    (hv : (p.hist l)[k]? = some v) (htask : p.s.task t = .none) {pc : Pc} {s' : HState}
    (h1 : s' = { p.s with base := p.s.base.goto t pc })
    (hp : p' = ⟨s', p.hist, upd p.seen t (upd (p.seen t) l k), p.tr ++ [⟨t, l, .load a k⟩]⟩)
    (h6 : mine pc = none ∨ mine pc = mine (p.s.base.pc t)) (h7 : ∀ q old, pc ≠ .deCas q old) (h9 : allocs pc = true → t = r)
    (h10 : ∀ q, pc = .afRead q → l = 0 ∧ a = true ∧ q = v ∧ v ≠ 0) (h11 : ∀ q n, pc ≠ .afCas q n) : Next r p p' t := by
  obtain ⟨⟨hsz, hh0⟩, FL, hd, hc⟩ := h
  have hnb : ∀ q, l ≠ blk q := fun q => by have := blk_ne q; omega
  have m : Mild ⟨t, l, .load a k⟩ := mild_atomic rfl nofun hnb
  have ht : Touch r p.s.own FL ⟨t, l, .load a k⟩ := fun q hq => absurd hq (hnb q)
  have hkl : l = 0 → k ≤ cnt p.tr 0 := by
    rintro rfl
    have := (List.getElem?_eq_some_iff.1 hv).1
    have := hd.len
    omega
  subst hp
  refine .inr ⟨_, rfl, rfl, ⟨⟨by rw [h1]; exact hsz, by rw [h1]; exact hands_goto hh0 rfl rfl rfl h6⟩, FL, ?_, ?_⟩, safe_atomic hd m rfl⟩
  · have hw : (⟨t, l, .load a k⟩ : Ev).writes 0 = false := by simp [Ev.writes]
    rw [h1]
    refine data_quiet hd m hw ht ?_ ?_
    · simp only [seen_upd (g := fun _ => k)]
      split
      · rename_i e; rw [e.1, ← e.2]; exact hk
      · exact Nat.le_refl _
    · simp only [seen_upd (g := fun _ => k)]
      split
      · rename_i e; exact hkl e.2
      · exact hd.seen
  · subst h1
    refine ctrl_move hd hc ht (pc := pc) rfl rfl rfl rfl (fun _ _ => rfl) h6 (fun q old e => absurd e (h7 q old)) htask h9 fun e => ?_
    have e : t = r := e
    subst e
    cases pc with
    | afRead q =>
      obtain ⟨rfl, rfl, rfl, h0⟩ := h10 _ rfl
      obtain ⟨pre, post, he, htold⟩ := hd.told hk hv h0
      refine ⟨pre, post, he, fun w hw i e he ha => ?_⟩
      rcases get_append he with he | ⟨rfl, rfl⟩
      · rcases htold w hw i e he ha with h3 | h3
        · exact know_append.2 (.inl h3)
        · exact know_append.2 (.inr ⟨rfl, .inr ⟨rfl, h3⟩⟩)
      · exact absurd ha (hnb w)
    | afCas q n => exact absurd rfl (h11 q n)
    | _ => trivial

/-- An access to a block. -/
theorem next_other {p p' : PState HState Nat} (h : HInv r p) {t q : Nat} {kd : Kind} (hkd : kd = .read ∨ kd = .write)
    (htask : p.s.task t = .none) {pc : Pc} {lnk : Nat → Nat} {s' : HState}
    (h1 : s' = { p.s with base := { p.s.base.goto t pc with link := lnk } })
    (hp : p' = ⟨s', p.hist, p.seen, p.tr ++ [⟨t, blk q, kd⟩]⟩)
    (hq : p.s.own q = .ctx t ∨ (t = r ∧ ∀ FL, Ctrl r p.s p.tr FL → Held r p.tr FL q))
    (h5 : ∀ v, p.s.own v ≠ .ctx t → lnk v = p.s.base.link v) (h6 : mine pc = none ∨ mine pc = mine (p.s.base.pc t))
    (h7 : ∀ p old, pc = .deCas p old → lnk p = old) (h9 : allocs pc = true → t = r)
    (h10 : ∀ FL, Ctrl r p.s p.tr FL → t = r → Found r lnk p.tr FL pc) : Next r p p' t := by
  obtain ⟨⟨hsz, hh0⟩, FL, hd, hc⟩ := h
  have m : Mild ⟨t, blk q, kd⟩ := mild_plain hkd
  have ht : Touch r p.s.own FL ⟨t, blk q, kd⟩ := by
    intro v hv
    have := blk_inj hv
    subst this
    rcases hq with hq | ⟨hr, hq⟩
    · exact .inl hq
    · obtain ⟨pre, post, rfl, -⟩ := hq FL hc
      exact .inr ⟨by simp, hr⟩
  have hkn : Knows p.tr t (At q) := by
    rcases hq with hq | ⟨hr, hq⟩
    · exact hd.ctx q t hq
    · obtain ⟨pre, post, -, hh⟩ := hq FL hc
      exact hr ▸ hh q (by simp)
  have hkl : (⟨t, blk q, kd⟩ : Ev).writes 0 = false := by rcases hkd with rfl | rfl <;> simp [Ev.writes]
  subst hp h1
  refine .inr ⟨_, rfl, rfl, ⟨⟨hsz, hands_goto (t := t) (pc := pc) hh0 rfl rfl rfl h6⟩, FL, data_quiet hd m hkl ht (Nat.le_refl _) hd.seen, ?_⟩, safe_plain hd m rfl hkn⟩
  refine ctrl_move hd hc ht (pc := pc) rfl rfl rfl rfl h5 h6 h7 htask h9 fun e => ?_
  have := h10 FL hc e
  cases pc with
  | afRead q => exact held_append this (touch_fl hd ht)
  | afCas q n => exact ⟨held_append this.1 (touch_fl hd ht), this.2⟩
  | _ => trivial

/-- Outside of the pool. -/
theorem next_task {p p' : PState HState Nat} (h : HInv r p) {t : Nat} {f : Ev} (hf : f.tid = t) (m : Mild f) (hw : f.writes 0 = false) {s' : HState}
    {seen : Nat → Nat → Nat} {hist : Nat → List Nat} (hp : p' = ⟨s', hist, seen, p.tr ++ [f]⟩) (hsn : seen r 0 = p.seen r 0)
    (hh : hist 0 = p.hist 0) (hu : s'.base.uninit = p.s.base.uninit) (hz : s'.base.size = p.s.base.size)
    (hq : ∀ q, At q f → p.s.own q = .ctx t) (h1 : s'.base.free = p.s.base.free)
    (h2 : ∀ q, s'.own q = p.s.own q ∨ p.s.own q = .ctx t ∨ p.s.own q = .sent) (hhd : s'.base.held = p.s.base.held)
    (hnp : ∀ q, p.s.own q ≠ .pool → s'.own q ≠ .pool)
    (h3 : s'.task = fun u => if u = t then .none else p.s.task u) (h4 : s'.base.pc = p.s.base.pc)
    (h5 : ∀ v, p.s.own v ≠ .ctx t → s'.base.link v = p.s.base.link v) (h8 : p.s.task t ≠ .none)
    (h9 : s'.own = p.s.own ∨ ∀ FL, Data r p.s.own p.s.base.uninit (p.hist 0) (p.seen r 0) p.tr FL →
      Data r s'.own p.s.base.uninit (p.hist 0) (p.seen r 0) (p.tr ++ [f]) FL) : Next r p p' t := by
  obtain ⟨⟨hsz, hh0⟩, FL, hd, hc⟩ := h
  subst hf
  have ht : Touch r p.s.own FL f := fun q hqf => .inl (hq q hqf)
  subst hp
  refine .inr ⟨f, rfl, rfl, ⟨⟨by rw [hz]; exact hsz, hands_pc hh0 hhd hnp (by rw [h4]; exact fun _ _ h => h)⟩, FL, ?_, ctrl_task hd hc ht h1 h2 h3 h4 h5 h8⟩, fun i e he hcf => ?_⟩
  · dsimp only
    rw [hsn, hh, hu]
    rcases h9 with h9 | h9
    · rw [h9]; exact data_quiet hd m hw ht (Nat.le_refl _) hd.seen
    · exact h9 FL hd
  · cases ha : f.kind.atomic
    · obtain ⟨q, hqf⟩ := m.plain ha
      exact safe_plain hd m hqf (hd.ctx q _ (hq q hqf)) i e he hcf
    · exact safe_atomic hd m ha i e he hcf

/-- A context becomes idle; the free list and the owner of one block change. -/
theorem ctrl_cas {s s' : HState} {tr : List Ev} {FL FL' : List Nat} (h : Ctrl r s tr FL) {t q : Nat} {x : Owner}
    (h0 : Linked s.base.link s'.base.free FL') (h1 : s'.base.link = s.base.link) (h2 : s'.own = fun p => if p = q then x else s.own p)
    (h3 : s'.task = s.task) (h4 : s'.base.pc = fun u => if u = t then .idle else s.base.pc u)
    (h5 : ∀ u, u ≠ t → s.own q ≠ .ctx u) (h6 : s.base.pc t ≠ .idle) {f : Ev}
    (h7 : t ≠ r → Found r s.base.link (tr ++ [f]) FL' (s.base.pc r)) : Ctrl r s' (tr ++ [f]) FL' := by
  have htask : s.task t = .none := Classical.byContradiction fun e => h6 (h.idle t e)
  have hown : ∀ u p, u ≠ t → s.own p = .ctx u → s'.own p = .ctx u := by
    intro u p hu hp
    rw [h2]
    dsimp only
    rw [if_neg (fun e : p = q => h5 u hu (e ▸ hp))]
    exact hp
  refine ⟨h1 ▸ h0, fun u p hp => ?_, fun u p old hp => ?_, fun u => ?_, fun u hu => ?_, fun u hu => ?_, ?_⟩
  · rw [h4] at hp
    dsimp only at hp
    split at hp
    · cases hp
    · rename_i hne
      rw [h3]
      exact ⟨hown u p hne (h.de u p hp).1, (h.de u p hp).2⟩
  · rw [h4] at hp
    dsimp only at hp
    split at hp
    · cases hp
    · rw [h1]; exact h.deCas u p old hp
  · rw [h3]
    by_cases hne : u = t
    · subst hne; rw [htask]; trivial
    · have := h.work u
      revert this
      cases s.task u <;> simp only [Task.fits, imp_self] <;> exact hown u _ hne
  · rw [h3] at hu
    rw [h4]
    dsimp only
    split
    · rfl
    · exact h.idle u hu
  · rw [h4]
    dsimp only
    split
    · rfl
    · exact h.others u hu
  · rw [h4, h1]
    dsimp only
    split
    · trivial
    · rename_i hne; exact h7 fun e => hne e.symm

theorem atomic_fl {FL : List Nat} {t l : Nat} {k : Kind} (hl : ∀ q, l ≠ blk q) : ∀ w ∈ FL, At w ⟨t, l, k⟩ → t = r :=
  fun w _ ha => absurd ha (hl w)

theorem no_blk0 : ∀ q, (0 : Nat) ≠ blk q := fun q e => (blk_ne q).1 e.symm

theorem no_blk1 : ∀ q, (1 : Nat) ≠ blk q := fun q e => (blk_ne q).2.1 e.symm

theorem next_push {p p' : PState HState Nat} (h : HInv r p) {t q old : Nat} {b : Ord} (hb : b.rel = true)
    (hpc : p.s.base.pc t = .deCas q old) (hfree : p.s.base.free = old) {s' : HState}
    (h1 : s' = { p.s with base := { p.s.base.goto t .idle with free := q }, own := fun x => if x = q then .pool else p.s.own x })
    (hp : p' = ⟨s', upd p.hist 0 (p.hist 0 ++ [q]), upd p.seen t (upd (p.seen t) 0 (p.hist 0).length), p.tr ++ [⟨t, 0, .rmw b.acq b.rel⟩]⟩) :
    Next r p p' t := by
  obtain ⟨⟨hsz, hh0⟩, FL, hd, hc⟩ := h
  have m : Mild ⟨t, 0, .rmw b.acq b.rel⟩ := mild_atomic rfl nofun no_blk0
  have hown := (hc.de t q (by rw [hpc]; rfl)).1
  have hlen := hd.len
  have hseen := hd.seen
  have hands' : Hands s' := by
    have hq := hh0.de t q (by rw [hpc]; rfl)
    subst h1
    refine ⟨hh0.nodup, fun x hx => ?_, fun u x hx => ?_⟩
    · dsimp only at hx ⊢
      rw [if_neg (fun e : x = q => hq (e ▸ hx))]
      exact hh0.pool x hx
    · simp only [State.goto] at hx
      split at hx
      · cases hx
      · exact hh0.de u x hx
  subst hp
  refine .inr ⟨_, rfl, rfl, ⟨⟨by subst h1; exact hsz, hands'⟩, q :: FL, ?_, ?_⟩, safe_atomic hd m rfl⟩
  · subst h1
    have := data_push hd m (by simp [Ev.writes]) rfl hb hown (sn' := upd p.seen t (upd (p.seen t) 0 (p.hist 0).length) r 0)
      (by simp only [seen_upd (g := fun _ => (p.hist 0).length)]; split <;> omega)
      (by simp only [seen_upd (g := fun _ => (p.hist 0).length)]; split <;> omega)
    dsimp only
    rw [show upd p.hist 0 (p.hist 0 ++ [q]) 0 = p.hist 0 ++ [q] from if_pos rfl]
    exact this
  · refine ctrl_cas (s' := s') (f := ⟨t, 0, .rmw b.acq b.rel⟩) (x := .pool) (q := q) (t := t) hc ?_ (by subst h1; rfl) (by subst h1; rfl) (by subst h1; rfl) (by subst h1; rfl) ?_ (by rw [hpc]; nofun) fun hne => ?_
    · subst h1
      refine ⟨rfl, (hd.small q (by rw [hown]; nofun)).1, ?_⟩
      rw [hc.deCas t q old hpc, ← hfree]; exact hc.linked
    · intro u hu e
      rw [hown] at e; exact hu (Owner.ctx.inj e).symm
    · have hf := hc.found
      have key : ∀ v, Held r p.tr FL v → Held r (p.tr ++ [⟨t, 0, .rmw b.acq b.rel⟩]) (q :: FL) v := by
        intro v hv
        obtain ⟨pre, post, rfl, hh⟩ := held_append hv (f := ⟨t, 0, .rmw b.acq b.rel⟩) (atomic_fl no_blk0)
        exact ⟨q :: pre, post, rfl, hh⟩
      revert hf
      cases p.s.base.pc r <;> simp only [Found, imp_self]
      · exact key _
      · exact fun hh => ⟨key _ hh.1, hh.2⟩

theorem next_pop {p p' : PState HState Nat} (h : HInv r p) {old next : Nat} {b : Ord}
    (hpc : p.s.base.pc r = .afCas old next) (hfree : p.s.base.free = old) {s' : HState}
    (h1 : s' = { p.s with base := { p.s.base.goto r .idle with free := next, held := old :: p.s.base.held }, own := fun x => if x = old then .ctx r else p.s.own x })
    (hp : p' = ⟨s', upd p.hist 0 (p.hist 0 ++ [next]), upd p.seen r (upd (p.seen r) 0 (p.hist 0).length), p.tr ++ [⟨r, 0, .rmw b.acq b.rel⟩]⟩) :
    Next r p p' r := by
  obtain ⟨⟨hsz, hh0⟩, FL, hd, hc⟩ := h
  have m : Mild ⟨r, 0, .rmw b.acq b.rel⟩ := mild_atomic rfl nofun no_blk0
  have hf := hc.found
  rw [hpc] at hf
  obtain ⟨⟨pre, post, hFL, hk⟩, hnext⟩ := hf
  have hlk := hc.linked
  have hpre : pre = [] := by
    have := linked_head hlk
    cases pre with
    | nil => rfl
    | cons a pre =>
      have hn := hd.nodup
      rw [hFL] at this hn
      simp only [List.cons_append, List.headD_cons] at this
      rw [← this, hfree] at hn
      simp at hn
  subst hpre
  simp only [List.nil_append] at hFL
  subst hFL
  have hlen := hd.len
  obtain ⟨-, h0, hl2⟩ := hlk
  rw [← hnext] at hl2
  have hands' : Hands s' := by
    have hq : p.s.own old = .pool := (hd.pool old (by simp)).1
    subst h1
    refine ⟨List.nodup_cons.2 ⟨fun e => hh0.pool _ e hq, hh0.nodup⟩, fun x hx => ?_, fun u x hx => ?_⟩
    · dsimp only at hx ⊢
      split
      · nofun
      · rename_i e
        exact hh0.pool x ((List.mem_cons.1 hx).resolve_left e)
    · simp only [State.goto] at hx
      split at hx
      · cases hx
      · refine fun e => ?_
        rcases List.mem_cons.1 e with e | e
        · have := (hc.de u x hx).1
          rw [e, hq] at this; cases this
        · exact hh0.de u x hx e
  subst hp
  refine .inr ⟨_, rfl, rfl, ⟨⟨by subst h1; exact hsz, hands'⟩, post, ?_, ?_⟩, safe_atomic hd m rfl⟩
  · subst h1
    have := data_pop hd m (by simp [Ev.writes]) rfl rfl hk
    rw [← linked_head hl2, ← hlen] at this
    dsimp only
    rw [show upd p.hist 0 (p.hist 0 ++ [next]) 0 = p.hist 0 ++ [next] from if_pos rfl]
    simp only [seen_upd (g := fun _ => (p.hist 0).length), and_self, if_true]
    exact this
  · refine ctrl_cas (s' := s') (f := ⟨r, 0, .rmw b.acq b.rel⟩) (x := .ctx r) (q := old) (t := r) hc (by subst h1; exact hl2) (by subst h1; rfl) (by subst h1; rfl) (by subst h1; rfl) (by subst h1; rfl) ?_ (by rw [hpc]; nofun) fun hne => absurd rfl hne
    intro u _ e
    rw [(hd.pool old (by simp)).1] at e; cases e

theorem next_uninit {p p' : PState HState Nat} (h : HInv r p) {old : Nat} {b : Ord}
    (hpc : p.s.base.pc r = .auCas old) (hun : p.s.base.uninit = old) {s' : HState}
    (h1 : s' = { p.s with base := { p.s.base.goto r .idle with uninit := old + p.s.base.size, held := old :: p.s.base.held }, own := fun x => if x = old then .ctx r else p.s.own x })
    {hist : Nat → List Nat} {seen : Nat → Nat → Nat} (hh : hist 0 = p.hist 0) (hsn : seen r 0 = p.seen r 0)
    (hp : p' = ⟨s', hist, seen, p.tr ++ [⟨r, 1, .rmw b.acq b.rel⟩]⟩) : Next r p p' r := by
  obtain ⟨⟨hsz, hh0⟩, FL, hd, hc⟩ := h
  have m : Mild ⟨r, 1, .rmw b.acq b.rel⟩ := mild_atomic rfl nofun no_blk1
  subst hun
  have hands' : Hands s' := by
    have hq : p.s.own p.s.base.uninit = .pool := by
      refine Classical.byContradiction fun e => ?_
      have := (hd.small _ e).2
      omega
    subst h1
    refine ⟨List.nodup_cons.2 ⟨fun e => hh0.pool _ e hq, hh0.nodup⟩, fun x hx => ?_, fun u x hx => ?_⟩
    · dsimp only at hx ⊢
      split
      · nofun
      · rename_i e
        exact hh0.pool x ((List.mem_cons.1 hx).resolve_left e)
    · simp only [State.goto] at hx
      split at hx
      · cases hx
      · refine fun e => ?_
        rcases List.mem_cons.1 e with e | e
        · have := (hc.de u x hx).1
          rw [e, hq] at this; cases this
        · exact hh0.de u x hx e
  subst hp
  refine .inr ⟨_, rfl, rfl, ⟨⟨by subst h1; exact hsz, hands'⟩, FL, ?_, ?_⟩, safe_atomic hd m rfl⟩
  · subst h1
    have := data_uninit hd m rfl hsz
    rw [← hh, ← hsn] at this
    exact this
  · refine ctrl_cas (s' := s') (f := ⟨r, 1, .rmw b.acq b.rel⟩) (x := .ctx r) (q := p.s.base.uninit) (t := r) hc (by subst h1; exact hc.linked) (by subst h1; rfl) (by subst h1; rfl) (by subst h1; rfl) (by subst h1; rfl) ?_ (by rw [hpc]; nofun) fun hne => absurd rfl hne
    intro u _ e
    have := (hd.small _ (by rw [e]; nofun)).2
    omega

theorem next_step (ho : Enough o) {p p' : PState HState Nat} (h : HInv r p) {t k : Nat}
    (hs : (machine address size count link may o).pstep p (.step t k) = some p') : Next r p p' t := by
  have hothers : allocs (p.s.base.pc t) = true → t = r := by
    obtain ⟨-, FL, -, hc⟩ := h
    intro ha
    refine Classical.byContradiction fun e => ?_
    rw [hc.others t e] at ha; cases ha
  have hwork : (p.s.task t).fits p.s.own t := by obtain ⟨-, FL, -, hc⟩ := h; exact hc.work t
  have hde : ∀ q, mine (p.s.base.pc t) = some q → p.s.own q = .ctx t := by
    obtain ⟨-, FL, -, hc⟩ := h; exact fun q hq => (hc.de t q hq).1
  have acc0 : p.s.task t = .none → (machine address size count link may o).acc t p.s = accOf o (p.s.flag t) p.s.base (p.s.base.pc t) :=
    fun e => if_pos e
  have acc1 : p.s.task t ≠ .none → (machine address size count link may o).acc t p.s = accTask (p.s.task t) := fun e => if_neg e
  rcases pstep_cases hs with rfl | ⟨l, a, v, s', hacc, hk, hv, hst, rfl⟩ | ⟨l, b, s', hacc, hst, rfl⟩ | ⟨l, b, hacc⟩ | ⟨l, kd, s', hacc, hst, rfl⟩
  · exact .inl rfl
  · -- loads
    have htask : p.s.task t = .none := by
      refine Classical.byContradiction fun e => ?_
      rw [acc1 e] at hacc
      cases hw : p.s.task t <;> rw [hw] at hacc <;> cases hacc
    rw [acc0 htask] at hacc
    have cas_load : ∀ {c l' cur old rd d}, cas c l' cur old rd d = some (.load l a) → c = true ∧ l = l' ∧ a = rd := by
      intro c l' cur old rd d hc
      unfold cas at hc
      split at hc
      · rename_i e
        simp only [Option.some.injEq, Acc.load.injEq] at hc
        exact ⟨e, hc.1.symm, hc.2.symm⟩
      · split at hc <;> cases hc
    cases hpc : p.s.base.pc t with
    | idle => rw [hpc] at hacc; cases hacc
    | afRead q => rw [hpc] at hacc; cases hacc
    | deWrite q n => rw [hpc] at hacc; cases hacc
    | afLoad =>
      rw [hpc] at hacc
      simp only [accOf, Option.some.injEq, Acc.load.injEq] at hacc
      obtain ⟨rfl, rfl⟩ := hacc
      have hr : t = r := hothers (by rw [hpc]; rfl)
      simp only [machine, htask, if_true, Option.some.injEq] at hst
      subst hst
      by_cases h0 : v = 0
      · refine next_load (pc := .auLoad) h (.inl rfl) hk hv htask ?_ rfl (.inl rfl) nofun (fun _ => hr) nofun nofun
        simp [machine, stepHw, ownStep, hpc, afAfter, h0, State.goto]
      · refine next_load (pc := .afRead v) h (.inl rfl) hk hv htask ?_ rfl (.inl rfl) nofun (fun _ => hr)
          (fun q e => ⟨rfl, ho.afRead, (Pc.afRead.inj e).symm, h0⟩) nofun
        simp [machine, stepHw, ownStep, hpc, afAfter, h0, State.goto]
    | afCas q n =>
      rw [hpc] at hacc
      obtain ⟨hfl, rfl, rfl⟩ := cas_load hacc
      have hr : t = r := hothers (by rw [hpc]; rfl)
      simp only [machine, htask, if_true, Option.some.injEq] at hst
      subst hst
      by_cases h0 : v = 0
      · refine next_load (pc := .auLoad) h (.inl rfl) hk hv htask ?_ rfl (.inl rfl) nofun (fun _ => hr) nofun nofun
        simp [machine, stepHw, ownStep, hpc, afAfter, h0, hfl, State.goto]
      · refine next_load (pc := .afRead v) h (.inl rfl) hk hv htask ?_ rfl (.inl rfl) nofun (fun _ => hr)
          (fun q e => ⟨rfl, ho.afRead, (Pc.afRead.inj e).symm, h0⟩) nofun
        simp [machine, stepHw, ownStep, hpc, afAfter, h0, hfl, State.goto]
    | auLoad =>
      rw [hpc] at hacc
      simp only [accOf, Option.some.injEq, Acc.load.injEq] at hacc
      obtain ⟨rfl, rfl⟩ := hacc
      have hr : t = r := hothers (by rw [hpc]; rfl)
      simp only [machine, htask, if_true, Nat.one_ne_zero, if_false, Option.some.injEq] at hst
      subst hst
      by_cases h0 : v = p.s.base.edge
      · refine next_load (pc := .idle) h (.inr rfl) hk hv htask ?_ rfl (.inl rfl) nofun (fun _ => hr) nofun nofun
        simp [machine, stepHw, ownStep, hpc, auAfter, h0, State.goto]
      · refine next_load (pc := .auCas v) h (.inr rfl) hk hv htask ?_ rfl (.inl rfl) nofun (fun _ => hr) nofun nofun
        simp [machine, stepHw, ownStep, hpc, auAfter, h0, State.goto]
    | auCas q =>
      rw [hpc] at hacc
      obtain ⟨hfl, rfl, rfl⟩ := cas_load hacc
      have hr : t = r := hothers (by rw [hpc]; rfl)
      simp only [machine, htask, if_true, Nat.one_ne_zero, if_false, Option.some.injEq] at hst
      subst hst
      by_cases h0 : v = p.s.base.edge
      · refine next_load (pc := .idle) h (.inr rfl) hk hv htask ?_ rfl (.inl rfl) nofun (fun _ => hr) nofun nofun
        simp [machine, stepHw, ownStep, hpc, auAfter, h0, hfl, State.goto]
      · refine next_load (pc := .auCas v) h (.inr rfl) hk hv htask ?_ rfl (.inl rfl) nofun (fun _ => hr) nofun nofun
        simp [machine, stepHw, ownStep, hpc, auAfter, h0, hfl, State.goto]
    | deLoad q =>
      rw [hpc] at hacc
      simp only [accOf, Option.some.injEq, Acc.load.injEq] at hacc
      obtain ⟨rfl, rfl⟩ := hacc
      simp only [machine, htask, if_true, Option.some.injEq] at hst
      subst hst
      refine next_load (pc := .deWrite q v) h (.inl rfl) hk hv htask ?_ rfl (.inr (by rw [hpc]; rfl)) nofun nofun nofun nofun
      simp [machine, stepHw, ownStep, hpc, State.goto]
    | deCas q n =>
      rw [hpc] at hacc
      obtain ⟨hfl, rfl, rfl⟩ := cas_load hacc
      simp only [machine, htask, if_true, Option.some.injEq] at hst
      subst hst
      refine next_load (pc := .deWrite q v) h (.inl rfl) hk hv htask ?_ rfl (.inr (by rw [hpc]; rfl)) nofun nofun nofun nofun
      simp [machine, stepHw, ownStep, hpc, hfl, State.goto]
  · -- read-modify-writes
    by_cases htask : p.s.task t = .none
    · rw [acc0 htask] at hacc
      have cas_rmw : ∀ {c l' cur old rd d}, cas c l' cur old rd d = some (.rmw l b) → c = false ∧ l = l' ∧ b = d ∧ cur = old := by
        intro c l' cur old rd d hc
        unfold cas at hc
        split at hc
        · cases hc
        · rename_i e
          split at hc
          · rename_i e'
            simp only [Option.some.injEq, Acc.rmw.injEq] at hc
            exact ⟨by simpa using e, hc.1.symm, hc.2.symm, e'⟩
          · cases hc
      cases hpc : p.s.base.pc t <;> rw [hpc] at hacc
      case afCas q n =>
        obtain ⟨hfl, rfl, rfl, hcur⟩ := cas_rmw hacc
        have hr : t = r := hothers (by rw [hpc]; rfl)
        subst hr
        simp only [machine, htask, if_true, Option.some.injEq] at hst
        subst hst
        refine next_pop (b := o.afCas) h hpc hcur rfl ?_
        simp [machine, stepHw, ownStep, hpc, hcur, hfl, State.goto]
      case auCas q =>
        obtain ⟨hfl, rfl, rfl, hcur⟩ := cas_rmw hacc
        have hr : t = r := hothers (by rw [hpc]; rfl)
        subst hr
        simp only [machine, htask, if_true, Option.some.injEq] at hst
        subst hst
        refine next_uninit (b := o.auCas) (hist := upd p.hist 1 (p.hist 1 ++ [q + p.s.base.size]))
          (seen := upd p.seen t (upd (p.seen t) 1 (p.hist 1).length)) h hpc hcur rfl (by simp [upd]) (by simp [upd]) ?_
        simp [machine, stepHw, ownStep, hpc, hcur, hfl, State.goto]
      case deCas q n =>
        obtain ⟨hfl, rfl, rfl, hcur⟩ := cas_rmw hacc
        simp only [machine, htask, if_true, Option.some.injEq] at hst
        subst hst
        refine next_push (b := o.deCas) h ho.deCas hpc hcur rfl ?_
        simp [machine, stepHw, ownStep, hpc, hcur, hfl, State.goto]
      all_goals cases hacc
    · rw [acc1 htask] at hacc
      have hflg : ∀ q : Nat, flg q ≠ 0 := fun q => by unfold flg; omega
      have hseen : ∀ q, upd p.seen t (upd (p.seen t) (flg q) (p.hist (flg q)).length) r 0 = p.seen r 0 := by
        intro q
        simp only [upd]
        split
        · rename_i e; rw [e]; exact if_neg (hflg q).symm
        · rfl
      cases hw : p.s.task t <;> rw [hw] at hacc
      case give q =>
        simp only [accTask, Option.some.injEq, Acc.rmw.injEq] at hacc
        obtain ⟨rfl, rfl⟩ := hacc
        rw [hw] at hwork
        simp only [machine, hw, reduceCtorEq, if_false, Option.some.injEq, taskStep] at hst
        subst hst
        refine next_task (f := ⟨t, flg q, .rmw false true⟩) h rfl (mild_atomic rfl nofun fun x e => (blk_ne x).2.2 q e.symm)
          (by simp [Ev.writes, hflg]) rfl (hseen q) (by simp [upd, (hflg q).symm]) rfl rfl
          (fun x e => absurd e.symm ((blk_ne x).2.2 q)) rfl (fun x => ?_) rfl (fun x hx => ?_) rfl rfl (fun _ _ => rfl) htask (.inr fun FL hd => ?_)
        · dsimp only
          split
          · rename_i e; subst e; exact .inr (.inl hwork)
          · exact .inl rfl
        · dsimp only
          split
          · nofun
          · exact hx
        · exact data_give hd hwork
      case take q =>
        simp only [accTask, Option.some.injEq, Acc.rmw.injEq] at hacc
        obtain ⟨rfl, rfl⟩ := hacc
        simp only [machine, hw, reduceCtorEq, if_false, Option.some.injEq, taskStep] at hst
        subst hst
        refine next_task (f := ⟨t, flg q, .rmw true false⟩) h rfl (mild_atomic rfl nofun fun x e => (blk_ne x).2.2 q e.symm)
          (by simp [Ev.writes, hflg]) rfl (hseen q) (by simp [upd, (hflg q).symm]) rfl rfl
          (fun x e => absurd e.symm ((blk_ne x).2.2 q)) rfl (fun x => ?_) rfl (fun x hx => ?_) rfl rfl (fun _ _ => rfl) htask ?_
        · dsimp only
          split
          · rename_i e; exact .inr (.inr (e.1 ▸ e.2))
          · exact .inl rfl
        · dsimp only
          split
          · nofun
          · exact hx
        · by_cases hsent : p.s.own q = .sent
          · right
            intro FL hd
            simp only [hsent, and_true]
            exact data_take hd hsent
          · left
            simp [hsent]
      all_goals cases hacc
  · -- stores
    by_cases htask : p.s.task t = .none
    · rw [acc0 htask] at hacc
      have : ∀ {c l' cur old rd d}, cas c l' cur old rd d ≠ some (.store l b) := by
        intro c l' cur old rd d hc
        unfold cas at hc
        split at hc
        · cases hc
        · split at hc <;> cases hc
      cases hpc : p.s.base.pc t <;> rw [hpc] at hacc <;> first | exact absurd hacc this | (cases hacc; done)
    · rw [acc1 htask] at hacc
      cases hw : p.s.task t <;> rw [hw] at hacc <;> cases hacc
  · -- blocks
    by_cases htask : p.s.task t = .none
    · rw [acc0 htask] at hacc
      have cas_other : ∀ {c l' cur old rd d}, cas c l' cur old rd d ≠ some (.other l kd) := by
        intro c l' cur old rd d hc
        unfold cas at hc
        split at hc
        · cases hc
        · split at hc <;> cases hc
      cases hpc : p.s.base.pc t <;> rw [hpc] at hacc
      case afRead q =>
        simp only [accOf, Option.some.injEq, Acc.other.injEq] at hacc
        obtain ⟨rfl, rfl⟩ := hacc
        have hr : t = r := hothers (by rw [hpc]; rfl)
        subst hr
        have hh : ∀ FL, Ctrl t p.s p.tr FL → Held t p.tr FL q := fun FL hc => by have := hc.found; rw [hpc] at this; exact this
        simp only [machine, htask, if_true, Option.some.injEq] at hst
        subst hst
        refine next_other (q := q) (pc := .afCas q (p.s.base.link q)) (lnk := p.s.base.link) h (.inl rfl) htask ?_ rfl (.inr ⟨rfl, hh⟩)
          (fun _ _ => rfl) (.inl rfl) nofun (fun _ => rfl) (fun FL hc _ => ⟨hh FL hc, rfl⟩)
        simp [stepHw, ownStep, hpc, State.goto]
      case deWrite q n =>
        simp only [accOf, Option.some.injEq, Acc.other.injEq] at hacc
        obtain ⟨rfl, rfl⟩ := hacc
        have hq := hde q (by rw [hpc]; rfl)
        simp only [machine, htask, if_true, Option.some.injEq] at hst
        subst hst
        refine next_other (q := q) (pc := .deCas q n) (lnk := fun x => if x = q then n else p.s.base.link x) h (.inr rfl) htask ?_ rfl (.inl hq)
          (fun v hv => if_neg fun e : v = q => hv (e ▸ hq)) (.inr (by rw [hpc]; rfl)) (fun x old e => ?_) nofun (fun _ _ _ => trivial)
        · simp [stepHw, ownStep, hpc, State.goto]
        · obtain ⟨rfl, rfl⟩ := Pc.deCas.inj e
          exact if_pos rfl
      all_goals first | exact absurd hacc cas_other | (cases hacc; done)
    · rw [acc1 htask] at hacc
      cases hw : p.s.task t <;> rw [hw] at hacc hwork
      case read q =>
        simp only [accTask, Option.some.injEq, Acc.other.injEq] at hacc
        obtain ⟨rfl, rfl⟩ := hacc
        simp only [machine, hw, reduceCtorEq, if_false, Option.some.injEq, taskStep] at hst
        subst hst
        exact next_task (f := ⟨t, blk q, .read⟩) h rfl (mild_plain (.inl rfl)) (by simp [Ev.writes]) rfl rfl rfl rfl rfl
          (fun x e => blk_inj e ▸ hwork) rfl (fun x => .inl rfl) rfl (fun _ h => h) rfl rfl (fun _ _ => rfl) htask (.inl rfl)
      case write q v =>
        simp only [accTask, Option.some.injEq, Acc.other.injEq] at hacc
        obtain ⟨rfl, rfl⟩ := hacc
        simp only [machine, hw, reduceCtorEq, if_false, Option.some.injEq, taskStep] at hst
        subst hst
        refine next_task (f := ⟨t, blk q, .write⟩) h rfl (mild_plain (.inr rfl)) (by simp [Ev.writes]) rfl rfl rfl ?_ ?_
          (fun x e => blk_inj e ▸ hwork) ?_ (fun x => .inl rfl) ?_ (fun _ h => h) rfl ?_ (fun x hx => ?_) htask (.inl rfl)
        all_goals simp only [stepHw, call]; split
        all_goals first | rfl | skip
        exact if_neg fun e : x = q => hx (e ▸ hwork)
      all_goals cases hacc

theorem init_inv (ha : 0 < address) (hz : 0 < size) : HInv r (machine address size count link may o).pinit := by
  refine ⟨⟨hz, List.nodup_nil, nofun, nofun⟩, [], ⟨rfl, rfl, Nat.le_refl _, List.nodup_nil, nofun, ha, fun p hp => absurd rfl hp, fun _ _ => nofun, nofun, nofun, nofun, ?_⟩, ?_⟩
  · intro k v _ hv
    cases k with
    | zero => exact .inl (Option.some.inj hv).symm
    | succ k => cases hv
  · exact ⟨rfl, nofun, nofun, fun _ => trivial, fun _ e => absurd rfl e, fun _ _ => rfl, trivial⟩

/-- A context enters the pool. -/
theorem ctrl_start {s s' : HState} {tr : List Ev} {FL : List Nat} (h : Ctrl r s tr FL) {t : Nat} {pc : Pc} (ht : s.task t = .none)
    (h0 : s'.base.free = s.base.free) (h1 : s'.base.link = s.base.link) (h2 : s'.own = s.own)
    (h3 : s'.task = s.task) (h4 : s'.base.pc = fun u => if u = t then pc else s.base.pc u)
    (h5 : ∀ q, mine pc = some q → s.own q = .ctx t) (h6 : allocs pc = true → t = r)
    (h7 : ∀ q n, pc ≠ .deCas q n) (h8 : ∀ l, Found r l tr FL pc) : Ctrl r s' tr FL := by
  refine ⟨by rw [h0, h1]; exact h.linked, fun u p hp => ?_, fun u p old hp => ?_, by rw [h2, h3]; exact h.work, fun u hu => ?_, fun u hu => ?_, ?_⟩
  · rw [h2, h3]
    rw [h4] at hp
    dsimp only at hp
    split at hp
    · rename_i e; subst e; exact ⟨h5 p hp, ht⟩
    · exact h.de u p hp
  · rw [h4] at hp
    dsimp only at hp
    split at hp
    · exact absurd hp (h7 p old)
    · rw [h1]; exact h.deCas u p old hp
  · rw [h3] at hu
    rw [h4]
    dsimp only
    rw [if_neg (fun e : u = t => hu (e ▸ ht))]
    exact h.idle u hu
  · rw [h4]
    dsimp only
    split
    · rename_i e
      cases hb : allocs pc
      · rfl
      · exact absurd (e.trans (h6 hb)) hu
    · exact h.others u hu
  · rw [h4, h1]
    dsimp only
    split
    · exact h8 _
    · exact h.found

theorem call_inv (hm : ∀ t, may t = true → t = r) {p : PState HState Nat} (h : HInv r p) (a : Op) :
    HInv r { p with s := (machine address size count link may o).call p.s a } := by
  obtain ⟨⟨hsz, hh0⟩, FL, hd, hc⟩ := h
  cases a with
  | alloc t =>
    simp only [machine]
    split
    · rename_i he
      simp only [stepHw, call]
      split
      · exact ⟨⟨hsz, hands_goto (t := t) (pc := .afLoad) hh0 rfl rfl rfl (.inl rfl)⟩, FL, hd, ctrl_start (t := t) (pc := .afLoad) hc he.2 rfl rfl rfl rfl rfl nofun (fun _ => hm t he.1) nofun fun _ => trivial⟩
      · exact ⟨⟨hsz, hh0⟩, FL, hd, hc⟩
    · exact ⟨⟨hsz, hh0⟩, FL, hd, hc⟩
  | dealloc t q =>
    simp only [machine]
    split
    · rename_i he
      simp only [stepHw, call]
      split
      · refine ⟨⟨hsz, hh0.nodup.erase q, fun x hx => hh0.pool x (List.mem_of_mem_erase hx), fun u x hx => ?_⟩, FL, hd,
          ctrl_start (t := t) (pc := .deLoad q) hc he.1 rfl rfl rfl rfl rfl (fun x e => Option.some.inj e ▸ he.2) nofun nofun fun _ => trivial⟩
        simp only [State.goto] at hx
        split at hx
        · obtain rfl := Option.some.inj hx
          exact hh0.nodup.not_mem_erase
        · exact fun e => hh0.de u x hx (List.mem_of_mem_erase e)
      · exact ⟨⟨hsz, hh0⟩, FL, hd, hc⟩
    · exact ⟨⟨hsz, hh0⟩, FL, hd, hc⟩
  | work t w =>
    simp only [machine]
    split
    · rename_i he
      refine ⟨⟨hsz, hh0.nodup, hh0.pool, hh0.de⟩, FL, hd, hc.linked, fun u q hq => ?_, hc.deCas, fun u => ?_, fun u hu => ?_, hc.others, hc.found⟩
      · refine ⟨(hc.de u q hq).1, ?_⟩
        dsimp only
        split
        · rename_i e
          dsimp only at hq
          rw [e, he.1] at hq; cases hq
        · exact (hc.de u q hq).2
      · dsimp only
        split
        · rename_i e; exact e ▸ he.2.2
        · exact hc.work u
      · dsimp only at hu ⊢
        split at hu
        · rename_i e; rw [e]; exact he.1
        · exact hc.idle u hu
    · exact ⟨⟨hsz, hh0⟩, FL, hd, hc⟩
  | choose t b => exact ⟨⟨hsz, hh0.nodup, hh0.pool, hh0.de⟩, FL, hd, hc.linked, hc.de, hc.deCas, hc.work, hc.idle, hc.others, hc.found⟩

theorem run_inv (ho : Enough o) (hm : ∀ t, may t = true → t = r) {as : List (PAct Op)} {p p' : PState HState Nat} (h : HInv r p)
    (hs : (machine address size count link may o).prun p as = some p') : HInv r p' := by
  induction as generalizing p with
  | nil => simp only [Machine.prun, Option.some.injEq] at hs; exact hs ▸ h
  | cons a as ih =>
    simp only [Machine.prun] at hs
    split at hs
    · cases hs
    · rename_i q hq
      refine ih ?_ hs
      cases a with
      | call a =>
        simp only [Machine.pstep, Option.some.injEq] at hq
        subst hq
        exact call_inv hm h a
      | step t k =>
        rcases next_step ho h hq with rfl | ⟨f, -, -, h', -⟩
        · exact h
        · exact h'

/-- With enough orderings there are no races. -/
theorem no_races (ho : Enough o) (hm : ∀ t, may t = true → t = r) (ha : 0 < address) (hz : 0 < size) {tr : List Ev}
    (ht : (machine address size count link may o).Trace tr) (i j : Nat) : ¬ Race tr i j := by
  obtain ⟨as, p, hp, rfl⟩ := ht
  have run : ∀ (as : List (PAct Op)) (q : PState HState Nat), HInv r q → (∀ i j, ¬ Race q.tr i j) →
      (machine address size count link may o).prun q as = some p → ∀ i j, ¬ Race p.tr i j := by
    intro as
    induction as with
    | nil => intro q _ hq h; simp only [Machine.prun, Option.some.injEq] at h; exact h ▸ hq
    | cons a as ih =>
      intro q hi hq h
      simp only [Machine.prun] at h
      split at h
      · cases h
      · rename_i q' hq'
        cases a with
        | call a =>
          simp only [Machine.pstep, Option.some.injEq] at hq'
          subst hq'
          exact ih _ (call_inv hm hi a) hq h
        | step t k =>
          rcases next_step ho hi hq' with rfl | ⟨f, hft, htr, hi', hsafe⟩
          · exact ih _ hi hq h
          · refine ih _ hi' ?_ h
            rw [htr]
            exact no_race (P := fun _ _ => False) hq fun i e he hc => .inl (hft ▸ hsafe i e he hc)
  exact run as _ (init_inv ha hz) (fun i j hr => by obtain ⟨-, e, f, h, -⟩ := hr; simp [Machine.pinit] at h) hp i j

end Verif.Heap.Conc.Order
