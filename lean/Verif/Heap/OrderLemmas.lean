import Verif.Heap.OrderSpec
import Verif.Order.MachineLemmas
/-! # Who knows of the accesses to the blocks of a pool -/
namespace Verif.Heap.Conc.Order

open Verif.Heap.Conc
open Verif.Order

theorem blk_inj {p q : Nat} (h : blk p = blk q) : p = q := by unfold blk at h; omega

theorem blk_ne (p : Nat) : blk p ≠ 0 ∧ blk p ≠ 1 ∧ ∀ q, blk p ≠ flg q := by
  unfold blk flg
  exact ⟨by omega, by omega, fun q => by omega⟩

/-- The accesses to a block. -/
abbrev At (p : Nat) (e : Ev) : Prop := e.loc = blk p

/-- What `r` knows or learns when it loads value `k` of `free`, of the blocks `l`. -/
def Told (r : Nat) (tr : List Ev) (k : Nat) (l : List Nat) : Prop :=
  ∀ w ∈ l, ∀ (i : Nat) (e : Ev), tr[i]? = some e → At w e → Know tr r i ∨ Msg tr 0 k i

/-- `l` is an end of the free list, and `r` knows of the accesses to its blocks. -/
def Held (r : Nat) (tr : List Ev) (FL : List Nat) (v : Nat) : Prop :=
  ∃ pre post, FL = pre ++ v :: post ∧ ∀ w ∈ v :: post, Knows tr r (At w)

/-- The blocks: owners `own`, free list `FL`; `H` are the values of `free`, of which `r` has seen `sn`. -/
structure Data (r : Nat) (own : Nat → Owner) (uninit : Nat) (H : List Nat) (sn : Nat) (tr : List Ev) (FL : List Nat) : Prop where
  len : H.length = cnt tr 0 + 1
  last : H[cnt tr 0]? = some (FL.headD 0)
  seen : sn ≤ cnt tr 0
  nodup : FL.Nodup
  pool : ∀ v ∈ FL, own v = .pool ∧ v ≠ 0 ∧ v < uninit
  pos : 0 < uninit
  small : ∀ p, own p ≠ .pool → p ≠ 0 ∧ p < uninit
  fresh : ∀ p, uninit ≤ p → Nones tr (At p)
  evs : ∀ (i : Nat) (e : Ev), tr[i]? = some e → e.kind ≠ .free ∧ (e.kind.atomic = true → ∀ p, ¬ At p e) ∧
    (e.kind.atomic = false → ∃ p, At p e) ∧ ∀ l, e.isStore l = false
  ctx : ∀ p t, own p = .ctx t → Knows tr t (At p)
  sent : ∀ p, own p = .sent → Lasts tr (flg p) (At p)
  pub : ∀ k v, sn ≤ k → H[k]? = some v → v = 0 ∨ ∃ pre post, FL = pre ++ v :: post ∧ Told r tr k (v :: post)

/-! ### Messages -/

theorem msg_mono {tr : List Ev} {k m i : Nat} (hs : ∀ (i : Nat) (e : Ev), tr[i]? = some e → e.isStore 0 = false) (hkm : k ≤ m)
    (h : Msg tr 0 k i) : Msg tr 0 m i := by
  obtain ⟨j, ⟨h1, h2, -⟩, h4⟩ := h
  exact ⟨j, ⟨h1, by omega, fun a e _ he hst => by rw [hs a e he] at hst; cases hst⟩, h4⟩

theorem msg_append {tr : List Ev} {f : Ev} {k i : Nat} (hf : f.isStore 0 = false) (h : Msg tr 0 k i) : Msg (tr ++ [f]) 0 k i := by
  obtain ⟨j, h1, h2⟩ := h
  refine ⟨j, carries_append.2 (.inl ⟨h1, fun h => by rw [hf] at h; cases h⟩), h2.imp id (hb_append (carries_lt h1)).2⟩

theorem msg_release {tr : List Ev} {f : Ev} {k i : Nat} (hw : f.writes 0 = true) (hr : f.rel = true) (hk : cnt tr 0 < k)
    (h : Know tr f.tid i) : Msg (tr ++ [f]) 0 k i :=
  ⟨tr.length, carries_append.2 (.inr ⟨rfl, hw, hr, hk⟩), .inr (hb_last.2 (.inl h))⟩

theorem told_append {r : Nat} {tr : List Ev} {k : Nat} {l : List Nat} {f : Ev} (h : Told r tr k l) (hs : f.isStore 0 = false)
    (hf : ∀ w ∈ l, At w f → f.tid = r) : Told r (tr ++ [f]) k l := by
  intro w hw i e he ha
  rcases get_append he with he | ⟨rfl, rfl⟩
  · exact (h w hw i e he ha).imp (fun h => know_append.2 (.inl h)) (msg_append hs)
  · exact .inl (know_append.2 (.inr ⟨(hf w hw ha).symm, .inl rfl⟩))

theorem held_append {r : Nat} {tr : List Ev} {FL : List Nat} {v : Nat} {f : Ev} (h : Held r tr FL v)
    (hf : ∀ w ∈ FL, At w f → f.tid = r) : Held r (tr ++ [f]) FL v := by
  obtain ⟨pre, post, rfl, h⟩ := h
  exact ⟨pre, post, rfl, fun w hw => (h w hw).append fun e => (hf w (List.mem_append_right _ hw) e).symm⟩

/-- The list whose first element comes first in a list without repetitions is all of it. -/
theorem pre_nil {a : Nat} {l pre post : List Nat} (hn : (a :: l).Nodup) (h : a :: l = pre ++ a :: post) : pre = [] ∧ post = l := by
  cases pre with
  | nil => simp only [List.nil_append, List.cons.injEq, true_and] at h; exact ⟨rfl, h.symm⟩
  | cons b pre =>
    simp only [List.cons_append, List.cons.injEq] at h
    obtain ⟨rfl, rfl⟩ := h
    simp at hn

/-! ### Accesses -/

/-- What an access to a block needs. -/
def Touch (r : Nat) (own : Nat → Owner) (FL : List Nat) (f : Ev) : Prop :=
  ∀ p, At p f → own p = .ctx f.tid ∨ (p ∈ FL ∧ f.tid = r)

theorem Data.told {r : Nat} {own : Nat → Owner} {un sn : Nat} {H FL : List Nat} {tr : List Ev} (h : Data r own un H sn tr FL)
    {k v : Nat} (hk : sn ≤ k) (hv : H[k]? = some v) (h0 : v ≠ 0) : ∃ pre post, FL = pre ++ v :: post ∧ Told r tr k (v :: post) :=
  (h.pub k v hk hv).resolve_left h0

theorem touch_fl {r : Nat} {own : Nat → Owner} {un sn : Nat} {H FL : List Nat} {tr : List Ev} (h : Data r own un H sn tr FL) {f : Ev}
    (ht : Touch r own FL f) : ∀ w ∈ FL, At w f → f.tid = r := by
  intro w hw ha
  rcases ht w ha with h1 | h1
  · rw [(h.pool w hw).1] at h1; cases h1
  · exact h1.2

/-- All accesses but those that write `free`. -/
structure Mild (f : Ev) : Prop where
  free : f.kind ≠ .free
  atomic : f.kind.atomic = true → ∀ p, ¬ At p f
  plain : f.kind.atomic = false → ∃ p, At p f
  store : ∀ l, f.isStore l = false

variable {r : Nat} {own : Nat → Owner} {un sn : Nat} {H FL : List Nat} {tr : List Ev}

theorem evs_append (h : Data r own un H sn tr FL) {f : Ev} (m : Mild f) (i : Nat) (e : Ev) (he : (tr ++ [f])[i]? = some e) :
    e.kind ≠ .free ∧ (e.kind.atomic = true → ∀ p, ¬ At p e) ∧ (e.kind.atomic = false → ∃ p, At p e) ∧ ∀ l, e.isStore l = false := by
  rcases get_append he with he | ⟨-, rfl⟩
  · exact h.evs i e he
  · exact ⟨m.free, m.atomic, m.plain, m.store⟩

theorem fresh_append (h : Data r own un H sn tr FL) {f : Ev} (ht : Touch r own FL f) (p : Nat) (hp : un ≤ p) :
    Nones (tr ++ [f]) (At p) := by
  refine (h.fresh p hp).append fun ha => ?_
  rcases ht p ha with h1 | h1
  · have := (h.small p (by rw [h1]; nofun)).2; omega
  · have := (h.pool p h1.1).2.2; omega

theorem ctx_append (h : Data r own un H sn tr FL) {f : Ev} (ht : Touch r own FL f) (p t : Nat) (hp : own p = .ctx t) :
    Knows (tr ++ [f]) t (At p) := by
  refine (h.ctx p t hp).append fun ha => ?_
  rcases ht p ha with h1 | h1
  · rw [hp] at h1; exact Owner.ctx.inj h1
  · rw [(h.pool p h1.1).1] at hp; cases hp

theorem sent_append (h : Data r own un H sn tr FL) {f : Ev} (m : Mild f) (ht : Touch r own FL f) (p : Nat) (hp : own p = .sent) :
    Lasts (tr ++ [f]) (flg p) (At p) := by
  refine (h.sent p hp).append (fun ha => ?_) (m.store _)
  rcases ht p ha with h1 | h1
  · rw [hp] at h1; cases h1
  · rw [(h.pool p h1.1).1] at hp; cases hp

/-- An access that does not write `free`. -/
theorem data_quiet (h : Data r own un H sn tr FL) {f : Ev} (m : Mild f) (hw : f.writes 0 = false) (ht : Touch r own FL f) {sn' : Nat}
    (h1 : sn ≤ sn') (h2 : sn' ≤ cnt tr 0) : Data r own un H sn' (tr ++ [f]) FL := by
  have hc : cnt (tr ++ [f]) 0 = cnt tr 0 := by rw [cnt_append, hw]; simp
  refine ⟨by rw [hc]; exact h.len, by rw [hc]; exact h.last, by rw [hc]; exact h2, h.nodup, h.pool, h.pos, h.small, fresh_append h ht,
    evs_append h m, ctx_append h ht, sent_append h m ht, fun k v hk hv => ?_⟩
  rcases h.pub k v (by omega) hv with h0 | ⟨pre, post, rfl, h3⟩
  · exact .inl h0
  · exact .inr ⟨pre, post, rfl, told_append h3 (m.store 0) fun w hw => touch_fl h ht w (List.mem_append_right _ hw)⟩

theorem told_last (h : Data r own un H sn tr FL) : Told r tr (cnt tr 0) FL := by
  cases FL with
  | nil => exact fun w hw => nomatch hw
  | cons a l =>
    obtain ⟨pre, post, he, ht⟩ := h.told h.seen h.last (h.pool a (by simp)).2.1
    simp only [List.headD_cons] at he
    obtain ⟨rfl, rfl⟩ := pre_nil h.nodup he
    exact ht

/-- A block is put on the free list. -/
theorem data_push (h : Data r own un H sn tr FL) {f : Ev} (m : Mild f) (hw : f.writes 0 = true) (hl : f.loc = 0) (hr : f.rel = true) {p : Nat}
    (hp : own p = .ctx f.tid) {sn' : Nat} (h1 : sn ≤ sn') (h2 : sn' ≤ cnt tr 0 + 1) :
    Data r (fun q => if q = p then .pool else own q) un (H ++ [p]) sn' (tr ++ [f]) (p :: FL) := by
  have hc : cnt (tr ++ [f]) 0 = cnt tr 0 + 1 := by rw [cnt_append, hw]; simp
  have ht : Touch r own FL f := fun q hq => absurd (hl.symm.trans hq).symm (blk_ne q).1
  have hpf : p ∉ FL := fun e => by have := (h.pool p e).1; rw [hp] at this; cases this
  have hps := h.small p (by rw [hp]; nofun)
  have hst : f.isStore 0 = false := m.store 0
  have hfl : ∀ l : List Nat, ∀ w ∈ l, At w f → f.tid = r := fun l w _ ha => absurd (hl.symm.trans ha).symm (blk_ne w).1
  refine ⟨by rw [hc, List.length_append, h.len]; rfl, ?_, by rw [hc]; exact h2, List.nodup_cons.2 ⟨hpf, h.nodup⟩, fun v hv => ?_, h.pos,
    fun q hq => ?_, fresh_append h ht, evs_append h m, fun q t hq => ?_, fun q hq => ?_, fun k v hk hv => ?_⟩
  · rw [hc, ← h.len]; simp
  · rcases List.mem_cons.1 hv with rfl | hv
    · exact ⟨if_pos rfl, hps⟩
    · refine ⟨?_, (h.pool v hv).2⟩
      split
      · rfl
      · exact (h.pool v hv).1
  · split at hq
    · exact absurd rfl hq
    · exact h.small q hq
  · split at hq
    · cases hq
    · exact ctx_append h ht q t hq
  · split at hq
    · cases hq
    · exact sent_append h m ht q hq
  · rcases Nat.lt_or_ge k H.length with hlt | hge
    · rw [List.getElem?_append_left hlt] at hv
      rcases h.pub k v (by omega) hv with h0 | ⟨pre, post, rfl, h3⟩
      · exact .inl h0
      · exact .inr ⟨p :: pre, post, rfl, told_append h3 hst (hfl _)⟩
    · have hlt := (List.getElem?_eq_some_iff.1 hv).1
      rw [List.length_append, List.length_singleton] at hlt
      have : k = H.length := by omega
      subst this
      simp only [List.getElem?_append_right (Nat.le_refl _), Nat.sub_self, List.getElem?_cons_zero, Option.some.injEq] at hv
      subst hv
      refine .inr ⟨[], FL, rfl, fun w hw' i e he ha => ?_⟩
      have hne : tr[i]? = some e := by
        rcases get_append he with he | ⟨-, rfl⟩
        · exact he
        · exact absurd (hl.symm.trans ha).symm (blk_ne w).1
      rcases List.mem_cons.1 hw' with rfl | hw'
      · exact .inr (msg_release hw hr (by have := h.len; omega) (h.ctx w _ hp i e hne ha))
      · rcases told_last h w hw' i e hne ha with h4 | h4
        · exact .inl (know_append.2 (.inl h4))
        · exact .inr (msg_append hst (msg_mono (fun i e he => (h.evs i e he).2.2.2 0) (by have := h.len; omega) h4))

/-- `r` takes the first block of the free list. -/
theorem data_pop {old : Nat} (h : Data r own un H sn tr (old :: FL)) {f : Ev} (m : Mild f) (hw : f.writes 0 = true) (hl : f.loc = 0)
    (hf : f.tid = r) (hk : ∀ w ∈ old :: FL, Knows tr r (At w)) :
    Data r (fun q => if q = old then .ctx r else own q) un (H ++ [FL.headD 0]) (cnt tr 0 + 1) (tr ++ [f]) FL := by
  have hc : cnt (tr ++ [f]) 0 = cnt tr 0 + 1 := by rw [cnt_append, hw]; simp
  have ht : Touch r own (old :: FL) f := fun q hq => absurd (hl.symm.trans hq).symm (blk_ne q).1
  have hold := h.pool old (by simp)
  have hn := List.nodup_cons.1 h.nodup
  have hk' : ∀ w ∈ old :: FL, Knows (tr ++ [f]) r (At w) := fun w hw => (hk w hw).append fun _ => hf.symm
  refine ⟨by rw [hc, List.length_append, h.len]; rfl, ?_, by rw [hc]; exact Nat.le_refl _, hn.2, fun v hv => ?_, h.pos, fun q hq => ?_,
    fresh_append h ht, evs_append h m, fun q t hq => ?_, fun q hq => ?_, fun k v hk hv => ?_⟩
  · rw [hc, ← h.len]; simp
  · refine ⟨?_, (h.pool v (List.mem_cons_of_mem _ hv)).2⟩
    rw [if_neg (fun e : v = old => hn.1 (e ▸ hv))]
    exact (h.pool v (List.mem_cons_of_mem _ hv)).1
  · split at hq
    · rename_i e; exact e ▸ hold.2
    · exact h.small q hq
  · split at hq
    · rename_i e
      have := Owner.ctx.inj hq
      subst this e
      exact hk' q (by simp)
    · exact ctx_append h ht q t hq
  · split at hq
    · cases hq
    · exact sent_append h m ht q hq
  · have hlt := (List.getElem?_eq_some_iff.1 hv).1
    rw [List.length_append, List.length_singleton] at hlt
    have hlen := h.len
    have : k = H.length := by omega
    subst this
    simp only [List.getElem?_append_right (Nat.le_refl _), Nat.sub_self, List.getElem?_cons_zero, Option.some.injEq] at hv
    cases FL with
    | nil => exact .inl hv.symm
    | cons a l =>
      simp only [List.headD_cons] at hv
      subst hv
      exact .inr ⟨[], l, rfl, fun w hw i e he ha => .inl (hk' w (List.mem_cons_of_mem _ hw) i e he ha)⟩

/-- `r` takes a block that was never used. -/
theorem data_uninit (h : Data r own un H sn tr FL) {f : Ev} (m : Mild f) (hl : f.loc = 1) {size : Nat} (hs : 0 < size) :
    Data r (fun q => if q = un then .ctx r else own q) (un + size) H sn (tr ++ [f]) FL := by
  have hw : f.writes 0 = false := by simp [Ev.writes, hl]
  have hc : cnt (tr ++ [f]) 0 = cnt tr 0 := by rw [cnt_append, hw]; simp
  have ht : Touch r own FL f := fun q hq => absurd (hl.symm.trans hq).symm (blk_ne q).2.1
  have hfr : Nones (tr ++ [f]) (At un) := fresh_append h ht un (Nat.le_refl _)
  refine ⟨by rw [hc]; exact h.len, by rw [hc]; exact h.last, by rw [hc]; exact h.seen, h.nodup, fun v hv => ?_, by have := h.pos; omega,
    fun q hq => ?_, fun q hq => fresh_append h ht q (by omega), evs_append h m, fun q t hq => ?_, fun q hq => ?_, fun k v hk hv => ?_⟩
  · obtain ⟨h1, h2, h3⟩ := h.pool v hv
    refine ⟨?_, h2, by omega⟩
    rw [if_neg (by omega)]; exact h1
  · split at hq
    · have := h.pos; omega
    · have := h.small q hq; omega
  · split at hq
    · rename_i e; subst e; exact hfr.knows t
    · exact ctx_append h ht q t hq
  · split at hq
    · cases hq
    · exact sent_append h m ht q hq
  · rcases h.pub k v hk hv with h0 | ⟨pre, post, rfl, h3⟩
    · exact .inl h0
    · exact .inr ⟨pre, post, rfl, told_append h3 (m.store 0) fun w hw => touch_fl h ht w (List.mem_append_right _ hw)⟩

/-- A block is passed on. -/
theorem data_own (h : Data r own un H sn tr FL) {f : Ev} (m : Mild f) {p : Nat} (hl : f.loc = flg p) {x : Owner}
    (hp : own p ≠ .pool) (h1 : ∀ t, x = .ctx t → Knows (tr ++ [f]) t (At p)) (h2 : x = .sent → Lasts (tr ++ [f]) (flg p) (At p)) :
    Data r (fun q => if q = p then x else own q) un H sn (tr ++ [f]) FL := by
  have hw : f.writes 0 = false := by simp [Ev.writes, hl, flg]
  have hc : cnt (tr ++ [f]) 0 = cnt tr 0 := by rw [cnt_append, hw]; simp
  have ht : Touch r own FL f := fun q hq => absurd (hl.symm.trans hq).symm ((blk_ne q).2.2 p)
  have h' := data_quiet h m hw ht (Nat.le_refl _) h.seen
  refine ⟨h'.len, h'.last, h'.seen, h'.nodup, fun v hv => ?_, h'.pos, fun q hq => ?_, h'.fresh, h'.evs, fun q t hq => ?_, fun q hq => ?_, h'.pub⟩
  · refine ⟨?_, (h.pool v hv).2⟩
    rw [if_neg (fun e : v = p => hp (e ▸ (h.pool v hv).1))]
    exact (h.pool v hv).1
  · split at hq
    · rename_i e; exact e ▸ h.small p hp
    · exact h.small q hq
  · split at hq
    · rename_i e; subst e; exact h1 t hq
    · exact h'.ctx q t hq
  · split at hq
    · rename_i e; subst e; exact h2 hq
    · exact h'.sent q hq

theorem data_give (h : Data r own un H sn tr FL) {t p : Nat} (hp : own p = .ctx t) :
    Data r (fun q => if q = p then .sent else own q) un H sn (tr ++ [⟨t, flg p, .rmw false true⟩]) FL := by
  have m : Mild ⟨t, flg p, .rmw false true⟩ := ⟨nofun, fun _ q hq => (blk_ne q).2.2 p hq.symm, nofun, fun l => by simp [Ev.isStore]⟩
  refine data_own h m rfl (by rw [hp]; nofun) nofun fun _ => ?_
  refine Knows.release (f := ⟨t, flg p, .rmw false true⟩) ?_ (by simp [Ev.writes]) rfl
  exact (h.ctx p t hp).append fun e => absurd e.symm ((blk_ne p).2.2 p)

theorem data_take (h : Data r own un H sn tr FL) {t p : Nat} (hp : own p = .sent) :
    Data r (fun q => if q = p then .ctx t else own q) un H sn (tr ++ [⟨t, flg p, .rmw true false⟩]) FL := by
  have m : Mild ⟨t, flg p, .rmw true false⟩ := ⟨nofun, fun _ q hq => (blk_ne q).2.2 p hq.symm, nofun, fun l => by simp [Ev.isStore]⟩
  refine data_own h m rfl (by rw [hp]; nofun) (fun u hu => ?_) nofun
  cases hu
  exact Lasts.acquire (f := ⟨t, flg p, .rmw true false⟩) (h.sent p hp) rfl rfl

end Verif.Heap.Conc.Order
