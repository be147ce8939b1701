import Verif.Soft.OrderCover
import Verif.Soft.Inv
/-! # No request gets lost -/
namespace Verif.Soft.Order

open Verif.Order

variable {count : Nat} {o : Ords} {prio : Nat → Nat}

/-- The scheduler loop will resume `u`. -/
def Holds : RowPc → Nat → Prop
  | .load _, _ => True
  | .bits thr cell _, u => thr ≤ u ∧ cell.getLsbD u = true
  | .call thr cell _ _, u => thr < u ∧ cell.getLsbD u = true
  | .next, _ => False

/-- A scheduler loop in progress will resume `u` at level `p`. -/
def InRow (st : List Frame) (u p : Nat) : Prop := ∃ r pc, .row r pc ∈ st ∧ r.priority = p + 1 ∧ Holds pc u

theorem InRow.cons {st : List Frame} {u p : Nat} (h : InRow st u p) (f : Frame) : InRow (f :: st) u p := by
  obtain ⟨r, pc, h1, h2⟩ := h
  exact ⟨r, pc, List.mem_cons_of_mem _ h1, h2⟩

theorem InRow.tail {st : List Frame} {f : Frame} {u p : Nat} (h : InRow (f :: st) u p) (hf : ∀ r pc, f ≠ .row r pc) : InRow st u p := by
  obtain ⟨r, pc, h1, h2⟩ := h
  rcases List.mem_cons.1 h1 with h1 | h1
  · exact absurd h1.symm (hf r pc)
  · exact ⟨r, pc, h1, h2⟩

theorem InRow.top {st : List Frame} {r : Row} {pc : RowPc} {u p : Nat} (h : InRow (.row r pc :: st) u p) :
    InRow st u p ∨ (r.priority = p + 1 ∧ Holds pc u) := by
  obtain ⟨r', pc', h1, h2⟩ := h
  rcases List.mem_cons.1 h1 with h1 | h1
  · cases h1; exact .inr h2
  · exact .inl ⟨r', pc', h1, h2⟩

theorem InRow.mk_top {st : List Frame} {r : Row} {pc : RowPc} {u p : Nat} (h1 : r.priority = p + 1) (h2 : Holds pc u) : InRow (.row r pc :: st) u p :=
  ⟨r, pc, List.mem_cons_self, h1, h2⟩

theorem advance_row {r : Row} {thr u p : Nat} {cell bit : U32} {rest : List Frame} (hc : count ≤ 32) (ht : thr < count) (hb : bit = 1#32 <<< thr)
    (hp : r.priority = p + 1) (hu : u < count) (h1 : thr < u) (h2 : cell.getLsbD u = true) : InRow (advance count r thr cell bit :: rest) u p := by
  subst hb
  rw [advance_small r cell hc ht, if_neg (by omega)]
  exact .mk_top hp ⟨h1, h2⟩

theorem inRow_step {s b : State} {rest : List Frame} {f : Frame} (hc : count ≤ 32) (hs : frameStep count s rest f = some b) (hok : StackOk count (f :: rest))
    {u p : Nat} (hu : u < count) (h : InRow (f :: rest) u p)
    (hload : ∀ r thr, f = .row r (.load thr) → r.priority = p + 1 → (s.mem r.ptr).getLsbD u = true)
    (hbits : ∀ r thr cell bit, f = .row r (.bits thr cell bit) → cell &&& bit ≠ 0 → r.priority = p + 1 → u ≠ thr ∧ (s.mem r.ptr).getLsbD u = true) :
    InRow b.stack u p := by
  cases f with
  | req thr pc =>
    replace h := h.tail (by simp)
    cases pc <;> simp only [frameStep] at hs
    · cases hs; exact h.cons _
    · split at hs <;> cases hs
      simp only
      split
      · exact h.cons _
      · exact h
    · cases hs
      simp only
      split
      · exact h.cons _
      · exact h
  | start =>
    replace h := h.tail (by simp)
    simp only [frameStep] at hs
    split at hs <;> cases hs
    · exact h
    · exact h.cons _
  | row r pc =>
    obtain ⟨k1, k2, k3, k4, k5, k6⟩ := hok.1
    cases pc with
    | load thr =>
      simp only [frameStep] at hs
      split at hs
      · split at hs
        · rename_i hz
          split at hs
          · cases hs
            rcases h.top with h | ⟨h1, -⟩
            · simp only; split <;> exact h.cons _
            · have := hload r thr rfl h1
              rw [hz] at this; simp at this
          · cases hs
        · cases hs
          rcases h.top with h | ⟨h1, -⟩
          · exact h.cons _
          · have h0 : thr = 0 := k6
            exact .mk_top h1 ⟨by omega, hload r thr rfl h1⟩
      · cases hs
    | bits thr cell bit =>
      simp only [frameStep] at hs
      split at hs
      · rename_i hcb
        split at hs
        · cases hs
          rcases h.top with h | ⟨h1, h2, h3⟩
          · exact h.cons _
          · obtain ⟨e1, e2⟩ := hbits r thr cell bit rfl hcb h1
            exact .mk_top h1 ⟨by omega, e2⟩
        · cases hs
      · rename_i hcb
        cases hs
        rcases h.top with h | ⟨h1, h2, h3⟩
        · exact h.cons _
        · refine advance_row hc k6.1 k6.2 h1 hu ?_ h3
          have : u ≠ thr := by
            rintro rfl
            rw [k6.2, and_bit_ne (by omega)] at hcb
            exact hcb h3
          omega
    | call thr cell bit c =>
      simp only [frameStep] at hs
      split at hs <;> cases hs
      · rcases h.top with h | ⟨h1, h2⟩
        · exact h.cons _
        · exact .mk_top h1 h2
      · rcases h.top with h | ⟨h1, h2, h3⟩
        · exact h.cons _
        · exact advance_row hc k6.1 k6.2 h1 hu h2 h3
    | next =>
      simp only [frameStep, Option.some.injEq] at hs
      subst hs
      rcases h.top with h | ⟨-, h⟩
      · simp only
        split
        · exact h
        · split <;> exact h.cons _
      · exact absurd h id
  | clear thr p =>
    replace h := h.tail (by simp)
    cases p <;> simp only [frameStep] at hs
    · cases hs; exact h.cons _
    · split at hs <;> cases hs
      exact h
  | plain thr c =>
    replace h := h.tail (by simp)
    simp only [frameStep] at hs
    split at hs <;> cases hs
    · exact h.cons _
    · exact h

theorem inRow_ret {st : List Frame} {u p : Nat} (h : InRow st u p) : InRow (ret st) u p := by
  unfold ret
  split
  · rcases h.top with h | h
    · exact h.cons _
    · exact .mk_top h.1 h.2
  · exact (h.tail (by simp)).cons _
  · exact h

/-- A load by the core sees the bit of a request that it knows. -/
theorem sees {p : PState SState Nat} (hI : PInv count o p) {i k v : Nat} {a : Bool} (hco : Coherent (p.tr ++ [⟨0, memLoc i, .load a k⟩]))
    (hv : (p.hist (memLoc i))[k]? = some v) {t : Nat} {x : Nat × Nat} (hsaid : p.s.said t = some x) (hgone : p.s.gone t = false)
    (hptr : cellIdx count x.1 x.2 = i) (hk : Knows p.tr 0 (Up t (cellLoc count x))) : BitVec.ofNat 32 v &&& pendingBit x.1 ≠ 0 := by
  obtain ⟨b, e, he, hup⟩ := hI.put t x hsaid
  have hloc : cellLoc count x = memLoc i := by unfold cellLoc; rw [hptr]
  have hb := (List.getElem?_eq_some_iff.1 he).1
  refine hI.bit t x hsaid hgone b e he hup k v (by rw [hloc]; exact hv) (Nat.le_of_not_lt fun hlt => ?_)
  refine hco p.tr.length ⟨0, memLoc i, .load a k⟩ a k (by simp) rfl b e (by rw [List.getElem?_append_left hb]; exact he)
    (by rw [← hloc]; exact hup.2) ?_ (hb_last.2 (.inl (hk b e he hup)))
  rw [List.take_append_of_le_length (by omega)]
  rw [hloc] at hlt
  exact hlt

theorem coherent_prefix {tr : List Ev} {f : Ev} (h : Coherent (tr ++ [f])) : Coherent tr := by
  intro j g a k hg hk i e he hw hlt hb
  have hj := (List.getElem?_eq_some_iff.1 hg).1
  have hi := (List.getElem?_eq_some_iff.1 he).1
  exact h j g a k (by rw [List.getElem?_append_left hj]; exact hg) hk i e (by rw [List.getElem?_append_left hi]; exact he) hw
    (by rw [List.take_append_of_le_length (by omega)]; exact hlt) ((hb_append hj).2 hb)

/-- The core knows of the request. -/
def Sure (o : Ords) (s : SState) (t : Nat) : Prop := s.started t = true ∨ (s.nexted t = true ∧ o.next.acq = true)

/-- A context requests a thread of the array. -/
def CtxOk (count : Nat) : Ctx → Prop
  | .idle | .done _ => True
  | .write u | .req u .load => u < count
  | .req u (.cell p) | .req u (.header p) => u < count ∧ p < 27

/-- Where a request is. -/
structure QInv (count : Nat) (o : Ords) (s : SState) : Prop where
  a : InvA count s.base
  ctx : ∀ t, CtxOk count (s.ctx t)
  said : ∀ t u p, s.said t = some (u, p) → u < count ∧ p < 27
  row : ∀ t u p, s.said t = some (u, p) → s.gone t = false → Sure o s t → InRow s.base.stack u p
  head : ∀ t u p, s.said t = some (u, p) → s.due t = true → s.started t = false → s.nexted t = false → (s.base.mem 0).getLsbD p = true

theorem invA_cell {s : State} (h : InvA count s) {i : Nat} (hi : i ≠ 0) (x : U32) (l : List Event) : InvA count { s with mem := Soft.upd s.mem i x, log := l } := by
  refine ⟨?_, h.ok, h.pr, fun k hk hb => h.hb k hk ?_⟩
  · rw [← h.cur]
    simp only [recorded, Soft.upd, if_neg (Ne.symm hi)]
  · simp only [Soft.upd, if_neg (Ne.symm hi)] at hb
    exact hb

theorem invA_head {s : State} (h : InvA count s) {p : Nat} (hp : p < 27) (h0 : 0 < count) :
    InvA count { s with mem := Soft.upd s.mem 0 (s.mem 0 ||| 1#32 <<< p) } := by
  refine ⟨?_, h.ok, h.pr, fun _ _ _ => h0⟩
  rw [← h.cur]
  simp only [recorded, Soft.upd, if_true]
  exact cur_or_bit hp

theorem invA_pop {s : State} (h : InvA count s) {rest : List Frame} (hst : s.stack = .start :: rest) : InvA count { s with stack := rest } := by
  have := h.ok
  have hc := h.cur
  rw [hst] at this hc
  exact ⟨hc, this.2, h.pr, h.hb⟩

theorem ghosts_keep (s : SState) (f : Frame) : (ghosts count s f).ctx = s.ctx ∧ (ghosts count s f).said = s.said ∧ (ghosts count s f).due = s.due ∧
    (ghosts count s f).task = s.task := by
  unfold ghosts
  split
  · exact ⟨rfl, rfl, rfl, rfl⟩
  · split <;> exact ⟨rfl, rfl, rfl, rfl⟩
  · exact ⟨rfl, rfl, rfl, rfl⟩
  · exact ⟨rfl, rfl, rfl, rfl⟩
  · exact ⟨rfl, rfl, rfl, rfl⟩

theorem ghosts_gone {s : SState} {f : Frame} {t : Nat} (h : (ghosts count s f).gone t = false) : s.gone t = false := by
  unfold ghosts at h
  split at h
  · exact h
  · split at h <;> exact h
  · exact (Bool.or_eq_false_iff.1 h).1
  · exact (Bool.or_eq_false_iff.1 h).1
  · exact h

theorem has_bit {s : SState} (hC : Core count s) (hc : count ≤ 32) {t u p : Nat} (hs : s.said t = some (u, p)) (hg : s.gone t = false) (hu : u < count)
    (hp : p < 27) : (s.base.mem (27 - p)).getLsbD u = true := by
  have := hC.has t (u, p) hs hg
  rw [cellIdx_small hu hc hp, pendingBit_small (by omega), and_bit_ne (by omega)] at this
  exact this

/-- The core makes a step other than a load of a cell. -/
theorem core_q {s : SState} {b : State} {f : Frame} {rest : List Frame} (hc : count ≤ 32) (h : QInv count o s) (hC : Core count s)
    (hst : s.base.stack = f :: rest) (hs : frameStep count s.base rest f = some b) (hnl : ∀ r thr, f ≠ .row r (.load thr))
    (hfi : f = .start → finds s.base = true) : QInv count o { ghosts count s f with base := b } := by
  obtain ⟨e1, e2, e3, -⟩ := ghosts_keep (count := count) s f
  have hok := h.a.ok
  rw [hst] at hok
  have old : ∀ t u p, s.said t = some (u, p) → (ghosts count s f).gone t = false → Sure o s t → InRow b.stack u p := by
    intro t u p hsd hg hsu
    have hg0 := ghosts_gone hg
    obtain ⟨hu, hp⟩ := h.said t u p hsd
    refine inRow_step hc hs hok hu (hst ▸ h.row t u p hsd hg0 hsu) (fun r thr e => absurd e (hnl r thr)) (fun r thr cell bit e hcb hr => ?_)
    subst e
    obtain ⟨k1, k2, k3, k4, k5, k6⟩ := hok.1
    have hptr : r.ptr = 27 - p := by omega
    refine ⟨?_, by rw [hptr]; exact has_bit hC hc hsd hg0 hu hp⟩
    rintro rfl
    simp only [ghosts, Bool.or_eq_false_iff, hsd] at hg
    have := not_hits (count := count) (x := (u, p)) hg.2 (by simp only; rw [cellIdx_small hu hc hp, hptr])
    simp only at this
    rw [k6.2, pendingBit_small (by omega)] at this
    exact (and_bit_ne (x := 1#32 <<< u) (i := u) (by omega)).2 (by rw [getLsbD_one_shift (by omega)]; simp) this
  refine ⟨frameStep_invA hc h.a hst hs, by simp only [e1]; exact h.ctx, by simp only [e2]; exact h.said, fun t u p hsd hg hsu => ?_, fun t u p hsd hd h1 h2 => ?_⟩
  · simp only [e2] at hsd
    simp only at hg
    by_cases hsu' : Sure o s t
    · exact old t u p hsd hg hsu'
    · obtain ⟨hu, hp⟩ := h.said t u p hsd
      cases f with
      | start =>
        simp only [Sure, ghosts, hsd, Bool.or_eq_true, Bool.and_eq_true, atLevel, decide_eq_true_eq] at hsu
        rcases hsu with (hsu | ⟨-, hsu⟩) | hsu
        · exact absurd (.inl hsu) hsu'
        · simp only [frameStep] at hs
          split at hs
          · rename_i q hf
            have := hfi rfl
            unfold finds at this
            rw [hf] at this; cases this
          · rename_i new q hf
            rw [hf] at hsu
            cases hs
            exact .mk_top hsu.symm trivial
        · exact absurd (.inr hsu) hsu'
      | row r pc =>
        cases pc with
        | next =>
          have hs' := hs
          simp only [frameStep, Option.some.injEq] at hs
          simp only [Sure, ghosts] at hsu
          split at hsu
          · rename_i hsome
            simp only [hsd, Bool.or_eq_true, Bool.and_eq_true, atLevel, decide_eq_true_eq] at hsu
            rcases hsu with hsu | ⟨hsu | ⟨-, hsu⟩, ha⟩
            · exact absurd (.inl hsu) hsu'
            · exact absurd (.inr ⟨hsu, ha⟩) hsu'
            · subst hs
              obtain ⟨k1, k2, k3, k4, k5, k6⟩ := hok.1
              have sp := findPriority_spec (s.base.mem 0) r.prev (r.priority - 1) (by omega) (by omega)
              generalize findPriority (s.base.mem 0) r.prev (r.priority - 1) = fp at sp hsome hsu ⊢
              obtain ⟨new, next⟩ := fp
              cases new with
              | none => cases hsome
              | some new =>
                simp only at sp hsu ⊢
                rw [if_neg (by omega), if_pos (by omega)]
                exact .mk_top hsu.symm trivial
          · exact absurd hsu hsu'
        | _ => exact absurd hsu hsu'
      | req _ _ | clear _ q | plain _ _ => first | exact absurd hsu hsu' | (cases q <;> exact absurd hsu hsu')
  · simp only [e2] at hsd
    simp only [e3] at hd
    simp only at h1 h2
    obtain ⟨hu, hp⟩ := h.said t u p hsd
    have h1' : s.started t = false := by
      unfold ghosts at h1
      split at h1
      · exact (Bool.or_eq_false_iff.1 h1).1
      · split at h1 <;> exact h1
      all_goals exact h1
    have h2' : s.nexted t = false := by
      unfold ghosts at h2
      split at h2
      · exact h2
      · split at h2
        · exact (Bool.or_eq_false_iff.1 h2).1
        · exact h2
      all_goals exact h2
    have hh := h.head t u p hsd hd h1' h2'
    cases f with
    | req thr pc =>
      cases pc <;> simp only [frameStep] at hs
      · cases hs; exact hh
      · split at hs <;> cases hs
        simp only [Soft.upd, if_neg (Ne.symm (cell_pos count thr _))]
        exact hh
      · cases hs
        simp only [Soft.upd, if_true, getLsbD_or_bit (show p < 32 by omega), hh, Bool.true_or]
    | start =>
      simp only [ghosts, hsd, hd, h1', Bool.false_or, Bool.true_and, atLevel, decide_eq_false_iff_not] at h1
      simp only [frameStep] at hs
      have hle := running_le hok.2
      have hcur : (s.base.mem 0 >>> levels).toNat = running rest := by have := h.a.cur; rw [hst] at this; exact this
      rw [hcur] at hs h1
      have sp := findPriority_spec (s.base.mem 0) (running rest) levels hle (by decide)
      split at hs
      · cases hs; exact hh
      · rename_i new q hf
        rw [hf] at h1 sp
        cases hs
        simp only at sp h1
        simp only [Soft.upd, if_true]
        rw [sp.2.2.2.2.2 p hp, hh]
        simp; omega
    | row r pc =>
      obtain ⟨k1, k2, k3, k4, k5, k6⟩ := hok.1
      have hptr : r.ptr ≠ 0 := by omega
      cases pc with
      | load thr => exact absurd rfl (hnl r thr)
      | bits thr cell bit =>
        simp only [frameStep] at hs
        split at hs
        · split at hs <;> cases hs
          simp only [Soft.upd, if_neg (Ne.symm hptr)]
          exact hh
        · cases hs; exact hh
      | call thr cell bit c => simp only [frameStep] at hs; split at hs <;> (cases hs; exact hh)
      | next =>
        simp only [frameStep, Option.some.injEq] at hs
        subst hs
        have sp := findPriority_spec (s.base.mem 0) r.prev (r.priority - 1) (by omega) (by omega)
        simp only [ghosts] at h2
        generalize findPriority (s.base.mem 0) r.prev (r.priority - 1) = fp at sp h2 ⊢
        obtain ⟨new, next⟩ := fp
        cases new with
        | none =>
          simp only [Soft.upd, if_true, Option.getD]
          rw [lvl_setPriority hp]; exact hh
        | some new =>
          simp only [Option.isSome, if_true, hsd, hd, h2', Bool.false_or, Bool.true_and, atLevel, decide_eq_false_iff_not] at h2
          simp only at sp
          simp only [Soft.upd, if_true, Option.getD]
          rw [sp.2.2.2.2.2 p hp, hh]
          simp; omega
    | clear thr q =>
      cases q <;> simp only [frameStep] at hs
      · cases hs; exact hh
      · split at hs <;> cases hs
        simp only [Soft.upd, if_neg (Ne.symm (cell_pos count thr _))]
        exact hh
    | plain thr c => simp only [frameStep] at hs; split at hs <;> (cases hs; exact hh)

/-- Only the stack of the core changes. -/
theorem QInv.stack {s s' : SState} (h : QInv count o s) (ha : InvA count s'.base) (hm : s'.base.mem 0 = s.base.mem 0) (h1 : s'.ctx = s.ctx) (h2 : s'.said = s.said)
    (h3 : s'.due = s.due) (h4 : s'.started = s.started) (h5 : s'.nexted = s.nexted) (h6 : s'.gone = s.gone)
    (hr : ∀ t u p, s.said t = some (u, p) → s.gone t = false → Sure o s t → InRow s.base.stack u p → InRow s'.base.stack u p) : QInv count o s' where
  a := ha
  ctx := by rw [h1]; exact h.ctx
  said := by rw [h2]; exact h.said
  row t u p hs hg hsu := by
    rw [h2] at hs; rw [h6] at hg
    have hsu : Sure o s t := by unfold Sure at hsu ⊢; rw [h4, h5] at hsu; exact hsu
    exact hr t u p hs hg hsu (h.row t u p hs hg hsu)
  head t u p hs hd e1 e2 := by
    rw [h2] at hs; rw [h3] at hd; rw [h4] at e1; rw [h5] at e2; rw [hm]
    exact h.head t u p hs hd e1 e2

theorem call_q {s : SState} (hc : count ≤ 32) (h : QInv count o s) (a : Op) : QInv count o ((machine count prio o).call s a) := by
  cases a with
  | act a =>
    simp only [machine]
    split
    · exact h
    · exact h
    · split
      · exact h
      · rename_i hne1 hne2 _ b hb
        have ha := step_invA hc h.a hb
        refine h.stack ha ?_ rfl rfl rfl rfl rfl rfl fun t u p _ _ _ hr => ?_
        · rw [show b.mem = s.base.mem from act_mem hb (fun e => by simp_all)]
        · cases a with
          | step => exact absurd rfl hne1
          | setPrio thr q => exact absurd rfl (hne2 thr q)
          | ret => cases hb; exact inRow_ret hr
          | preempt => cases hb; exact hr.cons _
          | pend thr | clear thr | enter thr =>
            simp only [step, Option.some.injEq] at hb
            subst hb
            simp only
            split
            · exact hr.cons _
            · exact hr
  | turn =>
    simp only [machine]
    split
    · rename_i ht
      split
      · exact h
      · rename_i b hb
        have ha := step_invA hc h.a hb
        refine h.stack ha (by rw [turn_mem ht hb]) rfl rfl rfl rfl rfl rfl fun t u p hs _ _ hr => ?_
        simp only [step] at hb
        split at hb
        · cases hb; exact hr
        · rename_i f rest hst
          have hok := h.a.ok
          rw [hst] at hok hr ht
          refine inRow_step hc hb hok (h.said t u p hs).1 hr (fun r thr e => ?_) (fun r thr cell bit e hcb => ?_)
          · subst e; cases ht
          · subst e; exact absurd (of_decide_eq_true ht) hcb
    · exact h
  | read t =>
    simp only [machine]
    split
    · exact ⟨h.a, h.ctx, h.said, h.row, h.head⟩
    · exact h
  | pend t thr =>
    simp only [machine]
    split
    · rename_i hp
      refine ⟨h.a, fun u => ?_, h.said, h.row, h.head⟩
      by_cases e : u = t
      · simp only [e, if_true]; exact hp.2.2
      · simp only [if_neg e]; exact h.ctx u
    · exact h
  | choose b => exact ⟨h.a, h.ctx, h.said, h.row, h.head⟩

/-- The core loads. -/
theorem load_q {p : PState SState Nat} (hc : count ≤ 32) (o1 : o.setHead.rel = true) (o2 : o.startCas.acq = true) (hI : PInv count o p) (h : QInv count o p.s)
    (hpr : ∀ thr, p.hist (prioLoc thr) = [p.s.base.prio thr]) {l k v : Nat} {a : Bool} {s' : SState}
    (ha : (machine count prio o).acc 0 p.s = some (.load l a)) (hv : (p.hist l)[k]? = some v)
    (hs : (machine count prio o).step 0 ((machine count prio o).setWord p.s l v) = some s') (hco : Coherent (p.tr ++ [⟨0, l, .load a k⟩])) :
    QInv count o ((machine count prio o).setWord s' l ((machine count prio o).word p.s l)) := by
  have plain : ∀ {f : Frame} {rest : List Frame} {thr : Nat}, p.s.base.stack = f :: rest → l = prioLoc thr → p.s.task = none → f ≠ .start →
      (∀ r thr, f ≠ .row r (.load thr)) → accFrame o count p.s.flag p.s.base f = some (.load l a) →
      QInv count o ((machine count prio o).setWord s' l ((machine count prio o).word p.s l)) := by
    intro f rest thr hst hl htask hns hnl hacc
    have hw : v = (machine count prio o).word p.s l := by
      subst hl
      rw [hpr thr] at hv
      simp only [machine, prioLoc_mod, prioLoc_div, Nat.one_ne_zero, if_false, if_true]
      cases k with
      | zero => exact (Option.some.inj hv).symm
      | succ k => simp at hv
    rw [hw, set_word] at hs
    simp only [machine, if_true, htask, coreStep, hst] at hs
    rw [if_neg (fun e => hns e.1)] at hs
    split at hs
    · cases hs
    · rename_i b hb
      simp only [Option.some.injEq] at hs
      have := core_q hc h hI.core hst hb hnl (fun e => absurd e hns)
      rw [hs] at this
      have hww := frame_word (prio := prio) hb hacc (fun e => absurd e hns) l (by simp [Acc.wr])
      rw [hs] at hww
      rw [← hww, set_word]
      exact this
  have ha0 := ha
  simp only [machine, if_true] at ha
  split at ha
  · cases ha
  rename_i htask
  split at ha
  · cases ha
  rename_i f rest hst
  cases f with
  | req thr pc =>
    cases pc with
    | load => exact plain (thr := thr) hst (by simp only [accFrame, Option.some.injEq, Acc.load.injEq] at ha; exact ha.1.symm) htask (by simp) (by simp) ha
    | cell q => simp [accFrame] at ha
    | header q => simp [accFrame] at ha
  | clear thr q =>
    cases q with
    | none => exact plain (thr := thr) hst (by simp only [accFrame, Option.some.injEq, Acc.load.injEq] at ha; exact ha.1.symm) htask (by simp) (by simp) ha
    | some q => simp [accFrame] at ha
  | plain thr c => cases ha
  | start =>
    simp only [accFrame] at ha
    split at ha
    · rename_i hfl
      simp only [Option.some.injEq, Acc.load.injEq] at ha
      obtain ⟨rfl, rfl⟩ := ha
      simp only [machine, memLoc_mod, memLoc_div, if_true, htask, coreStep, hst, hfl, and_self, Option.some.injEq] at hs ⊢
      subst hs
      simp only [ofNat_toNat, upd_back]
      have hpop := invA_pop h.a hst
      refine h.stack ?_ rfl rfl rfl rfl rfl rfl rfl fun t u q _ _ _ hr => ?_
      · simp only
        split
        · rw [← hst]; exact h.a
        · exact hpop
      · rw [hst] at hr
        simp only
        split
        · exact hr
        · exact hr.tail (by simp)
    · split at ha <;> cases ha
  | row r pc =>
    cases pc with
    | load thr =>
      simp only [accFrame, Option.some.injEq, Acc.load.injEq] at ha
      obtain ⟨rfl, rfl⟩ := ha
      simp only [machine, memLoc_mod, memLoc_div, if_true, htask, coreStep, hst, reduceCtorEq, false_and, if_false, ghosts] at hs ⊢
      split at hs
      · cases hs
      · rename_i b hb
        simp only [Option.some.injEq] at hs
        subst hs
        have hok := h.a.ok
        rw [hst] at hok
        obtain ⟨k1, k2, k3, k4, k5, k6⟩ := hok.1
        have hptr : r.ptr ≠ 0 := by omega
        have hm : b.mem = Soft.upd p.s.base.mem r.ptr (BitVec.ofNat 32 v) := by
          have hb := hb
          simp only [frameStep] at hb
          (repeat' split at hb) <;> simp only [Option.some.injEq, reduceCtorEq] at hb <;> subst hb <;> rfl
        have hA : InvA count b := by
          refine frameStep_invA hc (s := { p.s.base with mem := Soft.upd p.s.base.mem r.ptr (BitVec.ofNat 32 v) }) ?_ hst (by rw [← hst] at hb; simpa using hb)
          exact invA_cell h.a hptr _ p.s.base.log
        refine h.stack ?_ ?_ rfl rfl rfl rfl rfl rfl fun t u q hsd hg hsu hr => ?_
        · have := invA_cell hA hptr (BitVec.ofNat 32 (p.s.base.mem r.ptr).toNat) b.log
          exact this
        · simp only [hm, Soft.upd, if_neg (Ne.symm hptr)]
        · rw [hst] at hr
          obtain ⟨hu, hq⟩ := h.said t u q hsd
          refine inRow_step hc hb hok hu hr (fun r' thr' e hr' => ?_) (fun r' thr' cell bit e => by cases e)
          cases e
          have hcell : cellIdx count u q = r.ptr := by rw [cellIdx_small hu hc hq]; omega
          have hK : Knows p.tr 0 (Up t (cellLoc count (u, q))) := by
            rcases hsu with hsu | ⟨hsu, o3⟩
            · exact hI.started o1 o2 t _ hsu hsd
            · exact hI.nexted o1 o3 t _ hsu hsd
          have := sees hI hco hv hsd hg hcell hK
          simp only at this
          rw [pendingBit_small (by omega), and_bit_ne (by omega)] at this
          simp only [Soft.upd, if_true]
          exact this
    | bits thr cell bit => simp only [accFrame] at ha; split at ha <;> cases ha
    | call thr cell bit c => cases ha
    | next => simp [accFrame] at ha

/-- The core updates the pending array. -/
theorem rmw_q {s s' : SState} (hc : count ≤ 32) (hC : Core count s) (h : QInv count o s) {l : Nat} {b : Ord}
    (ha : (machine count prio o).acc 0 s = some (.rmw l b)) (hs : (machine count prio o).step 0 s = some s') : QInv count o s' ∧ s'.base.prio = s.base.prio := by
  simp only [machine, if_true] at ha hs
  split at ha
  · cases ha
  rename_i htask
  split at ha
  · cases ha
  rename_i f rest hst
  simp only [htask, coreStep, hst] at hs
  split at hs
  · rename_i hf
    rw [hf.1] at ha
    simp only [accFrame, hf.2, if_true] at ha
    cases ha
  · rename_i hf
    split at hs
    · cases hs
    · rename_i c hcs
      simp only [Option.some.injEq] at hs
      subst hs
      refine ⟨core_q hc h hC hst hcs (fun r thr e => ?_) (fun e => ?_), frame_prio hcs⟩
      · subst e; simp [accFrame] at ha
      · subst e
        have : s.flag = false := by
          cases h : s.flag
          · rfl
          · exact absurd ⟨rfl, h⟩ hf
        simp only [accFrame, this, Bool.false_eq_true, if_false] at ha
        split at ha
        · assumption
        · cases ha

/-- A context makes a step. -/
theorem ctx_q {s s' : SState} (hC : Core count s) (h : QInv count o s) {t : Nat} (hs : ctxStep count s t (s.ctx t) = some s') :
    QInv count o s' ∧ s'.base.prio = s.base.prio := by
  have hx := h.ctx t
  match hcx : s.ctx t with
  | .idle | .done _ => rw [hcx] at hs; cases hs; exact ⟨h, rfl⟩
  | .write thr =>
    rw [hcx] at hs hx
    simp only [ctxStep, Option.some.injEq] at hs
    subst hs
    refine ⟨⟨h.a, fun u => ?_, h.said, h.row, h.head⟩, rfl⟩
    by_cases e : u = t
    · simp only [e, if_true]; exact hx
    · simp only [if_neg e]; exact h.ctx u
  | .req thr .load =>
    rw [hcx] at hs hx
    simp only [ctxStep, frameStep, Option.some.injEq, after] at hs
    subst hs
    refine ⟨⟨h.a, fun u => ?_, h.said, h.row, h.head⟩, rfl⟩
    by_cases e : u = t
    · simp only [e, if_true]; exact ⟨hx, h.a.pr thr⟩
    · simp only [if_neg e]; exact h.ctx u
  | .req thr (.cell q) =>
    rw [hcx] at hs hx
    have hn := hC.early t (.inr (.inr (.inr ⟨thr, q, hcx⟩)))
    simp only [ctxStep, frameStep] at hs
    split at hs
    · cases hs
    · rename_i b hb
      split at hb
      · simp only [Option.some.injEq] at hs hb
        subst hs hb
        refine ⟨⟨invA_cell h.a (cell_pos count thr q) _ _, fun u => ?_, fun u v r hsd => ?_, fun u v r hsd hg hsu => ?_, fun u v r hsd hd h1 h2 => ?_⟩, rfl⟩
        · by_cases e : u = t
          · simp only [e, if_true]
            split
            · exact hx
            · trivial
          · simp only [if_neg e]; exact h.ctx u
        · by_cases e : u = t
          · simp only [e, if_true, Option.some.injEq, Prod.mk.injEq] at hsd
            rw [← hsd.1, ← hsd.2]; exact hx
          · simp only [if_neg e] at hsd; exact h.said u v r hsd
        · by_cases e : u = t
          · subst e
            rcases hsu with hsu | ⟨hsu, -⟩
            · exact absurd hn (hC.started u hsu)
            · exact absurd hn (hC.nexted u hsu)
          · simp only [if_neg e] at hsd
            exact h.row u v r hsd hg hsu
        · by_cases e : u = t
          · subst e; exact absurd hn (hC.due u hd)
          · simp only [if_neg e] at hsd
            simp only [Soft.upd, if_neg (Ne.symm (cell_pos count thr q))]
            exact h.head u v r hsd hd h1 h2
      · cases hb
  | .req thr (.header q) =>
    rw [hcx] at hs hx
    have hsd := hC.head t thr q hcx
    simp only [ctxStep, frameStep, Option.some.injEq] at hs
    subst hs
    refine ⟨⟨invA_head h.a hx.2 (Nat.lt_of_le_of_lt (Nat.zero_le _) hx.1), fun u => ?_, h.said, h.row, fun u v r hsd' hd h1 h2 => ?_⟩, rfl⟩
    · by_cases e : u = t
      · simp only [e, if_true]
        split <;> trivial
      · simp only [if_neg e]; exact h.ctx u
    · have hr := (h.said u v r hsd').2
      simp only [Soft.upd, if_true, getLsbD_or_bit (show r < 32 by omega)]
      by_cases e : u = t
      · subst e
        simp only at hsd'
        rw [hsd, Option.some.injEq, Prod.mk.injEq] at hsd'
        simp [hsd'.2]
      · simp only [if_neg e] at hd
        rw [h.head u v r hsd' hd h1 h2]; rfl

theorem step_prio {s s' : SState} {t : Nat} (h : (machine count prio o).step t s = some s') : s'.base.prio = s.base.prio := by
  simp only [machine] at h
  split at h
  · split at h
    · cases h; rfl
    · simp only [coreStep] at h
      split at h
      · cases h; rfl
      · split at h
        · cases h; rfl
        · split at h
          · cases h
          · rename_i b hb
            simp only [Option.some.injEq] at h
            subst h
            exact frame_prio hb
  · match hc : s.ctx t with
    | .idle | .done _ | .write _ => rw [hc] at h; cases h; rfl
    | .req thr pc =>
      rw [hc] at h
      simp only [ctxStep] at h
      split at h
      · cases h
      · rename_i b hb
        simp only [Option.some.injEq] at h
        have := frame_prio hb
        subst h
        exact this

theorem load_prio {s s' : SState} {t l v : Nat} (h : (machine count prio o).step t ((machine count prio o).setWord s l v) = some s') :
    ((machine count prio o).setWord s' l ((machine count prio o).word s l)).base.prio = s.base.prio := by
  have h1 := step_prio h
  simp only [machine] at h1 ⊢
  split
  · rename_i e; simp only [e, if_true] at h1; exact h1
  · rename_i e0
    split
    · rename_i e
      simp only [e, Nat.one_ne_zero, if_false, if_true] at h1
      simp only [h1]
      funext j
      simp only [Soft.upd]
      split
      · rename_i e'; rw [e']
      · rfl
    · rename_i e
      simp only [e0, e, if_false] at h1; exact h1

theorem call_prio {s : SState} (a : Op) : ((machine count prio o).call s a).base.prio = s.base.prio := by
  cases a with
  | act a =>
    simp only [machine]
    split
    · rfl
    · rfl
    · split
      · rfl
      · rename_i h _ _ hb
        exact act_prio hb h
  | turn =>
    simp only [machine]
    split
    · split
      · rfl
      · rename_i hb
        exact act_prio hb (by simp)
    · rfl
  | read t => simp only [machine]; split <;> rfl
  | pend t thr => simp only [machine]; split <;> rfl
  | choose b => rfl

/-- The requests, and the history of the priorities. -/
structure PQ (count : Nat) (o : Ords) (p : PState SState Nat) : Prop where
  q : QInv count o p.s
  pr : ∀ thr, p.hist (prioLoc thr) = [p.s.base.prio thr]

theorem pinit_q (hp : ∀ t, prio t < 27) : PQ count o (machine count prio o).pinit where
  q := ⟨init_invA count hp, fun _ => trivial, by simp [machine, Machine.pinit], by simp [machine, Machine.pinit], by simp [machine, Machine.pinit]⟩
  pr thr := by simp [machine, Machine.pinit, prioLoc_mod, prioLoc_div, init]

theorem rmw_loc {s : SState} {t l : Nat} {b : Ord} (ha : (machine count prio o).acc t s = some (.rmw l b)) : ∃ i, l = memLoc i := by
  simp only [machine] at ha
  split at ha
  · split at ha
    · cases ha
    · split at ha
      · cases ha
      · rename_i f _ _
        cases f with
        | req thr pc =>
          cases pc <;> simp only [accFrame, Option.some.injEq, Acc.rmw.injEq, reduceCtorEq] at ha
          · exact ⟨_, ha.1.symm⟩
          · exact ⟨_, ha.1.symm⟩
        | start =>
          simp only [accFrame] at ha
          (repeat' split at ha) <;> simp only [Option.some.injEq, Acc.rmw.injEq, reduceCtorEq] at ha
          exact ⟨_, ha.1.symm⟩
        | row r pc =>
          cases pc <;> simp only [accFrame] at ha <;> (repeat' split at ha) <;> simp only [Option.some.injEq, Acc.rmw.injEq, reduceCtorEq] at ha <;>
            exact ⟨_, ha.1.symm⟩
        | clear thr p =>
          cases p <;> simp only [accFrame, Option.some.injEq, Acc.rmw.injEq, reduceCtorEq] at ha
          exact ⟨_, ha.1.symm⟩
        | plain thr c => cases ha
  · match hc : s.ctx t with
    | .idle | .done _ | .write _ => rw [hc] at ha; simp [accCtx] at ha
    | .req thr .load => rw [hc] at ha; simp [accCtx] at ha
    | .req thr (.cell p) | .req thr (.header p) =>
      rw [hc] at ha
      simp only [accCtx, Option.some.injEq, Acc.rmw.injEq] at ha
      exact ⟨_, ha.1.symm⟩

theorem pstep_q {p p' : PState SState Nat} (hc : count ≤ 32) (o1 : o.setHead.rel = true) (o2 : o.startCas.acq = true) (hI : PInv count o p) (h : PQ count o p)
    {a : PAct Op} (hs : (machine count prio o).pstep p a = some p') (hco : Coherent p'.tr) : PQ count o p' := by
  cases a with
  | call a =>
    cases hs
    exact ⟨call_q (prio := prio) hc h.q a, fun thr => by rw [show _ = p.s.base.prio from call_prio (count := count) (prio := prio) (o := o) a]; exact h.pr thr⟩
  | step t k =>
    rcases pstep_cases hs with rfl | ⟨l, a, v, s', ha, -, hv, hst, rfl⟩ | ⟨l, b, s', ha, hst, rfl⟩ | ⟨l, b, ha⟩ | ⟨l, k, s', ha, hst, rfl⟩
    · exact h
    · refine ⟨?_, fun thr => by simp only [load_prio hst]; exact h.pr thr⟩
      by_cases h0 : t = 0
      · subst h0
        exact load_q hc o1 o2 hI h.q h.pr ha hv hst hco
      · have ha' := ha
        simp only [machine, if_neg h0] at ha
        match hcx : p.s.ctx t with
        | .idle | .done _ | .write _ => rw [hcx] at ha; simp [accCtx] at ha
        | .req thr (.cell _) | .req thr (.header _) => rw [hcx] at ha; simp [accCtx] at ha
        | .req thr .load =>
          rw [hcx] at ha
          simp only [accCtx, Option.some.injEq, Acc.load.injEq] at ha
          obtain ⟨rfl, rfl⟩ := ha
          have hw : v = (machine count prio o).word p.s (prioLoc thr) := by
            rw [h.pr thr] at hv
            simp only [machine, prioLoc_mod, prioLoc_div, Nat.one_ne_zero, if_false, if_true]
            cases k with
            | zero => exact (Option.some.inj hv).symm
            | succ k => simp at hv
          have hp := load_prio hst
          rw [hw, set_word] at hst
          have hst' := hst
          simp only [machine, if_neg h0] at hst
          have hq := (ctx_q hI.core h.q hst).1
          have hww : (machine count prio o).word p.s (prioLoc thr) = (machine count prio o).word s' (prioLoc thr) := by
            simp only [machine, prioLoc_mod, prioLoc_div, Nat.one_ne_zero, if_false, if_true, step_prio hst']
          rw [hww, set_word]
          exact hq
    · refine ⟨?_, fun thr => ?_⟩
      · by_cases h0 : t = 0
        · subst h0
          exact (rmw_q hc hI.core h.q ha hst).1
        · simp only [machine, if_neg h0] at hst
          exact (ctx_q hI.core h.q hst).1
      · obtain ⟨i, rfl⟩ := rmw_loc ha
        have : prioLoc thr ≠ memLoc i := by unfold prioLoc memLoc; omega
        simp only [Verif.Order.upd, if_neg this, step_prio hst]
        exact h.pr thr
    · exact absurd ha acc_store
    · refine ⟨?_, fun thr => by simp only [step_prio hst]; exact h.pr thr⟩
      by_cases h0 : t = 0
      · subst h0
        obtain ⟨u, hu, rfl, rfl⟩ := acc_other ha
        simp only [machine, if_true, hu, Option.some.injEq] at hst
        subst hst
        exact ⟨h.q.a, h.q.ctx, h.q.said, h.q.row, h.q.head⟩
      · simp only [machine, if_neg h0] at hst
        exact (ctx_q hI.core h.q hst).1

theorem pstep_tr {p p' : PState SState Nat} {a : PAct Op} (hs : (machine count prio o).pstep p a = some p') (hco : Coherent p'.tr) : Coherent p.tr := by
  cases a with
  | call a => cases hs; exact hco
  | step t k =>
    rcases pstep_cases hs with rfl | ⟨l, a, v, s', ha, -, hv, hst, rfl⟩ | ⟨l, b, s', ha, hst, rfl⟩ | ⟨l, b, ha⟩ | ⟨l, k, s', ha, hst, rfl⟩
    · exact hco
    · exact coherent_prefix hco
    · exact coherent_prefix hco
    · exact absurd ha acc_store
    · exact coherent_prefix hco

theorem prun_tr {as : List (PAct Op)} : ∀ {p p' : PState SState Nat}, (machine count prio o).prun p as = some p' → Coherent p'.tr → Coherent p.tr := by
  induction as with
  | nil => intro p p' hs h; cases hs; exact h
  | cons a as ih =>
    intro p p' hs h
    simp only [Machine.prun] at hs
    split at hs
    · cases hs
    · rename_i q hq
      exact pstep_tr hq (ih hs h)

theorem prun_q (hc : count ≤ 32) (o1 : o.setHead.rel = true) (o2 : o.startCas.acq = true) {as : List (PAct Op)} : ∀ {p p' : PState SState Nat},
    PInv count o p → PQ count o p → (machine count prio o).prun p as = some p' → Coherent p'.tr → PQ count o p' := by
  induction as with
  | nil => intro p p' hI h hs _; cases hs; exact h
  | cons a as ih =>
    intro p p' hI h hs hco
    simp only [Machine.prun] at hs
    split at hs
    · cases hs
    · rename_i q hq
      exact ih (pstep_inv hI hq) (pstep_q hc o1 o2 hI h hq (prun_tr hs hco)) hs hco

theorem coherent_snoc {tr : List Ev} {f : Ev} (h : Coherent tr) (hf : ∀ a k, f.kind ≠ .load a k) : Coherent (tr ++ [f]) := by
  intro j g a k hg hk i e he hw hlt hb
  have hij := hb.lt
  by_cases hj : j < tr.length
  · rw [List.getElem?_append_left hj] at hg
    rw [List.getElem?_append_left (by omega)] at he
    rw [List.take_append_of_le_length (by omega)] at hlt
    exact h j g a k hg hk i e he hw hlt ((hb_append hj).1 hb)
  · have : j = tr.length := by have := hij.2; simp at this; omega
    subst this
    simp only [List.getElem?_concat_length, Option.some.injEq] at hg
    subst hg
    exact hf a k hk

/-- If the core is idle, then a request is served, in the header, or its level was taken in `row_next` without acquiring. -/
theorem served_of (hc : count ≤ 32) (hp : ∀ t, prio t < 27) (o1 : o.setHead.rel = true) (o2 : o.startCas.acq = true) {as : List (PAct Op)} {s : SState} {tr : List Ev}
    (hr : (machine count prio o).Reaches as s tr) (hco : Coherent tr) (hst : s.base.stack = []) {t u p : Nat} (hs : s.said t = some (u, p)) (hd : s.due t = true) :
    s.gone t = true ∨ (s.base.mem 0).getLsbD p = true ∨ (s.nexted t = true ∧ o.next.acq = false) := by
  obtain ⟨q, hq, rfl, rfl⟩ := hr
  have h := (prun_q hc o1 o2 pinit_inv (pinit_q hp) hq hco).q
  cases hg : q.s.gone t
  · right
    have hno : ¬ Sure o q.s t := by
      intro hsu
      have := h.row t u p hs hg hsu
      rw [hst] at this
      obtain ⟨_, _, h, _⟩ := this
      cases h
    cases h1 : q.s.started t
    · cases h2 : q.s.nexted t
      · exact .inl (h.head t u p hs hd h1 h2)
      · refine .inr ⟨rfl, ?_⟩
        cases h3 : o.next.acq
        · rfl
        · exact absurd (.inr ⟨h2, h3⟩) hno
    · exact absurd (.inl h1) hno
  · exact .inl rfl

end Verif.Soft.Order
