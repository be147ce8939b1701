import Verif.Soft.OrderLemmas
/-! # The steps of the software threads with memory orderings -/
namespace Verif.Soft.Order

open Verif.Order

variable {count : Nat} {o : Ords} {prio : Nat → Nat}

/-- Nothing that the invariant is about has changed. -/
theorem inv_same {s s' : SState} {hist : Nat → List Nat} {tr : List Ev} (h : SInv count o s hist tr) (hcore : Core count s')
    (hctx : ∀ t, (s'.ctx t = .idle ∨ ∃ u, s'.ctx t = .write u) → s.ctx t = .idle ∨ ∃ u, s.ctx t = .write u)
    (h1 : s'.said = s.said) (h2 : s'.due = s.due) (h3 : s'.started = s.started) (h4 : s'.nexted = s.nexted) (h5 : s'.gone = s.gone)
    (h6 : s'.served = s.served) : SInv count o s' hist tr where
  core := hcore
  len := h.len
  stores := h.stores
  kinds := h.kinds
  unused t ht := h.unused t (hctx t ht)
  wrote o1 t x hx := h.wrote o1 t x (h1 ▸ hx)
  read o1 o2 t ht := h.read o1 o2 t (h6 ▸ ht)
  due o1 t x hd hx := h.due o1 t x (h2 ▸ hd) (h1 ▸ hx)
  started o1 o2 t x hd hx := h.started o1 o2 t x (h3 ▸ hd) (h1 ▸ hx)
  nexted o1 o2 t x hd hx := h.nexted o1 o2 t x (h4 ▸ hd) (h1 ▸ hx)
  calm t h0 hn := h.calm t h0 (h1 ▸ hn)
  put t x hx := h.put t x (h1 ▸ hx)
  bit t x hx hg := h.bit t x (h1 ▸ hx) (h5 ▸ hg)

theorem Core.base {s : SState} (h : Core count s) {b : State} (hm : b.mem = s.base.mem) : Core count { s with base := b } :=
  ⟨h.zero, h.early, h.head, h.served, h.due, h.started, h.nexted, fun t x hx hg => by simp only [hm]; exact h.has t x hx hg, h.task⟩

theorem turn_mem {s b : State} (ht : isTurn s.stack = true) (h : step count s .step = some b) : b.mem = s.mem := by
  simp only [step] at h
  split at h
  · cases h; rfl
  · rename_i f rest e
    rw [e] at ht
    unfold isTurn at ht
    split at ht
    · rename_i r u cell bit rest' heq
      injection heq with e1 e2
      subst e1
      have hc : cell &&& bit = 0 := of_decide_eq_true ht
      simp only [frameStep, hc, ne_eq, not_true_eq_false, if_false, Option.some.injEq] at h
      subst h; rfl
    · rename_i heq
      injection heq with e1 e2
      subst e1
      simp only [frameStep] at h
      split at h <;> (simp only [Option.some.injEq] at h; subst h; rfl)
    · rename_i heq
      injection heq with e1 e2
      subst e1
      simp only [frameStep] at h
      split at h <;> (simp only [Option.some.injEq] at h; subst h; rfl)
    · cases ht

theorem act_mem {s b : State} {a : Act} (h : step count s a = some b) (ha : a ≠ .step) : b.mem = s.mem := by
  cases a <;> simp only [step] at h
  · exact absurd rfl ha
  all_goals first
    | (simp only [Option.some.injEq] at h; subst h; first | rfl | (split <;> rfl))
    | (split at h <;> (simp only [Option.some.injEq, reduceCtorEq] at h; try subst h; rfl))

theorem call_inv {s : SState} {hist : Nat → List Nat} {tr : List Ev} (h : SInv count o s hist tr) (a : Op) :
    SInv count o ((machine count prio o).call s a) hist tr := by
  have keep : ∀ {b : State}, b.mem = s.base.mem → SInv count o { s with base := b } hist tr := fun hm =>
    inv_same h (h.core.base hm) (fun t ht => ht) rfl rfl rfl rfl rfl rfl
  cases a with
  | act a =>
    simp only [machine]
    split
    · exact h
    · exact h
    · split
      · exact h
      · rename_i hne _ _ b hb
        exact keep (act_mem hb (fun e => by simp_all))
  | turn =>
    simp only [machine]
    split
    · rename_i ht
      split
      · exact h
      · rename_i b hb
        exact keep (turn_mem ht hb)
    · exact h
  | read t =>
    simp only [machine]
    split
    · rename_i hc
      refine inv_same h ⟨h.core.zero, h.core.early, h.core.head, h.core.served, h.core.due, h.core.started, h.core.nexted, h.core.has, fun u hu => ?_⟩ (fun t ht => ht) rfl rfl rfl rfl rfl rfl
      cases hu; exact hc.1
    · exact h
  | pend t thr =>
    simp only [machine]
    split
    · rename_i hc
      obtain ⟨h0, hi, -⟩ := hc
      have hs := h.core.early t (.inl hi)
      refine inv_same h ⟨?_, fun u hu => ?_, fun u v p hu => ?_, h.core.served, h.core.due, h.core.started, h.core.nexted, h.core.has, h.core.task⟩ (fun u hu => ?_) rfl rfl rfl rfl rfl rfl
      · simp only [if_neg (Ne.symm h0)]; exact h.core.zero
      · by_cases e : u = t
        · subst e; exact hs
        · simp only [if_neg e] at hu; exact h.core.early u hu
      · by_cases e : u = t
        · subst e; simp at hu
        · simp only [if_neg e] at hu; exact h.core.head u v p hu
      · by_cases e : u = t
        · subst e; exact .inl hi
        · simp only [if_neg e] at hu; exact hu
    · exact h
  | choose b =>
    simp only [machine]
    exact inv_same h ⟨h.core.zero, h.core.early, h.core.head, h.core.served, h.core.due, h.core.started, h.core.nexted, h.core.has, h.core.task⟩ (fun t ht => ht) rfl rfl rfl rfl rfl rfl

theorem said_zero {s : SState} (h : Core count s) : s.said 0 = none := h.early 0 (.inl h.zero)

/-- An access by the core to the pending array, or a load. -/
theorem inv_core {s s' : SState} {hist hist' : Nat → List Nat} {tr : List Ev} (h : SInv count o s hist tr) {l : Nat} {k : Kind}
    (hk : k.atomic = true) (hst : ∀ b, k ≠ .store b) (hl : ∀ t, l ≠ msgLoc t) (h1 : s'.said = s.said) (h2 : s'.due = s.due)
    (h3 : s'.ctx = s.ctx) (h4 : s'.task = s.task)
    (hmem : ∀ t x, s.said t = some x → s'.gone t = false → s'.base.mem (cellIdx count x.1 x.2) &&& pendingBit x.1 ≠ 0)
    (hstart : ∀ t, s'.started t = true → s.started t = true ∨ (s.due t = true ∧ l = memLoc 0 ∧ ∃ b, k = .rmw o.startCas.acq b))
    (hnext : ∀ t, s'.nexted t = true → s.nexted t = true ∨ (s.due t = true ∧ l = memLoc 0 ∧ ∃ b, k = .rmw o.next.acq b))
    (hserved : ∀ t, s'.served t = true → s.served t = true ∨ ∃ x, s.said t = some x ∧ l = cellLoc count x ∧ ∃ b, k = .rmw o.run.acq b)
    (hserved' : ∀ t, s.served t = true → s'.served t = true)
    (hgone : ∀ t, s'.gone t = false → s.gone t = false)
    (hhist : ∀ m, hist' m = if (⟨0, l, k⟩ : Ev).writes m = true then hist m ++ [(machine count prio o).word s' m] else hist m) :
    SInv count o s' hist' (tr ++ [⟨0, l, k⟩]) := by
  have z := said_zero h.core
  refine inv_next h ⟨by rw [h3]; exact h.core.zero, by rw [h3, h1]; exact h.core.early, by rw [h3, h1]; exact h.core.head, fun t ht => ?_,
      fun t ht => ?_, fun t ht => ?_, fun t ht => ?_, by rw [h1]; exact hmem, fun t ht => hserved' t (h.core.task t (h4 ▸ ht))⟩ (fun m => ?_) (.inl ⟨hk, hl⟩) (fun t ht => ⟨h3 ▸ ht, hl t⟩)
    (fun t => .inl (by rw [h1])) (fun t h0 _ e => absurd e.symm h0) (fun t x hx hu => ?_) (fun t x _ hw => hl t hw.2) (fun t ht => ?_) (fun t ht => ?_)
    (fun t ht => ?_) (fun t ht => ?_) hgone hhist
  · rw [h1]
    rcases hserved t ht with h' | ⟨x, hx, -⟩
    · exact h.core.served t h'
    · rw [hx]; simp
  · rw [h1]; exact h.core.due t (h2 ▸ ht)
  · rw [h1]
    rcases hstart t ht with h' | ⟨hd, -⟩
    · exact h.core.started t h'
    · exact h.core.due t hd
  · rw [h1]
    rcases hnext t ht with h' | ⟨hd, -⟩
    · exact h.core.nexted t h'
    · exact h.core.due t hd
  · unfold Ev.isStore
    cases k <;> simp_all
  · have : t = 0 := hu.1.symm
    subst this; rw [z] at hx; cases hx
  · rw [h2] at ht
    exact .inl ⟨ht, h.core.due t ht⟩
  · rcases hstart t ht with h' | ⟨hd, e, b, hb⟩
    · exact .inl ⟨h', h.core.started t h'⟩
    · exact .inr ⟨hd, h.core.due t hd, rfl, e, by rw [hb]; simp, by rw [hb]; rfl⟩
  · rcases hnext t ht with h' | ⟨hd, e, b, hb⟩
    · exact .inl ⟨h', h.core.nexted t h'⟩
    · exact .inr ⟨hd, h.core.due t hd, rfl, e, by rw [hb]; simp, by rw [hb]; rfl⟩
  · rcases hserved t ht with h' | ⟨x, hx, e, b, hb⟩
    · exact .inl h'
    · exact .inr ⟨x, hx, rfl, e, by rw [hb]; simp, by rw [hb]; rfl⟩

theorem memLoc_mod (i : Nat) : memLoc i % 3 = 0 := by unfold memLoc; omega
theorem memLoc_div (i : Nat) : memLoc i / 3 = i := by unfold memLoc; omega
theorem prioLoc_mod (i : Nat) : prioLoc i % 3 = 1 := by unfold prioLoc; omega
theorem prioLoc_div (i : Nat) : prioLoc i / 3 = i := by unfold prioLoc; omega
theorem memLoc_msg (i t : Nat) : memLoc i ≠ msgLoc t := by unfold memLoc msgLoc; omega
theorem prioLoc_msg (i t : Nat) : prioLoc i ≠ msgLoc t := by unfold prioLoc msgLoc; omega

theorem upd_back {α : Type} (f : Nat → α) (i : Nat) (v : α) : Soft.upd (Soft.upd f i v) i (f i) = f := by
  funext j; unfold Soft.upd; split
  · rename_i e; rw [e]
  · rfl

theorem ofNat_toNat (b : U32) : BitVec.ofNat 32 b.toNat = b := by simp

/-- The same, except for the stack of the core and what context `t` does. -/
structure Same (s s' : SState) : Prop where
  said : s'.said = s.said
  due : s'.due = s.due
  started : s'.started = s.started
  nexted : s'.nexted = s.nexted
  gone : s'.gone = s.gone
  served : s'.served = s.served
  task : s'.task = s.task
  mem : s'.base.mem = s.base.mem

theorem load_core {s s' : SState} {l v : Nat} {a : Bool} (ha : (machine count prio o).acc 0 s = some (.load l a))
    (hs : (machine count prio o).step 0 ((machine count prio o).setWord s l v) = some s') :
    Same s ((machine count prio o).setWord s' l ((machine count prio o).word s l)) ∧
      ((machine count prio o).setWord s' l ((machine count prio o).word s l)).ctx = s.ctx ∧ ∀ t, l ≠ msgLoc t := by
  simp only [machine, if_true] at ha
  split at ha
  · cases ha
  rename_i htask
  split at ha
  · cases ha
  rename_i f rest hst
  cases f with
  | req thr pc =>
    cases pc <;> simp only [accFrame, Option.some.injEq, Acc.load.injEq, reduceCtorEq] at ha
    obtain ⟨rfl, rfl⟩ := ha
    simp only [machine, prioLoc_mod, prioLoc_div, if_true, Nat.one_ne_zero, if_false, htask, coreStep, hst, reduceCtorEq, false_and, frameStep,
      Option.some.injEq, ghosts] at hs ⊢
    subst hs
    exact ⟨⟨rfl, rfl, rfl, rfl, rfl, rfl, htask.symm ▸ rfl, rfl⟩, rfl, prioLoc_msg _⟩
  | start =>
    simp only [accFrame] at ha
    split at ha
    · rename_i hfl
      simp only [Option.some.injEq, Acc.load.injEq] at ha
      obtain ⟨rfl, rfl⟩ := ha
      simp only [machine, memLoc_mod, memLoc_div, if_true, htask, coreStep, hst, hfl, and_self, Option.some.injEq] at hs ⊢
      subst hs
      exact ⟨⟨rfl, rfl, rfl, rfl, rfl, rfl, htask.symm, by simp only [ofNat_toNat, upd_back]⟩, rfl, memLoc_msg _⟩
    · split at ha <;> cases ha
  | row r pc =>
    cases pc with
    | load thr =>
      simp only [accFrame, Option.some.injEq, Acc.load.injEq] at ha
      obtain ⟨rfl, rfl⟩ := ha
      simp only [machine, memLoc_mod, memLoc_div, if_true, htask, coreStep, hst, reduceCtorEq, false_and, if_false, ghosts] at hs ⊢
      split at hs
      · cases hs
      · rename_i b hb
        simp only [Option.some.injEq] at hs
        subst hs
        have hm : b.mem = Soft.upd s.base.mem r.ptr (BitVec.ofNat 32 v) := by
          simp only [frameStep] at hb
          (repeat' split at hb) <;> simp only [Option.some.injEq, reduceCtorEq] at hb <;> subst hb <;> rfl
        exact ⟨⟨rfl, rfl, rfl, rfl, rfl, rfl, htask.symm, by simp only [ofNat_toNat, hm, upd_back]⟩, rfl, memLoc_msg _⟩
    | bits thr cell bit => simp only [accFrame] at ha; split at ha <;> cases ha
    | call thr cell bit c => cases ha
    | next => simp [accFrame] at ha
  | clear thr p =>
    cases p with
    | none =>
      simp only [accFrame, Option.some.injEq, Acc.load.injEq] at ha
      obtain ⟨rfl, rfl⟩ := ha
      simp only [machine, prioLoc_mod, prioLoc_div, if_true, Nat.one_ne_zero, if_false, htask, coreStep, hst, reduceCtorEq, false_and, frameStep,
        Option.some.injEq, ghosts] at hs ⊢
      subst hs
      exact ⟨⟨rfl, rfl, rfl, rfl, rfl, rfl, htask.symm, rfl⟩, rfl, prioLoc_msg _⟩
    | some p => simp [accFrame] at ha
  | plain thr c => cases ha

/-- The core loads. -/
theorem next_load {s s' : SState} {hist : Nat → List Nat} {tr : List Ev} (h : SInv count o s hist tr) {l k : Nat} {a : Bool}
    (hS : Same s s') (hc : s'.ctx = s.ctx) (hl : ∀ t, l ≠ msgLoc t) : SInv count o s' hist (tr ++ [⟨0, l, .load a k⟩]) := by
  refine inv_core (prio := fun _ => 0) h rfl (by simp) hl hS.said hS.due hc hS.task (fun t x hx hg => ?_) (fun t ht => .inl (hS.started ▸ ht))
    (fun t ht => .inl (hS.nexted ▸ ht)) (fun t ht => .inl (hS.served ▸ ht)) (fun t ht => hS.served.symm ▸ ht) (fun t ht => hS.gone ▸ ht) (fun m => ?_)
  · rw [hS.mem]; exact h.core.has t x hx (hS.gone ▸ hg)
  · simp [Ev.writes]

theorem hist_rmw {hist : Nat → List Nat} {t l v : Nat} {w : Nat → Nat} {a r : Bool} (hv : v = w l) (m : Nat) :
    Verif.Order.upd hist l (hist l ++ [v]) m = if (⟨t, l, .rmw a r⟩ : Ev).writes m = true then hist m ++ [w m] else hist m := by
  unfold Verif.Order.upd
  by_cases e : m = l
  · subst e; simp [Ev.writes, hv]
  · have : l ≠ m := fun h => e h.symm
    simp [Ev.writes, e, this]

theorem clear_bit {old bit pb : U32} (h : old &&& pb ≠ 0) (hb : pb &&& bit = 0) : old &&& ~~~bit &&& pb ≠ 0 := by
  intro e
  refine h ?_
  rw [← e, BitVec.and_assoc, BitVec.and_comm (~~~bit) pb, ← BitVec.and_assoc]
  have : old &&& pb = (old &&& pb &&& ~~~bit) ||| (old &&& (pb &&& bit)) := by
    ext i hi
    simp only [BitVec.getElem_and, BitVec.getElem_or, BitVec.getElem_not]
    cases old[i] <;> cases pb[i] <;> cases bit[i] <;> rfl
  rw [hb] at this
  simpa using this

theorem set_bit {old b pb : U32} (h : old &&& pb ≠ 0) : (old ||| b) &&& pb ≠ 0 := by
  intro e
  refine h ?_
  ext i hi
  have := congrArg (fun x : U32 => x.getLsbD i) e
  simp only [BitVec.getLsbD_and, BitVec.getLsbD_or] at this
  simp only [← BitVec.getLsbD_eq_getElem, BitVec.getLsbD_and]
  revert this
  cases old.getLsbD i <;> cases b.getLsbD i <;> cases pb.getLsbD i <;> simp

theorem not_hits {x : Nat × Nat} {i : Nat} {bit : U32} (h : hits count i bit (some x) = false) (e : cellIdx count x.1 x.2 = i) :
    pendingBit x.1 &&& bit = 0 := by
  simp only [hits, decide_eq_false_iff_not, not_and, ne_eq, Decidable.not_not] at h
  exact h e

/-- The core updates the pending array. -/
theorem rmw_core {s s' : SState} {hist : Nat → List Nat} {tr : List Ev} (h : SInv count o s hist tr) {l : Nat} {b : Ord}
    (ha : (machine count prio o).acc 0 s = some (.rmw l b)) (hs : (machine count prio o).step 0 s = some s') :
    SInv count o s' (Verif.Order.upd hist l (hist l ++ [(machine count prio o).word s' l])) (tr ++ [⟨0, l, .rmw b.acq b.rel⟩]) := by
  have hz : ∀ (x : Nat × Nat) {v : U32}, Soft.upd s.base.mem 0 v (cellIdx count x.1 x.2) = s.base.mem (cellIdx count x.1 x.2) := fun x v => by
    unfold Soft.upd; rw [if_neg (cell_pos count x.1 x.2)]
  simp only [machine, if_true] at ha hs
  split at ha
  · cases ha
  rename_i htask
  simp only [htask, coreStep] at hs
  split at ha
  · cases ha
  rename_i f rest hst
  simp only [hst] at hs
  cases f with
  | req thr pc =>
    cases pc with
    | load => simp [accFrame] at ha
    | cell p =>
      simp only [accFrame, Option.some.injEq, Acc.rmw.injEq] at ha
      obtain ⟨rfl, rfl⟩ := ha
      simp only [reduceCtorEq, false_and, if_false, frameStep, ghosts] at hs
      split at hs
      · cases hs
      · rename_i b hb
        split at hb
        · simp only [Option.some.injEq] at hs hb
          subst hs hb
          refine inv_core (prio := prio) h rfl (by simp) (memLoc_msg _) rfl rfl rfl rfl (fun t x hx hg => ?_) (fun t ht => .inl ht) (fun t ht => .inl ht)
            (fun t ht => .inl ht) (fun t ht => ht) (fun t ht => ht) (hist_rmw rfl)
          have := h.core.has t x hx hg
          simp only [Soft.upd]
          split
          · rename_i e; rw [← e]; exact set_bit this
          · exact this
        · cases hb
    | header p =>
      simp only [accFrame, Option.some.injEq, Acc.rmw.injEq] at ha
      obtain ⟨rfl, rfl⟩ := ha
      simp only [reduceCtorEq, false_and, if_false, frameStep, ghosts, Option.some.injEq] at hs
      subst hs
      exact inv_core (prio := prio) h rfl (by simp) (memLoc_msg _) rfl rfl rfl rfl (fun t x hx hg => by simp only [hz]; exact h.core.has t x hx hg) (fun t ht => .inl ht)
        (fun t ht => .inl ht) (fun t ht => .inl ht) (fun t ht => ht) (fun t ht => ht) (hist_rmw rfl)
  | start =>
    simp only [accFrame] at ha
    split at ha
    · cases ha
    rename_i hfl
    split at ha
    · simp only [Option.some.injEq, Acc.rmw.injEq] at ha
      obtain ⟨rfl, rfl⟩ := ha
      rw [if_neg (fun e => hfl e.2)] at hs
      simp only [frameStep] at hs
      have : ∃ b : State, (∀ x : Nat × Nat, b.mem (cellIdx count x.1 x.2) = s.base.mem (cellIdx count x.1 x.2)) ∧
          s' = { ghosts count s .start with base := b } := by
        split at hs
        · cases hs
        · rename_i b hb
          refine ⟨b, ?_, (Option.some.inj hs).symm⟩
          split at hb <;> (simp only [Option.some.injEq] at hb; subst hb; intro x)
          · rfl
          · exact hz x
      obtain ⟨b, hb, rfl⟩ := this
      refine inv_core (prio := prio) h rfl (by simp) (memLoc_msg _) rfl rfl rfl rfl (fun t x hx hg => ?_) (fun t ht => ?_)
        (fun t ht => .inl ht) (fun t ht => .inl ht) (fun t ht => ht) (fun t ht => ht) (hist_rmw rfl)
      · rw [hb]; exact h.core.has t x hx hg
      · simp only [ghosts, Bool.or_eq_true, Bool.and_eq_true] at ht
        rcases ht with ht | ⟨ht, -⟩
        · exact .inl ht
        · exact .inr ⟨ht, rfl, _, rfl⟩
    · cases ha
  | row r pc =>
    cases pc with
    | load thr => simp [accFrame] at ha
    | bits thr cell bit =>
      simp only [accFrame] at ha
      split at ha
      · rename_i hc
        simp only [Option.some.injEq, Acc.rmw.injEq] at ha
        obtain ⟨rfl, rfl⟩ := ha
        simp only [reduceCtorEq, false_and, if_false, frameStep] at hs
        rw [if_pos hc] at hs
        split at hs
        · cases hs
        · rename_i b hb
          split at hb
          · simp only [Option.some.injEq] at hs hb
            subst hs hb
            refine inv_core (prio := prio) h rfl (by simp) (memLoc_msg _) rfl rfl rfl rfl (fun t x hx hg => ?_) (fun t ht => .inl ht) (fun t ht => .inl ht)
              (fun t ht => ?_) (fun t ht => ?_) (fun t ht => ?_) (hist_rmw rfl)
            · simp only [ghosts, Bool.or_eq_false_iff] at hg
              have := h.core.has t x hx hg.1
              simp only [Soft.upd]
              split
              · rename_i e
                rw [← e]
                exact clear_bit this (not_hits (count := count) (i := r.ptr) (by rw [← hx]; exact hg.2) e)
              · exact this
            · simp only [ghosts, Bool.or_eq_true] at ht
              rcases ht with ht | ht
              · exact .inl ht
              · right
                cases hx : s.said t with
                | none => rw [hx] at ht; cases ht
                | some x =>
                  rw [hx] at ht
                  simp only [hits, decide_eq_true_eq] at ht
                  exact ⟨x, rfl, by unfold cellLoc; rw [ht.1], _, rfl⟩
            · simp only [ghosts, ht, Bool.true_or]
            · simp only [ghosts, Bool.or_eq_false_iff] at ht
              exact ht.1
          · cases hb
      · cases ha
    | call thr cell bit c => cases ha
    | next =>
      simp only [accFrame, Option.some.injEq, Acc.rmw.injEq] at ha
      obtain ⟨rfl, rfl⟩ := ha
      simp only [reduceCtorEq, false_and, if_false, frameStep, Option.some.injEq] at hs
      subst hs
      refine inv_core (prio := prio) h rfl (by simp) (memLoc_msg _) ?_ ?_ ?_ ?_ (fun t x hx hg => ?_) (fun t ht => ?_)
        (fun t ht => ?_) (fun t ht => ?_) (fun t ht => ?_) (fun t ht => ?_) (hist_rmw rfl) <;> simp only [ghosts] at *
      · split <;> rfl
      · split <;> rfl
      · split <;> rfl
      · split <;> rfl
      · rw [hz]
        refine h.core.has t x hx ?_
        split at hg <;> exact hg
      · split at ht <;> exact .inl ht
      · split at ht
        · simp only [Bool.or_eq_true, Bool.and_eq_true] at ht
          rcases ht with ht | ⟨ht, -⟩
          · exact .inl ht
          · exact .inr ⟨ht, trivial, _, rfl⟩
        · exact .inl ht
      · split at ht <;> exact .inl ht
      · split <;> exact ht
      · split at ht <;> exact ht
  | clear thr p =>
    cases p with
    | none => simp [accFrame] at ha
    | some p =>
      simp only [accFrame, Option.some.injEq, Acc.rmw.injEq] at ha
      obtain ⟨rfl, rfl⟩ := ha
      simp only [reduceCtorEq, false_and, if_false, frameStep] at hs
      split at hs
      · cases hs
      · rename_i b hb
        split at hb
        · simp only [Option.some.injEq] at hs hb
          subst hs hb
          refine inv_core (prio := prio) h rfl (by simp) (memLoc_msg _) rfl rfl rfl rfl (fun t x hx hg => ?_) (fun t ht => .inl ht) (fun t ht => .inl ht)
            (fun t ht => .inl ht) (fun t ht => ht) (fun t ht => ?_) (hist_rmw rfl)
          · simp only [ghosts, Bool.or_eq_false_iff] at hg
            have := h.core.has t x hx hg.1
            simp only [Soft.upd]
            split
            · rename_i e
              rw [← e]
              exact clear_bit this (not_hits (count := count) (by rw [← hx]; exact hg.2) e)
            · exact this
          · simp only [ghosts, Bool.or_eq_false_iff] at ht
            exact ht.1
        · cases hb
  | plain thr c => cases ha

/-- The core reads a message. -/
theorem read_core {s : SState} {hist : Nat → List Nat} {tr : List Ev} (h : SInv count o s hist tr) {u : Nat} (hu : s.task = some u) :
    SInv count o { s with task := none } hist (tr ++ [⟨0, msgLoc u, .read⟩]) := by
  have hsv := h.core.task u hu
  have hne := h.core.served u hsv
  have h0 : u ≠ 0 := fun e => hne (e ▸ said_zero h.core)
  refine inv_next h ⟨h.core.zero, h.core.early, h.core.head, h.core.served, h.core.due, h.core.started, h.core.nexted, h.core.has, nofun⟩
    (fun l => by simp [Ev.isStore]) (.inr ⟨u, h0, rfl, .inr ⟨rfl, rfl⟩⟩) (fun t ht => ⟨ht, fun e => ?_⟩) (fun t => .inl rfl) (fun t h0 _ e => absurd e.symm h0)
    (fun t x _ hup => by simpa [Ev.writes] using hup.2) (fun t x hx hw => ?_) (fun t ht => .inl ⟨ht, h.core.due t ht⟩) (fun t ht => .inl ⟨ht, h.core.started t ht⟩)
    (fun t ht => .inl ⟨ht, h.core.nexted t ht⟩) (fun t ht => .inl ht) (fun t ht => ht) (fun l => by simp [Ev.writes])
  · cases msgLoc_inj e
    exact hne (h.core.early u (ht.imp_right .inl))
  · rw [← hw.1, said_zero h.core] at hx; cases hx

/-- A context makes a step. -/
theorem inv_ctx {s s' : SState} {hist hist' : Nat → List Nat} {tr : List Ev} (h : SInv count o s hist tr) {t : Nat} (h0 : t ≠ 0) {f : Ev} (hf : f.tid = t)
    (hst : ∀ b, f.kind ≠ .store b)
    (hkind : (f.kind.atomic = true ∧ ∀ u, f.loc ≠ msgLoc u) ∨ (s.said t = none ∧ f.loc = msgLoc t ∧ f.kind = .write))
    (hctx : ∀ u, u ≠ t → s'.ctx u = s.ctx u) (hnow : s'.ctx t ≠ .idle ∧ ∀ u, s'.ctx t ≠ .write u)
    (hearly : ((∃ u, s'.ctx t = .req u .load) ∨ ∃ u p, s'.ctx t = .req u (.cell p)) → s'.said t = none)
    (hhead : ∀ u p, s'.ctx t = .req u (.header p) → s'.said t = some (u, p))
    (hsaid : ∀ u, u ≠ t → s'.said u = s.said u)
    (hsaidt : s'.said t = s.said t ∨ (s.said t = none ∧ ∃ x, s'.said t = some x ∧ f.writes (cellLoc count x) = true ∧ f.rel = o.setCell.rel))
    (hcalm : s'.said t = none → ∀ l, f.writes l = false)
    (hup : ∀ x, s.said t = some x → f.writes (cellLoc count x) = false)
    (hdue : ∀ u, s'.due u = true → s.due u = true ∨ (u = t ∧ s.said t ≠ none ∧ f.writes (memLoc 0) = true ∧ f.rel = o.setHead.rel))
    (h3 : s'.started = s.started) (h4 : s'.nexted = s.nexted) (h5 : s'.gone = s.gone) (h6 : s'.served = s.served) (h7 : s'.task = s.task)
    (hmem : ∀ u x, s'.said u = some x → s.gone u = false → s'.base.mem (cellIdx count x.1 x.2) &&& pendingBit x.1 ≠ 0)
    (hhist : ∀ l, hist' l = if f.writes l = true then hist l ++ [(machine count s.base.prio o).word s' l] else hist l) :
    SInv count o s' hist' (tr ++ [f]) := by
  have mono : ∀ u, s.said u ≠ none → s'.said u ≠ none := by
    intro u hu
    by_cases e : u = t
    · subst e
      rcases hsaidt with e | ⟨e, -⟩
      · rw [e]; exact hu
      · exact absurd e hu
    · rw [hsaid u e]; exact hu
  refine inv_next h ⟨?_, fun u hu => ?_, fun u v p hu => ?_, fun u hu => ?_, fun u hu => ?_, fun u hu => ?_, fun u hu => ?_, fun u x hx hg => hmem u x hx (h5 ▸ hg), ?_⟩
    (fun l => ?_) (hkind.imp_right fun hk => ⟨t, h0, hk.2.1, .inl ⟨hf, hk.2.2⟩⟩) (fun u hu => ?_) (fun u => ?_) (fun u _ hn hu => ?_)
    (fun u x hx hu => ?_) (fun u x hx hu => ?_) (fun u hu => ?_) (fun u hu => .inl ⟨h3 ▸ hu, h.core.started u (h3 ▸ hu)⟩)
    (fun u hu => .inl ⟨h4 ▸ hu, h.core.nexted u (h4 ▸ hu)⟩) (fun u hu => .inl (h6 ▸ hu)) (fun u hu => h5 ▸ hu) hhist
  · rw [hctx 0 (Ne.symm h0)]; exact h.core.zero
  · by_cases e : u = t
    · subst e
      rcases hu with hu | ⟨v, hu⟩ | hu
      · exact absurd hu hnow.1
      · exact absurd hu (hnow.2 v)
      · exact hearly hu
    · rw [hctx u e] at hu; rw [hsaid u e]; exact h.core.early u hu
  · by_cases e : u = t
    · subst e; exact hhead v p hu
    · rw [hctx u e] at hu; rw [hsaid u e]; exact h.core.head u v p hu
  · exact mono u (h.core.served u (h6 ▸ hu))
  · rcases hdue u hu with hu | ⟨rfl, hn, -⟩
    · exact mono u (h.core.due u hu)
    · exact mono u hn
  · exact mono u (h.core.started u (h3 ▸ hu))
  · exact mono u (h.core.nexted u (h4 ▸ hu))
  · rw [h6, h7]; exact h.core.task
  · unfold Ev.isStore
    have := hst
    cases hk : f.kind <;> simp_all
  · by_cases e : u = t
    · subst e
      rcases hu with hu | ⟨v, hu⟩
      · exact absurd hu hnow.1
      · exact absurd hu (hnow.2 v)
    · rw [hctx u e] at hu
      refine ⟨hu, fun hl => ?_⟩
      rcases hkind with hk | hk
      · exact hk.2 u hl
      · exact e (msgLoc_inj (hl.symm.trans hk.2.1))
  · by_cases e : u = t
    · subst e
      rcases hsaidt with e | ⟨e, x, hx, hw, hr⟩
      · exact .inl e
      · exact .inr ⟨e, x, hx, ⟨hf, hw⟩, hr, h0⟩
    · exact .inl (hsaid u e)
  · rw [hf] at hu; subst hu; exact hcalm hn
  · have : u = t := hu.1.symm.trans hf
    subst this
    have := hup x hx
    rw [hu.2] at this; cases this
  · have : u = t := hu.1.symm.trans hf
    subst this
    rcases hkind with hk | hk
    · exact hk.2 u hu.2
    · rw [hk.1] at hx; cases hx
  · rcases hdue u hu with hu | ⟨rfl, hn, hw, hr⟩
    · exact .inl ⟨hu, h.core.due u hu⟩
    · exact .inr ⟨hn, hf, hw, hr⟩

/-- A context writes its message. -/
theorem write_ctx {s s' : SState} {hist : Nat → List Nat} {tr : List Ev} (h : SInv count o s hist tr) {t l : Nat} (h0 : t ≠ 0) {k : Kind}
    (ha : (machine count prio o).acc t s = some (.other l k)) (hs : (machine count prio o).step t s = some s') :
    SInv count o s' hist (tr ++ [⟨t, l, k⟩]) := by
  simp only [machine, if_neg h0] at ha hs
  match hc : s.ctx t with
  | .idle | .done _ => rw [hc] at ha; cases ha
  | .req thr pc => rw [hc] at ha; cases pc <;> simp [accCtx] at ha
  | .write thr =>
    rw [hc] at ha hs
    simp only [accCtx, Option.some.injEq, Acc.other.injEq] at ha
    obtain ⟨rfl, rfl⟩ := ha
    simp only [ctxStep, Option.some.injEq] at hs
    subst hs
    have hn := h.core.early t (.inr (.inl ⟨thr, hc⟩))
    exact inv_ctx h h0 rfl (by simp) (.inr ⟨hn, rfl, rfl⟩) (fun u hu => if_neg hu) (by simp) (fun _ => hn) (by simp) (fun u _ => rfl) (.inl rfl)
      (fun _ l => by simp [Ev.writes]) (fun x hx => by simp [Ev.writes]) (fun u hu => .inl hu) rfl rfl rfl rfl rfl h.core.has
      (fun l => by simp [Ev.writes])

/-- A context loads. -/
theorem load_ctx {s s' : SState} {hist : Nat → List Nat} {tr : List Ev} (h : SInv count o s hist tr) {t l v k : Nat} (h0 : t ≠ 0) {a : Bool}
    (ha : (machine count prio o).acc t s = some (.load l a)) (hs : (machine count prio o).step t ((machine count prio o).setWord s l v) = some s') :
    SInv count o ((machine count prio o).setWord s' l ((machine count prio o).word s l)) hist (tr ++ [⟨t, l, .load a k⟩]) := by
  simp only [machine, if_neg h0] at ha
  match hc : s.ctx t with
  | .idle | .done _ | .write _ => rw [hc] at ha; simp [accCtx] at ha
  | .req thr (.cell _) | .req thr (.header _) => rw [hc] at ha; simp [accCtx] at ha
  | .req thr .load =>
    rw [hc] at ha
    simp only [accCtx, Option.some.injEq, Acc.load.injEq] at ha
    obtain ⟨rfl, rfl⟩ := ha
    have hn := h.core.early t (.inr (.inr (.inl ⟨thr, hc⟩)))
    simp only [machine, prioLoc_mod, prioLoc_div, if_true, Nat.one_ne_zero, if_false, h0, hc, ctxStep, frameStep, Option.some.injEq, after] at hs ⊢
    subst hs
    exact inv_ctx h h0 rfl (by simp) (.inl ⟨rfl, prioLoc_msg _⟩) (fun u hu => if_neg hu) (by simp) (fun _ => hn) (by simp) (fun u _ => rfl) (.inl rfl)
      (fun _ l => by simp [Ev.writes]) (fun x hx => by simp [Ev.writes]) (fun u hu => .inl hu) rfl rfl rfl rfl rfl h.core.has
      (fun l => by simp [Ev.writes])

theorem pend_set (old : U32) (u : Nat) : (old ||| pendingBit u) &&& pendingBit u ≠ 0 := by
  intro e
  have : pendingBit u = 0 := by
    rw [← e]
    ext i hi
    simp only [BitVec.getElem_and, BitVec.getElem_or]
    cases old[i] <;> cases (pendingBit u)[i] <;> rfl
  unfold pendingBit at this
  have hlt : u &&& ((1 <<< colBits) - 1) < 32 := Nat.lt_of_le_of_lt Nat.and_le_right (by decide)
  have h2 := congrArg (fun x : U32 => x.getLsbD (u &&& ((1 <<< colBits) - 1))) this
  simp [hlt] at h2

/-- A context updates the pending array. -/
theorem rmw_ctx {s s' : SState} {hist : Nat → List Nat} {tr : List Ev} (h : SInv count o s hist tr) {t l : Nat} (h0 : t ≠ 0) {b : Ord}
    (ha : (machine count prio o).acc t s = some (.rmw l b)) (hs : (machine count prio o).step t s = some s') :
    SInv count o s' (Verif.Order.upd hist l (hist l ++ [(machine count prio o).word s' l])) (tr ++ [⟨t, l, .rmw b.acq b.rel⟩]) := by
  simp only [machine, if_neg h0] at ha hs
  match hc : s.ctx t with
  | .idle | .done _ | .write _ => rw [hc] at ha; simp [accCtx] at ha
  | .req thr .load => rw [hc] at ha; simp [accCtx] at ha
  | .req thr (.cell p) =>
    rw [hc] at ha hs
    simp only [accCtx, Option.some.injEq, Acc.rmw.injEq] at ha
    obtain ⟨rfl, rfl⟩ := ha
    have hn := h.core.early t (.inr (.inr (.inr ⟨thr, p, hc⟩)))
    simp only [ctxStep, frameStep] at hs
    split at hs
    · cases hs
    · rename_i b hb
      split at hb
      · simp only [Option.some.injEq] at hs hb
        subst hs hb
        refine inv_ctx h h0 rfl (by simp) (.inl ⟨rfl, memLoc_msg _⟩) (fun u hu => if_neg hu) ?_ ?_ ?_ (fun u hu => if_neg hu)
          (.inr ⟨hn, (thr, p), if_pos rfl, by simp [Ev.writes, cellLoc], rfl⟩) (fun h' => ?_) (fun x hx => by rw [hn] at hx; cases hx) (fun u hu => .inl hu)
          rfl rfl rfl rfl rfl (fun u x hx hg => ?_) (hist_rmw rfl)
        · simp only [if_true]; split <;> simp [after]
        · simp only [if_true]; split <;> simp [after]
        · simp only [if_true]; split <;> simp [after]
        · simp at h'
        · by_cases e : u = t
          · subst e
            simp only [if_true, Option.some.injEq] at hx
            subst hx
            simp only [Soft.upd, if_true]
            exact pend_set _ _
          · simp only [if_neg e] at hx
            have := h.core.has u x hx hg
            simp only [Soft.upd]
            split
            · rename_i e; rw [← e]; exact set_bit this
            · exact this
      · cases hb
  | .req thr (.header p) =>
    rw [hc] at ha hs
    simp only [accCtx, Option.some.injEq, Acc.rmw.injEq] at ha
    obtain ⟨rfl, rfl⟩ := ha
    have hsd := h.core.head t thr p hc
    simp only [ctxStep, frameStep, Option.some.injEq] at hs
    subst hs
    refine inv_ctx h h0 rfl (by simp) (.inl ⟨rfl, memLoc_msg _⟩) (fun u hu => if_neg hu) ?_ ?_ ?_ (fun u _ => rfl) (.inl rfl) (fun h' => ?_) (fun x hx => ?_)
      (fun u hu => ?_) rfl rfl rfl rfl rfl (fun u x hx hg => ?_) (hist_rmw rfl)
    · simp only [if_true]; split <;> simp [after]
    · simp only [if_true]; split <;> simp [after]
    · simp only [if_true]; split <;> simp [after]
    · rw [hsd] at h'; cases h'
    · have : memLoc 0 ≠ cellLoc count x := fun e => cellLoc_ne count x e.symm
      simp [Ev.writes, this]
    · by_cases e : u = t
      · exact .inr ⟨e, by rw [hsd]; simp, by simp [Ev.writes], rfl⟩
      · simp only [if_neg e] at hu; exact .inl hu
    · simp only [Soft.upd, if_neg (cell_pos count x.1 x.2)]
      exact h.core.has u x hx hg

/-- A context has no other accesses. -/
theorem acc_store {s : SState} {t l : Nat} {b : Bool} : (machine count prio o).acc t s ≠ some (.store l b) := by
  intro ha
  simp only [machine] at ha
  split at ha
  · split at ha
    · cases ha
    · split at ha
      · cases ha
      · rename_i f _ _
        cases f with
        | req thr pc => cases pc <;> cases ha
        | start => simp only [accFrame] at ha; (repeat' split at ha) <;> cases ha
        | row r pc => cases pc <;> simp only [accFrame] at ha <;> (repeat' split at ha) <;> cases ha
        | clear thr p => cases p <;> cases ha
        | plain thr c => cases ha
  · generalize s.ctx t = c at ha
    match c with
    | .idle | .done _ | .write _ | .req _ .load | .req _ (.cell _) | .req _ (.header _) => cases ha

theorem acc_other {s : SState} {l : Nat} {k : Kind} (ha : (machine count prio o).acc 0 s = some (.other l k)) :
    ∃ u, s.task = some u ∧ l = msgLoc u ∧ k = .read := by
  simp only [machine, if_true] at ha
  split at ha
  · rename_i u hu
    simp only [Option.some.injEq, Acc.other.injEq] at ha
    exact ⟨u, hu, ha.1.symm, ha.2.symm⟩
  · split at ha
    · cases ha
    · rename_i f _ _
      cases f with
      | req thr pc => cases pc <;> cases ha
      | start => simp only [accFrame] at ha; (repeat' split at ha) <;> cases ha
      | row r pc => cases pc <;> simp only [accFrame] at ha <;> (repeat' split at ha) <;> cases ha
      | clear thr p => cases p <;> cases ha
      | plain thr c => cases ha

def PInv (count : Nat) (o : Ords) (p : PState SState Nat) : Prop := SInv count o p.s p.hist p.tr

theorem pinit_inv : PInv count o (machine count prio o).pinit := by
  constructor
  · constructor <;> simp [machine, Machine.pinit]
  all_goals simp [machine, Machine.pinit, cnt]

theorem pstep_inv {p p' : PState SState Nat} (h : PInv count o p) {a : PAct Op} (hs : (machine count prio o).pstep p a = some p') : PInv count o p' := by
  cases a with
  | call a => cases hs; exact call_inv (prio := prio) h a
  | step t k =>
    rcases pstep_cases hs with rfl | ⟨l, a, v, s', ha, -, -, hst, rfl⟩ | ⟨l, b, s', ha, hst, rfl⟩ | ⟨l, b, ha⟩ | ⟨l, k, s', ha, hst, rfl⟩
    · exact h
    · by_cases h0 : t = 0
      · subst h0
        obtain ⟨hS, hc, hl⟩ := load_core ha hst
        exact next_load h hS hc hl
      · exact load_ctx h h0 ha hst
    · by_cases h0 : t = 0
      · subst h0; exact rmw_core h ha hst
      · exact rmw_ctx h h0 ha hst
    · exact absurd ha acc_store
    · by_cases h0 : t = 0
      · subst h0
        obtain ⟨u, hu, rfl, rfl⟩ := acc_other ha
        simp only [machine, if_true, hu, Option.some.injEq] at hst
        subst hst
        exact read_core h hu
      · exact write_ctx h h0 ha hst

theorem prun_inv {as : List (PAct Op)} : ∀ {p p' : PState SState Nat}, PInv count o p → (machine count prio o).prun p as = some p' → PInv count o p' := by
  induction as with
  | nil => intro p p' h hs; cases hs; exact h
  | cons a as ih =>
    intro p p' h hs
    simp only [Machine.prun] at hs
    split at hs
    · cases hs
    · rename_i q hq
      exact ih (pstep_inv h hq) hs

theorem run_inv {as : List (PAct Op)} {p : PState SState Nat} (h : (machine count prio o).prun (machine count prio o).pinit as = some p) : PInv count o p :=
  prun_inv pinit_inv h

end Verif.Soft.Order
