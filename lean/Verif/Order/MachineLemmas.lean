import Verif.Order.Machine
import Verif.Order.Lemmas
/-! # Invariants of machines with memory orderings -/
namespace Verif.Order

variable {S W A : Type}

/-- The access that a step appends; `k` is the value that a load reads. -/
def Acc.ev (t k : Nat) : Acc → Ev
  | .rmw l o => ⟨t, l, .rmw o.acq o.rel⟩
  | .load l a => ⟨t, l, .load a k⟩
  | .store l r => ⟨t, l, .store r⟩
  | .other l kd => ⟨t, l, kd⟩

/-- The atomic object that is written. -/
def Acc.wr : Acc → Option Nat
  | .rmw l _ | .store l _ => some l
  | _ => none

/-- The new access `e` happens after those before it that it conflicts with, or the race is allowed. -/
def Ordered (Allow : List Ev → Nat → Ev → Prop) (tr : List Ev) (e : Ev) : Prop :=
  ∀ (i : Nat) (x : Ev), tr[i]? = some x → Conflict x e → Hb (tr ++ [e]) i tr.length ∨ Allow tr i e

/-- What has to be shown of a machine: `Good` states know (`Own`) who has accessed what, until they are `Doom`ed. Thread `t`
can do with value `v` of an object if `ok`. -/
structure Sound (M : Machine S W A) (Good Doom : S → Prop) (Own : List Ev → S → Prop) (ok : Nat → S → Nat → W → Prop)
    (Allow : List Ev → Nat → Ev → Prop) : Prop where
  init : Good M.init ∧ Own [] M.init ∧ ∀ t l, ok t M.init l (M.word M.init l)
  call : ∀ {tr s} a, Good s → Own tr s → Good (M.call s a) ∧ Own tr (M.call s a) ∧ ∀ t l v, ok t s l v → ok t (M.call s a) l v
  doomCall : ∀ {s} a, Doom s → M.call s a = s
  doomStep : ∀ {s t a}, Doom s → M.acc t s = some a → M.step t s = none ∧ ∀ l v, M.step t (M.setWord s l v) = none
  load : ∀ {tr s t l a v s'} k, Good s → Own tr s → M.acc t s = some (.load l a) → ok t s l v → k ≤ cnt tr l →
    M.step t (M.setWord s l v) = some s' →
    Good (M.setWord s' l (M.word s l)) ∧ Own (tr ++ [⟨t, l, .load a k⟩]) (M.setWord s' l (M.word s l)) ∧
    Ordered Allow tr ⟨t, l, .load a k⟩ ∧ ∀ u m v, ok u s m v → ok u (M.setWord s' l (M.word s l)) m v
  step : ∀ {tr s t a s'}, Good s → Own tr s → M.acc t s = some a → (∀ l b, a ≠ .load l b) → M.step t s = some s' →
    ((Good s' ∧ Own (tr ++ [a.ev t 0]) s' ∧ (∀ u l v, ok u s l v → (u = t → a.wr ≠ some l) → ok u s' l v) ∧
      ∀ u l, a.wr = some l → ok u s' l (M.word s' l)) ∨ Doom s') ∧
    Ordered Allow tr (a.ev t 0)

structure PInv (Good Doom : S → Prop) (Own : List Ev → S → Prop) (ok : Nat → S → Nat → W → Prop)
    (Allow : List Ev → Nat → Ev → Prop) (p : PState S W) : Prop where
  races : ∀ i j, Race p.tr i j → ∃ f, p.tr[j]? = some f ∧ Allow (p.tr.take j) i f
  len : ∀ l, (p.hist l).length = cnt p.tr l + 1
  base : (Good p.s ∧ Own p.tr p.s ∧ ∀ t l k v, p.seen t l ≤ k → (p.hist l)[k]? = some v → ok t p.s l v) ∨ Doom p.s

variable {M : Machine S W A} {Good Doom : S → Prop} {Own : List Ev → S → Prop} {ok : Nat → S → Nat → W → Prop}
  {Allow : List Ev → Nat → Ev → Prop}

theorem races_ordered {tr : List Ev} {e : Ev} (h : ∀ i j, Race tr i j → ∃ f, tr[j]? = some f ∧ Allow (tr.take j) i f)
    (ho : Ordered Allow tr e) : ∀ i j, Race (tr ++ [e]) i j → ∃ f, (tr ++ [e])[j]? = some f ∧ Allow ((tr ++ [e]).take j) i f := by
  rintro i j ⟨hij, x, f, hx, hf, hc, hn⟩
  rcases get_append hf with hf' | ⟨rfl, rfl⟩
  · have hj := (List.getElem?_eq_some_iff.1 hf').1
    rw [List.getElem?_append_left (by omega)] at hx
    obtain ⟨g, hg, ha⟩ := h i j ⟨hij, x, f, hx, hf', hc, fun hb => hn ((hb_append hj).2 hb)⟩
    exact ⟨g, by rw [List.getElem?_append_left hj]; exact hg, by rw [List.take_append_of_le_length (by omega)]; exact ha⟩
  · rw [List.getElem?_append_left hij] at hx
    rcases ho i x hx hc with hb | ha
    · exact absurd hb hn
    · exact ⟨f, hf, by rw [List.take_append_of_le_length (by omega), List.take_length]; exact ha⟩

theorem ev_writes {t k l : Nat} (a : Acc) (h : ∀ l b, a ≠ .load l b) (hk : ∀ l k, a = .other l k → k.atomic = false) :
    (a.ev t k).writes l = true ↔ a.wr = some l := by
  cases a with
  | load l b => exact absurd rfl (h l b)
  | other l' k' =>
    have := hk l' k' rfl
    simp only [Acc.ev, Acc.wr, Ev.writes]
    cases k' <;> simp_all [Kind.atomic]
  | _ =>
    simp only [Acc.ev, Acc.wr, Ev.writes, Option.some.injEq, Bool.and_true]
    exact ⟨fun h => of_decide_eq_true h, fun h => decide_eq_true h⟩

/-- Non-atomic accesses are not atomic. -/
def Machine.Plain (M : Machine S W A) : Prop := ∀ t s l k, M.acc t s = some (.other l k) → k.atomic = false

theorem pinit_inv (h : Sound M Good Doom Own ok Allow) : PInv Good Doom Own ok Allow M.pinit := by
  obtain ⟨h1, h2, h3⟩ := h.init
  refine ⟨fun i j hr => ?_, fun l => rfl, .inl ⟨h1, h2, fun t l k v hk hv => ?_⟩⟩
  · obtain ⟨-, e, f, h, -⟩ := hr
    simp [Machine.pinit] at h
  · rcases k with _ | k
    · simp only [Machine.pinit, List.getElem?_cons_zero, Option.some.injEq] at hv
      rw [← hv]
      exact h3 t l
    · simp [Machine.pinit] at hv

/-- The step of an access other than a load. -/
theorem step_inv (h : Sound M Good Doom Own ok Allow) (hp : M.Plain) {p : PState S W} (hi : PInv Good Doom Own ok Allow p)
    {t : Nat} {a : Acc} (ha : M.acc t p.s = some a) (hl : ∀ l b, a ≠ .load l b) {s' : S} (hs : M.step t p.s = some s')
    {p' : PState S W} (h1 : p'.s = s') (h2 : p'.tr = p.tr ++ [a.ev t 0])
    (h3 : ∀ l, p'.hist l = if a.wr = some l then p.hist l ++ [M.word s' l] else p.hist l)
    (h4 : ∀ u l, p'.seen u l = if u = t ∧ a.wr = some l then (p.hist l).length else p.seen u l) :
    PInv Good Doom Own ok Allow p' := by
  rcases hi.base with ⟨hg, ho, hok⟩ | hd
  · obtain ⟨hn, hord⟩ := h.step hg ho ha hl hs
    refine ⟨by rw [h2]; exact races_ordered hi.races hord, fun l => ?_, ?_⟩
    · rw [h3, h2, cnt_append]
      have hw := ev_writes (t := t) (k := 0) (l := l) a hl (fun l k e => hp t p.s l k (e ▸ ha))
      split
      · rename_i hc
        rw [if_pos (hw.2 hc), List.length_append, hi.len]; rfl
      · rename_i hc
        rw [if_neg (fun hc' => hc (hw.1 hc')), hi.len]
    · rcases hn with ⟨hg', ho', hk1, hk2⟩ | hd
      · refine .inl ⟨h1 ▸ hg', by rw [h1, h2]; exact ho', fun u l k v hk hv => ?_⟩
        rw [h1]
        rw [h3] at hv
        rw [h4] at hk
        split at hv
        · rename_i hc
          rcases Nat.lt_or_ge k (p.hist l).length with hlt | hge
          · rw [List.getElem?_append_left hlt] at hv
            by_cases hu : u = t
            · rw [if_pos ⟨hu, hc⟩] at hk; omega
            · rw [if_neg (fun h => hu h.1)] at hk
              exact hk1 u l v (hok u l k v hk hv) fun e => absurd e hu
          · have hlt := (List.getElem?_eq_some_iff.1 hv).1
            rw [List.length_append, List.length_singleton] at hlt
            have : k = (p.hist l).length := by omega
            subst this
            simp only [List.getElem?_append_right (Nat.le_refl _), Nat.sub_self, List.getElem?_cons_zero,
              Option.some.injEq] at hv
            rw [← hv]
            exact hk2 u l hc
        · rename_i hc
          rw [if_neg (fun h => hc h.2)] at hk
          exact hk1 u l v (hok u l k v hk hv) fun _ => hc
      · exact .inr (h1 ▸ hd)
  · rw [(h.doomStep hd ha).1] at hs; cases hs

theorem seen_upd {α : Type} {f : Nat → Nat → α} {g : Nat → α} {t l u m : Nat} :
    upd f t (upd (f t) l (g l)) u m = if u = t ∧ l = m then g m else f u m := by
  by_cases hu : u = t
  · subst hu
    by_cases hm : m = l
    · subst hm; simp [upd]
    · have : ¬ l = m := fun e => hm e.symm
      simp [upd, hm, this]
  · simp [upd, hu]

theorem pstep_inv (h : Sound M Good Doom Own ok Allow) (hp : M.Plain) {p p' : PState S W}
    (hi : PInv Good Doom Own ok Allow p) {a : PAct A} (hs : M.pstep p a = some p') : PInv Good Doom Own ok Allow p' := by
  cases a with
  | call a =>
    simp only [Machine.pstep, Option.some.injEq] at hs
    subst hs
    rcases hi.base with ⟨hg, ho, hok⟩ | hd
    · obtain ⟨h1, h2, h3⟩ := h.call a hg ho
      exact ⟨hi.races, hi.len, .inl ⟨h1, h2, fun t l k v hk hv => h3 t l v (hok t l k v hk hv)⟩⟩
    · rw [h.doomCall a hd]
      exact hi
  | step t k =>
    simp only [Machine.pstep] at hs
    match ha : M.acc t p.s with
    | none =>
      simp only [ha, Machine.go, Option.some.injEq] at hs
      exact hs ▸ hi
    | some (.load l acq) =>
      simp only [ha, Machine.go] at hs
      split at hs
      · rename_i hk
        split at hs
        · simp only [Option.some.injEq] at hs
          exact hs ▸ hi
        · rename_i v hv
          split at hs
          · cases hs
          · rename_i s' hs'
            simp only [Option.some.injEq] at hs
            subst hs
            rcases hi.base with ⟨hg, ho, hok⟩ | hd
            · have hkl : k ≤ cnt p.tr l := by
                have := (List.getElem?_eq_some_iff.1 hv).1
                rw [hi.len] at this
                omega
              obtain ⟨h1, h2, h3, h4⟩ := h.load k hg ho ha (hok t l k v hk hv) hkl hs'
              refine ⟨races_ordered hi.races h3, fun m => ?_, .inl ⟨h1, h2, fun u m k' v' hk' hv' => h4 u m v' ?_⟩⟩
              · dsimp only
                rw [cnt_append, hi.len]
                simp [Ev.writes]
              · refine hok u m k' v' (Nat.le_trans ?_ hk') hv'
                dsimp only
                rw [seen_upd (g := fun _ => k)]
                split
                · rename_i hu
                  rw [hu.1, ← hu.2]; exact hk
                · exact Nat.le_refl _
            · rw [(h.doomStep hd ha).2] at hs'; cases hs'
      · simp only [Option.some.injEq] at hs
        exact hs ▸ hi
    | some (.rmw l o) =>
      simp only [ha, Machine.go] at hs
      split at hs
      · cases hs
      · rename_i s' hs'
        simp only [Option.some.injEq] at hs
        subst hs
        refine step_inv h hp hi ha (by simp) hs' rfl rfl (fun m => ?_) fun u m => ?_
        · simp only [upd, Acc.wr, Option.some.injEq]
          by_cases hm : m = l
          · rw [if_pos hm, if_pos hm.symm, hm]
          · rw [if_neg hm, if_neg (fun e => hm e.symm)]
        · simp only [Acc.wr, Option.some.injEq]
          exact seen_upd (g := fun l => (p.hist l).length)
    | some (.store l r) =>
      simp only [ha, Machine.go] at hs
      split at hs
      · cases hs
      · rename_i s' hs'
        simp only [Option.some.injEq] at hs
        subst hs
        refine step_inv h hp hi ha (by simp) hs' rfl rfl (fun m => ?_) fun u m => ?_
        · simp only [upd, Acc.wr, Option.some.injEq]
          by_cases hm : m = l
          · rw [if_pos hm, if_pos hm.symm, hm]
          · rw [if_neg hm, if_neg (fun e => hm e.symm)]
        · simp only [Acc.wr, Option.some.injEq]
          exact seen_upd (g := fun l => (p.hist l).length)
    | some (.other l kd) =>
      simp only [ha, Machine.go] at hs
      split at hs
      · cases hs
      · rename_i s' hs'
        simp only [Option.some.injEq] at hs
        subst hs
        refine step_inv h hp hi ha (by simp) hs' rfl rfl (fun m => ?_) fun u m => ?_
        · simp [Acc.wr]
        · simp [Acc.wr]

theorem prun_inv (h : Sound M Good Doom Own ok Allow) (hp : M.Plain) {p p' : PState S W}
    (hi : PInv Good Doom Own ok Allow p) {as : List (PAct A)} (hs : M.prun p as = some p') :
    PInv Good Doom Own ok Allow p' := by
  induction as generalizing p with
  | nil => simp only [Machine.prun, Option.some.injEq] at hs; exact hs ▸ hi
  | cons a as ih =>
    simp only [Machine.prun] at hs
    split at hs
    · cases hs
    · rename_i q hq
      exact ih (pstep_inv h hp hi hq) hs

/-- Races are allowed ones. -/
theorem Sound.races (h : Sound M Good Doom Own ok Allow) (hp : M.Plain) {tr : List Ev} (ht : M.Trace tr) {i j : Nat}
    (hr : Race tr i j) : ∃ f, tr[j]? = some f ∧ Allow (tr.take j) i f := by
  obtain ⟨as, p, hs, rfl⟩ := ht
  exact (prun_inv h hp (pinit_inv h) hs).races i j hr

/-- What holds of all accesses. -/
theorem trace_all {P : Ev → Prop} (hP : ∀ t s a k, M.acc t s = some a → P (a.ev t k)) {tr : List Ev} (ht : M.Trace tr) :
    ∀ (i : Nat) (e : Ev), tr[i]? = some e → P e := by
  have key : ∀ {p p' : PState S W} {b : PAct A}, (∀ (i : Nat) (e : Ev), p.tr[i]? = some e → P e) → M.pstep p b = some p' →
      ∀ (i : Nat) (e : Ev), p'.tr[i]? = some e → P e := by
    intro p p' b h hs
    have app : ∀ {f : Ev}, P f → ∀ (i : Nat) (e : Ev), (p.tr ++ [f])[i]? = some e → P e := by
      intro f hf i e he
      rcases get_append he with he | ⟨-, rfl⟩
      · exact h i e he
      · exact hf
    cases b with
    | call a =>
      simp only [Machine.pstep, Option.some.injEq] at hs
      subst hs; exact h
    | step t k =>
      simp only [Machine.pstep] at hs
      match ha : M.acc t p.s with
      | none => simp only [ha, Machine.go, Option.some.injEq] at hs; exact hs ▸ h
      | some (.load l acq) =>
        simp only [ha, Machine.go] at hs
        have := hP t p.s _ k ha
        (repeat' split at hs) <;> simp only [Option.some.injEq, reduceCtorEq] at hs <;> subst hs
        · exact h
        · exact app this
        · exact h
      | some (.rmw l o) =>
        simp only [ha, Machine.go] at hs
        have := hP t p.s _ k ha
        split at hs <;> simp only [Option.some.injEq, reduceCtorEq] at hs
        subst hs; exact app this
      | some (.store l r) =>
        simp only [ha, Machine.go] at hs
        have := hP t p.s _ k ha
        split at hs <;> simp only [Option.some.injEq, reduceCtorEq] at hs
        subst hs; exact app this
      | some (.other l kd) =>
        simp only [ha, Machine.go] at hs
        have := hP t p.s _ k ha
        split at hs <;> simp only [Option.some.injEq, reduceCtorEq] at hs
        subst hs; exact app this
  have run : ∀ (as : List (PAct A)) (p p' : PState S W), (∀ (i : Nat) (e : Ev), p.tr[i]? = some e → P e) → M.prun p as = some p' →
      ∀ (i : Nat) (e : Ev), p'.tr[i]? = some e → P e := by
    intro as
    induction as with
    | nil => intro p p' h hs; simp only [Machine.prun, Option.some.injEq] at hs; exact hs ▸ h
    | cons a as ih =>
      intro p p' h hs
      simp only [Machine.prun] at hs
      split at hs
      · cases hs
      · rename_i q hq
        exact ih q p' (key h hq) hs
  obtain ⟨as, p, hs, rfl⟩ := ht
  exact run as M.pinit p (fun i e h => by simp [Machine.pinit] at h) hs

/-! ### Without old values -/

/-- One step of the machine without the trace. -/
def Machine.bstep (M : Machine S W A) (s : S) : Sum A Nat → Option S
  | .inl a => some (M.call s a)
  | .inr t => if (M.acc t s).isSome then M.step t s else some s

def Machine.brun (M : Machine S W A) (s : S) : List (Sum A Nat) → Option S
  | [] => some s
  | a :: as =>
    match M.bstep s a with
    | none => none
    | some s' => M.brun s' as

/-- Accesses change at most the object that they write. -/
structure Machine.Frame (M : Machine S W A) : Prop where
  call : ∀ s a, M.word (M.call s a) = M.word s
  set : ∀ s l, M.setWord s l (M.word s l) = s
  step : ∀ {t s a s'}, M.acc t s = some a → M.step t s = some s' → ∀ l, a.wr ≠ some l → M.word s' l = M.word s l

structure Fresh (M : Machine S W A) (p : PState S W) : Prop where
  last : ∀ l, (p.hist l).getLast? = some (M.word p.s l)
  seen : ∀ t l, p.seen t l < (p.hist l).length

/-- An access that reads the last value. -/
theorem fresh_step_of (hset : ∀ s l, M.setWord s l (M.word s l) = s) {p : PState S W} (h : Fresh M p) {t : Nat} {a : Acc}
    (ha : M.acc t p.s = some a) {s' : S} (hs : M.step t p.s = some s') (hw : ∀ l, a.wr ≠ some l → M.word s' l = M.word p.s l) : ∃ n p', M.pstep p (.step t n) = some p' ∧ p'.s = s' ∧ p'.tr = p.tr ++ [a.ev t n] ∧ Fresh M p' := by
  have wr : ∀ {q : PState S W} {l}, q.s = s' → q.hist = upd p.hist l (p.hist l ++ [M.word s' l]) →
      q.seen = upd p.seen t (upd (p.seen t) l (p.hist l).length) → (∀ m, m ≠ l → M.word s' m = M.word p.s m) → Fresh M q := by
    intro q l h1 h2 h3 h4
    refine ⟨fun m => ?_, fun u m => ?_⟩
    · rw [h1, h2]
      simp only [upd]
      split
      · rename_i e; subst e; simp
      · rename_i e; rw [h4 m e]; exact h.last m
    · have := h.seen u m
      rw [h2, h3, seen_upd (g := fun l => (p.hist l).length)]
      simp only [upd]
      by_cases e : m = l
      · subst e
        rw [if_pos rfl, List.length_append]
        split <;> simp <;> omega
      · rw [if_neg e, if_neg (fun h => e h.2.symm)]
        exact this
  cases a with
  | load l acq =>
    have hk : (p.hist l)[(p.hist l).length - 1]? = some (M.word p.s l) := by
      rw [← h.last, List.getLast?_eq_getElem?]
    have h1 := h.seen t l
    have hset' : M.setWord s' l (M.word p.s l) = s' := by
      rw [← hw l (by simp [Acc.wr])]; exact hset s' l
    refine ⟨((p.hist l).length - 1),
      { p with
        s := s'
        seen := upd p.seen t (upd (p.seen t) l ((p.hist l).length - 1))
        tr := p.tr ++ [⟨t, l, .load acq ((p.hist l).length - 1)⟩] }, ?_, rfl, rfl, ⟨fun m => ?_, fun u m => ?_⟩⟩
    · simp only [Machine.pstep, ha, Machine.go, if_pos (show p.seen t l ≤ (p.hist l).length - 1 by omega), hk, hset, hs, hset']
    · dsimp only; rw [hw m (by simp [Acc.wr])]; exact h.last m
    · have := h.seen u m
      dsimp only
      rw [seen_upd (g := fun _ => (p.hist l).length - 1)]
      split
      · rename_i e; rw [← e.2]; omega
      · exact this
  | rmw l o =>
    exact ⟨0,
      { p with
        s := s'
        hist := upd p.hist l (p.hist l ++ [M.word s' l])
        seen := upd p.seen t (upd (p.seen t) l (p.hist l).length)
        tr := p.tr ++ [⟨t, l, .rmw o.acq o.rel⟩] }, by simp only [Machine.pstep, ha, Machine.go, hs], rfl, rfl,
      wr rfl rfl rfl fun m hm => hw m (by simp only [Acc.wr, ne_eq, Option.some.injEq]; exact fun e => hm e.symm)⟩
  | store l r =>
    exact ⟨0,
      { p with
        s := s'
        hist := upd p.hist l (p.hist l ++ [M.word s' l])
        seen := upd p.seen t (upd (p.seen t) l (p.hist l).length)
        tr := p.tr ++ [⟨t, l, .store r⟩] }, by simp only [Machine.pstep, ha, Machine.go, hs], rfl, rfl,
      wr rfl rfl rfl fun m hm => hw m (by simp only [Acc.wr, ne_eq, Option.some.injEq]; exact fun e => hm e.symm)⟩
  | other l kd =>
    exact ⟨0, { p with s := s', tr := p.tr ++ [⟨t, l, kd⟩] }, by simp only [Machine.pstep, ha, Machine.go, hs], rfl, rfl,
      ⟨fun m => by dsimp only; rw [hw m (by simp [Acc.wr])]; exact h.last m, h.seen⟩⟩

theorem fresh_go (hf : M.Frame) {p : PState S W} (h : Fresh M p) {t : Nat} {a : Acc} (ha : M.acc t p.s = some a) {s' : S}
    (hs : M.step t p.s = some s') : ∃ n p', M.pstep p (.step t n) = some p' ∧ p'.s = s' ∧ p'.tr = p.tr ++ [a.ev t n] ∧ Fresh M p' :=
  fresh_step_of hf.set h ha hs (hf.step ha hs)

theorem fresh_call (hf : M.Frame) {p : PState S W} (h : Fresh M p) (a : A) : Fresh M { p with s := M.call p.s a } :=
  ⟨fun l => by dsimp only; rw [hf.call]; exact h.last l, h.seen⟩

theorem fresh_step (hf : M.Frame) {p : PState S W} (h : Fresh M p) {a : Sum A Nat} {s' : S} (hs : M.bstep p.s a = some s') :
    ∃ b p', M.pstep p b = some p' ∧ p'.s = s' ∧ Fresh M p' := by
  cases a with
  | inl a =>
    simp only [Machine.bstep, Option.some.injEq] at hs
    subst hs
    exact ⟨.call a, { p with s := M.call p.s a }, rfl, rfl, fresh_call hf h a⟩
  | inr t =>
    simp only [Machine.bstep] at hs
    match ha : M.acc t p.s with
    | none =>
      simp only [ha, Option.isSome_none, Bool.false_eq_true, if_false, Option.some.injEq] at hs
      exact ⟨.step t 0, p, by simp [Machine.pstep, ha, Machine.go], hs, h⟩
    | some a =>
      simp only [ha, Option.isSome_some, if_true] at hs
      obtain ⟨n, p', h1, h2, -, h4⟩ := fresh_go hf h ha hs
      exact ⟨.step t n, p', h1, h2, h4⟩

/-- Schedules of the machine without the trace are schedules with it. -/
theorem covers (hf : M.Frame) {as : List (Sum A Nat)} {s : S} (h : M.brun M.init as = some s) :
    ∃ as' tr, M.Reaches as' s tr := by
  suffices ∀ as (p : PState S W), Fresh M p → M.brun p.s as = some s → ∃ as' p', M.prun p as' = some p' ∧ p'.s = s by
    obtain ⟨as', p, h1, h2⟩ := this as M.pinit ⟨fun l => rfl, fun t l => by simp [Machine.pinit]⟩ h
    exact ⟨as', p.tr, p, h1, h2, rfl⟩
  intro as
  induction as with
  | nil => intro p _ h; exact ⟨[], p, rfl, by simpa [Machine.brun] using h⟩
  | cons a as ih =>
    intro p hp h
    simp only [Machine.brun] at h
    split at h
    · cases h
    · rename_i s1 hs1
      obtain ⟨b, p1, hb, hps, hp1⟩ := fresh_step hf hp hs1
      obtain ⟨as', p', h1, h2⟩ := ih p1 hp1 (by rw [hps]; exact h)
      exact ⟨b :: as', p', by simp only [Machine.prun, hb]; exact h1, h2⟩

end Verif.Order
