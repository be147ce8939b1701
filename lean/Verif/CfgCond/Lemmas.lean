import Verif.CfgCond.Spec
/-! # Lemmas about conditional compilation clauses -/
namespace Verif.CfgCond

variable {K T : Type}

theorem evalAll_eq (σ : K → Bool) (ps : List (Pred K)) : evalAll σ ps = ps.all (·.eval σ) := by
  induction ps with
  | nil => rfl
  | cons p ps ih => simp [evalAll, ih]

theorem evalAny_eq (σ : K → Bool) (ps : List (Pred K)) : evalAny σ ps = ps.any (·.eval σ) := by
  induction ps with
  | nil => rfl
  | cons p ps ih => simp [evalAny, ih]

theorem active_pos (σ : K → Bool) (c : Cond K) (h : c.inverse = false) : c.active σ = c.meant σ := by
  obtain ⟨cls, inv⟩ := c
  simp only at h
  subst h
  unfold Cond.active Cond.attrs Cond.meant
  cases cls with
  | nil => rfl
  | cons a l =>
    simp only [List.isEmpty_cons, Bool.false_eq_true, ↓reduceIte]
    rw [evalAll_eq, List.all_map]
    congr 1
    funext cl
    simp only [Function.comp, Pred.eval, evalAny_eq, List.any_map]
    congr 1

theorem active_inv (σ : K → Bool) (cls : List (List K)) :
    (⟨cls, true⟩ : Cond K).active σ = !(cls.any fun cl => cl.all σ) := by
  unfold Cond.active Cond.attrs
  cases cls with
  | nil => rfl
  | cons a l =>
    simp only [List.isEmpty_cons, Bool.false_eq_true, ↓reduceIte]
    rw [evalAll_eq]
    simp only [List.all_cons, List.all_nil, Bool.and_true, Pred.eval, evalAny_eq, List.any_map]
    congr 2
    funext cl
    simp only [Function.comp, Pred.eval, evalAll_eq, List.all_map]
    congr 1

/-- DNF and CNF mean the same, for at most two clauses. -/
theorem dnf_meant (σ : K → Bool) (c : Cond K) (w : c.Wf) {dnf : List (List K)} (h : c.toDnf = some dnf)
    (hne : dnf ≠ []) : c.meant σ = dnf.any fun cj => cj.all σ := by
  obtain ⟨cls, inv⟩ := c
  obtain ⟨w1, w2⟩ := w
  simp only at w1 w2
  subst w1
  unfold Cond.toDnf at h
  unfold Cond.meant
  simp only [Bool.false_eq_true, ↓reduceIte] at h ⊢
  split at h
  all_goals simp only [Option.some.injEq, reduceCtorEq] at h
  all_goals try subst h
  all_goals try contradiction
  · rw [List.any_map]; simp [Function.comp_def]
  · rename_i x _ ; exact absurd rfl (w2 [] (by simp))
  · exact absurd rfl (w2 [] (by simp))
  · rename_i x y _ _ _
    simp only [List.all_cons, List.all_nil, Bool.and_true, List.any_flatMap, List.any_map, Function.comp_def]
    rw [Bool.eq_iff_iff]
    simp only [Bool.and_eq_true, List.any_eq_true]
    constructor
    · rintro ⟨⟨a, h1, h2⟩, ⟨b, h3, h4⟩⟩; exact ⟨a, h1, b, h3, h2, h4⟩
    · rintro ⟨a, h1, b, h3, h2, h4⟩; exact ⟨⟨a, h1, h2⟩, ⟨b, h3, h4⟩⟩

theorem dnf_nil (c : Cond K) (w : c.Wf) (h : c.toDnf = some []) : c.clauses = [] := by
  obtain ⟨cls, inv⟩ := c
  obtain ⟨w1, w2⟩ := w
  simp only at w1 w2
  subst w1
  unfold Cond.toDnf at h
  simp only [Bool.false_eq_true, ↓reduceIte] at h ⊢
  match cls, w2, h with
  | [], _, _ => rfl
  | [x], w2, h =>
    have := w2 x (by simp)
    cases x with
    | nil => exact absurd rfl this
    | cons a x => simp at h
  | [x, y], w2, h =>
    have h1 := w2 x (by simp)
    have h2 := w2 y (by simp)
    cases x with
    | nil => exact absurd rfl h1
    | cons a x =>
      cases y with
      | nil => exact absurd rfl h2
      | cons b y => simp at h
  | _ :: _ :: _ :: _, w2, h => simp at h

theorem dnf_two (c : Cond K) (hi : c.inverse = false) (hl : c.clauses.length ≤ 2) : ∃ dnf, c.toDnf = some dnf := by
  obtain ⟨cls, inv⟩ := c
  simp only at hi hl
  subst hi
  unfold Cond.toDnf
  simp only [Bool.false_eq_true, ↓reduceIte]
  split
  all_goals try exact ⟨_, rfl⟩
  rename_i h1 h2 h3 h4 h5 h6 h7
  match cls, hl with
  | [], _ => exact absurd rfl h1
  | [x], _ => exact absurd rfl (h4 x)
  | [x, y], _ => exact absurd rfl (h7 x y)

/-- Members of a DNF are not empty. -/
theorem dnf_ne (c : Cond K) {dnf : List (List K)} (h : c.toDnf = some dnf) : ∀ cj ∈ dnf, cj ≠ [] := by
  unfold Cond.toDnf at h
  split at h
  · simp at h
  split at h
  all_goals simp only [Option.some.injEq, reduceCtorEq] at h
  all_goals subst h
  all_goals simp
  all_goals (intro cj a b c d e; subst e; simp)

variable [DecidableEq K]

/-- The items stored under a key. -/
def get (m : List (List K × List T)) (x : List K) : List T :=
  match m with
  | [] => []
  | (c, ts) :: m => if c = x then ts else get m x

def keys (m : List (List K × List T)) : List (List K) := m.map (·.1)

theorem keys_insert (m : List (List K × List T)) (c : List K) (t : T) :
    keys (insert m c t) = if c ∈ keys m then keys m else keys m ++ [c] := by
  induction m with
  | nil => simp [insert, keys]
  | cons e m ih =>
    obtain ⟨c', ts⟩ := e
    unfold insert
    split
    · subst_vars; simp [keys]
    · rename_i hne
      simp only [keys, List.map_cons, List.mem_cons] at ih ⊢
      rw [ih]
      have : ¬ c = c' := fun e => hne e.symm
      simp only [this, false_or]
      by_cases hm : c ∈ List.map (fun x => x.fst) m <;> simp [hm]

theorem get_insert (m : List (List K × List T)) (c x : List K) (t : T) :
    get (insert m c t) x = if c = x then get m x ++ [t] else get m x := by
  induction m with
  | nil => simp [insert, get]
  | cons e m ih =>
    obtain ⟨c', ts⟩ := e
    unfold insert
    split
    · subst_vars
      simp only [get]
      split <;> simp_all
    · rename_i hne
      simp only [get, ih]
      by_cases h1 : c' = x
      · subst h1
        have : ¬ c = c' := fun e => hne e.symm
        simp [this]
      · simp [h1]

def addAll (m : List (List K × List T)) (dnf : List (List K)) (t : T) : List (List K × List T) :=
  dnf.foldl (fun m c => insert m c t) m

theorem addAll_nodup {m : List (List K × List T)} {dnf : List (List K)} {t : T} (h : (keys m).Nodup) :
    (keys (addAll m dnf t)).Nodup := by
  induction dnf generalizing m with
  | nil => exact h
  | cons c dnf ih =>
    refine ih ?_
    rw [keys_insert]
    split
    · exact h
    · rw [List.nodup_append]
      refine ⟨h, by simp, ?_⟩
      intro a ha b hb e
      simp at hb
      subst hb
      subst e
      contradiction

theorem addAll_mem {m : List (List K × List T)} {dnf : List (List K)} {t : T} {x : List K} :
    x ∈ keys (addAll m dnf t) ↔ x ∈ keys m ∨ x ∈ dnf := by
  induction dnf generalizing m with
  | nil => simp [addAll]
  | cons c dnf ih =>
    have := ih (m := insert m c t)
    unfold addAll at this ⊢
    simp only [List.foldl_cons, this, keys_insert, List.mem_cons]
    split
    · constructor
      · rintro (h | h)
        · exact .inl h
        · exact .inr (.inr h)
      · rintro (h | rfl | h)
        · exact .inl h
        · exact .inl ‹_›
        · exact .inr h
    · simp [or_assoc]

theorem addAll_get {m : List (List K × List T)} {dnf : List (List K)} {t : T} {x : List K} :
    get (addAll m dnf t) x = get m x ++ List.replicate (dnf.count x) t := by
  induction dnf generalizing m with
  | nil => simp [addAll]
  | cons c dnf ih =>
    have := ih (m := insert m c t)
    unfold addAll at this ⊢
    simp only [List.foldl_cons, this, get_insert, List.count_cons, beq_iff_eq]
    split
    · rw [List.append_assoc, List.replicate_succ]
      rfl
    · rfl

/-- The items collected under key `x`. -/
def under (x : List K) : List (Cond K × T) → List T
  | [] => []
  | (c, t) :: items => List.replicate ((c.toDnf.getD []).count x) t ++ under x items

/-- The default items. -/
def defaults : List (Cond K × T) → List T
  | [] => []
  | (c, t) :: items => (if c.toDnf = some [] then [t] else []) ++ defaults items

theorem collect_spec {items : List (Cond K × T)} {m m' : List (List K × List T)} {d d' : List T}
    (h : collect items m d = some (m', d')) (nd : (keys m).Nodup) :
    (keys m').Nodup ∧ (∀ x, x ∈ keys m' ↔ x ∈ keys m ∨ ∃ c t, (c, t) ∈ items ∧ x ∈ c.toDnf.getD []) ∧
      (∀ x, get m' x = get m x ++ under x items) ∧ d' = d ++ defaults items ∧
      (∀ c t, (c, t) ∈ items → ∃ dnf, c.toDnf = some dnf) := by
  induction items generalizing m d with
  | nil =>
    simp only [collect, Option.some.injEq, Prod.mk.injEq] at h
    obtain ⟨rfl, rfl⟩ := h
    refine ⟨nd, by simp, by simp [under], by simp [defaults], by simp⟩
  | cons e items ih =>
    obtain ⟨c, t⟩ := e
    simp only [collect] at h
    split at h
    · simp at h
    · rename_i hd
      obtain ⟨h1, h2, h3, h4, h5⟩ := ih h nd
      refine ⟨h1, ?_, ?_, ?_, ?_⟩
      · intro x
        rw [h2]
        constructor
        · rintro (h | ⟨c', t', h, hx⟩)
          · exact .inl h
          · exact .inr ⟨c', t', by simp [h], hx⟩
        · rintro (h | ⟨c', t', h, hx⟩)
          · exact .inl h
          · simp only [List.mem_cons, Prod.mk.injEq] at h
            rcases h with ⟨rfl, rfl⟩ | h
            · simp [hd] at hx
            · exact .inr ⟨c', t', h, hx⟩
      · intro x; rw [h3]; simp [under, hd]
      · rw [h4]; simp [defaults, hd]
      · intro c' t' hm
        simp only [List.mem_cons, Prod.mk.injEq] at hm
        rcases hm with ⟨rfl, rfl⟩ | hm
        · exact ⟨_, hd⟩
        · exact h5 _ _ hm
    · rename_i dnf hne hd
      have hne : dnf ≠ [] := hne
      obtain ⟨h1, h2, h3, h4, h5⟩ := ih h (addAll_nodup (t := t) (dnf := dnf) nd)
      refine ⟨h1, ?_, ?_, ?_, ?_⟩
      · intro x
        rw [h2]
        have := addAll_mem (m := m) (dnf := dnf) (t := t) (x := x)
        unfold addAll at this
        rw [this]
        constructor
        · rintro ((h | h) | ⟨c', t', h, hx⟩)
          · exact .inl h
          · exact .inr ⟨c, t, by simp, by simp [hd, h]⟩
          · exact .inr ⟨c', t', by simp [h], hx⟩
        · rintro (h | ⟨c', t', h, hx⟩)
          · exact .inl (.inl h)
          · simp only [List.mem_cons, Prod.mk.injEq] at h
            rcases h with ⟨rfl, rfl⟩ | h
            · simp [hd] at hx; exact .inl (.inr hx)
            · exact .inr ⟨c', t', h, hx⟩
      · intro x
        rw [h3]
        have := addAll_get (m := m) (dnf := dnf) (t := t) (x := x)
        unfold addAll at this
        rw [this]
        simp [under, hd]
      · rw [h4]; simp [defaults, hd, hne]
      · intro c' t' hm
        simp only [List.mem_cons, Prod.mk.injEq] at hm
        rcases hm with ⟨rfl, rfl⟩ | hm
        · exact ⟨_, hd⟩
        · exact h5 _ _ hm

theorem collect_some {items : List (Cond K × T)} {m : List (List K × List T)} {d : List T}
    (h : ∀ c t, (c, t) ∈ items → ∃ dnf, c.toDnf = some dnf) : ∃ md, collect items m d = some md := by
  induction items generalizing m d with
  | nil => exact ⟨_, rfl⟩
  | cons e items ih =>
    obtain ⟨c, t⟩ := e
    obtain ⟨dnf, hd⟩ := h c t (by simp)
    have ih := fun m d => ih (m := m) (d := d) fun c t hm => h c t (by simp [hm])
    simp only [collect, hd]
    split <;> simp_all

theorem mem_get {m : List (List K × List T)} {c : List K} {ts : List T} (nd : (keys m).Nodup) (h : (c, ts) ∈ m) :
    get m c = ts := by
  induction m with
  | nil => simp at h
  | cons e m ih =>
    obtain ⟨c', ts'⟩ := e
    simp only [keys, List.map_cons, List.nodup_cons] at nd
    simp only [List.mem_cons, Prod.mk.injEq] at h
    rcases h with ⟨rfl, rfl⟩ | h
    · simp [get]
    · have : c' ≠ c := by
        rintro rfl
        exact nd.1 (List.mem_map.2 ⟨_, h, rfl⟩)
      simp [get, this, ih nd.2 h]

/-- Which variants of `emit` are compiled. -/
theorem chosen_emit (σ : K → Bool) (m : List (List K × List T)) (d : List T) :
    chosen σ (emit m d) = (m.filter fun e => e.1.any σ).map (fun e => e.2 ++ d) ++
      (if (keys m).any (fun c => c.all σ) then [] else [d]) := by
  unfold chosen emit
  simp only [List.filter_append, List.map_append]
  congr 1
  · rw [List.filter_map, List.map_map]
    congr 1
    apply congrFun
    congr 1
    funext e
    simp [Function.comp, active_pos, Cond.meant]
  · have hk : (List.map (fun e => ((⟨[e.1], false⟩ : Cond K), e.2 ++ d)) m).flatMap (fun r => r.1.clauses) = keys m := by
      unfold keys
      induction m with
      | nil => rfl
      | cons e m ih => simp [ih]
    rw [hk]
    simp only [List.filter_cons, List.filter_nil, active_inv]
    split <;> simp_all

/-- Items under the only satisfied key, or none, together with the defaults. -/
theorem wanted_perm (σ : K → Bool) {items : List (Cond K × T)} {x : List K}
    (w : ∀ c t, (c, t) ∈ items → c.Wf ∧ (∃ dnf, c.toDnf = some dnf) ∧ (c.toDnf.getD []).Nodup)
    (hx : x.all σ = true) (hu : ∀ c t, (c, t) ∈ items → ∀ y ∈ c.toDnf.getD [], y.all σ = true → y = x) :
    (under x items ++ defaults items).Perm (wanted σ items) := by
  induction items with
  | nil => exact .nil
  | cons e items ih =>
    obtain ⟨c, t⟩ := e
    obtain ⟨w1, ⟨dnf, hd⟩, w3⟩ := w c t (by simp)
    have hu1 := hu c t (by simp)
    have ih := ih (fun c t h => w c t (by simp [h])) (fun c t h => hu c t (by simp [h]))
    simp only [hd, Option.getD_some] at w3 hu1
    simp only [under, defaults, wanted, List.filter_cons, hd, Option.getD_some, Option.some.injEq]
    by_cases hne : dnf = []
    · subst hne
      have hc := dnf_nil c w1 hd
      have : c.meant σ = true := by simp [Cond.meant, hc]
      simp only [this, ↓reduceIte, List.map_cons, List.count_nil, List.replicate_zero, List.nil_append, List.singleton_append]
      exact (List.perm_middle).trans (ih.cons t)
    · simp only [hne, ↓reduceIte, List.nil_append, dnf_meant σ c w1 hd hne]
      by_cases hm : x ∈ dnf
      · have h1 : dnf.any (fun cj => cj.all σ) = true := List.any_eq_true.2 ⟨x, hm, hx⟩
        rw [List.Nodup.count w3, if_pos hm]
        simp only [h1, ↓reduceIte, List.map_cons, List.replicate_one, List.singleton_append, List.cons_append]
        exact ih.cons t
      · have h1 : ¬ (dnf.any (fun cj => cj.all σ) = true) := by
          rw [List.any_eq_true]
          rintro ⟨y, hy, hs⟩
          exact hm (hu1 y hy hs ▸ hy)
        rw [List.count_eq_zero.2 hm]
        simp only [h1, Bool.false_eq_true, ↓reduceIte, List.replicate_zero, List.nil_append]
        exact ih

theorem wanted_none (σ : K → Bool) {items : List (Cond K × T)}
    (w : ∀ c t, (c, t) ∈ items → c.Wf ∧ (∃ dnf, c.toDnf = some dnf))
    (hu : ∀ c t, (c, t) ∈ items → ∀ y ∈ c.toDnf.getD [], y.all σ = false) :
    defaults items = wanted σ items := by
  induction items with
  | nil => rfl
  | cons e items ih =>
    obtain ⟨c, t⟩ := e
    obtain ⟨w1, ⟨dnf, hd⟩⟩ := w c t (by simp)
    have hu1 := hu c t (by simp)
    have ih := ih (fun c t h => w c t (by simp [h])) (fun c t h => hu c t (by simp [h]))
    simp only [hd, Option.getD_some] at hu1
    simp only [defaults, wanted, List.filter_cons, hd, Option.some.injEq]
    by_cases hne : dnf = []
    · subst hne
      have hc := dnf_nil c w1 hd
      have : c.meant σ = true := by simp [Cond.meant, hc]
      simp only [this, ↓reduceIte, List.map_cons, List.singleton_append, List.cons.injEq, true_and]
      exact ih
    · have h1 : ¬ (dnf.any (fun cj => cj.all σ) = true) := by
        rw [List.any_eq_true]
        rintro ⟨y, hy, hs⟩
        rw [hu1 y hy] at hs
        simp at hs
      simp only [hne, ↓reduceIte, List.nil_append, dnf_meant σ c w1 hd hne, h1, Bool.false_eq_true]
      exact ih

end Verif.CfgCond
