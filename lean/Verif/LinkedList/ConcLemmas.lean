import Verif.LinkedList.ConcSpec
/-! # Lemmas for the concurrent list -/
namespace Verif.LinkedList.Conc

variable {α : Type}

/-- Addresses of the entries. -/
abbrev addrs (L : List (Nat × α)) : List Nat := L.map Prod.fst

theorem Holds.congr {node node' : Nat → Option (Nat × α)} : ∀ {L : List (Nat × α)} {p : Nat},
    Holds node p L → (∀ a ∈ addrs L, node' a = node a) → Holds node' p L
  | [], _, h, _ => h
  | (a, v) :: L, p, ⟨h1, h2, nx, h3, h4⟩, hc =>
    ⟨h1, h2, nx, by rw [hc a (by simp)]; exact h3,
      Holds.congr h4 (fun b hb => hc b (List.mem_cons_of_mem _ hb))⟩

theorem Holds.top {node : Nat → Option (Nat × α)} {L : List (Nat × α)} {p : Nat}
    (h : Holds node p L) (hp : p ≠ 0) : ∃ v L', L = (p, v) :: L' := by
  cases L with
  | nil => exact absurd h hp
  | cons x L =>
    obtain ⟨a, v⟩ := x
    obtain ⟨h1, _⟩ := h
    subst h1
    exact ⟨v, L, rfl⟩

theorem Holds.nil {node : Nat → Option (Nat × α)} {L : List (Nat × α)}
    (h : Holds node 0 L) : L = [] := by
  cases L with
  | nil => rfl
  | cons x L =>
    obtain ⟨a, v⟩ := x
    obtain ⟨h1, h2, _⟩ := h
    exact absurd h1.symm h2

theorem Holds.mem {node : Nat → Option (Nat × α)} : ∀ {L : List (Nat × α)} {p : Nat},
    Holds node p L → ∀ {a : Nat} {v : α}, (a, v) ∈ L → a ≠ 0 ∧ ∃ nx, node a = some (nx, v)
  | [], _, _, _, _, hm => by simp at hm
  | (b, w) :: L, _, ⟨_, h2, nx, h3, h4⟩, a, v, hm => by
    rcases List.mem_cons.mp hm with h | h
    · simp only [Prod.mk.injEq] at h
      obtain ⟨rfl, rfl⟩ := h
      exact ⟨h2, nx, h3⟩
    · exact Holds.mem h4 h

theorem Holds.split {node : Nat → Option (Nat × α)} {c : Nat} {v : α} {B : List (Nat × α)} :
    ∀ {A : List (Nat × α)} {p : Nat}, Holds node p (A ++ (c, v) :: B) →
    c ≠ 0 ∧ (∃ nx, node c = some (nx, v) ∧ Holds node nx B) ∧ (A = [] → p = c)
  | [], _, ⟨h1, h2, nx, h3, h4⟩ => ⟨h2, ⟨nx, h3, h4⟩, fun _ => h1⟩
  | (a, w) :: A, _, ⟨_, _, nx, _, h4⟩ => by
    obtain ⟨g1, g2, _⟩ := Holds.split h4
    exact ⟨g1, g2, by simp⟩

theorem Holds.walk {node : Nat → Option (Nat × α)} {c : Nat} {v : α} {B : List (Nat × α)}
    {q nx : Nat} {w w' : α} : ∀ {A : List (Nat × α)} {p : Nat}, Holds node p (A ++ (c, v) :: B) →
    (addrs (A ++ (c, v) :: B)).Nodup → (q, w) ∈ A → node q = some (nx, w') →
    (nx = c ∧ A.getLast? = some (q, w)) ∨ (nx ≠ c ∧ ∃ w'', (nx, w'') ∈ A)
  | [], _, _, _, hm, _ => by simp at hm
  | (a, u) :: A, p, ⟨h1, h2, n1, h3, h4⟩, hn, hm, hq => by
    have hn' := List.nodup_cons.mp hn
    rcases List.mem_cons.mp hm with h | h
    · simp only [Prod.mk.injEq] at h
      obtain ⟨rfl, rfl⟩ := h
      rw [hq] at h3
      simp only [Option.some.injEq, Prod.mk.injEq] at h3
      obtain ⟨rfl, rfl⟩ := h3
      cases A with
      | nil =>
        left
        exact ⟨h4.1, rfl⟩
      | cons x A =>
        obtain ⟨b, u⟩ := x
        right
        have hb : nx = b := h4.1
        subst hb
        refine ⟨?_, u, by simp⟩
        intro e
        subst e
        have := (List.nodup_cons.mp hn'.2).1
        simp at this
    · rcases Holds.walk h4 hn'.2 h hq with ⟨g1, g2⟩ | ⟨g1, w'', g2⟩
      · left
        refine ⟨g1, ?_⟩
        cases A with
        | nil => simp at h
        | cons x A => simpa using g2
      · exact Or.inr ⟨g1, w'', List.mem_cons_of_mem _ g2⟩

theorem getLast?_mem' {L : List (Nat × α)} {x : Nat × α} (h : L.getLast? = some x) : x ∈ L :=
  List.mem_of_getLast? h

theorem Holds.relink {s : State α} {q r : Nat} {w : α} {B B' : List (Nat × α)} :
    ∀ {A : List (Nat × α)} {p : Nat}, Holds s.node p (A ++ B) → (addrs (A ++ B)).Nodup →
    A.getLast? = some (q, w) → Holds s.node r B' → (∀ b ∈ addrs B', b ≠ q) →
    Holds (s.put q (some (r, w))).node p (A ++ B')
  | [], _, _, _, hl, _, _ => by simp at hl
  | [(a, u)], p, ⟨h1, h2, n1, h3, h4⟩, hn, hl, hr, hd => by
    simp only [List.getLast?_singleton, Option.some.injEq, Prod.mk.injEq] at hl
    obtain ⟨rfl, rfl⟩ := hl
    refine ⟨h1, h2, r, by simp [State.put], hr.congr (fun b hb => ?_)⟩
    simp [State.put, hd b hb]
  | (a, u) :: (a', u') :: A, p, ⟨h1, h2, n1, h3, h4⟩, hn, hl, hr, hd => by
    have hn' := List.nodup_cons.mp hn
    have hl' : ((a', u') :: A).getLast? = some (q, w) := by simpa using hl
    refine ⟨h1, h2, n1, ?_, Holds.relink h4 hn'.2 hl' hr hd⟩
    have : a ≠ q := by
      intro e
      refine hn'.1 ?_
      have hm := getLast?_mem' hl'
      rw [e]
      exact List.mem_map.mpr ⟨(q, w), List.mem_append_left _ hm, rfl⟩
    simp [State.put, this, h3]

/-- The node a context owns: not in the list, released or published only by it. -/
def owns : Pc → Option Nat
  | .pushLoad n | .pushWrite n _ | .pushCas n _ => some n
  | .popFree p => some p
  | .drFree _ c _ => some c
  | _ => none

/-- `prev` of the drain: null if nothing was kept, otherwise the node before
`curr`. -/
def PrevOk (prev : Nat) (F K : List (Nat × α)) : Prop :=
  (prev = 0 ∧ K = []) ∨ (prev ≠ 0 ∧ ∃ w, (F ++ K).getLast? = some (prev, w))

/-- What each program point knows. -/
def PcOk (s : State α) (sp : Spec α) (F K C T : List (Nat × α)) (t : Tid) : Pc → Prop
  | .pushCas n old => ∃ v, s.node n = some (old, v)
  | .popFree p => ∃ nx v, s.node p = some (nx, v) ∧ sp.taken t = some v
  | .popRead old => ∃ v, (old, v) ∈ F
  | .popCas old next => ∃ v, (old, v) ∈ F ∧ s.node old = some (next, v)
  | .drNext prev curr => sp.cutting = none ∧ C = [] ∧ PrevOk prev F K ∧ ∃ v T', T = (curr, v) :: T'
  | .drFilter prev curr next => sp.cutting = none ∧ C = [] ∧ PrevOk prev F K ∧
      ∃ v T', T = (curr, v) :: T' ∧ s.node curr = some (next, v)
  | .cutLoad curr next | .cutCas curr next =>
      K = [] ∧ ∃ v, C = [(curr, v)] ∧ sp.cutting = some v ∧ s.node curr = some (next, v)
  | .cutWalk p curr next =>
      K = [] ∧ (∃ v, C = [(curr, v)] ∧ sp.cutting = some v ∧ s.node curr = some (next, v)) ∧
      ∃ w, (p, w) ∈ F
  | .cutWrite p curr next =>
      (∃ v, C = [(curr, v)] ∧ sp.cutting = some v ∧ s.node curr = some (next, v)) ∧
      ∃ w, (F ++ K).getLast? = some (p, w)
  | .drFree prev curr next => C = [] ∧ PrevOk prev F K ∧
      (∃ nx v, s.node curr = some (nx, v) ∧ sp.cutting = some v) ∧ Holds s.node next T
  | _ => True

/-- The invariant. `ex` is a context whose program point is being decided. -/
structure Inv (s : State α) (sp : Spec α) (F K C T : List (Nat × α)) (ex : Option Tid) : Prop where
  holds : Holds s.node s.head (F ++ (K ++ (C ++ T)))
  nodup : (addrs (F ++ (K ++ (C ++ T)))).Nodup
  front : sp.front = F.map Prod.snd
  kept : sp.kept = K.map Prod.snd
  todo : sp.todo = T.map Prod.snd
  own : ∀ t a, owns (s.pc t) = some a → a ≠ 0 ∧ s.node a ≠ none ∧ a ∉ addrs (F ++ (K ++ (C ++ T)))
  ownApart : ∀ t u a, owns (s.pc t) = some a → owns (s.pc u) = some a → t = u
  complete : ∀ a, s.node a ≠ none → a ∈ addrs (F ++ (K ++ (C ++ T))) ∨ ∃ t, owns (s.pc t) = some a
  inactive : sp.active = false → K = [] ∧ C = [] ∧ T = [] ∧ sp.cutting = none ∧
    ∀ t, Draining (s.pc t) = false
  active : sp.active = true → ∃ t, Draining (s.pc t)
  ok : ∀ t, ex ≠ some t → PcOk s sp F K C T t (s.pc t)

theorem init_inv (α : Type) : Inv (init α) (Spec.init α) [] [] [] [] none := by
  constructor <;> simp [init, Spec.init, Holds, owns, Draining, PcOk]

theorem goto_pc_self (s : State α) (t : Tid) (pc : Pc) : (s.goto t pc).pc t = pc := by
  simp [State.goto]

theorem goto_pc_ne (s : State α) {t u : Tid} (pc : Pc) (h : u ≠ t) : (s.goto t pc).pc u = s.pc u := by
  simp [State.goto, h]

theorem goto_goto (s : State α) (t : Tid) (pc pc' : Pc) : (s.goto t pc).goto t pc' = s.goto t pc' := by
  simp only [State.goto, State.mk.injEq, true_and]
  funext u
  split <;> rfl

/-- A program point that is not inside a removal only looks at its own node. -/
theorem PcOk.nonrem {s s' : State α} {sp sp' : Spec α} {F K C T F' K' C' T' : List (Nat × α)}
    {t : Tid} {pc : Pc} (h : PcOk s sp F K C T t pc) (hd : Draining pc = false)
    (hp : PopMid pc = false) (hn : ∀ a, owns pc = some a → s'.node a = s.node a)
    (ht : sp'.taken t = sp.taken t) : PcOk s' sp' F' K' C' T' t pc := by
  cases pc <;> simp_all [PcOk, Draining, PopMid, owns]

/-- Changing a node that is neither in the list nor owned by the context. -/
theorem PcOk.frame {s s' : State α} {sp : Spec α} {F K C T : List (Nat × α)} {t : Tid} {pc : Pc}
    (h : PcOk s sp F K C T t pc)
    (hn : ∀ a, (owns pc = some a ∨ a ∈ addrs (F ++ (K ++ (C ++ T)))) → s'.node a = s.node a) :
    PcOk s' sp F K C T t pc := by
  have hF : ∀ {a v}, (a, v) ∈ F → s'.node a = s.node a := fun hm =>
    hn _ (Or.inr (List.mem_map.mpr ⟨_, List.mem_append_left _ hm, rfl⟩))
  have hC : ∀ {a v}, (a, v) ∈ C → s'.node a = s.node a := fun hm =>
    hn _ (Or.inr (List.mem_map.mpr ⟨_, List.mem_append_right _ (List.mem_append_right _
      (List.mem_append_left _ hm)), rfl⟩))
  have hT : ∀ {a v}, (a, v) ∈ T → s'.node a = s.node a := fun hm =>
    hn _ (Or.inr (List.mem_map.mpr ⟨_, List.mem_append_right _ (List.mem_append_right _
      (List.mem_append_right _ hm)), rfl⟩))
  cases pc with
  | pushCas n old =>
    obtain ⟨v, h⟩ := h
    exact ⟨v, by rw [hn n (Or.inl rfl)]; exact h⟩
  | popFree p =>
    obtain ⟨nx, v, h, h'⟩ := h
    exact ⟨nx, v, by rw [hn p (Or.inl rfl)]; exact h, h'⟩
  | popCas old next =>
    obtain ⟨v, h, h'⟩ := h
    exact ⟨v, h, by rw [hF h]; exact h'⟩
  | drFilter prev curr next =>
    obtain ⟨h1, h2, h3, v, T', h4, h5⟩ := h
    exact ⟨h1, h2, h3, v, T', h4, by rw [hT (v := v) (by rw [h4]; simp)]; exact h5⟩
  | cutLoad curr next =>
    obtain ⟨h1, v, h2, h3, h4⟩ := h
    exact ⟨h1, v, h2, h3, by rw [hC (v := v) (by rw [h2]; simp)]; exact h4⟩
  | cutCas curr next =>
    obtain ⟨h1, v, h2, h3, h4⟩ := h
    exact ⟨h1, v, h2, h3, by rw [hC (v := v) (by rw [h2]; simp)]; exact h4⟩
  | cutWalk p curr next =>
    obtain ⟨h1, ⟨v, h2, h3, h4⟩, h5⟩ := h
    exact ⟨h1, ⟨v, h2, h3, by rw [hC (v := v) (by rw [h2]; simp)]; exact h4⟩, h5⟩
  | cutWrite p curr next =>
    obtain ⟨⟨v, h2, h3, h4⟩, h5⟩ := h
    exact ⟨⟨v, h2, h3, by rw [hC (v := v) (by rw [h2]; simp)]; exact h4⟩, h5⟩
  | drFree prev curr next =>
    obtain ⟨h1, h2, ⟨nx, v, h3, h4⟩, h5⟩ := h
    refine ⟨h1, h2, ⟨nx, v, by rw [hn curr (Or.inl rfl)]; exact h3, h4⟩, h5.congr ?_⟩
    intro a ha
    obtain ⟨x, hx, rfl⟩ := List.mem_map.mp ha
    exact hT (a := x.1) (v := x.2) hx
  | _ => exact h

/-- Pushing keeps what every program point knows. -/
theorem PcOk.push {s s' : State α} {sp sp' : Spec α} {F K C T : List (Nat × α)} {t : Tid} {pc : Pc}
    (h : PcOk s sp F K C T t pc) (x : Nat × α) (hnode : s'.node = s.node)
    (hc : sp'.cutting = sp.cutting) (ht : sp'.taken = sp.taken) :
    PcOk s' sp' (x :: F) K C T t pc := by
  have hprev : ∀ {prev : Nat}, PrevOk prev F K → PrevOk prev (x :: F) K := by
    intro prev h
    rcases h with h | ⟨h, w, h'⟩
    · exact Or.inl h
    · refine Or.inr ⟨h, w, ?_⟩
      cases hFK : F ++ K with
      | nil => rw [hFK] at h'; simp at h'
      | cons y l => rw [hFK] at h'; rw [List.cons_append, hFK]; simpa using h'
  have hlast : ∀ {p : Nat}, (∃ w, (F ++ K).getLast? = some (p, w)) →
      ∃ w, (x :: F ++ K).getLast? = some (p, w) := by
    rintro p ⟨w, h'⟩
    refine ⟨w, ?_⟩
    cases hFK : F ++ K with
    | nil => rw [hFK] at h'; simp at h'
    | cons y l => rw [hFK] at h'; rw [List.cons_append, hFK]; simpa using h'
  cases pc with
  | pushCas n old => simpa [PcOk, hnode] using h
  | popFree p => simpa [PcOk, hnode, ht] using h
  | popRead old => obtain ⟨v, h⟩ := h; exact ⟨v, List.mem_cons_of_mem _ h⟩
  | popCas old next =>
    obtain ⟨v, h, h'⟩ := h
    exact ⟨v, List.mem_cons_of_mem _ h, by rw [hnode]; exact h'⟩
  | drNext prev curr =>
    obtain ⟨h1, h2, h3, h4⟩ := h
    exact ⟨by rw [hc]; exact h1, h2, hprev h3, h4⟩
  | drFilter prev curr next =>
    obtain ⟨h1, h2, h3, h4⟩ := h
    exact ⟨by rw [hc]; exact h1, h2, hprev h3, by rw [hnode]; exact h4⟩
  | cutLoad curr next => simpa [PcOk, hnode, hc] using h
  | cutCas curr next => simpa [PcOk, hnode, hc] using h
  | cutWalk p curr next =>
    obtain ⟨h1, h2, w, h3⟩ := h
    exact ⟨h1, by rw [hnode, hc]; exact h2, w, List.mem_cons_of_mem _ h3⟩
  | cutWrite p curr next =>
    obtain ⟨h1, h2⟩ := h
    exact ⟨by rw [hnode, hc]; exact h1, hlast h2⟩
  | drFree prev curr next =>
    obtain ⟨h1, h2, h3, h4⟩ := h
    exact ⟨h1, hprev h2, by rw [hnode, hc]; exact h3, by rw [hnode]; exact h4⟩
  | _ => trivial

/-- Moving a context without effects. -/
theorem Inv.goto {s : State α} {sp : Spec α} {F K C T : List (Nat × α)} {ex : Option Tid}
    (inv : Inv s sp F K C T ex) (t : Tid) (pc : Pc) (h1 : owns pc = owns (s.pc t))
    (h2 : Draining pc = Draining (s.pc t)) (hex : ∀ u, ex = some u → u = t)
    (h3 : PcOk s sp F K C T t pc) : Inv (s.goto t pc) sp F K C T none := by
  have ho : ∀ u, owns ((s.goto t pc).pc u) = owns (s.pc u) := by
    intro u
    by_cases e : u = t
    · subst e; rw [goto_pc_self, h1]
    · rw [goto_pc_ne _ _ e]
  have hd : ∀ u, Draining ((s.goto t pc).pc u) = Draining (s.pc u) := by
    intro u
    by_cases e : u = t
    · subst e; rw [goto_pc_self, h2]
    · rw [goto_pc_ne _ _ e]
  refine ⟨inv.holds, inv.nodup, inv.front, inv.kept, inv.todo, ?_, ?_, ?_, ?_, ?_, ?_⟩
  · intro u a hu; rw [ho] at hu; exact inv.own u a hu
  · intro u v a hu hv; rw [ho] at hu hv; exact inv.ownApart u v a hu hv
  · intro a ha
    rcases inv.complete a ha with h | ⟨u, hu⟩
    · exact Or.inl h
    · exact Or.inr ⟨u, by rw [ho]; exact hu⟩
  · intro ha
    obtain ⟨g1, g2, g3, g4, g5⟩ := inv.inactive ha
    exact ⟨g1, g2, g3, g4, fun u => by rw [hd]; exact g5 u⟩
  · intro ha
    obtain ⟨u, hu⟩ := inv.active ha
    exact ⟨u, by rw [hd]; exact hu⟩
  · intro u _
    by_cases e : u = t
    · subst e
      rw [goto_pc_self]
      exact h3.frame (fun _ _ => rfl)
    · rw [goto_pc_ne _ _ e]
      exact (inv.ok u (fun h => e (hex u h))).frame (fun _ _ => rfl)

/-- A context takes a new node. -/
theorem Inv.allocate {s : State α} {sp : Spec α} {F K C T : List (Nat × α)}
    (inv : Inv s sp F K C T none) (t : Tid) (a : Nat) (v : α) (hidle : s.pc t = .idle)
    (ha : a ≠ 0) (hnone : s.node a = none) :
    Inv ((s.put a (some (0, v))).goto t (.pushLoad a)) sp F K C T none := by
  have hchain : a ∉ addrs (F ++ (K ++ (C ++ T))) := by
    intro h
    obtain ⟨x, hx, rfl⟩ := List.mem_map.mp h
    obtain ⟨_, nx, h⟩ := inv.holds.mem (a := x.1) (v := x.2) hx
    rw [hnone] at h
    simp at h
  have hown : ∀ u, owns (s.pc u) ≠ some a := fun u hu => (inv.own u a hu).2.1 hnone
  have ho : ∀ u, u ≠ t → ((s.put a (some (0, v))).goto t (.pushLoad a)).pc u = s.pc u :=
    fun u hu => goto_pc_ne _ _ hu
  have ht : ((s.put a (some (0, v))).goto t (.pushLoad a)).pc t = .pushLoad a := goto_pc_self ..
  have hnode : ∀ b, b ≠ a → ((s.put a (some (0, v))).goto t (.pushLoad a)).node b = s.node b := by
    intro b hb; simp [State.goto, State.put, hb]
  refine ⟨?_, inv.nodup, inv.front, inv.kept, inv.todo, ?_, ?_, ?_, ?_, ?_, ?_⟩
  · exact inv.holds.congr (fun b hb => hnode b (fun e => hchain (e ▸ hb)))
  · intro u b hu
    by_cases e : u = t
    · subst e
      rw [ht] at hu
      simp only [owns, Option.some.injEq] at hu
      subst hu
      exact ⟨ha, by simp [State.goto, State.put], hchain⟩
    · rw [ho u e] at hu
      obtain ⟨g1, g2, g3⟩ := inv.own u b hu
      have : b ≠ a := fun e => hown u (e ▸ hu)
      exact ⟨g1, by rw [hnode b this]; exact g2, g3⟩
  · intro u w b hu hw
    by_cases e : u = t <;> by_cases e' : w = t
    · rw [e, e']
    · subst e
      rw [ht] at hu; rw [ho w e'] at hw
      simp only [owns, Option.some.injEq] at hu
      subst hu
      exact absurd hw (hown w)
    · subst e'
      rw [ht] at hw; rw [ho u e] at hu
      simp only [owns, Option.some.injEq] at hw
      subst hw
      exact absurd hu (hown u)
    · rw [ho u e] at hu; rw [ho w e'] at hw
      exact inv.ownApart u w b hu hw
  · intro b hb
    by_cases e : b = a
    · subst e
      exact Or.inr ⟨t, by rw [ht]; rfl⟩
    · rw [hnode b e] at hb
      rcases inv.complete b hb with h | ⟨u, hu⟩
      · exact Or.inl h
      · have : u ≠ t := by rintro rfl; rw [hidle] at hu; simp [owns] at hu
        exact Or.inr ⟨u, by rw [ho u this]; exact hu⟩
  · intro h
    obtain ⟨g1, g2, g3, g4, g5⟩ := inv.inactive h
    refine ⟨g1, g2, g3, g4, fun u => ?_⟩
    by_cases e : u = t
    · subst e; rw [ht]; rfl
    · rw [ho u e]; exact g5 u
  · intro h
    obtain ⟨u, hu⟩ := inv.active h
    have : u ≠ t := by rintro rfl; rw [hidle] at hu; simp [Draining] at hu
    exact ⟨u, by rw [ho u this]; exact hu⟩
  · intro u _
    by_cases e : u = t
    · subst e; rw [ht]; trivial
    · rw [ho u e]
      refine (inv.ok u (by simp)).frame (fun b hb => hnode b ?_)
      rintro rfl
      rcases hb with hb | hb
      · exact hown u hb
      · exact hchain hb

/-- A context writes its own node. -/
theorem Inv.putOwn {s : State α} {sp : Spec α} {F K C T : List (Nat × α)}
    (inv : Inv s sp F K C T none) (t : Tid) (n old : Nat) (v : α) (pc : Pc)
    (h0 : owns (s.pc t) = some n) (h1 : owns pc = some n)
    (h2 : Draining (s.pc t) = false) (h3 : Draining pc = false)
    (h4 : PcOk (s.put n (some (old, v))) sp F K C T t pc) :
    Inv ((s.put n (some (old, v))).goto t pc) sp F K C T none := by
  obtain ⟨o1, o2, o3⟩ := inv.own t n h0
  have hnode : ∀ b, b ≠ n → (s.put n (some (old, v))).node b = s.node b := by
    intro b hb; simp [State.put, hb]
  have hsome : (s.put n (some (old, v))).node n = some (old, v) := by simp [State.put]
  have base : Inv (s.put n (some (old, v))) sp F K C T (some t) := by
    refine ⟨?_, inv.nodup, inv.front, inv.kept, inv.todo, ?_, inv.ownApart, ?_, inv.inactive,
      inv.active, ?_⟩
    · exact inv.holds.congr (fun b hb => hnode b (fun e => o3 (e ▸ hb)))
    · intro u b hu
      obtain ⟨g1, g2, g3⟩ := inv.own u b hu
      refine ⟨g1, ?_, g3⟩
      by_cases e : b = n
      · subst e; rw [hsome]; simp
      · rw [hnode b e]; exact g2
    · intro b hb
      by_cases e : b = n
      · subst e; exact Or.inr ⟨t, h0⟩
      · rw [hnode b e] at hb; exact inv.complete b hb
    · intro u hu
      have hut : u ≠ t := fun e => hu (by rw [e])
      refine (inv.ok u (by simp)).frame (fun b hb => hnode b ?_)
      rintro rfl
      rcases hb with hb | hb
      · exact hut (inv.ownApart u t b hb h0)
      · exact o3 hb
  exact base.goto t pc (by rw [h1]; exact h0.symm) (by rw [h3]; exact h2.symm)
    (by intro u hu; simpa using hu.symm) h4

/-- A push takes effect. -/
theorem Inv.push {s : State α} {sp : Spec α} {F K C T : List (Nat × α)}
    (inv : Inv s sp F K C T none) (t : Tid) (n : Nat) (v : α) (h0 : owns (s.pc t) = some n)
    (hd : Draining (s.pc t) = false) (hn : s.node n = some (s.head, v)) :
    Inv { s.goto t .idle with head := n } { sp with front := v :: sp.front } ((n, v) :: F) K C T none := by
  obtain ⟨o1, o2, o3⟩ := inv.own t n h0
  have ho : ∀ u, u ≠ t → (s.goto t .idle).pc u = s.pc u := fun u hu => goto_pc_ne _ _ hu
  have ht : (s.goto t .idle).pc t = .idle := goto_pc_self ..
  have hown : ∀ u a, owns ((s.goto t .idle).pc u) = some a → u ≠ t ∧ owns (s.pc u) = some a := by
    intro u a hu
    have : u ≠ t := by rintro rfl; rw [ht] at hu; simp [owns] at hu
    exact ⟨this, by rw [ho u this] at hu; exact hu⟩
  refine ⟨⟨rfl, o1, s.head, hn, inv.holds⟩, ?_, ?_, inv.kept, inv.todo, ?_, ?_, ?_, ?_, ?_, ?_⟩
  · exact List.nodup_cons.mpr ⟨o3, inv.nodup⟩
  · simp [inv.front]
  · intro u a hu
    obtain ⟨hut, hu⟩ := hown u a hu
    obtain ⟨g1, g2, g3⟩ := inv.own u a hu
    refine ⟨g1, g2, ?_⟩
    simp only [List.cons_append, addrs, List.map_cons, List.mem_cons, not_or]
    exact ⟨fun e => hut (inv.ownApart u t a hu (e ▸ h0)), g3⟩
  · intro u w a hu hw
    exact inv.ownApart u w a (hown u a hu).2 (hown w a hw).2
  · intro a ha
    rcases inv.complete a ha with h | ⟨u, hu⟩
    · exact Or.inl (List.mem_cons_of_mem _ h)
    · by_cases e : u = t
      · subst e
        rw [h0] at hu
        simp only [Option.some.injEq] at hu
        subst hu
        exact Or.inl (by simp [addrs])
      · exact Or.inr ⟨u, by show owns ((s.goto t .idle).pc u) = _; rw [ho u e]; exact hu⟩
  · intro h
    obtain ⟨g1, g2, g3, g4, g5⟩ := inv.inactive h
    refine ⟨g1, g2, g3, g4, fun u => ?_⟩
    show Draining ((s.goto t .idle).pc u) = false
    by_cases e : u = t
    · subst e; rw [ht]; rfl
    · rw [ho u e]; exact g5 u
  · intro h
    obtain ⟨u, hu⟩ := inv.active h
    have : u ≠ t := by rintro rfl; rw [hd] at hu; simp at hu
    exact ⟨u, by show Draining ((s.goto t .idle).pc u) = true; rw [ho u this]; exact hu⟩
  · intro u _
    show PcOk _ _ _ _ _ _ u ((s.goto t .idle).pc u)
    by_cases e : u = t
    · subst e; rw [ht]; trivial
    · rw [ho u e]
      exact (inv.ok u (by simp)).push (n, v) rfl rfl rfl

/-- A pop takes effect. -/
theorem Inv.pop {s : State α} {sp : Spec α} {p : Nat} {v : α} {F : List (Nat × α)}
    (inv : Inv s sp ((p, v) :: F) [] [] [] none) (ha : sp.active = false) (t : Tid) {next : Nat}
    (h0 : owns (s.pc t) = none) (hn : s.node p = some (next, v))
    (hother : ∀ u, u ≠ t → PopMid (s.pc u) = false) :
    Inv { s.goto t (.popFree p) with head := next }
      { sp with front := sp.front.tail, taken := fun u => if u = t then some v else sp.taken u }
      F [] [] [] none := by
  have hnd := List.nodup_cons.mp inv.nodup
  obtain ⟨hh, hp0, nx, hnx, hrest⟩ := inv.holds
  have hnx' : nx = next := by
    rw [hn] at hnx
    simp only [Option.some.injEq, Prod.mk.injEq] at hnx
    exact hnx.1.symm
  subst hnx'
  have ho : ∀ u, u ≠ t → (s.goto t (.popFree p)).pc u = s.pc u := fun u hu => goto_pc_ne _ _ hu
  have ht : (s.goto t (.popFree p)).pc t = .popFree p := goto_pc_self ..
  obtain ⟨_, _, _, i4, i5⟩ := inv.inactive ha
  have hpchain : ∀ u a, owns (s.pc u) = some a → a ≠ p := by
    rintro u a hu rfl
    exact (inv.own u a hu).2.2 (by simp [addrs])
  refine ⟨hrest, hnd.2, ?_, inv.kept, inv.todo, ?_, ?_, ?_, ?_, ?_, ?_⟩
  · simp [inv.front]
  · intro u a hu
    have hu : owns ((s.goto t (.popFree p)).pc u) = some a := hu
    by_cases e : u = t
    · subst e
      rw [ht] at hu
      simp only [owns, Option.some.injEq] at hu
      subst hu
      exact ⟨hp0, by show s.node p ≠ none; rw [hn]; simp, hnd.1⟩
    · rw [ho u e] at hu
      obtain ⟨g1, g2, g3⟩ := inv.own u a hu
      exact ⟨g1, g2, fun h => g3 (List.mem_cons_of_mem _ h)⟩
  · intro u w a hu hw
    have hu : owns ((s.goto t (.popFree p)).pc u) = some a := hu
    have hw : owns ((s.goto t (.popFree p)).pc w) = some a := hw
    by_cases e : u = t <;> by_cases e' : w = t
    · rw [e, e']
    · subst e
      rw [ht] at hu; rw [ho w e'] at hw
      simp only [owns, Option.some.injEq] at hu
      exact absurd hu.symm (hpchain w a hw)
    · subst e'
      rw [ht] at hw; rw [ho u e] at hu
      simp only [owns, Option.some.injEq] at hw
      exact absurd hw.symm (hpchain u a hu)
    · rw [ho u e] at hu; rw [ho w e'] at hw
      exact inv.ownApart u w a hu hw
  · intro a ha
    rcases inv.complete a ha with h | ⟨u, hu⟩
    · simp only [List.append_nil, addrs, List.map_cons, List.mem_cons] at h
      rcases h with rfl | h
      · exact Or.inr ⟨t, by show owns ((s.goto t (.popFree a)).pc t) = _; rw [ht]; rfl⟩
      · exact Or.inl (by simpa using h)
    · have : u ≠ t := by rintro rfl; rw [h0] at hu; simp at hu
      exact Or.inr ⟨u, by show owns ((s.goto t (.popFree p)).pc u) = _; rw [ho u this]; exact hu⟩
  · intro h
    refine ⟨rfl, rfl, rfl, i4, fun u => ?_⟩
    show Draining ((s.goto t (.popFree p)).pc u) = false
    by_cases e : u = t
    · subst e; rw [ht]; rfl
    · rw [ho u e]; exact i5 u
  · intro h
    simp only [ha] at h
    simp at h
  · intro u _
    show PcOk _ _ _ _ _ _ u ((s.goto t (.popFree p)).pc u)
    by_cases e : u = t
    · subst e; rw [ht]
      exact ⟨nx, v, hn, by simp⟩
    · rw [ho u e]
      exact (inv.ok u (by simp)).nonrem (i5 u) (hother u e) (fun _ _ => rfl) (by simp [e])

/-- A context releases its own node. -/
theorem Inv.freeOwn {s : State α} {sp sp' : Spec α} {F K C T : List (Nat × α)}
    (inv : Inv s sp F K C T none) (t : Tid) (n : Nat) (pc : Pc)
    (h0 : owns (s.pc t) = some n) (h1 : owns pc = none) (h2 : Draining pc = Draining (s.pc t))
    (hf : sp'.front = sp.front) (hk : sp'.kept = sp.kept) (ht : sp'.todo = sp.todo)
    (ha : sp'.active = sp.active) (hc : sp'.cutting = sp.cutting ∨ sp.active = true)
    (hother : ∀ u, u ≠ t → PcOk s sp' F K C T u (s.pc u)) :
    Inv ((s.put n none).goto t pc) sp' F K C T (some t) := by
  obtain ⟨o1, o2, o3⟩ := inv.own t n h0
  have hnode : ∀ b, b ≠ n → (s.put n none).node b = s.node b := by
    intro b hb; simp [State.put, hb]
  have hpc : (s.put n none).pc = s.pc := rfl
  have ho : ∀ u, u ≠ t → ((s.put n none).goto t pc).pc u = s.pc u := fun u hu => goto_pc_ne _ _ hu
  have htt : ((s.put n none).goto t pc).pc t = pc := goto_pc_self ..
  have hown : ∀ u a, owns (((s.put n none).goto t pc).pc u) = some a → u ≠ t ∧ owns (s.pc u) = some a := by
    intro u a hu
    have : u ≠ t := by rintro rfl; rw [htt, h1] at hu; simp at hu
    exact ⟨this, by rw [ho u this] at hu; exact hu⟩
  have hdr : ∀ u, Draining (((s.put n none).goto t pc).pc u) = Draining (s.pc u) := by
    intro u
    by_cases e : u = t
    · subst e; rw [htt, h2]
    · rw [ho u e]
  refine ⟨?_, inv.nodup, by rw [hf, inv.front], by rw [hk, inv.kept], by rw [ht, inv.todo],
    ?_, ?_, ?_, ?_, ?_, ?_⟩
  · exact inv.holds.congr (fun b hb => hnode b (fun e => o3 (e ▸ hb)))
  · intro u a hu
    obtain ⟨hut, hu⟩ := hown u a hu
    obtain ⟨g1, g2, g3⟩ := inv.own u a hu
    have : a ≠ n := fun e => hut (inv.ownApart u t a hu (e ▸ h0))
    exact ⟨g1, by show (s.put n none).node a ≠ none; rw [hnode a this]; exact g2, g3⟩
  · intro u w a hu hw
    exact inv.ownApart u w a (hown u a hu).2 (hown w a hw).2
  · intro a h
    have h : (s.put n none).node a ≠ none := h
    by_cases e : a = n
    · subst e; simp [State.put] at h
    · rw [hnode a e] at h
      rcases inv.complete a h with h | ⟨u, hu⟩
      · exact Or.inl h
      · have : u ≠ t := by
          rintro rfl
          rw [h0] at hu
          simp only [Option.some.injEq] at hu
          exact e hu.symm
        exact Or.inr ⟨u, by rw [ho u this]; exact hu⟩
  · intro h
    rw [ha] at h
    obtain ⟨g1, g2, g3, g4, g5⟩ := inv.inactive h
    refine ⟨g1, g2, g3, ?_, fun u => by rw [hdr]; exact g5 u⟩
    rcases hc with hc | hc
    · rw [hc, g4]
    · rw [h] at hc; simp at hc
  · intro h
    rw [ha] at h
    obtain ⟨u, hu⟩ := inv.active h
    exact ⟨u, by rw [hdr]; exact hu⟩
  · intro u hu
    have hut : u ≠ t := fun e => hu (by rw [e])
    rw [ho u hut]
    refine (hother u hut).frame (fun b hb => hnode b ?_)
    rintro rfl
    rcases hb with hb | hb
    · exact hut (inv.ownApart u t b hb h0)
    · exact o3 hb

/-- The loop condition of the drain. -/
theorem Inv.drTest {s : State α} {sp : Spec α} {F K T : List (Nat × α)} [DecidableEq α]
    (t : Tid) (inv : Inv s sp F K [] T (some t)) (ha : sp.active = true)
    (hd : Draining (s.pc t) = true) (ho : owns (s.pc t) = none) (hc : sp.cutting = none)
    {prev curr : Nat} (hp : PrevOk prev F K) (hcurr : Holds s.node curr T)
    (hsolo : ∀ u, u ≠ t → Draining (s.pc u) = false)
    (hpop : ∀ u, PopMid (s.pc u) = false) :
    ∃ sp' F' K' T', Spec.run sp (Conc.drTest s t prev curr).2 = some sp' ∧
      Inv (Conc.drTest s t prev curr).1 sp' F' K' [] T' none := by
  unfold Conc.drTest
  by_cases h0 : curr = 0
  · rw [if_pos h0]
    subst h0
    have hT := hcurr.nil
    subst hT
    have htodo : sp.todo = [] := by rw [inv.todo]; rfl
    refine ⟨{ sp with active := false, front := sp.front ++ sp.kept, kept := [] }, F ++ K, [], [],
      by simp [Spec.run, Spec.step, ha, hc, htodo], ?_⟩
    have hpc : ∀ u, u ≠ t → (s.goto t .idle).pc u = s.pc u := fun u hu => goto_pc_ne _ _ hu
    have ht : (s.goto t .idle).pc t = .idle := goto_pc_self ..
    have hown : ∀ u, owns ((s.goto t .idle).pc u) = owns (s.pc u) := by
      intro u
      by_cases e : u = t
      · subst e; rw [ht, ho]; rfl
      · rw [hpc u e]
    refine ⟨by simpa [State.goto] using inv.holds, by simpa using inv.nodup, by simp [inv.front, inv.kept], rfl,
      by simpa using inv.todo, ?_, ?_, ?_, ?_, by simp, ?_⟩
    · intro u a hu; rw [hown] at hu; simpa [State.goto] using inv.own u a hu
    · intro u w a hu hw; rw [hown] at hu hw; exact inv.ownApart u w a hu hw
    · intro a h
      rcases inv.complete a h with h | ⟨u, hu⟩
      · exact Or.inl (by simpa using h)
      · exact Or.inr ⟨u, by rw [hown]; exact hu⟩
    · intro _
      refine ⟨rfl, rfl, rfl, hc, fun u => ?_⟩
      by_cases e : u = t
      · subst e; rw [ht]; rfl
      · rw [hpc u e]; exact hsolo u e
    · intro u _
      by_cases e : u = t
      · subst e; rw [ht]; trivial
      · rw [hpc u e]
        exact (inv.ok u (by simpa using fun h => e h.symm)).nonrem (hsolo u e) (hpop u) (fun _ _ => rfl) rfl
  · rw [if_neg h0]
    obtain ⟨v, T', hT⟩ := hcurr.top h0
    refine ⟨sp, F, K, T, rfl, ?_⟩
    exact inv.goto t _ (by rw [ho]; rfl) (by rw [hd]; rfl) (by intro u hu; simpa using hu.symm)
      ⟨hc, rfl, hp, v, T', hT⟩

/-- A drain starts. -/
theorem Inv.start {s : State α} {sp : Spec α} {F : List (Nat × α)}
    (inv : Inv s sp F [] [] [] none) (ha : sp.active = false) (t : Tid)
    (h0 : owns (s.pc t) = none) (hpop : ∀ u, PopMid (s.pc u) = false) :
    Inv (s.goto t (.drNext 0 s.head)) { sp with active := true, front := [], todo := sp.front }
      [] [] [] F (some t) := by
  obtain ⟨_, _, _, i4, i5⟩ := inv.inactive ha
  have hpc : ∀ u, u ≠ t → (s.goto t (.drNext 0 s.head)).pc u = s.pc u := fun u hu => goto_pc_ne _ _ hu
  have ht : (s.goto t (.drNext 0 s.head)).pc t = .drNext 0 s.head := goto_pc_self ..
  have hown : ∀ u, owns ((s.goto t (.drNext 0 s.head)).pc u) = owns (s.pc u) := by
    intro u
    by_cases e : u = t
    · subst e; rw [ht, h0]; rfl
    · rw [hpc u e]
  refine ⟨by simpa [State.goto] using inv.holds, by simpa using inv.nodup, rfl, by simpa using inv.kept,
    inv.front, ?_, ?_, ?_, by simp, ?_, ?_⟩
  · intro u a hu; rw [hown] at hu; simpa [State.goto] using inv.own u a hu
  · intro u w a hu hw; rw [hown] at hu hw; exact inv.ownApart u w a hu hw
  · intro a h
    rcases inv.complete a h with h | ⟨u, hu⟩
    · exact Or.inl (by simpa using h)
    · exact Or.inr ⟨u, by rw [hown]; exact hu⟩
  · intro _
    exact ⟨t, by rw [ht]; rfl⟩
  · intro u hu
    have hut : u ≠ t := fun e => hu (by rw [e])
    rw [hpc u hut]
    exact (inv.ok u (by simp)).nonrem (i5 u) (hpop u) (fun _ _ => rfl) rfl

/-- The drain keeps a node. -/
theorem Inv.keep {s : State α} {sp : Spec α} {F K T : List (Nat × α)} {c : Nat} {v : α} (t : Tid)
    (inv : Inv s sp F K [] ((c, v) :: T) none) (ha : sp.active = true)
    (hsolo : ∀ u, u ≠ t → Draining (s.pc u) = false)
    (hpop : ∀ u, PopMid (s.pc u) = false) :
    Inv s { sp with todo := sp.todo.tail, kept := sp.kept ++ [v] } F (K ++ [(c, v)]) [] T (some t) := by
  have e : F ++ (K ++ [(c, v)] ++ ([] ++ T)) = F ++ (K ++ ([] ++ (c, v) :: T)) := by simp
  refine ⟨by rw [e]; exact inv.holds, by rw [e]; exact inv.nodup, inv.front, by simp [inv.kept],
    by simp [inv.todo], by rw [e]; exact inv.own, inv.ownApart, by rw [e]; exact inv.complete,
    ?_, inv.active, ?_⟩
  · intro h; simp [ha] at h
  · intro u hu
    have hut : u ≠ t := fun e => hu (by rw [e])
    exact (inv.ok u (by simp)).nonrem (hsolo u hut) (hpop u) (fun _ _ => rfl) rfl

/-- The drain selects a node. -/
theorem Inv.select {s : State α} {sp : Spec α} {F K T : List (Nat × α)} {c : Nat} {v : α} (t : Tid)
    (inv : Inv s sp F K [] ((c, v) :: T) none) (ha : sp.active = true)
    (hsolo : ∀ u, u ≠ t → Draining (s.pc u) = false)
    (hpop : ∀ u, PopMid (s.pc u) = false) :
    Inv s { sp with todo := sp.todo.tail, cutting := some v } F K [(c, v)] T (some t) := by
  have e : F ++ (K ++ ([(c, v)] ++ T)) = F ++ (K ++ ([] ++ (c, v) :: T)) := by simp
  refine ⟨by rw [e]; exact inv.holds, by rw [e]; exact inv.nodup, inv.front, inv.kept,
    by simp [inv.todo], by rw [e]; exact inv.own, inv.ownApart, by rw [e]; exact inv.complete,
    ?_, inv.active, ?_⟩
  · intro h; simp [ha] at h
  · intro u hu
    have hut : u ≠ t := fun e => hu (by rw [e])
    exact (inv.ok u (by simp)).nonrem (hsolo u hut) (hpop u) (fun _ _ => rfl) rfl

/-- The selected node leaves the list: `s'` has the new links. -/
theorem Inv.unlink {s s' : State α} {sp : Spec α} {F K T : List (Nat × α)} {c : Nat} {v : α} {t : Tid}
    (inv : Inv s sp F K [(c, v)] T none) (ha : sp.active = true) {prev next : Nat}
    (hpc : s'.pc = s.pc) (ho : owns (s.pc t) = none) (hd : Draining (s.pc t) = true)
    (hholds : Holds s'.node s'.head (F ++ (K ++ ([] ++ T))))
    (hdom : ∀ a, s'.node a ≠ none ↔ s.node a ≠ none)
    (hrest : Holds s'.node next T) (hprev : PrevOk prev F K)
    (hown : ∀ u a, owns (s.pc u) = some a → s'.node a = s.node a)
    (hv : ∃ nx, s'.node c = some (nx, v)) (hcut : sp.cutting = some v)
    (hsolo : ∀ u, u ≠ t → Draining (s.pc u) = false)
    (hpop : ∀ u, PopMid (s.pc u) = false) :
    Inv (s'.goto t (.drFree prev c next)) sp F K [] T none := by
  have hnd : (addrs (F ++ (K ++ ([(c, v)] ++ T)))).Nodup := inv.nodup
  have hperm : (addrs (F ++ (K ++ ([(c, v)] ++ T)))).Perm (c :: addrs (F ++ (K ++ ([] ++ T)))) := by
    have : (F ++ (K ++ ([(c, v)] ++ T))).Perm ((c, v) :: (F ++ (K ++ ([] ++ T)))) := by
      have h := List.perm_middle (a := (c, v)) (l₁ := F ++ K) (l₂ := T)
      simpa using h
    simpa using this.map Prod.fst
  have hnd' := List.nodup_cons.mp (hperm.nodup_iff.mp hnd)
  have hc0 : c ≠ 0 := (inv.holds.mem (a := c) (v := v) (by simp)).1
  have hpcu : ∀ u, u ≠ t → (s'.goto t (.drFree prev c next)).pc u = s.pc u := by
    intro u hu; rw [goto_pc_ne _ _ hu, hpc]
  have ht : (s'.goto t (.drFree prev c next)).pc t = .drFree prev c next := goto_pc_self ..
  have hcown : ∀ u a, owns (s.pc u) = some a → a ≠ c := by
    rintro u a hu rfl
    exact (inv.own u a hu).2.2 (hperm.mem_iff.mpr (by simp))
  refine ⟨hholds, hnd'.2, inv.front, inv.kept, inv.todo, ?_, ?_, ?_, ?_, ?_, ?_⟩
  · intro u a hu
    by_cases e : u = t
    · subst e
      rw [ht] at hu
      simp only [owns, Option.some.injEq] at hu
      subst hu
      obtain ⟨nx, hv⟩ := hv
      exact ⟨hc0, by show s'.node c ≠ none; rw [hv]; simp, hnd'.1⟩
    · rw [hpcu u e] at hu
      obtain ⟨g1, g2, g3⟩ := inv.own u a hu
      exact ⟨g1, (hdom a).mpr g2, fun h => g3 (hperm.mem_iff.mpr (List.mem_cons_of_mem _ h))⟩
  · intro u w a hu hw
    by_cases e : u = t <;> by_cases e' : w = t
    · rw [e, e']
    · subst e
      rw [ht] at hu; rw [hpcu w e'] at hw
      simp only [owns, Option.some.injEq] at hu
      exact absurd hu.symm (hcown w a hw)
    · subst e'
      rw [ht] at hw; rw [hpcu u e] at hu
      simp only [owns, Option.some.injEq] at hw
      exact absurd hw.symm (hcown u a hu)
    · rw [hpcu u e] at hu; rw [hpcu w e'] at hw
      exact inv.ownApart u w a hu hw
  · intro a h
    rcases inv.complete a ((hdom a).mp h) with h | ⟨u, hu⟩
    · rcases List.mem_cons.mp (hperm.mem_iff.mp h) with rfl | h
      · exact Or.inr ⟨t, by rw [ht]; rfl⟩
      · exact Or.inl h
    · have : u ≠ t := by rintro rfl; rw [ho] at hu; simp at hu
      exact Or.inr ⟨u, by rw [hpcu u this]; exact hu⟩
  · intro h; simp [ha] at h
  · intro _
    exact ⟨t, by rw [ht]; rfl⟩
  · intro u _
    by_cases e : u = t
    · subst e
      rw [ht]
      obtain ⟨nx, hv⟩ := hv
      exact ⟨rfl, hprev, ⟨nx, v, hv, hcut⟩, hrest⟩
    · rw [hpcu u e]
      exact (inv.ok u (by simp)).nonrem (hsolo u e) (hpop u) (fun a h => hown u a h) rfl

end Verif.LinkedList.Conc
