import Verif.LinkedList.Spec
/-! # Lemmas for the sequential list -/
namespace Verif.LinkedList

theorem Chain.length {α : Type} {node : Nat → Option (Nat × α)} : ∀ {as : List Nat} {p : Nat} {l : List α},
    Chain node p as l → as.length = l.length
  | [], _, [], _ => rfl
  | a :: as, _, v :: l, ⟨_, _, _, _, h⟩ => by simp [Chain.length h]
  | [], _, _ :: _, h => h.elim
  | _ :: _, _, [], h => h.elim

theorem Chain.congr {α : Type} {node node' : Nat → Option (Nat × α)} :
    ∀ {as : List Nat} {p : Nat} {l : List α}, Chain node p as l → (∀ a ∈ as, node' a = node a) →
    Chain node' p as l
  | [], _, [], h, _ => h
  | a :: as, _, v :: l, ⟨h1, h2, next, h3, h4⟩, hc =>
    ⟨h1, h2, next, by rw [hc a (by simp)]; exact h3, Chain.congr h4 (fun b hb => hc b (by simp [hb]))⟩
  | [], _, _ :: _, h, _ => h.elim
  | _ :: _, _, [], h, _ => h.elim

/-- The memory represents the stack `l`: its nodes are linked from the head, are
distinct, and no other node is allocated. -/
structure Rep {α : Type} (m : Mem α) (as : List Nat) (l : List α) : Prop where
  chain : Chain m.node m.head as l
  nodup : as.Nodup
  only : ∀ a, m.node a ≠ none → a ∈ as
  old : ∀ a ∈ as, a < m.fresh
  pos : 0 < m.fresh

theorem new_rep (α : Type) : Rep (Mem.new α) [] [] :=
  ⟨rfl, List.nodup_nil, by simp [Mem.new], by simp, by simp [Mem.new]⟩

/-- Nodup lists of numbers below a bound are short. -/
theorem length_le_of_nodup_lt : ∀ (n : Nat) (as : List Nat), as.Nodup → (∀ a ∈ as, a < n) →
    as.length ≤ n
  | 0, [], _, _ => by simp
  | 0, a :: as, _, h => absurd (h a (by simp)) (by omega)
  | n + 1, as, hn, h => by
    have h1 : (as.erase n).Nodup := hn.erase n
    have h2 : ∀ a ∈ as.erase n, a < n := by
      intro a ha
      have := h a (List.mem_of_mem_erase ha)
      have hne : a ≠ n := fun e => hn.not_mem_erase (e ▸ ha)
      omega
    have h3 := length_le_of_nodup_lt n _ h1 h2
    have : as.length ≤ (as.erase n).length + 1 := by
      rw [List.length_erase]
      split <;> omega
    omega

theorem Rep.fuel {α : Type} {m : Mem α} {as : List Nat} {l : List α} (h : Rep m as l) :
    as.length < m.fresh + 1 := by
  have := length_le_of_nodup_lt m.fresh as h.nodup h.old
  omega

theorem push_rep {α : Type} {m : Mem α} {as : List Nat} {l : List α} (h : Rep m as l) (v : α) :
    ∃ m', push m v = some m' ∧ Rep m' (m.fresh :: as) (v :: l) := by
  refine ⟨{ head := m.fresh, fresh := m.fresh + 1,
            node := fun x => if x = m.fresh then some (m.head, v)
              else if x = m.fresh then some (0, v) else m.node x }, ?_, ?_⟩
  · simp only [push, Mem.alloc, pushRaw, Mem.setNext, Mem.put, if_true]
    rfl
  · have hne : ∀ a ∈ as, a ≠ m.fresh := fun a ha e => by
      have := h.old a ha; omega
    refine ⟨⟨rfl, by have := h.pos; omega, m.head, by simp, ?_⟩, ?_, ?_, ?_, ?_⟩
    · refine h.chain.congr (fun a ha => ?_)
      simp [hne a ha]
    · exact List.nodup_cons.mpr ⟨fun hm => hne _ hm rfl, h.nodup⟩
    · intro a ha
      by_cases e : a = m.fresh
      · simp [e]
      · simp only [e, if_false] at ha
        exact List.mem_cons_of_mem _ (h.only a ha)
    · intro a ha
      rcases List.mem_cons.mp ha with rfl | ha
      · simp
      · have := h.old a ha; simp only; omega
    · simp

/-- Removing the top node. -/
theorem Rep.tail {α : Type} {m : Mem α} {a : Nat} {as : List Nat} {v : α} {l : List α} {next : Nat}
    (h : Rep m (a :: as) (v :: l)) (hn : m.node a = some (next, v)) :
    Rep ({ m with head := next }.put a none) as l := by
  obtain ⟨hc, hnd, ho, hold, hp⟩ := h
  obtain ⟨h1, h2, nx, h3, h4⟩ := hc
  rw [hn] at h3
  simp only [Option.some.injEq, Prod.mk.injEq] at h3
  obtain ⟨rfl, -⟩ := h3
  have hnd' := List.nodup_cons.mp hnd
  refine ⟨?_, hnd'.2, ?_, fun b hb => hold b (by simp [hb]), hp⟩
  · refine h4.congr (fun b hb => ?_)
    have : b ≠ a := fun e => hnd'.1 (e ▸ hb)
    simp [Mem.put, this]
  · intro b hb
    by_cases e : b = a
    · simp [Mem.put, e] at hb
    · simp only [Mem.put, e, if_false] at hb
      rcases List.mem_cons.mp (ho b hb) with h | h
      · exact absurd h e
      · exact h

theorem pop_rep {α : Type} {m : Mem α} {as : List Nat} {l : List α} (h : Rep m as l) :
    ∃ m' as', pop m = some (l.head?, m') ∧ Rep m' as' l.tail := by
  match as, l, h with
  | [], [], h =>
    have e : m.head = 0 := h.chain
    exact ⟨m, [], by simp [pop, popRaw, e], h⟩
  | a :: as, v :: l, h =>
    obtain ⟨h1, h2, next, h3, h4⟩ := h.chain
    have h3' : m.node m.head = some (next, v) := by rw [h1]; exact h3
    refine ⟨({ m with head := next }.put a none), as, ?_, h.tail h3⟩
    simp [pop, popRaw, h1, h2, h3, Mem.free, Mem.put]
  | [], _ :: _, h => exact h.chain.elim
  | _ :: _, [], h => exact h.chain.elim

theorem intoIterNext_rep {α : Type} {m : Mem α} {as : List Nat} {l : List α} (h : Rep m as l) :
    ∃ m' as', intoIterNext m = some (l.head?, m') ∧ Rep m' as' l.tail := by
  match as, l, h with
  | [], [], h =>
    have e : m.head = 0 := h.chain
    exact ⟨m, [], by simp [intoIterNext, e], h⟩
  | a :: as, v :: l, h =>
    obtain ⟨h1, h2, next, h3, h4⟩ := h.chain
    refine ⟨({ m with head := next }.put a none), as, ?_, h.tail h3⟩
    simp [intoIterNext, h1, h2, h3, Mem.free, Mem.put]
  | [], _ :: _, h => exact h.chain.elim
  | _ :: _, [], h => exact h.chain.elim

theorem dropLoop_rep {α : Type} : ∀ (fuel : Nat) (m : Mem α) (p : Nat) (as : List Nat) (l : List α),
    as.length < fuel → Rep { m with head := p } as l →
    ∃ m', dropLoop fuel m p = some m' ∧ Rep m' [] []
  | 0, _, _, _, _, h, _ => absurd h (by omega)
  | fuel + 1, m, p, [], [], _, h => by
    have e : p = 0 := h.chain
    subst e
    refine ⟨{ m with head := 0 }, by simp [dropLoop], ?_⟩
    exact ⟨rfl, List.nodup_nil, fun a ha => h.only a ha, by simp, h.pos⟩
  | fuel + 1, m, p, a :: as, v :: l, hl, h => by
    obtain ⟨h1, h2, next, h3, h4⟩ := h.chain
    simp only at h1 h3
    subst h1
    have := h.tail h3
    have ih := dropLoop_rep fuel (m.put p none) next as l (by simp at hl; omega) this
    obtain ⟨m', e, r⟩ := ih
    refine ⟨m', ?_, r⟩
    simp only [dropLoop, h2, if_false, h3, Mem.free]
    exact e
  | _ + 1, _, _, [], _ :: _, _, h => h.chain.elim
  | _ + 1, _, _, _ :: _, [], _, h => h.chain.elim

theorem dropList_rep {α : Type} {m : Mem α} {as : List Nat} {l : List α} (h : Rep m as l) :
    ∃ m', dropList m = some m' ∧ Rep m' [] [] :=
  dropLoop_rep (m.fresh + 1) m m.head as l h.fuel h

theorem intoIter_rep {α : Type} : ∀ (k : Nat) {m : Mem α} {as : List Nat} {l : List α}, Rep m as l →
    ∃ m', intoIter k m = some (l.take k, m') ∧ Rep m' [] []
  | 0, m, as, l, h => by
    obtain ⟨m', e, r⟩ := dropList_rep h
    exact ⟨m', by simp [intoIter, e], r⟩
  | k + 1, m, as, l, h => by
    obtain ⟨m', as', e, r⟩ := intoIterNext_rep h
    cases l with
    | nil =>
      obtain ⟨m'', e', r'⟩ := dropList_rep r
      exact ⟨m'', by simp [intoIter, e, e'], r'⟩
    | cons v l =>
      obtain ⟨m'', e', r'⟩ := intoIter_rep k r
      refine ⟨m'', ?_, r'⟩
      simp only [List.tail_cons] at e'
      simp [intoIter, e, e']

theorem iterLoop_rep {α : Type} (m : Mem α) : ∀ (fuel p : Nat) (as : List Nat) (l : List α),
    as.length < fuel → Chain m.node p as l → iterLoop m fuel p = some l
  | 0, _, _, _, h, _ => absurd h (by omega)
  | fuel + 1, p, [], [], _, h => by
    have e : p = 0 := h
    simp [iterLoop, e]
  | fuel + 1, p, a :: as, v :: l, hl, ⟨h1, h2, next, h3, h4⟩ => by
    subst h1
    have ih := iterLoop_rep m fuel next as l (by simp at hl; omega) h4
    simp [iterLoop, h2, h3, ih]
  | _ + 1, _, [], _ :: _, _, h => h.elim
  | _ + 1, _, _ :: _, [], _, h => h.elim


/-- Redirecting the last node of the first part. -/
theorem chain_relink {α : Type} {m : Mem α} : ∀ {as bs cs : List Nat} {p q : Nat} {l k k' : List α},
    Chain m.node p (as ++ bs) (l ++ k) → as.length = l.length → (as ++ bs).Nodup →
    (hne : as ≠ []) → Chain m.node q cs k' → (∀ a ∈ cs, a ∉ as) →
    ∃ v next, m.node (as.getLast hne) = some (next, v) ∧
      Chain (m.put (as.getLast hne) (some (q, v))).node p (as ++ cs) (l ++ k')
  | [], _, _, _, _, _, _, _, _, _, _, hne, _, _ => absurd rfl hne
  | [a], bs, cs, p, q, [v], k, k', hc, _, _, _, hq, hd => by
    obtain ⟨h1, h2, next, h3, h4⟩ := hc
    refine ⟨v, next, h3, h1, h2, q, by simp [Mem.put], ?_⟩
    refine hq.congr (fun b hb => ?_)
    have : b ≠ a := fun e => hd b hb (by simp [e])
    simp [Mem.put, this]
  | [a], _, _, _, _, [], _, _, _, h, _, _, _, _ => by simp at h
  | [a], _, _, _, _, _ :: _ :: _, _, _, _, h, _, _, _, _ => by simp at h
  | a :: b :: as, bs, cs, p, q, v :: l, k, k', hc, hl, hn, hne, hq, hd => by
    obtain ⟨h1, h2, next, h3, h4⟩ := hc
    have hn' := List.nodup_cons.mp hn
    obtain ⟨w, nx, g1, g2⟩ := chain_relink (as := b :: as) (bs := bs) (cs := cs) h4
      (by simpa using hl) hn'.2 (by simp) hq (fun x hx hx' => hd x hx (List.mem_cons_of_mem _ hx'))
    have elast : (a :: b :: as).getLast hne = (b :: as).getLast (by simp) := by simp
    rw [elast]
    refine ⟨w, nx, g1, h1, h2, next, ?_, g2⟩
    have : a ≠ (b :: as).getLast (by simp) := fun e =>
      hn'.1 (by rw [e]; exact List.mem_append_left _ (List.getLast_mem _))
    simp only [Mem.put, this, if_false]
    exact h3
  | _ :: _ :: _, _, _, _, _, [], _, _, _, h, _, _, _, _ => by simp at h

/-- Changing the value of the first node of the second part. -/
theorem chain_setVal {α : Type} {m : Mem α} {c : Nat} {bs : List Nat} {v v' : α} {k : List α}
    {next : Nat} (hnode : m.node c = some (next, v)) : ∀ {as : List Nat} {p : Nat} {l : List α},
    Chain m.node p (as ++ c :: bs) (l ++ v :: k) → as.length = l.length → (as ++ c :: bs).Nodup →
    Chain (m.put c (some (next, v'))).node p (as ++ c :: bs) (l ++ v' :: k)
  | [], p, [], ⟨h1, h2, nx, h3, h4⟩, _, hn => by
    rw [hnode] at h3
    simp only [Option.some.injEq, Prod.mk.injEq] at h3
    obtain ⟨rfl, -⟩ := h3
    refine ⟨h1, h2, next, by simp [Mem.put], h4.congr (fun b hb => ?_)⟩
    have : b ≠ c := fun e => (List.nodup_cons.mp hn).1 (e ▸ hb)
    simp [Mem.put, this]
  | a :: as, p, w :: l, ⟨h1, h2, nx, h3, h4⟩, hl, hn => by
    have hn' := List.nodup_cons.mp hn
    refine ⟨h1, h2, nx, ?_, chain_setVal hnode h4 (by simpa using hl) hn'.2⟩
    have : a ≠ c := fun e => hn'.1 (by simp [e])
    simp [Mem.put, this, h3]
  | [], _, _ :: _, _, h, _ => by simp at h
  | _ :: _, _, [], _, h, _ => by simp at h

/-- The link of the first node of the second part leads to the rest. -/
theorem chain_rest {α : Type} {node : Nat → Option (Nat × α)} {c : Nat} {bs : List Nat} {v : α}
    {k : List α} : ∀ {as : List Nat} {p : Nat} {l : List α},
    Chain node p (as ++ c :: bs) (l ++ v :: k) → as.length = l.length →
    c ≠ 0 ∧ (as = [] → p = c) ∧ ∃ next, node c = some (next, v) ∧ Chain node next bs k
  | [], p, [], ⟨h1, h2, nx, h3, h4⟩, _ => ⟨h2, fun _ => h1, nx, h3, h4⟩
  | a :: as, p, w :: l, ⟨h1, h2, nx, h3, h4⟩, hl => by
    obtain ⟨g1, _, g3⟩ := chain_rest h4 (by simpa using hl)
    exact ⟨g1, by simp, g3⟩
  | [], _, _ :: _, _, h => by simp at h
  | _ :: _, _, [], _, h => by simp at h

/-- The last kept node, or null. -/
def lastOr0 : List Nat → Nat
  | [] => 0
  | as => as.getLast?.getD 0

theorem lastOr0_append (as : List Nat) (c : Nat) : lastOr0 (as ++ [c]) = c := by
  have h : as ++ [c] ≠ [] := by simp
  have : lastOr0 (as ++ [c]) = (as ++ [c]).getLast?.getD 0 := by
    cases hx : as ++ [c] with
    | nil => exact absurd hx h
    | cons _ _ => rfl
  rw [this, List.getLast?_concat]
  rfl

theorem lastOr0_eq {as : List Nat} (h : as ≠ []) : lastOr0 as = as.getLast h := by
  cases as with
  | nil => exact absurd rfl h
  | cons a as => simp [lastOr0, List.getLast?_eq_some_getLast]

/-- The drain loop: `as`/`l` already kept, `bs`/`k` still to visit. -/
theorem drainLoop_rep {σ α : Type} (f : Filter σ α) : ∀ (fuel : Nat) (bs : List Nat) (k : List α)
    (m : Mem α) (as : List Nat) (l : List α) (curr : Nat) (st : σ), bs.length < fuel →
    as.length = l.length → Rep m (as ++ bs) (l ++ k) → (bs = [] → curr = 0) →
    (∀ c cs, bs = c :: cs → curr = c) →
    ∃ m' bs', drainLoop f fuel m (lastOr0 as) curr st =
      some ((split f st k).1, (split f st k).2.2, m') ∧ Rep m' (as ++ bs') (l ++ (split f st k).2.1)
  | 0, _, _, _, _, _, _, _, h, _, _, _, _ => absurd h (by omega)
  | fuel + 1, [], k, m, as, l, curr, st, _, hl, hr, h0, _ => by
    have := hr.chain.length
    have hk : k = [] := by
      cases k with
      | nil => rfl
      | cons v k => simp at this; omega
    subst hk
    exact ⟨m, [], by simp [drainLoop, h0 rfl, split], by simpa [split] using hr⟩
  | fuel + 1, c :: bs, k, m, as, l, curr, st, hf, hl, hr, _, hc => by
    have e := hc c bs rfl
    subst e
    have hlen := hr.chain.length
    cases k with
    | nil => simp at hlen; omega
    | cons v k =>
      obtain ⟨hc0, hp, next, hnode, hrest⟩ := chain_rest hr.chain hl
      generalize hfe : f st v = r
      obtain ⟨b, v', st'⟩ := r
      -- memory with the possibly modified value
      have hr1 : Rep (m.put curr (some (next, v'))) (as ++ curr :: bs) (l ++ v' :: k) := by
        refine ⟨chain_setVal hnode hr.chain hl hr.nodup, hr.nodup, ?_, hr.old, hr.pos⟩
        intro a ha
        by_cases e : a = curr
        · simp [e]
        · simp only [Mem.put, e, if_false] at ha
          exact hr.only a ha
      have hnode1 : (m.put curr (some (next, v'))).node curr = some (next, v') := by simp [Mem.put]
      generalize hm1 : m.put curr (some (next, v')) = m1 at hr1 hnode1
      have hnext0 : bs = [] → next = 0 := by
        intro e
        subst e
        have := hrest.length
        cases k with
        | nil => exact hrest
        | cons w k => simp at this
      have hnextc : ∀ d ds, bs = d :: ds → next = d := by
        intro d ds e
        subst e
        cases k with
        | nil => exact hrest.elim
        | cons w k => exact hrest.1
      have hnd := List.nodup_append.mp hr1.nodup
      cases b with
      | false =>
        obtain ⟨m', bs', e1, e2⟩ := drainLoop_rep f fuel bs k m1 (as ++ [curr]) (l ++ [v']) next st'
          (by simp at hf; omega) (by simp [hl]) (by simpa using hr1) hnext0 hnextc
        rw [lastOr0_append] at e1
        refine ⟨m', curr :: bs', ?_, ?_⟩
        · simp only [drainLoop, hc0, if_false, hnode, hfe, hm1, split, Bool.false_eq_true]
          exact e1
        · simpa [split, hfe] using e2
      | true =>
        -- cut out
        have hcut : ∃ m2, cutOut m1 (lastOr0 as) curr next = some (lastOr0 as, m2) ∧
            (∃ w, m2.node curr = some (w, v')) ∧ Rep (m2.put curr none) (as ++ bs) (l ++ k) := by
          obtain ⟨_, hp1, nx1, hn1, hrest1⟩ := chain_rest hr1.chain hl
          rw [hnode1] at hn1
          simp only [Option.some.injEq, Prod.mk.injEq, and_true] at hn1
          subst hn1
          by_cases has : as = []
          · subst has
            cases l with
            | cons _ _ => simp at hl
            | nil =>
              have hh : m1.head = curr := hp1 rfl
              refine ⟨{ m1 with head := next }, by simp [cutOut, lastOr0, hh], ⟨next, hnode1⟩, ?_⟩
              exact Rep.tail (by simpa using hr1) hnode1
          · obtain ⟨w, nx, g1, g2⟩ := chain_relink (cs := bs) (k' := k) hr1.chain hl hr1.nodup has hrest1
              (fun a ha ha' => hnd.2.2 a ha' a (List.mem_cons_of_mem _ ha) rfl)
            have hl0 : lastOr0 as ≠ 0 := by
              rw [lastOr0_eq has]
              have : ∀ {as : List Nat} {p : Nat} {l : List α}, Chain m1.node p as l → ∀ a ∈ as, a ≠ 0 := by
                intro as
                induction as with
                | nil => intro p l _ a ha; simp at ha
                | cons b as ih =>
                  intro p l hc a ha
                  cases l with
                  | nil => exact hc.elim
                  | cons w l =>
                    obtain ⟨_, h2, _, _, h4⟩ := hc
                    rcases List.mem_cons.mp ha with rfl | ha
                    · exact h2
                    · exact ih h4 a ha
              exact this hr1.chain _ (List.mem_append_left _ (List.getLast_mem has))
            rw [lastOr0_eq has] at hl0 ⊢
            have hlc : curr ≠ as.getLast has := fun e =>
              hnd.2.2 curr (by rw [e]; exact List.getLast_mem has) curr (by simp) rfl
            refine ⟨m1.put (as.getLast has) (some (next, w)), by simp [cutOut, hl0, Mem.setNext, g1],
              ⟨next, by simp [Mem.put, hlc, hnode1]⟩, ?_⟩
            have hsub : (as ++ bs).Nodup := by
              refine List.nodup_append.mpr ⟨hnd.1, (List.nodup_cons.mp hnd.2.1).2, ?_⟩
              intro a ha b hb
              exact hnd.2.2 a ha b (List.mem_cons_of_mem _ hb)
            have hcn : curr ∉ as ++ bs := by
              intro h
              rcases List.mem_append.mp h with h | h
              · exact hnd.2.2 curr h curr (by simp) rfl
              · exact (List.nodup_cons.mp hnd.2.1).1 h
            refine ⟨?_, hsub, ?_, ?_, hr1.pos⟩
            · refine g2.congr (fun a ha => ?_)
              have : a ≠ curr := fun e => hcn (e ▸ ha)
              simp [Mem.put, this]
            · intro a ha
              by_cases e : a = curr
              · simp [Mem.put, e] at ha
              · have hin : a ∈ as ++ curr :: bs := by
                  by_cases e2 : a = as.getLast has
                  · rw [e2]; exact List.mem_append_left _ (List.getLast_mem has)
                  · simp only [Mem.put, e, e2, if_false] at ha
                    exact hr1.only a ha
                simp only [List.mem_append, List.mem_cons] at hin ⊢
                rcases hin with h | h | h
                · exact Or.inl h
                · exact absurd h e
                · exact Or.inr h
            · intro a ha
              refine hr1.old a ?_
              simp only [List.mem_append, List.mem_cons] at ha ⊢
              rcases ha with h | h
              · exact Or.inl h
              · exact Or.inr (Or.inr h)
        obtain ⟨m2, c1, ⟨w, c2⟩, c3⟩ := hcut
        obtain ⟨m', bs', e1, e2⟩ := drainLoop_rep f fuel bs k (m2.put curr none) as l next st'
          (by simp at hf; omega) hl c3 hnext0 hnextc
        refine ⟨m', bs', ?_, ?_⟩
        · simp only [drainLoop, hc0, if_false, hnode, hfe, hm1, split, if_true, c1, Mem.free, c2, e1]
        · simpa [split, hfe] using e2

theorem drain_rep {σ α : Type} (f : Filter σ α) (st : σ) {m : Mem α} {as : List Nat} {l : List α}
    (h : Rep m as l) : ∃ m' as', drain f st m = some ((split f st l).1, (split f st l).2.2, m') ∧
      Rep m' as' (split f st l).2.1 := by
  obtain ⟨m', bs', e1, e2⟩ := drainLoop_rep f (m.fresh + 1) as l m [] [] m.head st h.fuel rfl
    (by simpa using h)
    (by
      rintro rfl
      cases l with
      | nil => exact h.chain
      | cons _ _ => exact h.chain.elim)
    (by
      rintro c cs rfl
      cases l with
      | nil => exact h.chain.elim
      | cons _ _ => exact h.chain.1)
  exact ⟨m', bs', e1, by simpa using e2⟩

theorem step_rep {σ α : Type} {m : Mem α} {as : List Nat} {l : List α} (h : Rep m as l)
    (op : Op σ α) : ∃ m' as', step m op = some ((specStep l op).1, m') ∧
      Rep m' as' (specStep l op).2 := by
  cases op with
  | push v =>
    obtain ⟨m', e, r⟩ := push_rep h v
    exact ⟨m', _, by simp [step, e, specStep], r⟩
  | pop =>
    obtain ⟨m', as', e, r⟩ := pop_rep h
    exact ⟨m', as', by simp [step, e, specStep], r⟩
  | isEmpty =>
    refine ⟨m, as, ?_, h⟩
    match as, l, h with
    | [], [], h => simp [step, specStep, isEmpty, show m.head = 0 from h.chain]
    | a :: as, v :: l, h =>
      have h1 := h.chain.1
      have h2 := h.chain.2.1
      simp [step, specStep, isEmpty, h1, h2]
    | [], _ :: _, h => exact h.chain.elim
    | _ :: _, [], h => exact h.chain.elim
  | iter =>
    have := iterLoop_rep m (m.fresh + 1) m.head as l h.fuel h.chain
    exact ⟨m, as, by simp [step, iter, this, specStep], h⟩
  | drain f st =>
    obtain ⟨m', as', e, r⟩ := drain_rep f st h
    exact ⟨m', as', by simp [step, e, specStep], r⟩
  | intoIter k =>
    obtain ⟨m', e, r⟩ := intoIter_rep k h
    exact ⟨m', [], by simp [step, e, specStep], r⟩
  | drop =>
    obtain ⟨m', e, r⟩ := dropList_rep h
    exact ⟨m', [], by simp [step, e, specStep], r⟩

theorem run_rep {σ α : Type} (ops : List (Op σ α)) : ∀ {m : Mem α} {as : List Nat} {l : List α},
    Rep m as l → ∃ m' as', run m ops = some ((specRun l ops).1, m') ∧ Rep m' as' (specRun l ops).2 := by
  induction ops with
  | nil => intro m as l h; exact ⟨m, as, rfl, h⟩
  | cons op ops ih =>
    intro m as l h
    obtain ⟨m1, as1, e1, r1⟩ := step_rep h op
    obtain ⟨m2, as2, e2, r2⟩ := ih r1
    exact ⟨m2, as2, by simp [run, e1, e2, specRun], r2⟩

end Verif.LinkedList
