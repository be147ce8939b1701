import Verif.Token.Spec
/-! # Lemmas for static tokens -/
namespace Verif.Token

/-- The leaves in a value. -/
def Kind.leaves : Kind → List Nat
  | .tok ls _ => ls
  | .ref s => [s]
  | .gone => []

/-- The leaves in all values. -/
def State.all (s : State) : List Nat := s.cells.flatMap (·.kind.leaves)

theorem refers_leaves {k : Kind} {x : Nat} (h : k.refers = some x) : x ∈ k.leaves := by
  unfold Kind.refers at h
  split at h
  · cases h; exact List.mem_singleton.2 rfl
  · cases h; exact List.mem_singleton.2 rfl
  · cases h

theorem count_set (x : Nat) (f : Cell → List Nat) : ∀ (l : List Cell) (i : Nat) (old c : Cell),
    l[i]? = some old →
    ((l.set i c).flatMap f).count x + (f old).count x = (l.flatMap f).count x + (f c).count x
  | [], _, _, _, h => by simp at h
  | d :: l, 0, old, c, h => by
    simp only [List.getElem?_cons_zero, Option.some.injEq] at h
    subst h
    simp only [List.set_cons_zero, List.flatMap_cons, List.count_append]
    omega
  | d :: l, i + 1, old, c, h => by
    simp only [List.getElem?_cons_succ] at h
    have := count_set x f l i old c h
    simp only [List.set_cons_succ, List.flatMap_cons, List.count_append]
    omega

theorem count_two {x : Nat} {f : Cell → List Nat} : ∀ {l : List Cell} {i j : Nat} {c d : Cell}, i < j →
    l[i]? = some c → l[j]? = some d → x ∈ f c → x ∈ f d → 2 ≤ (l.flatMap f).count x
  | [], _, _, _, _, _, h, _, _, _ => by simp at h
  | e :: l, 0, j + 1, c, d, _, hc, hd, xc, xd => by
    simp only [List.getElem?_cons_zero, Option.some.injEq] at hc
    subst hc
    simp only [List.getElem?_cons_succ] at hd
    have h1 := List.count_pos_iff.2 xc
    have h2 : 0 < (l.flatMap f).count x :=
      List.count_pos_iff.2 (List.mem_flatMap.2 ⟨d, List.mem_of_getElem? hd, xd⟩)
    simp only [List.flatMap_cons, List.count_append]
    omega
  | e :: l, i + 1, j + 1, c, d, hij, hc, hd, xc, xd => by
    simp only [List.getElem?_cons_succ] at hc hd
    have := count_two (Nat.lt_of_succ_lt_succ hij) hc hd xc xd
    simp only [List.flatMap_cons, List.count_append]
    omega

theorem count_two' {x : Nat} {f : Cell → List Nat} {l : List Cell} {i j : Nat} {c d : Cell} (hij : i ≠ j)
    (hc : l[i]? = some c) (hd : l[j]? = some d) (xc : x ∈ f c) (xd : x ∈ f d) : 2 ≤ (l.flatMap f).count x := by
  rcases Nat.lt_or_gt_of_ne hij with h | h
  · exact count_two h hc hd xc xd
  · exact count_two h hd hc xd xc

theorem all_put (s : State) (i : Nat) (old c : Cell) (x : Nat) (h : s.cells[i]? = some old) :
    (s.put i c).all.count x + old.kind.leaves.count x = s.all.count x + c.kind.leaves.count x :=
  count_set x (·.kind.leaves) s.cells i old c h

theorem all_add (s : State) (c : Cell) (x : Nat) :
    (s.add c).all.count x = s.all.count x + c.kind.leaves.count x := by
  simp [State.all, State.add, List.flatMap_append, List.count_append]

theorem taken_cons (op : Op) (ops : List Op) (x : Nat) :
    (taken (op :: ops)).count x = (taken [op]).count x + (taken ops).count x := by
  simp [taken, List.count_append]

/-- An operation other than `take` makes no leaves. -/
theorem step_count (send : Nat → Bool) (s : State) (op : Op) (x : Nat) :
    (step send s op).1.all.count x ≤ s.all.count x + (taken [op]).count x := by
  cases op with
  | take c ls =>
    simp only [step, all_add, Kind.leaves, taken, List.flatMap_cons, List.flatMap_nil, List.append_nil]
    exact Nat.le_refl _
  | split i k =>
    simp only [step]
    split
    · rename_i c ls h
      have := all_put s i _ ⟨c, .tok (ls.take k) false⟩ x h
      rw [all_add]
      simp only [Kind.leaves] at this ⊢
      have h2 : ls.count x = (ls.take k).count x + (ls.drop k).count x := by
        rw [← List.count_append, List.take_append_drop]
      omega
    · exact Nat.le_add_right _ _
  | join i j =>
    simp only [step]
    split
    · rename_i c ls c' ls' h1 h2
      split
      · rename_i hc
        have g1 := all_put s i _ ⟨c, .tok (ls ++ ls') false⟩ x h1
        have h2' : (s.put i ⟨c, .tok (ls ++ ls') false⟩).cells[j]? = some ⟨c', .tok ls' false⟩ := by
          simp only [State.put]
          rw [List.getElem?_set_ne hc.1]; exact h2
        have g2 := all_put _ j _ ⟨c, .gone⟩ x h2'
        simp only [Kind.leaves, List.count_append, List.count_nil] at g1 g2 ⊢
        omega
      · exact Nat.le_add_right _ _
    · exact Nat.le_add_right _ _
  | move i c =>
    simp only [step]
    split
    · rename_i c' k h
      split
      · have := all_put s i _ ⟨c, k⟩ x h
        simp only at this ⊢
        omega
      · exact Nat.le_add_right _ _
    · exact Nat.le_add_right _ _
  | get i =>
    simp only [step]
    split
    · rename_i c y h
      have := all_put s i _ ⟨c, .tok [y] true⟩ x h
      simp only [Kind.leaves] at this ⊢
      omega
    · exact Nat.le_add_right _ _
  | endGet i =>
    simp only [step]
    split
    · rename_i c y h
      have := all_put s i _ ⟨c, .tok y false⟩ x h
      simp only [Kind.leaves] at this ⊢
      omega
    · exact Nat.le_add_right _ _
  | intoStatic i =>
    simp only [step]
    split
    · rename_i c y h
      have := all_put s i _ ⟨c, .ref y⟩ x h
      simp only [Kind.leaves] at this ⊢
      omega
    · exact Nat.le_add_right _ _
  | read i =>
    simp only [step]
    split
    · split <;> exact Nat.le_add_right _ _
    · exact Nat.le_add_right _ _
  | write i v =>
    simp only [step]
    split
    · split <;> exact Nat.le_add_right _ _
    · exact Nat.le_add_right _ _
  | drop i =>
    simp only [step]
    split
    · rename_i c y h
      have := all_put s i _ ⟨c, .gone⟩ x h
      simp only [Kind.leaves, List.count_nil] at this ⊢
      omega
    · rename_i c y h
      have := all_put s i _ ⟨c, .gone⟩ x h
      simp only [Kind.leaves, List.count_nil] at this ⊢
      omega
    · exact Nat.le_add_right _ _

theorem run_cons (send : Nat → Bool) (s : State) (op : Op) (ops : List Op) :
    run send s (op :: ops) = ((run send (step send s op).1 ops).1,
      (step send s op).2 ++ (run send (step send s op).1 ops).2) := rfl

theorem run_append (send : Nat → Bool) : ∀ (xs ys : List Op) (s : State),
    (run send s (xs ++ ys)).1 = (run send (run send s xs).1 ys).1
  | [], _, _ => rfl
  | x :: xs, ys, s => by
    rw [List.cons_append, run_cons, run_cons]
    exact run_append send xs ys _

theorem run_count (send : Nat → Bool) (x : Nat) : ∀ (ops : List Op) (s : State),
    (run send s ops).1.all.count x ≤ s.all.count x + (taken ops).count x
  | [], s => Nat.le_add_right _ _
  | op :: ops, s => by
    have h1 := step_count send s op x
    have h2 := run_count send x ops (step send s op).1
    rw [run_cons, taken_cons]
    simp only
    omega

/-- Two references to one static need its leaf twice. -/
theorem aliased_count {s : State} {i j x : Nat} (hij : i ≠ j) (hi : RefersTo s i x) (hj : RefersTo s j x) :
    2 ≤ s.all.count x := by
  obtain ⟨c, hc, rc⟩ := hi
  obtain ⟨d, hd, rd⟩ := hj
  exact count_two' hij hc hd (refers_leaves rc) (refers_leaves rd)

theorem put_get_ne {s : State} {i j : Nat} {c : Cell} (h : j ≠ i) : (s.put j c).cells[i]? = s.cells[i]? := by
  simp only [State.put]
  exact List.getElem?_set_ne h

theorem add_get {s : State} {i : Nat} {c d : Cell} (h : s.cells[i]? = some d) :
    (s.add c).cells[i]? = some d := by
  simp only [State.add]
  rw [List.getElem?_append_left (List.getElem?_eq_some_iff.1 h).1]
  exact h

/-- Operations on other values leave a value alone. -/
theorem step_other (send : Nat → Bool) {s : State} {op : Op} {i : Nat} {d : Cell} (hu : ¬ op.uses i)
    (h : s.cells[i]? = some d) : (step send s op).1.cells[i]? = some d := by
  cases op with
  | take c ls => exact add_get h
  | split j k =>
    simp only [step]
    split
    · exact add_get (by rw [put_get_ne hu]; exact h)
    · exact h
  | join j k =>
    simp only [step]
    split
    · split
      · rw [put_get_ne (fun e => hu (.inr e)), put_get_ne (fun e => hu (.inl e))]; exact h
      · exact h
    · exact h
  | move j c =>
    simp only [step]
    split
    · split
      · rw [put_get_ne hu]; exact h
      · exact h
    · exact h
  | get j | endGet j | intoStatic j =>
    simp only [step]
    split
    · rw [put_get_ne hu]; exact h
    · exact h
  | read j | write j v =>
    simp only [step]
    split
    · split <;> exact h
    · exact h
  | drop j =>
    simp only [step]
    split
    · rw [put_get_ne hu]; exact h
    · rw [put_get_ne hu]; exact h
    · exact h

/-- An access to a static is made through a value that refers to it, and only a write changes
memory. -/
theorem step_event (send : Nat → Bool) (s : State) (op : Op) :
    (∀ e ∈ (step send s op).2, ∃ j c, op.uses j ∧ s.cells[j]? = some c ∧ c.kind.refers = some e.s ∧ e.ctx = c.ctx) ∧
    (∀ x, (step send s op).1.mem x ≠ s.mem x → ∃ e ∈ (step send s op).2, e.s = x) := by
  cases op with
  | take c ls => exact ⟨fun e h => (nomatch h), fun x h => absurd rfl h⟩
  | split j k =>
    simp only [step]
    split <;> exact ⟨fun e h => (nomatch h), fun x h => absurd rfl h⟩
  | join j k =>
    simp only [step]
    split
    · split <;> exact ⟨fun e h => (nomatch h), fun x h => absurd rfl h⟩
    · exact ⟨fun e h => (nomatch h), fun x h => absurd rfl h⟩
  | move j c =>
    simp only [step]
    split
    · split <;> exact ⟨fun e h => (nomatch h), fun x h => absurd rfl h⟩
    · exact ⟨fun e h => (nomatch h), fun x h => absurd rfl h⟩
  | get j | endGet j | intoStatic j | drop j =>
    simp only [step]
    split <;> exact ⟨fun e h => (nomatch h), fun x h => absurd rfl h⟩
  | read j =>
    simp only [step]
    split
    · rename_i c k hj
      split
      · rename_i x hx
        refine ⟨fun e h => ?_, fun x h => absurd rfl h⟩
        rw [List.mem_singleton] at h
        subst h
        exact ⟨j, _, rfl, hj, hx, rfl⟩
      · exact ⟨fun e h => (nomatch h), fun x h => absurd rfl h⟩
    · exact ⟨fun e h => (nomatch h), fun x h => absurd rfl h⟩
  | write j v =>
    simp only [step]
    split
    · rename_i c k hj
      split
      · rename_i x hx
        refine ⟨fun e h => ?_, fun y h => ?_⟩
        · rw [List.mem_singleton] at h
          subst h
          exact ⟨j, _, rfl, hj, hx, rfl⟩
        · by_cases hy : y = x
          · exact ⟨_, List.mem_singleton.2 rfl, hy.symm⟩
          · simp [hy] at h
      · exact ⟨fun e h => (nomatch h), fun x h => absurd rfl h⟩
    · exact ⟨fun e h => (nomatch h), fun x h => absurd rfl h⟩

/-- While a value refers to a static, nothing else accesses it. -/
theorem hold (send : Nat → Bool) (i x : Nat) (d : Cell) (hd : d.kind.refers = some x) :
    ∀ (ops : List Op) (s : State), s.cells[i]? = some d → (∀ op ∈ ops, ¬ op.uses i) →
      s.all.count x + (taken ops).count x ≤ 1 →
      (run send s ops).1.cells[i]? = some d ∧ (run send s ops).1.mem x = s.mem x ∧
        ∀ e ∈ (run send s ops).2, e.s ≠ x
  | [], s, h, _, _ => ⟨h, rfl, fun _ h => (nomatch h)⟩
  | op :: ops, s, h, hu, hc => by
    have hu1 := hu op List.mem_cons_self
    have h1 := step_other send hu1 h
    have hcnt := step_count send s op x
    rw [taken_cons] at hc
    obtain ⟨g1, g2, g3⟩ := hold send i x d hd ops _ h1 (fun o ho => hu o (List.mem_cons_of_mem _ ho)) (by omega)
    obtain ⟨e1, e2⟩ := step_event send s op
    have noev : ∀ e ∈ (step send s op).2, e.s ≠ x := by
      intro e he hx
      obtain ⟨j, c, huj, hj, hr, -⟩ := e1 e he
      rw [hx] at hr
      have hij : i ≠ j := fun e => hu1 (e ▸ huj)
      have := aliased_count hij ⟨d, h, hd⟩ ⟨c, hj, hr⟩
      omega
    rw [run_cons]
    refine ⟨g1, ?_, fun e he => ?_⟩
    · simp only
      rw [g2]
      refine Classical.byContradiction fun hne => ?_
      obtain ⟨e, he, hx⟩ := e2 x hne
      exact noev e he hx
    · rcases List.mem_append.1 he with he | he
      · exact noev e he
      · exact g3 e he

/-! ### Aliases from repeated leaves -/

theorem isolate (send : Nat → Bool) (s : State) (i c x : Nat) (a b : List Nat)
    (h : s.cells[i]? = some ⟨c, .tok (a ++ x :: b) false⟩) :
    (run send s [.split i a.length, .split s.cells.length 1, .intoStatic s.cells.length]).1.cells =
      s.cells.set i ⟨c, .tok a false⟩ ++ [⟨c, .ref x⟩, ⟨c, .tok b false⟩] := by
  have hlen : (s.cells.set i ⟨c, .tok a false⟩).length = s.cells.length := List.length_set
  simp only [run, step, h, State.put, State.add, List.take_left, List.drop_left]
  have e1 : (s.cells.set i ⟨c, .tok a false⟩ ++ [⟨c, .tok (x :: b) false⟩])[s.cells.length]? =
      some ⟨c, .tok (x :: b) false⟩ := by
    rw [List.getElem?_append_right (by omega), hlen]; simp
  simp only [e1, List.take_succ_cons, List.take_zero, List.drop_succ_cons, List.drop_zero]
  have e2 : (List.set (s.cells.set i ⟨c, .tok a false⟩ ++ [⟨c, .tok (x :: b) false⟩]) s.cells.length ⟨c, .tok [x] false⟩ ++
      [(⟨c, .tok b false⟩ : Cell)]) = s.cells.set i ⟨c, .tok a false⟩ ++ [⟨c, .tok [x] false⟩, ⟨c, .tok b false⟩] := by
    rw [List.set_append_right _ _ (by omega), hlen]
    simp
  rw [e2]
  have e3 : (s.cells.set i ⟨c, .tok a false⟩ ++ [⟨c, .tok [x] false⟩, ⟨c, .tok b false⟩])[s.cells.length]? =
      some ⟨c, .tok [x] false⟩ := by
    rw [List.getElem?_append_right (by omega), hlen]; simp
  simp only [e3]
  rw [List.set_append_right _ _ (by omega), hlen]
  simp

/-- Two leaves of one static can be made two references. -/
theorem two_refs (send : Nat → Bool) (s : State) (i j c c' x : Nat) (a b a' b' : List Nat)
    (hne : i ≠ j) (hi : s.cells[i]? = some ⟨c, .tok (a ++ x :: b) false⟩)
    (hj : s.cells[j]? = some ⟨c', .tok (a' ++ x :: b') false⟩) :
    ∃ ops : List Op, (∀ op ∈ ops, op.safe) ∧ Aliased (run send s ops).1 := by
  have e1 := isolate send s i c x a b hi
  generalize hs1 : (run send s [.split i a.length, .split s.cells.length 1, .intoStatic s.cells.length]).1 = s1 at e1
  have hjl := (List.getElem?_eq_some_iff.1 hj).1
  have hj1 : s1.cells[j]? = some ⟨c', .tok (a' ++ x :: b') false⟩ := by
    rw [e1, List.getElem?_append_left (by rw [List.length_set]; exact hjl), List.getElem?_set_ne hne]
    exact hj
  have e2 := isolate send s1 j c' x a' b' hj1
  refine ⟨[.split i a.length, .split s.cells.length 1, .intoStatic s.cells.length] ++
    [.split j a'.length, .split s1.cells.length 1, .intoStatic s1.cells.length], by simp [Op.safe], ?_⟩
  have hl1 : s1.cells.length = s.cells.length + 2 := by rw [e1]; simp
  refine ⟨s.cells.length, s1.cells.length, x, by omega, ⟨⟨c, .ref x⟩, ?_, rfl⟩, ⟨⟨c', .ref x⟩, ?_, rfl⟩⟩
  · rw [run_append, hs1, e2, List.getElem?_append_left (by rw [List.length_set]; omega),
      List.getElem?_set_ne (by omega), e1, List.getElem?_append_right (by rw [List.length_set]; omega)]
    simp
  · rw [run_append, hs1, e2, List.getElem?_append_right (by rw [List.length_set]; omega)]
    simp

theorem two_refs_one (send : Nat → Bool) (s : State) (i c x : Nat) (a b b' : List Nat)
    (hi : s.cells[i]? = some ⟨c, .tok (a ++ x :: (b ++ x :: b')) false⟩) :
    ∃ ops : List Op, (∀ op ∈ ops, op.safe) ∧ Aliased (run send s ops).1 := by
  have e1 := isolate send s i c x a _ hi
  generalize hs1 : (run send s [.split i a.length, .split s.cells.length 1, .intoStatic s.cells.length]).1 = s1 at e1
  have hj1 : s1.cells[s.cells.length + 1]? = some ⟨c, .tok (b ++ x :: b') false⟩ := by
    rw [e1, List.getElem?_append_right (by rw [List.length_set]; omega)]
    simp
  have e2 := isolate send s1 _ c x b b' hj1
  refine ⟨[.split i a.length, .split s.cells.length 1, .intoStatic s.cells.length] ++
    [.split (s.cells.length + 1) b.length, .split s1.cells.length 1, .intoStatic s1.cells.length], by simp [Op.safe], ?_⟩
  have hl1 : s1.cells.length = s.cells.length + 2 := by rw [e1]; simp
  refine ⟨s.cells.length, s1.cells.length, x, by omega, ⟨⟨c, .ref x⟩, ?_, rfl⟩, ⟨⟨c, .ref x⟩, ?_, rfl⟩⟩
  · rw [run_append, hs1, e2, List.getElem?_append_left (by rw [List.length_set]; omega),
      List.getElem?_set_ne (by omega), e1, List.getElem?_append_right (by rw [List.length_set]; omega)]
    simp
  · rw [run_append, hs1, e2, List.getElem?_append_right (by rw [List.length_set]; omega)]
    simp

theorem not_nodup : ∀ {l : List Nat}, ¬ l.Nodup → ∃ a x b b', l = a ++ x :: (b ++ x :: b')
  | [], h => absurd List.nodup_nil h
  | y :: l, h => by
    by_cases hy : y ∈ l
    · obtain ⟨b, b', rfl⟩ := List.append_of_mem hy
      exact ⟨[], y, b, b', rfl⟩
    · obtain ⟨a, x, b, b', rfl⟩ := not_nodup (l := l) (fun hn => h (List.nodup_cons.2 ⟨hy, hn⟩))
      exact ⟨y :: a, x, b, b', rfl⟩

theorem not_nodup_flatMap : ∀ {l : List (Nat × List Nat)}, ¬ (l.flatMap (·.2)).Nodup →
    (∃ (i : Nat) (c : Nat × List Nat), l[i]? = some c ∧ ¬ c.2.Nodup) ∨
    ∃ (i j : Nat) (c d : Nat × List Nat) (x : Nat), i ≠ j ∧ l[i]? = some c ∧ l[j]? = some d ∧ x ∈ c.2 ∧ x ∈ d.2
  | [], h => absurd List.nodup_nil h
  | c :: l, h => by
    by_cases h1 : c.2.Nodup
    · by_cases h2 : (l.flatMap (·.2)).Nodup
      · right
        have : ∃ x, x ∈ c.2 ∧ x ∈ l.flatMap (·.2) := by
          refine Classical.byContradiction fun hne => h ?_
          rw [List.flatMap_cons]
          exact List.nodup_append.2 ⟨h1, h2, fun x hx y hy e => hne ⟨x, hx, e ▸ hy⟩⟩
        obtain ⟨x, hx, hx'⟩ := this
        obtain ⟨d, hd, hxd⟩ := List.mem_flatMap.1 hx'
        obtain ⟨j, hj⟩ := List.getElem?_of_mem hd
        exact ⟨0, j + 1, c, d, x, by omega, rfl, hj, hx, hxd⟩
      · rcases not_nodup_flatMap h2 with ⟨i, d, hd, hn⟩ | ⟨i, j, d, e, x, hij, hd, he, hx⟩
        · exact .inl ⟨i + 1, d, hd, hn⟩
        · exact .inr ⟨i + 1, j + 1, d, e, x, by omega, hd, he, hx⟩
    · exact .inl ⟨0, c, rfl, h1⟩

theorem run_takes (send : Nat → Bool) : ∀ (ts : List (Nat × List Nat)) (s : State),
    (run send s (ts.map fun t => .take t.1 t.2)).1.cells = s.cells ++ ts.map fun t => (⟨t.1, .tok t.2 false⟩ : Cell)
  | [], s => by simp [run]
  | t :: ts, s => by
    rw [List.map_cons, run_cons]
    simp only [run_takes send ts, step, State.add]
    simp

theorem taken_takes (ts : List (Nat × List Nat)) : taken (ts.map fun t => .take t.1 t.2) = ts.flatMap (·.2) := by
  induction ts with
  | nil => rfl
  | cons t ts ih =>
    rw [List.map_cons, taken, List.flatMap_cons, List.flatMap_cons]
    show t.2 ++ taken _ = _
    rw [ih]

/-! ### Statics that are not `Send` -/

/-- No token with leaf `x` is passed to another context. -/
def Stays (send : Nat → Bool) (x : Nat) : State → List Op → Prop
  | _, [] => True
  | s, op :: ops =>
    (∀ i c ctx ls l, op = .move i c → s.cells[i]? = some ⟨ctx, .tok ls l⟩ → x ∉ ls) ∧
      Stays send x (step send s op).1 ops

/-- Values with leaf `x` are in context `c`. -/
def Home (x c : Nat) (s : State) : Prop := ∀ d ∈ s.cells, x ∈ d.kind.leaves → d.ctx = c

theorem home_put {x c i : Nat} {s : State} {d : Cell} (h : Home x c s) (hd : x ∈ d.kind.leaves → d.ctx = c) :
    Home x c (s.put i d) := by
  intro e he
  rcases List.mem_or_eq_of_mem_set he with he | rfl
  · exact h e he
  · exact hd

theorem home_add {x c : Nat} {s : State} {d : Cell} (h : Home x c s) (hd : x ∈ d.kind.leaves → d.ctx = c) :
    Home x c (s.add d) := by
  intro e he
  rcases List.mem_append.1 he with he | he
  · exact h e he
  · rw [List.mem_singleton] at he; subst he; exact hd

theorem step_home (send : Nat → Bool) {x c : Nat} (hx : send x = false) {s : State} {op : Op} (h : Home x c s)
    (ht : x ∉ taken [op])
    (hm : ∀ i c ctx ls l, op = .move i c → s.cells[i]? = some ⟨ctx, .tok ls l⟩ → x ∉ ls) :
    Home x c (step send s op).1 := by
  have at' : ∀ {i ctx : Nat} {k : Kind}, s.cells[i]? = some ⟨ctx, k⟩ → x ∈ k.leaves → ctx = c :=
    fun hi hm => h _ (List.mem_of_getElem? hi) hm
  cases op with
  | take c' ls =>
    refine home_add h fun hm' => absurd ?_ ht
    simp only [taken, List.flatMap_cons, List.flatMap_nil, List.append_nil]
    exact hm'
  | split j k =>
    simp only [step]
    split
    · rename_i hj
      refine home_add (home_put h fun hm => ?_) fun hm => ?_
      · have hm : x ∈ List.take _ _ := hm
        exact at' hj (List.mem_of_mem_take hm)
      · have hm : x ∈ List.drop _ _ := hm
        exact at' hj (List.mem_of_mem_drop hm)
    · exact h
  | join j k =>
    simp only [step]
    split
    · rename_i hj hk
      split
      · rename_i he
        refine home_put (home_put h fun hm => ?_) (fun hm => (nomatch hm))
        rcases List.mem_append.1 hm with hm | hm
        · exact at' hj hm
        · have := at' hk hm
          simp only at this ⊢
          rw [he.2]; exact this
      · exact h
    · exact h
  | move j c' =>
    simp only [step]
    split
    · rename_i cx k hj
      split
      · rename_i hmov
        refine home_put h fun hm' => ?_
        cases k with
        | tok ls l => exact absurd hm' (hm j c' cx ls l rfl hj)
        | ref y =>
          have : y = x := (List.mem_singleton.1 hm').symm
          subst this
          simp only [Kind.movable, hx] at hmov
          cases hmov
        | gone => cases hm'
      · exact h
    · exact h
  | get j | endGet j | intoStatic j =>
    simp only [step]
    split
    · rename_i hj
      exact home_put h fun hm => at' hj hm
    · exact h
  | read j | write j v =>
    simp only [step]
    split
    · split <;> exact h
    · exact h
  | drop j =>
    simp only [step]
    split
    · exact home_put h fun hm => (nomatch hm)
    · exact home_put h fun hm => (nomatch hm)
    · exact h

theorem run_home (send : Nat → Bool) {x c : Nat} (hx : send x = false) : ∀ (ops : List Op) {s : State}, Home x c s →
    x ∉ taken ops → Stays send x s ops → ∀ e ∈ (run send s ops).2, e.s = x → e.ctx = c
  | [], _, _, _, _ => fun _ he => (nomatch he)
  | op :: ops, s, h, ht, hst => by
    have hcnt := taken_cons op ops x
    have h0 : (taken (op :: ops)).count x = 0 := List.count_eq_zero.2 ht
    have ht1 : x ∉ taken [op] := List.count_eq_zero.1 (by omega)
    have ht2 : x ∉ taken ops := List.count_eq_zero.1 (by omega)
    have ih := run_home send hx ops (step_home send hx h ht1 hst.1) ht2 hst.2
    rw [run_cons]
    intro e he hex
    rcases List.mem_append.1 he with he | he
    · obtain ⟨j, d, -, hj, hr, hctx⟩ := (step_event send s op).1 e he
      rw [hctx]
      exact h d (List.mem_of_getElem? hj) (hex ▸ refers_leaves hr)
    · exact ih e he hex

theorem run_local (send : Nat → Bool) {x : Nat} (hx : send x = false) : ∀ (ops : List Op) {s : State},
    s.all.count x = 0 → (taken ops).count x ≤ 1 → Stays send x s ops → Local x (run send s ops).2
  | [], _, _, _, _ => ⟨0, fun _ he => (nomatch he)⟩
  | op :: ops, s, h, ht, hst => by
    have hcnt := taken_cons op ops x
    have hnone : ∀ d ∈ s.cells, x ∉ d.kind.leaves := fun d hd hm =>
      List.count_eq_zero.1 h (List.mem_flatMap.2 ⟨d, hd, hm⟩)
    have hev : ∀ e ∈ (step send s op).2, e.s ≠ x := by
      intro e he hex
      obtain ⟨j, d, -, hj, hr, -⟩ := (step_event send s op).1 e he
      exact hnone d (List.mem_of_getElem? hj) (hex ▸ refers_leaves hr)
    rw [run_cons]
    by_cases h1 : (taken [op]).count x = 0
    · have hs := step_count send s op x
      obtain ⟨c, hc⟩ := run_local send hx ops (s := (step send s op).1) (by omega) (by omega) hst.2
      refine ⟨c, fun e he hex => ?_⟩
      rcases List.mem_append.1 he with he | he
      · exact absurd hex (hev e he)
      · exact hc e he hex
    · cases op with
      | take c ls =>
        have hh : Home x c (step send s (.take c ls)).1 :=
          home_add (fun d hd hm => absurd hm (hnone d hd)) fun _ => rfl
        have := run_home send hx ops hh (List.count_eq_zero.1 (by omega)) hst.2
        refine ⟨c, fun e he hex => ?_⟩
        rcases List.mem_append.1 he with he | he
        · exact absurd hex (hev e he)
        · exact this e he hex
      | _ => exact absurd rfl h1

end Verif.Token
