import Verif.LinkedList.Lemmas
/-!
# C15: the list is a stack
-/
namespace Verif.LinkedList

/-- C15: every sequence of operations on a new list gives exactly the results of
the same operations on a stack, without undefined behaviour (in particular no
node is released twice or used after release), and leaves the nodes of the
remaining elements linked in stack order, and no other node allocated. -/
theorem C15_stack {σ α : Type} (ops : List (Op σ α)) :
    ∃ m as, run (Mem.new α) ops = some ((specRun [] ops).1, m) ∧
      Chain m.node m.head as (specRun [] ops).2 ∧ as.Nodup ∧ ∀ a, m.node a ≠ none ↔ a ∈ as := by
  obtain ⟨m, as, e, r⟩ := run_rep ops (new_rep α)
  refine ⟨m, as, e, r.chain, r.nodup, fun a => ⟨r.only a, ?_⟩⟩
  have : ∀ {as : List Nat} {p : Nat} {l : List α}, Chain m.node p as l → a ∈ as → m.node a ≠ none := by
    intro as
    induction as with
    | nil => intro p l _ ha; simp at ha
    | cons b as ih =>
      intro p l hc ha
      cases l with
      | nil => exact hc.elim
      | cons w l =>
        obtain ⟨_, _, next, h3, h4⟩ := hc
        rcases List.mem_cons.mp ha with rfl | ha
        · rw [h3]; simp
        · exact ih h4 ha
  exact this r.chain

/-- C15: dropping the list releases every node. -/
theorem C15_drop_releases {σ α : Type} (ops : List (Op σ α)) :
    ∃ os m, run (Mem.new α) (ops ++ [.drop]) = some (os, m) ∧ ∀ a, m.node a = none := by
  have hnil : ∀ (ops : List (Op σ α)) (l : List α), (specRun l (ops ++ [.drop])).2 = [] := by
    intro ops
    induction ops with
    | nil => intro l; rfl
    | cons op ops ih => intro l; simp only [List.cons_append, specRun]; exact ih _
  obtain ⟨m, as, e, h1, h2, h3⟩ := C15_stack (ops ++ [.drop])
  refine ⟨_, m, e, fun a => ?_⟩
  rw [hnil] at h1
  cases as with
  | nil =>
    refine Classical.byContradiction fun hne => ?_
    exact absurd ((h3 a).mp hne) (by simp)
  | cons _ _ => exact h1.elim

/-- C15: what the stack operations mean for draining: every element leaves or
stays, in the original order (for a filter that does not modify elements and
selects by `p`). -/
theorem C15_drain_order {α : Type} (p : α → Bool) (l : List α) :
    split (σ := Unit) (fun st v => (p v, v, st)) () l = (l.filter p, l.filter (fun v => !p v), ()) := by
  induction l with
  | nil => rfl
  | cons v l ih =>
    simp only [split, ih]
    cases h : p v <;> simp [h]

/-- C15: elements leave last-in-first-out. -/
theorem C15_lifo {α : Type} (vs : List α) :
    (specRun (σ := Unit) [] (vs.map Op.push ++ List.replicate vs.length Op.pop)).1 =
      List.replicate vs.length Out.unit ++ vs.reverse.map (fun v => Out.val (some v)) := by
  have h1 : ∀ (vs l : List α) (ops : List (Op Unit α)),
      specRun l (vs.map Op.push ++ ops) =
        (List.replicate vs.length Out.unit ++ (specRun (vs.reverse ++ l) ops).1,
          (specRun (vs.reverse ++ l) ops).2) := by
    intro vs
    induction vs with
    | nil => intro l ops; rfl
    | cons v vs ih =>
      intro l ops
      simp [specRun, specStep, ih, List.replicate_succ]
  have h2 : ∀ (l : List α), (specRun (σ := Unit) l (List.replicate l.length Op.pop)).1 =
      l.map (fun v => Out.val (some v)) := by
    intro l
    induction l with
    | nil => rfl
    | cons v l ih => simp [specRun, specStep, List.replicate_succ, ih]
  rw [h1]
  have := h2 vs.reverse
  simp only [List.length_reverse] at this
  simp [this]

/-- The repository's own drain test, and a drain that modifies elements. -/
example :
    (run (σ := Nat) (Mem.new Nat) [.push 1, .push 2, .push 3, .push 4, .push 5, .push 6,
      .drain (fun st v => (decide (v < 4), v, st + 1)) 0, .iter,
      .drain (fun st v => (v == 5, v + st, st)) 10, .iter, .pop, .intoIter 3, .isEmpty]).map
        (fun r => r.1) =
      some [.unit, .unit, .unit, .unit, .unit, .unit, .drained [3, 2, 1] 6, .vals [6, 5, 4],
        .drained [15] 10, .vals [16, 14], .val (some 16), .vals [14], .bool true] := by
  rfl

end Verif.LinkedList
