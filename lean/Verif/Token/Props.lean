import Verif.Token.Lemmas
/-!
# C73: static tokens give exclusive access

`Token::take` and the two group macros are unsafe: "the tokens must not be instantiated anywhere
else". Everything after that is safe code.
-/
namespace Verif.Token

/-- **C73.** If no leaf token is instantiated twice, a reference to a static obtained
with `get` or `into_static` is exclusive as long as it is usable: until the value is used again no
access to the static takes place and its content stays. -/
theorem C73_exclusive (send : Nat → Bool) (mem : Nat → Int) (ops ops' : List Op) (htake : (taken (ops ++ ops')).Nodup)
    (i x : Nat) (h : RefersTo (run send (init mem) ops).1 i x) (hu : ∀ op ∈ ops', ¬ op.uses i) :
    RefersTo (run send (run send (init mem) ops).1 ops').1 i x ∧
    (run send (run send (init mem) ops).1 ops').1.mem x = (run send (init mem) ops).1.mem x ∧
    ∀ e ∈ (run send (run send (init mem) ops).1 ops').2, e.s ≠ x := by
  obtain ⟨d, hd, hr⟩ := h
  have hc := run_count send x ops (init mem)
  have hn := List.nodup_iff_count.1 htake x
  have hsplit : (taken (ops ++ ops')).count x = (taken ops).count x + (taken ops').count x := by
    simp [taken, List.flatMap_append, List.count_append]
  have h0 : (init mem).all.count x = 0 := rfl
  obtain ⟨g1, g2, g3⟩ := hold send i x d hr ops' _ hd hu (by omega)
  exact ⟨⟨d, g1, hr⟩, g2, g3⟩

/-- Two contexts, each with one of two statics: the second writes while the first keeps its
reference. -/
example : ∃ (ops ops' : List Op), (taken (ops ++ ops')).Nodup ∧
    RefersTo (run (fun _ => true) (init fun _ => 0) ops).1 0 7 ∧ (∀ op ∈ ops', ¬ op.uses 0) ∧
    (run (fun _ => true) (run (fun _ => true) (init fun _ => 0) ops).1 ops').2 = [⟨1, 8, 5, true⟩] :=
  ⟨[.take 0 [7, 8], .split 0 1, .get 0, .write 0 3], [.move 1 1, .intoStatic 1, .write 1 5], by decide,
    ⟨⟨0, .tok [7] true⟩, by decide, rfl⟩, by simp [Op.uses], by decide⟩

/-- C73: what the contract of `take` has to be. After the given `take`s safe code cannot obtain two
references to one static at one time, exactly if no leaf occurs twice. -/
theorem C73_exact (send : Nat → Bool) (mem : Nat → Int) (ts : List (Nat × List Nat)) :
    (∀ ops : List Op, (∀ op ∈ ops, op.safe) →
      ¬ Aliased (run send (init mem) ((ts.map fun t => .take t.1 t.2) ++ ops)).1) ↔
    (ts.flatMap (·.2)).Nodup := by
  constructor
  · intro h
    refine Classical.byContradiction fun hn => ?_
    have hcells := run_takes send ts (init mem)
    generalize hs : (run send (init mem) (ts.map fun t => .take t.1 t.2)).1 = s at hcells
    have hcells : s.cells = ts.map fun t => (⟨t.1, .tok t.2 false⟩ : Cell) := by rw [hcells]; rfl
    have key : ∃ ops : List Op, (∀ op ∈ ops, op.safe) ∧ Aliased (run send s ops).1 := by
      rcases not_nodup_flatMap hn with ⟨i, ⟨c, ls⟩, hc, hls⟩ | ⟨i, j, ⟨c, ls⟩, ⟨c', ls'⟩, x, hij, hc, hd, hx, hx'⟩
      · obtain ⟨a, x, b, b', hls⟩ := not_nodup hls
        simp only at hls
        subst hls
        refine two_refs_one send s i c x a b b' ?_
        rw [hcells, List.getElem?_map, hc]; rfl
      · obtain ⟨a, b, e⟩ := List.append_of_mem hx
        obtain ⟨a', b', e'⟩ := List.append_of_mem hx'
        simp only at e e'
        subst e e'
        refine two_refs send s i j c c' x a b a' b' hij ?_ ?_
        · rw [hcells, List.getElem?_map, hc]; rfl
        · rw [hcells, List.getElem?_map, hd]; rfl
    obtain ⟨ops, h1, h2⟩ := key
    refine h ops h1 ?_
    rw [run_append, hs]
    exact h2
  · rintro hn ops hsafe ⟨i, j, x, hij, hi, hj⟩
    have h2 := aliased_count hij hi hj
    have hc := run_count send x ((ts.map fun t => .take t.1 t.2) ++ ops) (init mem)
    have hsplit : taken ((ts.map fun t => .take t.1 t.2) ++ ops) = ts.flatMap (·.2) := by
      have h0 : taken ops = [] := by
        unfold taken
        rw [List.flatMap_eq_nil_iff]
        intro op hop
        have := hsafe op hop
        cases op <;> first | rfl | exact this.elim
      rw [← taken_takes]
      unfold taken at h0 ⊢
      rw [List.flatMap_append, h0, List.append_nil]
    have h0 : (init mem).all.count x = 0 := rfl
    have hn' := List.nodup_iff_count.1 hn x
    rw [hsplit] at hc
    omega

example : ¬ ([(0, [1, 2]), (0, [2])].flatMap (·.2)).Nodup := by decide
example : ([(0, [1, 2]), (0, [3])].flatMap (·.2)).Nodup := by decide

/-- C73: two references are never there at one time. -/
theorem C73_no_alias (send : Nat → Bool) (mem : Nat → Int) (ops : List Op) (h : (taken ops).Nodup) :
    ¬ Aliased (run send (init mem) ops).1 := by
  rintro ⟨i, j, x, hij, hi, hj⟩
  have h2 := aliased_count hij hi hj
  have hc := run_count send x ops (init mem)
  have hn := List.nodup_iff_count.1 h x
  have h0 : (init mem).all.count x = 0 := rfl
  omega

/-- C73: a reference from `get` stays with its context until the borrow ends, and the token with it. -/
theorem C73_borrow (send : Nat → Bool) (s : State) (i c x : Nat) (op : Op)
    (h : s.cells[i]? = some ⟨c, .tok [x] true⟩) (hop : op ≠ .endGet i) :
    (step send s op).1.cells[i]? = some ⟨c, .tok [x] true⟩ := by
  by_cases hu : op.uses i
  · cases op with
    | take _ _ => exact hu.elim
    | endGet j => cases hu; exact absurd rfl hop
    | join j k =>
      rcases hu with rfl | rfl
      · simp only [step, h]
      · simp only [step, h]
        split
        · rename_i h1 h2
          simp at h2
        · exact h
    | split j k | get j | intoStatic j | drop j =>
      cases hu
      simp only [step, h]
    | move j k =>
      cases hu
      simp only [step, h, Kind.movable]
      exact h
    | read j | write j v =>
      cases hu
      simp only [step, h, Kind.refers]
  · exact step_other send hu h

example : (run (fun _ => true) (init fun _ => 0) [.take 0 [7], .get 0, .move 0 1, .drop 0]).1.cells =
    [⟨0, .tok [7] true⟩] := by decide

/-- C73 fails for statics of types that are not `Send`: the token is `Send` all the same, so the
static is used from two contexts. -/
theorem C73_false_send : ∃ (send : Nat → Bool) (ops : List Op) (x : Nat), send x = false ∧ (taken ops).Nodup ∧
    ¬ Local x (run send (init fun _ => 0) ops).2 := by
  refine ⟨fun _ => false, [.take 0 [5], .get 0, .write 0 1, .endGet 0, .move 0 1, .get 0, .write 0 2], 5, rfl,
    by decide, ?_⟩
  rintro ⟨c, h⟩
  have h1 := h ⟨0, 5, 1, true⟩ (by decide) rfl
  have h2 := h ⟨1, 5, 2, true⟩ (by decide) rfl
  simp only at h1 h2
  omega

/-- C73 for statics that are not `Send`, if the program does not pass their tokens to other contexts:
references do not leave the context by themselves. -/
theorem C73_send_partial (send : Nat → Bool) (mem : Nat → Int) (ops : List Op) (x : Nat) (hx : send x = false)
    (htake : (taken ops).Nodup) (hstay : Stays send x (init mem) ops) : Local x (run send (init mem) ops).2 :=
  run_local send hx ops rfl (List.nodup_iff_count.1 htake x) hstay

/-- The attempt to pass on the reference is rejected. -/
example : ∃ ops : List Op, (taken ops).Nodup ∧ Stays (fun _ => false) 5 (init fun _ => 0) ops ∧
    (run (fun _ => false) (init fun _ => 0) ops).2 = [⟨0, 5, 1, true⟩, ⟨0, 5, 2, true⟩] :=
  ⟨[.take 0 [5], .intoStatic 0, .write 0 1, .move 0 1, .write 0 2], by decide,
    by
      simp [Stays, step, init, State.add, State.put, Kind.refers]
      intro i c ctx ls
      constructor <;> (intro hi; subst hi; simp), by decide⟩

end Verif.Token
