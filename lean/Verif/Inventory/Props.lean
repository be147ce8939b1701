import Verif.Inventory.Lemmas
/-! # Properties of inventories (C53) -/
namespace Verif.Inventory

/-- Share three tokens, merge one, drop one and restore it, merge the rest, use a guard. -/
def demo : List Op :=
  [.new false, .setup 0, .share 0 3, .merge 0 1, .dropToken, .revive, .merge 0 2, .guard 0, .guardBorrow 0,
    .guardUnborrow 0, .dropGuard 0, .free 0]

/-! ## Counting -/

/-- For every type-correct program, the counters of all inventories of the type add up to
the number of tokens shared and not merged; of these every one is either owned by the
program or was dropped by it. -/
theorem C53_accounted {ops : List Op} {s : State} (h : run init ops = some s) :
    total s + merged ops = shared ops ∧ s.tokens + s.lost = total s ∧ s.invs.length = created ops := by
  have := run_total h rfl
  simp [init, total] at this
  obtain ⟨h1, h2, h3⟩ := this
  exact ⟨by simpa [total] using h2, h1, h3⟩

example : (run init (demo.take 5)).map (fun s => (total s, s.tokens, s.lost)) = some (2, 1, 1) := by decide

/-- With a single inventory of the type, the counter in its type is the number of tokens
shared and not merged, and so is zero only if no token exists. -/
theorem C53_counter {ops : List Op} {s : State} {v : Inv} (h : run init ops = some s) (h1 : created ops = 1)
    (hv : s.invs[0]? = some v) :
    v.count + merged ops = shared ops ∧ v.count = s.tokens + s.lost := by
  obtain ⟨a, b, c⟩ := C53_accounted h
  have : s.invs = [v] := by
    match hs : s.invs, c with
    | [], c => rw [hs] at hv; simp at hv
    | [w], c => rw [hs] at hv; simp at hv; rw [hv]
    | _ :: _ :: _, c => simp at c; omega
  simp [total, this] at a b
  exact ⟨a, by omega⟩

example : created demo = 1 ∧ (run init (demo.take 4)).map (fun s => s.invs[0]?.map (·.count)) = some (some 2) := by
  decide

/-- With a single inventory of the type, whenever a program tears the item down, frees it or
takes a guard, no token is outstanding and none is borrowed. -/
theorem C53_closing {ops : List Op} {s s' : State} {o : Op} {i : Nat} (h : run init ops = some s)
    (h1 : created ops = 1) (ho : o.closing = some i) (hs : step s o = some s') :
    shared ops = merged ops ∧ s.tokens = 0 ∧ s.lost = 0 ∧
      ∃ v, s.invs = [v] ∧ ¬ v.lent := by
  obtain ⟨a, b, c⟩ := C53_accounted h
  have hv : ∃ v, s.invs[i]? = some v ∧ v.exclusive ∧ v.count = 0 := by
    cases o <;> simp [Op.closing] at ho <;> subst ho <;> simp only [step] at hs <;>
      obtain ⟨v, hv, hc, -⟩ := upd_some hs <;> exact ⟨v, hv, hc.1, hc.2⟩
  obtain ⟨v, hv, ⟨e1, e2, e3⟩, hc⟩ := hv
  have : s.invs = [v] := by
    match hs : s.invs, c with
    | [], c => rw [hs] at hv; simp at hv
    | [w], c =>
      rw [hs] at hv
      cases i with
      | zero => simp at hv; rw [hv]
      | succ i => simp at hv
    | _ :: _ :: _, c => simp at c; omega
  simp [total, this, hc] at a b
  exact ⟨by omega, b.1, b.2, v, this, by simp [Inv.lent, hc, e2, e3]⟩

example : (run init (demo.take 7)).isSome ∧ ((run init (demo.take 7)).bind (step · (.guard 0))).isSome ∧
    ((run init (demo.take 4)).bind (step · (.teardown 0))).isNone := by decide

/-- Two inventories of one type: the tokens of one are accepted by the other, so that an
inventory is torn down and freed while the token it shared is still outstanding (and the
other, from which no token is left, can never be). -/
theorem C53_false_two : ∃ s, run init
    [.new true, .new true, .share 0 1, .share 1 1, .dropToken, .merge 1 1, .teardown 1, .free 1] = some s ∧
    s.tokens = 0 ∧ s.lost = 1 ∧ s.invs.map (·.count) = [1, 0] := ⟨_, rfl, by decide⟩

/-! ## Active state -/

/-- A token reference is available although the item was never put into its active state:
`inventory_token` is defined for every counter, including `U0`. -/
theorem C53_false_inactive : ∃ s, run init [.new false, .borrow 0] = some s ∧
    ∃ v, s.invs = [v] ∧ v.lent ∧ v.active = false := ⟨_, rfl, _, rfl, by simp [Inv.lent], rfl⟩

/-- With two inventories of one type, exchanging their items through `DerefMut` leaves a
token outstanding for an inventory whose item is torn down. Tokens are shared only from
active items here. -/
theorem C53_false_swap : ∃ s, run init
    [.new true, .new true, .share 0 1, .swap 0 1, .teardown 1, .swap 0 1] = some s ∧
    s.tokens = 1 ∧ ∃ v, s.invs[0]? = some v ∧ v.count = 1 ∧ v.active = false :=
  ⟨_, rfl, rfl, _, rfl, rfl, rfl⟩

/-- If the program hands out tokens only from active items and does not exchange items, then
for every inventory with an outstanding or borrowed token, or with a guard, the item is in
its active state. (The unconditional claim is false: `C53_false_inactive`,
`C53_false_swap`.) -/
theorem C53_active_partial {ops : List Op} {s : State} (h : run init ops = some s) (d : Dutiful init ops) :
    ∀ v ∈ s.invs, v.lent → v.active = true :=
  run_active h (by simp [init]) d (by simp [init])

instance (s : State) (o : Op) : Decidable (Duty s o) := by
  unfold Duty
  split
  all_goals first
    | infer_instance
    | (rename_i i _; exact decidable_of_iff (((s.invs[i]?).map (·.active)).getD true = true)
        (by cases s.invs[i]? <;> simp))
    | (rename_i i; exact decidable_of_iff (((s.invs[i]?).map (·.active)).getD true = true)
        (by cases s.invs[i]? <;> simp))

/-- Boolean form of `Dutiful` for concrete programs. -/
def dutifulB (s : State) : List Op → Bool
  | [] => true
  | o :: os => decide (Duty s o) && (match step s o with | none => true | some s' => dutifulB s' os)

theorem dutifulB_sound {s : State} {ops : List Op} (h : dutifulB s ops = true) : Dutiful s ops := by
  induction ops generalizing s with
  | nil => trivial
  | cons o os ih =>
    simp only [dutifulB, Bool.and_eq_true, decide_eq_true_eq] at h
    refine ⟨h.1, fun s' e => ih ?_⟩
    have := h.2
    rw [e] at this
    exact this

example : (run init demo).isSome ∧ Dutiful init demo := ⟨by decide, dutifulB_sound (by decide)⟩

/-- References keep the item unchanged: while a reference to the inventory's token or a
guard is alive, the inventory can be neither torn down, freed, shared, merged nor dropped. -/
theorem C53_borrowed {ops : List Op} {s : State} {v : Inv} {i : Nat} (h : run init ops = some s)
    (hv : s.invs[i]? = some v) (hb : 0 < v.refs ∨ v.guard ≠ none) :
    v.life = .owned ∧ ∀ k, step s (.teardown i) = none ∧ step s (.free i) = none ∧ step s (.drop i) = none ∧
      step s (.share i k) = none ∧ step s (.merge i k) = none ∧ step s (.guard i) = none := by
  have hk := run_ok h (by simp [init]) v (List.mem_of_getElem? hv)
  have hx : ¬ v.exclusive := by
    rintro ⟨-, h2, h3⟩
    rcases hb with hb | hb
    · omega
    · exact hb h3
  refine ⟨?_, fun k => ?_⟩
  · rcases hb with hb | hb
    · exact hk.refs hb
    · exact (hk.guard hb).2.2
  · simp [step, State.upd, hv, hx]

example : (run init (demo.take 9)).map (fun s => s.invs.map (·.guard)) = some [some 1] := by decide

/-- When a guard is dropped, which tears the item down, every token reference that was taken from
it has ended. -/
theorem C53_guard {ops : List Op} {s s' : State} {i : Nat} (h : run init ops = some s)
    (hs : step s (.dropGuard i) = some s') :
    ops.count (.guardBorrow i) = ops.count (.guardUnborrow i) := by
  have a := run_glent h i
  obtain ⟨v, hv, hc, -⟩ := upd_some hs
  have b : glent s i = 0 := by simp [glent, hv, hc]
  have c : glent init i = 0 := by simp [glent, init]
  omega

example : ((run init (demo.take 9)).bind (step · (.dropGuard 0))).isNone ∧
    ((run init (demo.take 10)).bind (step · (.dropGuard 0))).isSome ∧
    (demo.take 10).count (.guardBorrow 0) = 1 := by decide

end Verif.Inventory
