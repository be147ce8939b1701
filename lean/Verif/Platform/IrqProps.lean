import Verif.Platform.IrqLemmas
/-! # Properties of critical sections (C54) -/
namespace Verif.Platform.Irq

/-- C54 is false for handles that are not dropped in nesting order: with two handles alive,
dropping the first enables interrupts although the second is alive; dropping the second
afterwards leaves interrupts disabled although no handle is alive. -/
theorem C54_false : ∃ (off c : BitVec 32) (s1 s2 : State), c ≠ off ∧
    run off (init c) [.pause, .pause, .drop 0] = some s1 ∧ s1.live ≠ [] ∧ s1.cpu ≠ off ∧
    run off (init c) [.pause, .pause, .drop 0, .drop 1] = some s2 ∧ s2.live = [] ∧ s2.cpu ≠ c :=
  ⟨1, 0, _, _, by decide, rfl, by decide, by decide, rfl, rfl, by decide⟩

/-- Exactly which drop orders protect: for every sequence of creating and dropping handles
starting with interrupts enabled, interrupts are disabled whenever a handle is alive if and
only if the oldest handle is always dropped last. -/
theorem C54_protected_iff {off c : BitVec 32} {ops : List Op} {s : State} (hc : c ≠ off)
    (h : run off (init c) ops = some s) : Protected off c ops ↔ OuterLast [] 0 ops := by
  constructor
  · intro hp
    exact protected_outer init_fresh init_good hc ⟨s, h⟩ hp
  · rintro ho pre s' ⟨post, rfl⟩ hr hne
    have g : Good off c s' := run_good init_fresh init_good ho.prefix hr
    cases hl : s'.live with
    | nil => exact absurd hl hne
    | cons a l => exact (g.some _ _ hl).2.2

example : (run 1 (init 0) [.pause, .pause, .pause, .drop 1, .drop 2, .drop 0]).isSome ∧
    OuterLast [] 0 [.pause, .pause, .pause, .drop 1, .drop 2, .drop 0] := by
  constructor
  · decide
  · simp [OuterLast]

/-- If the oldest handle is always dropped last, then once no handle is alive the interrupt
state is the one before the first handle was created. (C54 for these drop orders; other
orders break it, see `C54_false`.) -/
theorem C54_partial {off c : BitVec 32} {ops : List Op} {s : State} (ho : OuterLast [] 0 ops)
    (h : run off (init c) ops = some s) : (s.live ≠ [] → s.cpu = off) ∧ (s.live = [] → s.cpu = c) := by
  have g : Good off c s := run_good init_fresh init_good ho h
  refine ⟨fun hne => ?_, g.none⟩
  cases hl : s.live with
  | nil => exact absurd hl hne
  | cons a l => exact (g.some _ _ hl).2.2

example : (run 1 (init 0) [.pause, .pause, .drop 1, .pause, .drop 2, .drop 0]).map (fun s => (s.cpu, s.live)) =
    some (0, []) := by decide

/-- Handles bound to nested scopes are dropped in reverse order; for these both claims of
C54 hold, at every point. -/
theorem C54_lifo {off c : BitVec 32} {ops : List Op} {s : State} (hl : Lifo [] 0 ops)
    (h : run off (init c) ops = some s) : Protected off c ops ∧ (s.live = [] → s.cpu = c) := by
  have ho : OuterLast [] 0 ops := lifo_outer (by simp) (by simp) hl
  refine ⟨?_, (C54_partial ho h).2⟩
  rintro pre s' ⟨post, rfl⟩ hr hne
  exact (C54_partial ho.prefix hr).1 hne

example : Lifo [] 0 [.pause, .pause, .drop 1, .pause, .drop 2, .drop 0] := by simp [Lifo]

/-- If interrupts are disabled before the first handle is created, they stay disabled for
every drop order. -/
theorem C54_nested_off {off : BitVec 32} {ops : List Op} {s : State}
    (h : run off (init off) ops = some s) : s.cpu = off := by
  suffices H : ∀ (ops : List Op) (s0 : State), s0.cpu = off → (∀ x ∈ s0.live, x.2 = off) →
      run off s0 ops = some s → s.cpu = off from H ops _ rfl (by simp [init]) h
  intro ops
  induction ops with
  | nil => intro s0 h0 _ hr; simp only [run, Option.some.injEq] at hr; subst hr; exact h0
  | cons o os ih =>
    intro s0 h0 hl hr
    simp only [run, Option.bind_eq_some_iff] at hr
    obtain ⟨s1, h1, h2⟩ := hr
    cases o with
    | pause =>
      simp only [step, Option.some.injEq] at h1
      subst h1
      refine ih _ rfl ?_ h2
      intro x hx
      simp [State.pause] at hx
      rcases hx with hx | hx
      · exact hl x hx
      · subst hx; exact h0
    | drop i =>
      simp only [step, State.drop] at h1
      split at h1
      · simp at h1
      · rename_i x hf
        simp only [Option.some.injEq] at h1
        subst h1
        exact ih _ (hl x (List.mem_of_find?_eq_some hf)) (fun y hy => hl y (List.mem_filter.1 hy).1) h2

example : (run 1 (init 1) [.pause, .pause, .drop 0, .drop 1]).map (·.cpu) = some 1 := by decide

/-- `Interrupts::paused`, nested and sequenced arbitrarily: code inside at least one section
runs with interrupts disabled, code outside all sections runs with the initial interrupt
state, which is also the final one. -/
theorem C54_paused (off c : BitVec 32) (ps : List Code) :
    (execAll off 0 c ps).1 = c ∧
    ∀ d w, (d, w) ∈ (execAll off 0 c ps).2 → (d = 0 → w = c) ∧ (0 < d → w = off) := by
  have := execAll_spec (off := off) 0 c c ⟨fun _ => rfl, by omega⟩ ps
  exact ⟨this.1, fun d w h => this.2 (d, w) h⟩

example : (execAll 1 0 0 [.probe, .paused [.probe, .paused [.probe], .probe], .probe]).2 =
    [(0, 0), (1, 1), (2, 1), (1, 1), (0, 0)] := by decide

end Verif.Platform.Irq
