import Verif.LinkedList.OrderCover
import Verif.Order.Witness
/-!
# C78: memory orderings of the linked list

Any number of contexts push, context `r` pops and drains. With the orderings of the source there is no data race but for one
place: `cut_out` loads the head with `Relaxed` and then accesses the nodes that it finds there.
-/
namespace Verif.LinkedList.Conc.Order

open Verif.LinkedList.Conc
open Verif.Order

variable {α : Type}

/-- With the orderings of the source, the only accesses that complete a data race are those of `cut_out` to the predecessor.
Missing: that there are none, which is false (`C78_list_false`). -/
theorem C78_list_partial (r : Nat) (as : List (PAct (Op α))) (a : PAct (Op α)) (p p' : PState (LState α) Nat)
    (hp : (machine α r ords).prun (machine α r ords).pinit as = some p) (ha : (machine α r ords).pstep p a = some p') (i j : Nat)
    (hr : Race p'.tr i j) (hn : ¬ Race p.tr i j) : j = p.tr.length ∧ InCut (p.s.base.pc r) ∧ ∃ k, a = .step r k := by
  have ho : Most ords := ⟨rfl, rfl, rfl⟩
  rcases step_race ho (run_inv ho init_inv hp) ha hr with h | ⟨-, h1, h2, h3⟩
  · exact absurd h hn
  · exact ⟨h1, h2, h3⟩

/-- Evaluate a schedule. -/
macro "ltrace" : tactic => `(tactic| simp [Machine.prun, Machine.pstep, Machine.go, Machine.pinit, machine, step, accOf, cas, init, State.goto,
  State.put, popAfter, drTest, cutAfter, upd, ords])

/-- There are no data races if and only if publishing a node releases and all loads that find nodes acquire. The orderings of the
other accesses do not matter. -/
theorem C78_list_exact (v : α) (r : Nat) (o : Ords) : (∀ tr, (machine α r o).Trace tr → ∀ i j, ¬ Race tr i j) ↔ Enough o := by
  constructor
  · intro h
    have key : ∀ as tr, ((machine α r o).prun (machine α r o).pinit as).map (·.tr) = some tr → ∀ i j, ¬ Race tr i j := by
      intro as tr ht
      obtain ⟨p, hp, rfl⟩ := Option.map_eq_some_iff.1 ht
      exact h p.tr ⟨as, p, hp, rfl⟩
    obtain ⟨ur, ⟨ua, ul⟩, pr, ⟨pa, pl⟩, dr, cr, ⟨ca, cl⟩⟩ := o
    have s1 := key [.call (.push (r + 1) 1 v), .step (r + 1) 0, .step (r + 1) 0, .step (r + 1) 0, .call .pop, .step r 1, .step r 0]
      [⟨r + 1, 0, .load ur 0⟩, ⟨r + 1, 1, .write⟩, ⟨r + 1, 0, .rmw ua ul⟩, ⟨r, 0, .load pr 1⟩, ⟨r, 1, .read⟩] (by ltrace) 1 4
    have s2 := key [.call (.push (r + 1) 1 v), .step (r + 1) 0, .step (r + 1) 0, .step (r + 1) 0, .call .drain, .step r 1, .step r 0]
      [⟨r + 1, 0, .load ur 0⟩, ⟨r + 1, 1, .write⟩, ⟨r + 1, 0, .rmw ua ul⟩, ⟨r, 0, .load dr 1⟩, ⟨r, 1, .read⟩] (by ltrace) 1 4
    have s3 := key [.call (.push (r + 1) 1 v), .step (r + 1) 0, .step (r + 1) 0, .step (r + 1) 0, .call .drain, .step r 1, .step r 0,
        .call (.choose r true), .step r 0, .call (.push (r + 1) 2 v), .step (r + 1) 1, .step (r + 1) 0, .step (r + 1) 0, .step r 2, .step r 0]
      [⟨r + 1, 0, .load ur 0⟩, ⟨r + 1, 1, .write⟩, ⟨r + 1, 0, .rmw ua ul⟩, ⟨r, 0, .load dr 1⟩, ⟨r, 1, .read⟩, ⟨r, 1, .write⟩,
        ⟨r + 1, 0, .load ur 1⟩, ⟨r + 1, 2, .write⟩, ⟨r + 1, 0, .rmw ua ul⟩, ⟨r, 0, .load cr 2⟩, ⟨r, 2, .read⟩] (by ltrace) 7 10
    have c : ∀ l : Nat, Conflict ⟨r + 1, l, .write⟩ ⟨r, l, .read⟩ :=
      fun l => ⟨by simp, .inr (.inr ⟨rfl, by simp, by simp [Kind.atomic]⟩)⟩
    refine ⟨?_, ?_, ?_, ?_⟩
    · cases ul
      · exact absurd (race_rel 1 4 (by decide) rfl rfl (c _) (by simp [Ev.rel])) s1
      · rfl
    · cases pr
      · exact absurd (race_acq 1 4 (by decide) rfl rfl (c _) (by simp [Ev.acq])) s1
      · rfl
    · cases dr
      · exact absurd (race_acq 1 4 (by decide) rfl rfl (c _) (by simp [Ev.acq])) s2
      · rfl
    · cases cr
      · exact absurd (race_acq 7 10 (by decide) rfl rfl (c _) (by simp [Ev.acq])) s3
      · rfl
  · rintro en tr ⟨as, p, hp, rfl⟩ i j hr
    have ho : Most o := ⟨en.pushCas, en.popRead, en.drain⟩
    have run : ∀ (as : List (PAct (Op α))) (q : PState (LState α) Nat), LInv r o q.s (q.hist 0) q.tr → (∀ i j, ¬ Race q.tr i j) →
        (machine α r o).prun q as = some p → False := by
      intro as
      induction as with
      | nil => intro q _ hq h; simp only [Machine.prun, Option.some.injEq] at h; exact hq i j (h ▸ hr)
      | cons a as ih =>
        intro q hi hq h
        simp only [Machine.prun] at h
        split at h
        · cases h
        · rename_i q' hq'
          have hi' : LInv r o q'.s (q'.hist 0) q'.tr := run_inv (as := [a]) ho hi (by simp only [Machine.prun, hq'])
          refine ih q' hi' (fun i j hr => ?_) h
          rcases step_race ho hi hq' hr with h | ⟨h, -⟩
          · exact hq i j h
          · rw [en.cutRead] at h; cases h
    exact run as _ init_inv (fun i j hr => by obtain ⟨-, e, f, h, -⟩ := hr; simp [Machine.pinit] at h) hp

/-- Context 1 pushes a node, context 0 drains: it visits the node and selects it. -/
def cutSched : List (PAct (Op Nat)) :=
  [.call (.push 1 1 10), .step 1 0, .step 1 0, .step 1 0, .call .drain, .step 0 1, .step 0 0, .call (.choose 0 true), .step 0 0,
    -- context 1 pushes another one, context 0 looks for the predecessor
    .call (.push 1 2 20), .step 1 1, .step 1 0, .step 1 0, .step 0 2, .step 0 0]

/-- Its accesses. -/
def cutTrace : List Ev :=
  [⟨1, 0, .load false 0⟩, ⟨1, 1, .write⟩, ⟨1, 0, .rmw false true⟩, ⟨0, 0, .load true 1⟩, ⟨0, 1, .read⟩, ⟨0, 1, .write⟩,
    ⟨1, 0, .load false 1⟩, ⟨1, 2, .write⟩, ⟨1, 0, .rmw false true⟩, ⟨0, 0, .load false 2⟩, ⟨0, 2, .read⟩]

/-- `cut_out` races with `push`: a node was pushed since the drain started, and the predecessor is looked for from the head. -/
theorem C78_list_false : ∃ tr i j, (machine Nat 0 ords).Trace tr ∧ Race tr i j ∧ tr[i]? = some ⟨1, 2, .write⟩ ∧ tr[j]? = some ⟨0, 2, .read⟩ := by
  refine ⟨cutTrace, 7, 10, ?_, ?_, rfl, rfl⟩
  · have h : ((machine Nat 0 ords).prun (machine Nat 0 ords).pinit cutSched).map (·.tr) = some cutTrace := by decide +kernel
    obtain ⟨p, hp, e⟩ := Option.map_eq_some_iff.1 h
    exact ⟨_, p, hp, e⟩
  · exact race_acq 7 10 (by decide) rfl rfl ⟨by simp, .inr (.inr ⟨rfl, by simp, by simp [Kind.atomic]⟩)⟩ (by decide)

/-- `C78_list_partial` is not empty: this schedule has such a step at the end, and none before. -/
example : ((machine Nat 0 ords).prun (machine Nat 0 ords).pinit (cutSched.take 14)).map (fun p => (p.tr, p.s.base.pc 0)) =
    some (cutTrace.take 10, .cutWalk 2 1 0) := by decide +kernel

/-- The source has all orderings that are needed but one. -/
example : ¬ Enough ords ∧ Enough { ords with cutRead := true } := ⟨fun h => (nomatch h.cutRead), ⟨rfl, rfl, rfl, rfl⟩⟩

/-- The schedules of `Verif.LinkedList.Conc` where context `r` alone removes and addresses are not reused are among those that
are meant here. -/
theorem C78_list_covers (r : Nat) (o : Ords) (acts : List (Act α)) (hinc : (addrs acts).Pairwise (· < ·)) (hpos : ∀ a ∈ addrs acts, 1 ≤ a)
    (hr : ∀ a ∈ acts, ∀ t, a = .pop t ∨ a = .drain t → t = r) (s : State α) (log : List (Event α))
    (h : run true (init α) acts = some (s, log)) :
    ∃ as p, (machine α r o).prun (machine α r o).pinit as = some p ∧ p.s.base = s :=
  cover acts _ ⟨fun l => rfl, fun t l => by simp [Machine.pinit]⟩ hinc hpos (fun _ _ => rfl) (Nat.le_refl _) hr h

/-- Two contexts push, one of them drains. -/
example : (addrs [Act.push 1 1 10, .step 1 false, .push 0 2 20, .step 1 false, .step 1 false, .drain 0] = [1, 2]) ∧
    (run true (init Nat) [.push 1 1 10, .step 1 false, .push 0 2 20, .step 1 false, .step 1 false, .drain 0]).isSome = true := by decide

end Verif.LinkedList.Conc.Order
