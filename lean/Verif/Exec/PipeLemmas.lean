import Verif.Exec.PipeMid
import Verif.Ring.FeedLog
/-! # What the invariant of tasks that send to each other says when nothing runs -/
namespace Verif.Exec.Pipe
open Verif.Soft (InvI)

variable {k : Nat} {N : Prop} {g : Cfg}

theorem init_fresh : Fresh (init k g) := fun _ _ => rfl

/-- What was received is the beginning of what was sent. -/
theorem inv_prefix (hg : g.Valid k) {s : State k} (i : Inv N g s none) (hN : N) (j : Nat) :
    Ring.overwritten (s.chan j).log = [] ∧ Ring.received (s.chan j).log <+: Ring.pushed (s.chan j).log := by
  have hcap := hg.cap j
  obtain ⟨h1, -, r, h3, -⟩ := Ring.Feed.got_prefix (Ring.Read.reach_con hcap.1 hcap.2 (i.rx j).reach hN).2 (i.tx j).noc
  exact ⟨h1, _, by rw [← h3, List.append_assoc]⟩

theorem inv_pushed {s : State k} (i : Inv N g s none) (j : Nat) : Ring.pushed (s.chan j).log <+: g.list j :=
  ⟨_, by have := (i.tx j).sent; rw [List.append_assoc] at this; exact this⟩

/-- A sending task that has left has sent everything. -/
theorem left_pushed {s : State k} (i : Inv N g s none) {j : Nat} (h : Ring.Feed.sLeft (s.chan j).spc = true) :
    Ring.pushed (s.chan j).log = g.list j := by
  have h1 := (i.tx j).sent
  rw [(i.tx j).left h] at h1
  have h2 : Ring.Feed.hand (s.chan j).spc = [] := by
    revert h
    cases (s.chan j).spc <;> simp [Ring.Feed.sLeft, Ring.Feed.hand]
  rw [h2] at h1
  simpa using h1

/-- A receiving task that has completed has got everything. -/
theorem done_all (hg : g.Valid k) {s : State k} (i : Inv N g s none) {j : Nat} (hd : s.done (2 * j) = true) :
    Ring.Feed.sLeft (s.chan j).spc = true ∧ (N → Ring.received (s.chan j).log = g.list j) := by
  have hgone := (i.gr j).1 hd
  obtain ⟨hf, hs⟩ := (i.rx j).ans (by rw [hgone]; rfl)
  have ho := (i.tx j).oth
  have hl : Ring.Feed.sLeft (s.chan j).spc = true := by
    revert hs ho
    cases (s.chan j).spc <;> simp [Ring.sDone, Ring.Feed.sOther, Ring.Feed.sLeft]
  refine ⟨hl, fun hN => ?_⟩
  have hm := hf.vals hN
  rw [(inv_prefix hg i hN j).1] at hm
  rw [Ring.Feed.merge_nil hm, left_pushed i hl]

/-- A task that was started and has not completed sleeps when nothing runs. -/
theorem idle_asleep {s : State k} (i : Inv N g s none) (v : InvI g.count s.soft) (hst : s.soft.stack = []) {q : Nat} (hq : q ∈ s.fibs)
    (hl : s.live q = true) : s.done q = true ∨ Asleep q (s.chan (q / 2)) := by
  cases hd : s.done q with
  | true => exact .inl rfl
  | false =>
    right
    rcases i.wait q hq hl hd with h | h | (h | ⟨f, hf, -⟩) | h
    · exact h
    · obtain ⟨f, hf, -⟩ := i.bod (g.thr q) (by intro e; rw [e] at h; simp at h)
      rw [hst] at hf; simp at hf
    · have := Soft.above_empty_irq i.a v (by rw [hst]; simp) (by rw [hst]; simp) (i.thr q hq) (i.a.pr (g.thr q)) h
      rw [hst] at this
      simp [Soft.running] at this
    · rw [hst] at hf; simp at hf
    · simp at h

/-- So both have completed. -/
theorem idle_done (hg : g.Valid k) {s : State k} (i : Inv N g s none) (v : InvI g.count s.soft) (hst : s.soft.stack = []) {j : Nat}
    (hr : 2 * j ∈ s.fibs) (hs : 2 * j + 1 ∈ s.fibs) (lr : s.live (2 * j) = true) (ls : s.live (2 * j + 1) = true) :
    s.done (2 * j) = true ∧ s.done (2 * j + 1) = true := by
  have hcap := hg.cap j
  have e1 : 2 * j / 2 = j := by omega
  have e2 : (2 * j + 1) / 2 = j := by omega
  have a := idle_asleep i v hst hr lr
  have b := idle_asleep i v hst hs ls
  rw [e1] at a
  rw [e2] at b
  rcases a with a | a
  · refine ⟨a, ?_⟩
    rcases b with b | b
    · exact b
    · have := (done_all hg i a).1
      rw [(b.2 (by omega)).idle] at this
      simp [Ring.Feed.sLeft] at this
  · have a := a.1 (by omega)
    rcases b with b | b
    · have := (i.gs j).1 b
      have h := a.snd
      rw [this] at h
      simp [Ring.sDone, Ring.sWk] at h
    · exact (Ring.Feed.not_both hcap.1 hcap.2 (i.rx j) (i.tx j) a (b.2 (by omega))).elim

end Verif.Exec.Pipe
