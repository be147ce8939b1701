import Verif.Fib.RingLemmas
/-! # Schedules of fiber streams over the ring channel -/
namespace Verif.Fib.RingStream

open Verif.Spsc Verif.Ring

variable {k cap : Nat} {τ ε : Type} {pol : Policy τ ε}

/-- The link, of a state. -/
def Linked (pol : Policy τ ε) (s : State k τ ε) : Prop := Link pol s.pc s.outs s.ch.spc s.ch.log

/-- What the results of the channel say about closing. -/
structure Honest (log : List (Event τ ε)) : Prop where
  canceled : (∃ c ∈ calls log, c.2 = some .canceled) → Event.closed ∈ log
  check : lastCanceled log = true → Event.closed ∈ log

theorem settle_mem {f : Fate} {cs : List (τ × Option Fate)} {g : Fate} (h : ∃ c ∈ settle f cs, c.2 = some g) :
    f = g ∨ ∃ c ∈ cs, c.2 = some g := by
  obtain ⟨c, hc, hg⟩ := h
  cases cs with
  | nil => simp [settle] at hc
  | cons a as =>
    obtain ⟨v, o⟩ := a
    simp only [settle, List.mem_cons] at hc
    rcases hc with rfl | hc
    · simp at hg; exact .inl hg
    · exact .inr ⟨c, by simp [hc], hg⟩

theorem honest_of_hist : ∀ {log : List (Event τ ε)}, Hist (OkCount cap) log → Honest log
  | [], _ => ⟨by simp [calls], by simp [lastCanceled]⟩
  | e :: p, h => by
    obtain ⟨h0, h1⟩ := h
    have ih := honest_of_hist h1
    constructor
    · intro hc
      cases e <;> simp only [calls] at hc
      case canceled => simp only [OkCount] at h0; exact List.mem_cons_of_mem _ h0
      case push =>
        rcases settle_mem hc with hh | hh
        · cases hh
        · exact List.mem_cons_of_mem _ (ih.canceled hh)
      case full =>
        rcases settle_mem hc with hh | hh
        · cases hh
        · exact List.mem_cons_of_mem _ (ih.canceled hh)
      case callSend => exact List.mem_cons_of_mem _ (ih.canceled (by simpa using hc))
      case callOver => exact List.mem_cons_of_mem _ (ih.canceled (by simpa using hc))
      all_goals exact List.mem_cons_of_mem _ (ih.canceled hc)
    · intro hc
      cases e <;> simp only [lastCanceled] at hc
      case isCanceled => simp only [OkCount] at h0; exact List.mem_cons_of_mem _ (h0.1 hc)
      all_goals exact List.mem_cons_of_mem _ (ih.check hc)

theorem quit_link {s : State k τ ε} (l : Linked pol s) (hi : s.ch.spc = .idle) (he : errs s.ch.log = [])
    (hf : Event.closed ∈ s.ch.log ∨ finish pol s.outs (calls s.ch.log) = some none) : Linked pol s.quit := by
  obtain ⟨l1, l2, l3, l4, l5, l6, l7, l8, l9, l10, l11, l12, l13, l14, l15, l16⟩ := l
  rw [hi] at l2 l4 l5
  unfold Linked State.quit
  exact ⟨l1, l2, l3, fun h => ⟨rfl, (l4 h).2⟩, fun h => ⟨rfl, (l5 h).2⟩, (by simp), (by simp), (by simp), (by simp), l10, (by simp), (by simp), fun _ _ => he, (by simp),
    fun _ => ⟨.inl rfl, hf⟩, (by simp)⟩

theorem fail_link {s : State k τ ε} {e : ε} (l : Linked pol s) (hi : s.ch.spc = .idle) (he : errs s.ch.log = [])
    (hf : finish pol s.outs (calls s.ch.log) = some (some e)) : Linked pol (s.fail e) := by
  obtain ⟨l1, l2, l3, l4, l5, l6, l7, l8, l9, l10, l11, l12, l13, l14, l15, l16⟩ := l
  rw [hi] at l2 l4 l5
  unfold Linked State.fail
  exact ⟨l1, l2, l3, fun h => ⟨rfl, by simpa [sCall, Ring.State.emit] using (l4 h).2⟩, fun h => ⟨rfl, (l5 h).2⟩, (by simp), (by simp), (by simp), (by simp), l10,
    (by simp), (by simp), (by simp), fun _ => ⟨.inl rfl, e, by simp [sCall, Ring.State.emit, errs, he], hf⟩, (by simp), (by simp)⟩

/-- Suspended again. -/
theorem yield_link {s : State k τ ε} (l : Linked pol s) (hi : s.ch.spc = .idle) (he : errs s.ch.log = [])
    (hy : headYield s.outs = true) : Linked pol { s with pc := .yielded } := by
  obtain ⟨l1, l2, l3, l4, l5, l6, l7, l8, l9, l10, l11, l12, l13, l14, l15, l16⟩ := l
  refine ⟨l1, l2, l3, l4, l5, fun _ => hi, (by simp), (by simp), fun _ o ho => ?_, l10, (by simp), (by simp), fun _ _ => he, (by simp), (by simp), (by simp)⟩
  cases hs : s.outs with
  | nil => simp [hs] at ho
  | cons a as =>
    simp only [hs] at ho l10 hy
    rcases List.mem_cons.1 ho with rfl | ho
    · cases o <;> simp [headYield] at hy; rfl
    · exact l10 o ho

theorem proceed_link {s : State k τ ε} (l : Linked pol s) (hn : Honest s.ch.log) (hr : s.ch.spc.resting = true) :
    Linked pol (proceed pol s) := by
  have l0 := l
  obtain ⟨l1, l2, l3, l4, l5, l6, l7, l8, l9, l10, l11, l12, l13, l14, l15, l16⟩ := l
  cases hp : s.pc with
  | yielded => simp [proceed, hp]; exact l0
  | resume => simp [proceed, hp]; exact l0
  | done => simp [proceed, hp]; exact l0
  | check =>
    have hi : s.ch.spc = .idle := by
      rcases l7 hp with h | h
      · simp [h, SPc.resting] at hr
      · exact h
    have he := l13 (by simp [hp]) (by simp [hp])
    simp only [proceed, hp]
    split
    · rename_i hc
      exact quit_link l0 hi he (.inl (hn.check hc))
    · have hy := l9 (.inr (.inl hp))
      exact ⟨l1, l2, l3, l4, l5, fun _ => hi, (by simp), (by simp), fun _ => hy, l10, (by simp), (by simp), fun _ _ => he, (by simp), (by simp), (by simp)⟩
  | send =>
    have he := l13 (by simp [hp]) (by simp [hp])
    have hh := l8 (.inl hp)
    have hy := l11 hp
    have hi : s.ch.spc = .idle ∧ Last s.outs s.ch.log := by
      rcases hh with ⟨v, h, -⟩ | ⟨h | h, h'⟩
      · cases hs : s.ch.spc <;> simp [hs, inProg] at h <;> simp [hs, SPc.resting] at hr
      · exact ⟨h, h'⟩
      · simp [h, SPc.resting] at hr
    obtain ⟨hi, v, f, l, hc, hv, hm⟩ := hi
    simp only [proceed, hp]
    split
    · exact yield_link l0 hi he hy
    · rename_i hl
      rw [hl] at hm
      refine quit_link l0 hi he (.inl (hn.canceled ⟨(v, some f), by simp [hc], ?_⟩))
      cases f <;> simp [Matches] at hm; rfl
    · rename_i u hl
      rw [hl] at hm
      have hf : f = .dropped ∧ u = v := by cases f <;> simp [Matches] at hm; exact ⟨rfl, hm⟩
      obtain ⟨rfl, rfl⟩ := hf
      split
      · exact absurd rfl ((l5 rfl).2 _ (by rw [hc]; exact List.mem_cons_self ..))
      · rename_i ov
        split
        · exact yield_link l0 hi he hy
        · rename_i e hov
          refine fail_link l0 hi he ?_
          rw [hc]
          cases ho : s.outs with
          | nil => simp [ho, headYield] at hy
          | cons o os =>
            rw [ho] at hv hy hov
            cases o with
            | complete r => simp [headYield] at hy
            | yielded o =>
              simp [headVal] at hv; subst hv
              simp [finish, Policy.overflow, hov]
  | sendLast =>
    have he := l13 (by simp [hp]) (by simp [hp])
    have hh := l8 (.inr hp)
    have hy := l12 hp
    have hi : s.ch.spc = .idle ∧ Last s.outs s.ch.log := by
      rcases hh with ⟨v, h, -⟩ | ⟨h | h, h'⟩
      · cases hs : s.ch.spc <;> simp [hs, inProg] at h <;> simp [hs, SPc.resting] at hr
      · exact ⟨h, h'⟩
      · simp [h, SPc.resting] at hr
    obtain ⟨hi, v, f, l, hc, hv, hm⟩ := hi
    -- the shape of the fiber's result
    have ho : ∃ os, s.outs = .complete (.ok (some v)) :: os := by
      cases ho : s.outs with
      | nil => simp [ho, headVal] at hv
      | cons o os =>
        rw [ho] at hv hy
        cases o with
        | yielded o => simp [headYield] at hy
        | complete r =>
          cases r with
          | error e => simp [headVal] at hv
          | ok o => simp [headVal] at hv; subst hv; exact ⟨os, rfl⟩
    obtain ⟨os, ho⟩ := ho
    simp only [proceed, hp]
    split
    · rename_i hl
      rw [hl] at hm
      have hf : f = .accepted := by cases f <;> simp [Matches] at hm; rfl
      subst hf
      exact quit_link l0 hi he (.inr (by rw [ho, hc]; rfl))
    · rename_i hl
      rw [hl] at hm
      refine quit_link l0 hi he (.inl (hn.canceled ⟨(v, some f), by simp [hc], ?_⟩))
      cases f <;> simp [Matches] at hm; rfl
    · rename_i u hl
      rw [hl] at hm
      have hf : f = .dropped ∧ u = v := by cases f <;> simp [Matches] at hm; exact ⟨rfl, hm⟩
      obtain ⟨rfl, rfl⟩ := hf
      split
      · exact absurd rfl ((l5 rfl).2 _ (by rw [hc]; exact List.mem_cons_self ..))
      · rename_i ov
        split
        · rename_i hov
          exact quit_link l0 hi he (.inr (by rw [ho] at hov; rw [ho, hc]; simp [finish, Policy.overflow, hov]))
        · rename_i e hov
          exact fail_link l0 hi he (by rw [ho] at hov; rw [ho, hc]; simp [finish, Policy.overflow, hov])
  | err =>
    have h14 := l14 hp
    have hg : s.ch.spc = .gone := by
      rcases h14.1 with h | h
      · cases hs : s.ch.spc <;> simp [hs, failing] at h <;> simp [hs, SPc.resting] at hr
      · exact h
    simp only [proceed, hp]
    exact ⟨l1, l2, l3, l4, l5, (by simp), (by simp), (by simp), (by simp), l10, (by simp), (by simp), (by simp), (by simp), (by simp), fun _ => ⟨hg, .inr h14.2⟩⟩
  | leave =>
    have h15 := l15 hp
    have he := l13 (by simp [hp]) (by simp [hp])
    have hg : s.ch.spc = .gone := by
      rcases h15.1 with h | h
      · cases hs : s.ch.spc <;> simp [hs, quitting] at h <;> simp [hs, SPc.resting] at hr
      · exact h
    simp only [proceed, hp]
    exact ⟨l1, l2, l3, l4, l5, (by simp), (by simp), (by simp), (by simp), l10, (by simp), (by simp), (by simp), (by simp), (by simp), fun _ => ⟨hg, .inl ⟨he, h15.2⟩⟩⟩

theorem receive_link {s : State k τ ε} (l : Linked pol s) (hp : s.pc = .resume) (out : Out τ ε) : Linked pol (receive pol s out) := by
  obtain ⟨l1, l2, l3, l4, l5, l6, l7, l8, l9, l10, l11, l12, l13, l14, l15, l16⟩ := l
  have he := l13 (by simp [hp]) (by simp [hp])
  have hi := l6 (.inr hp)
  have hy := l9 (.inr (.inr hp))
  rw [hi] at l2 l4 l5
  -- after the result is recorded; the generator is not at a definite point
  have sendCase : ∀ (v : τ) (pc : Pc), (pc = .send ∧ out = .yielded (some v)) ∨ (pc = .sendLast ∧ out = .complete (.ok (some v))) →
      Linked pol ⟨Ring.sCall s.ch (sendOp pol v), pc, out :: s.outs⟩ := by
    intro v pc hpc
    have e1 : offered (out :: s.outs) = v :: offered s.outs := by
      rcases hpc with ⟨-, rfl⟩ | ⟨-, rfl⟩ <;> rfl
    have e2 : headVal (out :: s.outs) = some v := by
      rcases hpc with ⟨-, rfl⟩ | ⟨-, rfl⟩ <;> rfl
    have ey : ∀ o ∈ s.outs, o.isComplete = false := hy
    have q : inProg (Ring.sCall s.ch (sendOp pol v)).spc = some v := by cases pol <;> rfl
    have ec : calls (Ring.sCall s.ch (sendOp pol v)).log = (v, none) :: calls s.ch.log := by cases pol <;> rfl
    have ep : pushed (Ring.sCall s.ch (sendOp pol v)).log = pushed s.ch.log := by cases pol <;> rfl
    have ee : errs (Ring.sCall s.ch (sendOp pol v)).log = errs s.ch.log := by cases pol <;> rfl
    have np : pc = .send ∨ pc = .sendLast := hpc.imp (·.1) (·.1)
    refine ⟨?_, ?_, ?_, ?_, ?_, ?_, ?_, fun _ => .inl ⟨v, q, e2⟩, ?_, hy, ?_, ?_, fun _ _ => ee.trans he, ?_, ?_, ?_⟩
    · simp only [ec, e1, List.map_cons, l1]
    · rw [q, ec]; exact ⟨_, rfl, l2⟩
    · rw [ep, ec, l3]; rfl
    · intro h
      cases pol with
      | overwrite => exact absurd rfl h
      | bounded ov => exact ⟨rfl, by simpa [sendOp, sCall, Ring.State.emit] using (l4 h).2⟩
    · intro h
      subst h
      refine ⟨rfl, ?_⟩
      rw [ec]; intro c hc
      rcases List.mem_cons.1 hc with rfl | hc
      · simp
      · exact (l5 rfl).2 c hc
    · intro h; rcases np with rfl | rfl <;> simp at h
    · intro h; rcases np with rfl | rfl <;> simp at h
    · intro h; rcases np with rfl | rfl <;> simp at h
    · intro h; rcases hpc with ⟨h', rfl⟩ | ⟨h', rfl⟩
      · rfl
      · simp [h'] at h
    · intro h; rcases hpc with ⟨h', rfl⟩ | ⟨h', rfl⟩
      · simp [h'] at h
      · rfl
    · intro h; rcases np with rfl | rfl <;> simp at h
    · intro h; rcases np with rfl | rfl <;> simp at h
    · intro h; rcases np with rfl | rfl <;> simp at h
  cases out with
  | yielded o =>
    cases o with
    | none =>
      simp only [receive]
      refine ⟨l1, (by rw [hi]; exact l2), l3, (by rw [hi]; exact l4), (by rw [hi]; exact l5), fun _ => hi, (by simp), (by simp), fun _ o ho => ?_, hy, (by simp),
        (by simp), fun _ _ => he, (by simp), (by simp), (by simp)⟩
      rcases List.mem_cons.1 ho with rfl | ho
      · rfl
      · exact hy o ho
    | some v => exact sendCase v .send (.inl ⟨rfl, rfl⟩)
  | complete r =>
    cases r with
    | ok o =>
      cases o with
      | none =>
        simp only [receive, State.quit]
        exact ⟨l1, l2, l3, fun h => ⟨rfl, (l4 h).2⟩, fun h => ⟨rfl, (l5 h).2⟩, (by simp), (by simp), (by simp), (by simp), hy, (by simp), (by simp), fun _ _ => he,
          (by simp), fun _ => ⟨.inl rfl, .inr rfl⟩, (by simp)⟩
      | some v => exact sendCase v .sendLast (.inr ⟨rfl, rfl⟩)
    | error e =>
      simp only [receive, State.fail]
      exact ⟨l1, l2, l3, fun h => ⟨rfl, by simpa [sCall, Ring.State.emit] using (l4 h).2⟩, fun h => ⟨rfl, (l5 h).2⟩, (by simp), (by simp), (by simp), (by simp), hy,
        (by simp), (by simp), (by simp), fun _ => ⟨.inl rfl, e, by simp [sCall, Ring.State.emit, errs, he], rfl⟩, (by simp), (by simp)⟩

theorem access_link {s : State k τ ε} {ch : Ring.State k τ ε} (l : Linked pol s) (hc : Ring.sStep cap s.ch = some ch)
    (hr : s.ch.spc.resting = false) : Linked pol { s with ch := ch } := by
  obtain ⟨l1, l2, l3, l4, l5, l6, l7, l8, l9, l10, l11, l12, l13, l14, l15, l16⟩ := l
  obtain ⟨f1, f2, f3, f4, f5⟩ := sStep_frame hc
  unfold Linked
  have hb : pol ≠ .overwrite → overPc ch.spc = false ∧ Event.claimTx ∉ ch.log := by
    intro h
    obtain ⟨b1, b2⟩ := l4 h
    exact ⟨(f4 b1).2, by rw [(f4 b1).1]; exact b2⟩
  have ht : pol = .overwrite → tryPc ch.spc = false := by
    intro h
    cases hh : tryPc ch.spc with
    | false => rfl
    | true => have := f5 hh; simp [(l5 h).1] at this
  cases hs : inProg s.ch.spc with
  | some v =>
    rw [hs] at l2
    obtain ⟨l, hl, hset⟩ := l2
    -- we are in a send
    have hpc : s.pc = .send ∨ s.pc = .sendLast := by
      cases hp : s.pc with
      | send => exact .inl rfl
      | sendLast => exact .inr rfl
      | yielded => simp [l6 (.inl hp), inProg] at hs
      | resume => simp [l6 (.inr hp), inProg] at hs
      | check => rcases l7 hp with h | h <;> simp [h, inProg] at hs
      | err => rcases (l14 hp).1 with h | h <;> cases hq : s.ch.spc <;> simp [hq, failing] at h <;> simp [hq, inProg] at hs
      | leave => rcases (l15 hp).1 with h | h <;> cases hq : s.ch.spc <;> simp [hq, quitting] at h <;> simp [hq, inProg] at hs
      | done => simp [(l16 hp).1, inProg] at hs
    have hv : headVal s.outs = some v := by
      rcases l8 hpc with ⟨u, h1, h2⟩ | ⟨h | h, -⟩
      · rw [hs] at h1; cases h1; exact h2
      · simp [h, inProg] at hs
      · simp [h, inProg] at hs
    rcases sStep_send hc hs hl with ⟨a1, a2, a3⟩ | ⟨a1, a2, f, a3, a4, a5, a6⟩
    · constructor <;> simp only [a1, a2, a3, f2, f3] <;> try assumption
      · exact ⟨l, hl, hset⟩
      · intro h; exact ⟨ht h, (l5 h).2⟩
      · intro h; rcases hpc with hp | hp <;> rcases h with h | h <;> rw [hp] at h <;> cases h
      · intro h; rcases hpc with hp | hp <;> rw [hp] at h <;> cases h
      · exact fun _ => .inl ⟨v, rfl, hv⟩
      · intro h; rcases hpc with hp | hp <;> rw [hp] at h <;> cases h
      · intro h; rcases hpc with hp | hp <;> rw [hp] at h <;> cases h
      · intro h; rcases hpc with hp | hp <;> rw [hp] at h <;> cases h
    · constructor <;> simp only [a1, f2, f3] <;> try assumption
      · rw [a3]; rw [hl] at l1; simpa using l1
      · rw [a3]; intro c hc'
        rcases List.mem_cons.1 hc' with rfl | h
        · simp
        · exact hset c h
      · rw [a6, a3, l3, hl]
        cases f <;> simp [accepted]
      · intro h
        refine ⟨ht h, ?_⟩
        rw [a3]; intro c hc'
        rcases List.mem_cons.1 hc' with rfl | h'
        · intro hd
          simp at hd
          have := a5 hd
          simp [(l5 h).1] at this
        · exact (l5 h).2 c (by rw [hl]; exact List.mem_cons_of_mem _ h')
      · intro h; rcases hpc with hp | hp <;> rcases h with h | h <;> rw [hp] at h <;> cases h
      · intro h; rcases hpc with hp | hp <;> rw [hp] at h <;> cases h
      · exact fun _ => .inr ⟨a2, v, f, l, a3, hv, a4⟩
      · intro h; rcases hpc with hp | hp <;> rw [hp] at h <;> cases h
      · intro h; rcases hpc with hp | hp <;> rw [hp] at h <;> cases h
      · intro h; rcases hpc with hp | hp <;> rw [hp] at h <;> cases h
  | none =>
    rw [hs] at l2
    obtain ⟨a1, a2, a3, a4⟩ := sStep_other hc hs
    constructor <;> simp only [a1, a2, a4, f2, f3] <;> try assumption
    · intro h; exact ⟨ht h, (l5 h).2⟩
    · intro h; have := l6 h; simp [this, SPc.resting] at hr
    · intro h
      rcases l7 h with h' | h'
      · exact .inr (check_step hc h').1
      · simp [h', SPc.resting] at hr
    · intro h
      rcases l8 h with ⟨u, h1, -⟩ | ⟨h1 | h1, v, f, l, q1, q2, q3⟩
      · rw [hs] at h1; cases h1
      · simp [h1, SPc.resting] at hr
      · exact .inr ⟨.inl (wake_step hc h1), v, f, l, by rw [a1]; exact q1, q2, by rw [a3]; exact q3⟩
    · intro h
      refine ⟨?_, (l14 h).2⟩
      rcases (l14 h).1 with h' | h'
      · exact fail_step hc h'
      · simp [h', SPc.resting] at hr
    · intro h
      refine ⟨?_, (l15 h).2⟩
      rcases (l15 h).1 with h' | h'
      · exact quit_step hc h'
      · simp [h', SPc.resting] at hr
    · intro h; simp [(l16 h).1, SPc.resting] at hr

theorem step_link {s s' : State k τ ε} {a : Act τ ε} (l : Linked pol s) (hn : Honest s.ch.log)
    (h : step cap pol s a = some s') : Linked pol s' := by
  cases a with
  | wake =>
    simp only [step] at h
    split at h <;> simp at h <;> subst h
    · rename_i hp
      obtain ⟨l1, l2, l3, l4, l5, l6, l7, l8, l9, l10, l11, l12, l13, l14, l15, l16⟩ := l
      have hi := l6 (.inl hp)
      have he := l13 (by simp [hp]) (by simp [hp])
      have hy := l9 (.inl hp)
      rw [hi] at l2 l4 l5
      exact ⟨l1, l2, l3, fun h => ⟨rfl, (l4 h).2⟩, fun h => ⟨rfl, (l5 h).2⟩, (by simp), fun _ => .inl rfl, (by simp), fun _ => hy, l10, (by simp), (by simp),
        fun _ _ => he, (by simp), (by simp), (by simp)⟩
    · exact l
  | fib out =>
    simp only [step] at h
    split at h <;> simp at h <;> subst h
    · exact receive_link l (by assumption) out
    · exact l
  | step =>
    simp only [step] at h
    split at h
    case h_6 => simp at h; subst h; exact l
    case h_7 => simp at h; subst h; exact l
    case h_8 => simp at h; subst h; exact l
    all_goals
      split at h
      · rename_i hr
        simp at h; subst h; exact proceed_link l hn hr
      · rename_i hr
        split at h
        · simp at h
        · rename_i ch hc
          simp at h; subst h
          exact access_link l hc (by simpa using hr)
  | call op =>
    simp only [step] at h
    split at h <;> simp at h <;> subst h
    · have e : (rCall s.ch op).spc = s.ch.spc ∧ (rCall s.ch op).log = s.ch.log := by cases op <;> simp [rCall]
      unfold Linked
      dsimp only
      rw [e.1, e.2]; exact l
    · exact l
  | rstep =>
    simp only [step] at h
    split at h
    · simp at h
    · rename_i ch hc
      simp at h; subst h
      obtain ⟨f1, f2, f3, f4, f5, f6, f7, f8⟩ := rStep_frame hc
      obtain ⟨l1, l2, l3, l4, l5, l6, l7, l8, l9, l10, l11, l12, l13, l14, l15, l16⟩ := l
      unfold Linked
      constructor <;> simp only [f1, f3, f4, f5, f6, f7, Last] <;> try assumption
      · intro h
        obtain ⟨q1, q2⟩ := l15 h
        exact ⟨q1, q2.imp f2 id⟩
      · intro h
        obtain ⟨q1, q2⟩ := l16 h
        exact ⟨q1, q2.imp (fun q => ⟨q.1, q.2.imp f2 id⟩) id⟩

/-! ### The channel only sees legal calls -/

theorem step_chan {s s' : State k τ ε} {a : Act τ ε} (l : Linked pol s) (h : step cap pol s a = some s') :
    s'.ch = s.ch ∨ ∃ a', Ring.step cap s.ch a' = some s'.ch := by
  have hidle : (s.pc = .yielded ∨ s.pc = .resume) → s.ch.spc = .idle := l.idle
  cases a with
  | wake =>
    simp only [step] at h
    split at h <;> simp at h <;> subst h
    · rename_i hp
      exact .inr ⟨.sCall .isCanceled, by simp [Ring.step, hidle (.inl hp), SPc.isIdle]⟩
    · exact .inl rfl
  | fib out =>
    simp only [step] at h
    split at h <;> simp at h <;> subst h
    · rename_i hp
      have hi := hidle (.inr hp)
      rcases out with (_ | v) | (e | (_ | v)) <;> simp only [receive, State.quit, State.fail]
      · exact .inl trivial
      · exact .inr ⟨.sCall (sendOp pol v), by simp [Ring.step, hi, SPc.isIdle]⟩
      · exact .inr ⟨.sCall (.sendErr e), by simp [Ring.step, hi, SPc.isIdle]⟩
      · exact .inr ⟨.sCall .drop, by simp [Ring.step, hi, SPc.isIdle]⟩
      · exact .inr ⟨.sCall (sendOp pol v), by simp [Ring.step, hi, SPc.isIdle]⟩
    · exact .inl rfl
  | step =>
    have main : s.ch.spc.resting = true → (proceed pol s).ch = s.ch ∨ ∃ a', Ring.step cap s.ch a' = some (proceed pol s).ch := by
      intro hr
      have hcases : s.ch.spc = .idle ∨ s.ch.spc = .gone := by
        cases hs : s.ch.spc <;> simp [hs, SPc.resting] at hr <;> simp
      have hq : s.pc = .check ∨ s.pc = .send ∨ s.pc = .sendLast → s.ch.spc = .idle := by
        intro hp
        rcases hcases with h' | h'
        · exact h'
        · exfalso
          rcases hp with hp | hp | hp
          · rcases l.check hp with q | q <;> simp [h'] at q
          · rcases l.send (.inl hp) with ⟨v, q, -⟩ | ⟨q | q, -⟩ <;> simp [h', inProg] at q
          · rcases l.send (.inr hp) with ⟨v, q, -⟩ | ⟨q | q, -⟩ <;> simp [h', inProg] at q
      cases hp : s.pc <;> simp only [proceed, hp]
      case check =>
        have hi := hq (.inl hp)
        split
        · exact .inr ⟨.sCall .drop, by simp [Ring.step, hi, SPc.isIdle, State.quit]⟩
        · exact .inl rfl
      case send =>
        have hi := hq (.inr (.inl hp))
        repeat' split
        all_goals first
          | exact .inl rfl
          | (refine .inr ⟨.sCall .drop, ?_⟩; simp [Ring.step, hi, SPc.isIdle, State.quit]; done)
          | (rename_i e _; exact .inr ⟨.sCall (.sendErr e), by simp [Ring.step, hi, SPc.isIdle, State.fail]⟩)
      case sendLast =>
        have hi := hq (.inr (.inr hp))
        repeat' split
        all_goals first
          | exact .inl rfl
          | (refine .inr ⟨.sCall .drop, ?_⟩; simp [Ring.step, hi, SPc.isIdle, State.quit]; done)
          | (rename_i e _; exact .inr ⟨.sCall (.sendErr e), by simp [Ring.step, hi, SPc.isIdle, State.fail]⟩)
      all_goals exact .inl trivial
    simp only [step] at h
    split at h
    case h_6 => simp at h; subst h; exact .inl rfl
    case h_7 => simp at h; subst h; exact .inl rfl
    case h_8 => simp at h; subst h; exact .inl rfl
    all_goals
      split at h
      · rename_i hr
        simp at h; subst h; exact main hr
      · split at h
        · simp at h
        · rename_i ch hc
          simp at h; subst h
          exact .inr ⟨.sStep, hc⟩
  | call op =>
    simp only [step] at h
    split at h <;> simp at h <;> subst h
    · rename_i hi
      exact .inr ⟨.rCall op, by simp [Ring.step, hi]⟩
    · exact .inl rfl
  | rstep =>
    simp only [step] at h
    split at h
    · simp at h
    · rename_i ch hc
      simp at h; subst h
      exact .inr ⟨.rStep, hc⟩

theorem chan_snoc {P : Ring.State k τ ε → Prop} {acts : List (Ring.Act τ ε)} {c c1 c2 : Ring.State k τ ε} {a : Ring.Act τ ε}
    (al : Ring.Always cap P c acts) (h : Ring.run cap c acts = some c1) (h' : Ring.step cap c1 a = some c2) (p : P c2) :
    Ring.Always cap P c (acts ++ [a]) ∧ Ring.run cap c (acts ++ [a]) = some c2 := by
  induction acts generalizing c with
  | nil =>
    simp [Ring.run] at h; subst h
    refine ⟨⟨al, fun s hs => ?_⟩, by simp [Ring.run, h']⟩
    rw [h'] at hs; cases hs; exact p
  | cons b bs ih =>
    simp only [Ring.run, List.cons_append] at h ⊢
    split at h
    · simp at h
    · rename_i c3 h3
      obtain ⟨q1, q2⟩ := ih (al.2 c3 h3) h
      refine ⟨⟨al.1, fun s hs => ?_⟩, q2⟩
      rw [h3] at hs; cases hs; exact q1

/-- A reachable state is linked, and its channel is reachable by a schedule of channel
steps with the same states. -/
theorem reach_ind {P : Ring.State k τ ε → Prop} (h1 : 1 < cap) (hcap : cap < 2 ^ k) {acts : List (Act τ ε)} {s s' : State k τ ε}
    {as : List (Ring.Act τ ε)} (al : Always cap pol (fun t => P t.ch) s acts) (lk : Linked pol s)
    (a1 : Ring.Always cap P (Ring.init k τ ε) as) (a2 : Ring.run cap (Ring.init k τ ε) as = some s.ch)
    (h : run cap pol s acts = some s') :
    Linked pol s' ∧ ∃ as', Ring.Always cap P (Ring.init k τ ε) as' ∧ Ring.run cap (Ring.init k τ ε) as' = some s'.ch := by
  induction acts generalizing s as with
  | nil => simp [run] at h; subst h; exact ⟨lk, as, a1, a2⟩
  | cons a rest ih =>
    simp only [run] at h
    split at h
    · simp at h
    · rename_i t ht
      have hn : Honest s.ch.log := honest_of_hist (cap := cap) (Ring.reach h1 hcap a2).2.1.1.hist
      have lt := step_link lk hn ht
      have alt := al.2 t ht
      have pt : P t.ch := by cases rest <;> first | exact alt | exact alt.1
      rcases step_chan lk ht with e | ⟨a', e⟩
      · exact ih alt lt a1 (by rw [e]; exact a2) h
      · obtain ⟨q1, q2⟩ := chan_snoc a1 a2 e pt
        exact ih alt lt q1 q2 h

theorem always_true (s : State k τ ε) (acts : List (Act τ ε)) : Always cap pol (fun _ => True) s acts := by
  induction acts generalizing s with
  | nil => trivial
  | cons a as ih => exact ⟨trivial, fun s' _ => ih s'⟩

theorem reach (h1 : 1 < cap) (hcap : cap < 2 ^ k) {acts : List (Act τ ε)} {s : State k τ ε}
    (h : run cap pol (init k τ ε) acts = some s) :
    Linked pol s ∧ ∃ as, Ring.run cap (Ring.init k τ ε) as = some s.ch := by
  obtain ⟨q, as, -, q'⟩ := reach_ind (P := fun _ => True) h1 hcap (always_true _ acts) (init_link pol) (as := []) trivial rfl h
  exact ⟨q, as, q'⟩

/-- Outside the calls that send, nothing is being sent. -/
theorem Link.notSending {s : State k τ ε} (l : Linked pol s) (h1 : s.pc ≠ .send) (h2 : s.pc ≠ .sendLast) : inProg s.ch.spc = none := by
  cases hs : inProg s.ch.spc with
  | none => rfl
  | some v =>
    exfalso
    cases hp : s.pc with
    | send => exact h1 hp
    | sendLast => exact h2 hp
    | yielded => simp [l.idle (.inl hp), inProg] at hs
    | resume => simp [l.idle (.inr hp), inProg] at hs
    | check => rcases l.check hp with h | h <;> simp [h, inProg] at hs
    | err => rcases (l.err hp).1 with h | h <;> cases hq : s.ch.spc <;> simp [hq, failing] at h <;> simp [hq, inProg] at hs
    | leave => rcases (l.leave hp).1 with h | h <;> cases hq : s.ch.spc <;> simp [hq, quitting] at h <;> simp [hq, inProg] at hs
    | done => simp [(l.done hp).1, inProg] at hs

theorem Link.errs_eq {s : State k τ ε} {e : ε} {es : List ε} (l : Linked pol s) (h : errs s.ch.log = e :: es) :
    finish pol s.outs (calls s.ch.log) = some (some e) ∧ es = [] := by
  by_cases h1 : s.pc = .err
  · obtain ⟨-, x, q1, q2⟩ := l.err h1
    rw [h] at q1; cases q1; exact ⟨q2, rfl⟩
  · by_cases h2 : s.pc = .done
    · rcases (l.done h2).2 with ⟨q, -⟩ | ⟨x, q1, q2⟩
      · rw [h] at q; cases q
      · rw [h] at q1; cases q1; exact ⟨q2, rfl⟩
    · have := l.noErr h1 h2; rw [h] at this; cases this

/-- Closed while suspended: the generator will leave without resuming the fiber. -/
structure Shut (outs : List (Out τ ε)) (s : State k τ ε) : Prop where
  outs : s.outs = outs
  closed : Event.closed ∈ s.ch.log
  pc : s.pc = .yielded ∨ (s.pc = .check ∧ (s.ch.spc = .idle → lastCanceled s.ch.log = true)) ∨ s.pc = .leave ∨ s.pc = .done

theorem step_shut {s s' : State k τ ε} {a : Act τ ε} {outs : List (Out τ ε)} (h1 : 1 < cap) (hcap : cap < 2 ^ k) (l : Linked pol s)
    {as : List (Ring.Act τ ε)} (hr : Ring.run cap (Ring.init k τ ε) as = some s.ch) (sh : Shut outs s)
    (h : step cap pol s a = some s') : Shut outs s' := by
  obtain ⟨o1, o2, o3⟩ := sh
  cases a with
  | wake =>
    simp only [step] at h
    split at h <;> simp at h <;> subst h
    · exact ⟨o1, o2, .inr (.inl ⟨rfl, by simp [sCall]⟩)⟩
    · exact ⟨o1, o2, o3⟩
  | fib out =>
    simp only [step] at h
    split at h <;> simp at h <;> subst h
    · rename_i hp
      simp [hp] at o3
    · exact ⟨o1, o2, o3⟩
  | call op =>
    simp only [step] at h
    split at h <;> simp at h <;> subst h
    · have e : (rCall s.ch op).spc = s.ch.spc ∧ (rCall s.ch op).log = s.ch.log := by cases op <;> simp [rCall]
      exact ⟨o1, by simpa [e.2] using o2, by simpa [e.1, e.2] using o3⟩
    · exact ⟨o1, o2, o3⟩
  | rstep =>
    simp only [step] at h
    split at h
    · simp at h
    · rename_i ch hc
      simp at h; subst h
      obtain ⟨f1, f2, f3, f4, f5, f6, f7, f8⟩ := rStep_frame hc
      exact ⟨o1, f2 o2, by simpa [f1, f8] using o3⟩
  | step =>
    have hloc : s.ch.spc.resting = true → Shut outs (proceed pol s) := by
      intro hrest
      rcases o3 with hp | ⟨hp, hq⟩ | hp | hp
      · simp only [proceed, hp]; exact ⟨o1, o2, .inl hp⟩
      · have hi : s.ch.spc = .idle := by
          rcases l.check hp with h' | h'
          · simp [h', SPc.resting] at hrest
          · exact h'
        simp only [proceed, hp, hq hi, if_true]
        exact ⟨o1, by simpa [State.quit, sCall] using o2, .inr (.inr (.inl rfl))⟩
      · simp only [proceed, hp]; exact ⟨o1, o2, .inr (.inr (.inr rfl))⟩
      · simp only [proceed, hp]; exact ⟨o1, o2, .inr (.inr (.inr hp))⟩
    have hacc : ∀ ch, Ring.sStep cap s.ch = some ch → s.ch.spc.resting = false → Shut outs { s with ch := ch } := by
      intro ch hc hrest
      obtain ⟨f1, f2, f3, f4, f5⟩ := sStep_frame hc
      refine ⟨o1, by simpa [f2] using o2, ?_⟩
      rcases o3 with hp | ⟨hp, hq⟩ | hp | hp
      · exact .inl hp
      · refine .inr (.inl ⟨hp, fun _ => ?_⟩)
        have hi : s.ch.spc = .icLoad := by
          rcases l.check hp with h' | h'
          · exact h'
          · simp [h', SPc.resting] at hrest
        rw [(check_step hc hi).2]
        have := (Ring.reach h1 hcap hr).2.1.1.cl
        simpa [lastCanceled] using this.2 o2
      · exact .inr (.inr (.inl hp))
      · exact .inr (.inr (.inr hp))
    simp only [step] at h
    split at h
    case h_6 => simp at h; subst h; exact ⟨o1, o2, o3⟩
    case h_7 => simp at h; subst h; exact ⟨o1, o2, o3⟩
    case h_8 => simp at h; subst h; exact ⟨o1, o2, o3⟩
    all_goals
      split at h
      · rename_i hr
        simp at h; subst h; exact hloc hr
      · rename_i hr
        split at h
        · simp at h
        · rename_i ch hc
          simp at h; subst h
          exact hacc ch hc (by simpa using hr)

theorem run_append (s : State k τ ε) (a b : List (Act τ ε)) :
    run cap pol s (a ++ b) = (run cap pol s a).bind fun t => run cap pol t b := by
  induction a generalizing s with
  | nil => rfl
  | cons x xs ih =>
    simp only [List.cons_append, run]
    cases step cap pol s x with
    | none => rfl
    | some t => exact ih t

theorem run_shut (h1 : 1 < cap) (hcap : cap < 2 ^ k) {outs : List (Out τ ε)} {acts : List (Act τ ε)} {s s' : State k τ ε} (l : Linked pol s)
    {as : List (Ring.Act τ ε)} (hr : Ring.run cap (Ring.init k τ ε) as = some s.ch) (sh : Shut outs s)
    (h : run cap pol s acts = some s') : Shut outs s' := by
  induction acts generalizing s as with
  | nil => simp [run] at h; subst h; exact sh
  | cons a rest ih =>
    simp only [run] at h
    split at h
    · simp at h
    · rename_i t ht
      have hn : Honest s.ch.log := honest_of_hist (cap := cap) (Ring.reach h1 hcap hr).2.1.1.hist
      have lt := step_link l hn ht
      have st := step_shut h1 hcap l hr sh ht
      rcases step_chan l ht with e | ⟨a', e⟩
      · exact ih lt (as := as) (by rw [e]; exact hr) st h
      · exact ih lt (as := as ++ [a']) (by rw [Ring.run_append, hr]; simp [Ring.run, e]) st h

/-- … and nothing more is taken by the channel. -/
theorem shut_step_pushed {s s' : State k τ ε} {a : Act τ ε} {outs : List (Out τ ε)} (l : Linked pol s) (sh : Shut outs s)
    (h : step cap pol s a = some s') : pushed s'.ch.log = pushed s.ch.log := by
  have hsh := sh.pc
  have ns : inProg s.ch.spc = none := by
    refine Link.notSending l ?_ ?_ <;> intro hp <;> simp [hp] at hsh
  cases a with
  | wake =>
    simp only [step] at h
    split at h <;> simp at h <;> subst h <;> rfl
  | fib out =>
    simp only [step] at h
    split at h <;> simp at h <;> subst h
    · rename_i hp; simp [hp] at hsh
    · rfl
  | call op =>
    simp only [step] at h
    split at h <;> simp at h <;> subst h
    · cases op <;> rfl
    · rfl
  | rstep =>
    simp only [step] at h
    split at h
    · simp at h
    · rename_i ch hc
      simp at h; subst h
      exact (rStep_frame hc).2.2.2.2.2.1
  | step =>
    have hloc : pushed (proceed pol s).ch.log = pushed s.ch.log := by
      rcases hsh with hp | ⟨hp, -⟩ | hp | hp <;> simp only [proceed, hp]
      split <;> rfl
    simp only [step] at h
    split at h
    case h_6 => simp at h; subst h; rfl
    case h_7 => simp at h; subst h; rfl
    case h_8 => simp at h; subst h; rfl
    all_goals
      split at h
      · simp at h; subst h; exact hloc
      · split at h
        · simp at h
        · rename_i ch hc
          simp at h; subst h
          exact (sStep_other hc ns).2.1

theorem shut_pushed (h1 : 1 < cap) (hcap : cap < 2 ^ k) {outs : List (Out τ ε)} {acts : List (Act τ ε)} {s s' : State k τ ε} (l : Linked pol s)
    {as : List (Ring.Act τ ε)} (hr : Ring.run cap (Ring.init k τ ε) as = some s.ch) (sh : Shut outs s)
    (h : run cap pol s acts = some s') : pushed s'.ch.log = pushed s.ch.log := by
  induction acts generalizing s as with
  | nil => simp [run] at h; subst h; rfl
  | cons a rest ih =>
    simp only [run] at h
    split at h
    · simp at h
    · rename_i t ht
      have hn : Honest s.ch.log := honest_of_hist (cap := cap) (Ring.reach h1 hcap hr).2.1.1.hist
      have lt := step_link l hn ht
      have st := step_shut h1 hcap l hr sh ht
      rw [← shut_step_pushed l sh ht]
      rcases step_chan l ht with e | ⟨a', e⟩
      · exact ih lt (as := as) (by rw [e]; exact hr) st h
      · exact ih lt (as := as ++ [a']) (by rw [Ring.run_append, hr]; simp [Ring.run, e]) st h

/-- Without the overlaps there is always a next state. -/
theorem step_defined (h1 : 1 < cap) (hcap : cap < 2 ^ k) {s : State k τ ε} {as : List (Ring.Act τ ε)}
    (al : Ring.Always cap (Safe cap) (Ring.init k τ ε) as) (hr : Ring.run cap (Ring.init k τ ε) as = some s.ch)
    (p : Safe cap s.ch) (a : Act τ ε) : ∃ s', step cap pol s a = some s' := by
  obtain ⟨t, q, i1, i2, i3⟩ := run_safe h1 hcap (init_inv cap k τ ε) (init_invL h1) init_invC al
  rw [hr] at q; cases q
  have prog := step_progress i1 i2 i3 p.orderly
  cases a with
  | wake => simp only [step]; split <;> exact ⟨_, rfl⟩
  | fib out => simp only [step]; split <;> exact ⟨_, rfl⟩
  | call op => simp only [step]; split <;> exact ⟨_, rfl⟩
  | rstep =>
    obtain ⟨c, hc⟩ := prog .rStep
    simp only [Ring.step] at hc
    simp only [step, hc]; exact ⟨_, rfl⟩
  | step =>
    obtain ⟨c, hc⟩ := prog .sStep
    simp only [Ring.step] at hc
    simp only [step, hc]
    split <;> first | exact ⟨_, rfl⟩ | (split <;> exact ⟨_, rfl⟩)

theorem run_defined (h1 : 1 < cap) (hcap : cap < 2 ^ k) {acts : List (Act τ ε)} {s : State k τ ε} (l : Linked pol s)
    {as : List (Ring.Act τ ε)} (a1 : Ring.Always cap (Safe cap) (Ring.init k τ ε) as) (a2 : Ring.run cap (Ring.init k τ ε) as = some s.ch)
    (al : Always cap pol (fun t => Safe cap t.ch) s acts) : ∃ s', run cap pol s acts = some s' := by
  induction acts generalizing s as with
  | nil => exact ⟨s, rfl⟩
  | cons a rest ih =>
    obtain ⟨t, ht⟩ := step_defined (pol := pol) h1 hcap a1 a2 al.1 a
    have hn : Honest s.ch.log := honest_of_hist (cap := cap) (Ring.reach h1 hcap a2).2.1.1.hist
    have lt := step_link l hn ht
    have alt := al.2 t ht
    have pt : Safe cap t.ch := by cases rest <;> first | exact alt | exact alt.1
    simp only [run, ht]
    rcases step_chan l ht with e | ⟨a', e⟩
    · exact ih lt a1 (by rw [e]; exact a2) alt
    · obtain ⟨q1, q2⟩ := chan_snoc a1 a2 e pt
      exact ih lt q1 q2 alt

end Verif.Fib.RingStream
