import Verif.Fib.FutureSpec
import Verif.Oneshot.Props
/-! # Lemmas about fiber futures -/
namespace Verif.Fib.Future

open Verif.Spsc Verif.Oneshot

variable {α : Type}

/-! ### The channel only sees legal calls -/

theorem step_chan {s s' : State α} {a : Act α} (h : step s a = some s') (hi : s.pc = .yielded ∨ s.pc = .resume → s.ch.spc = .idle) :
    ∃ acts, Oneshot.run s.ch acts = some s'.ch := by
  cases a with
  | wake =>
    simp only [step] at h
    split at h <;> simp at h <;> subst h
    · refine ⟨[.sCall .isCanceled], ?_⟩
      rename_i hp
      simp [Oneshot.run, Oneshot.step, hi (.inl hp), Oneshot.SPc.isIdle]
    · exact ⟨[], rfl⟩
  | fib out =>
    simp only [step] at h
    split at h
    · rename_i hp
      split at h <;> simp at h <;> subst h
      · exact ⟨[], rfl⟩
      · rename_i v
        exact ⟨[.sCall (.send v)], by simp [Oneshot.run, Oneshot.step, hi (.inr hp), Oneshot.SPc.isIdle]⟩
    · simp at h; subst h; exact ⟨[], rfl⟩
  | step =>
    simp only [step] at h
    split at h
    case h_4 => simp at h; subst h; exact ⟨[], rfl⟩
    case h_5 => simp at h; subst h; exact ⟨[], rfl⟩
    case h_6 => simp at h; subst h; exact ⟨[], rfl⟩
    all_goals
      split at h
      · simp at h
      · rename_i ch hc
        simp at h; subst h
        simp only [proceed]
        split
        · split
          · split
            · exact ⟨[.sStep, .sCall .drop], by simp_all [Oneshot.run, Oneshot.step]⟩
            · exact ⟨[.sStep], by simp [Oneshot.run, Oneshot.step, hc]⟩
          · exact ⟨[.sStep], by simp [Oneshot.run, Oneshot.step, hc]⟩
        all_goals
          first
          | (split <;> exact ⟨[.sStep], by simp [Oneshot.run, Oneshot.step, hc]⟩)
          | exact ⟨[.sStep], by simp [Oneshot.run, Oneshot.step, hc]⟩
  | call op =>
    simp only [step] at h
    split at h <;> simp at h <;> subst h
    · exact ⟨[.rCall op.toROp], by simp_all [Oneshot.run, Oneshot.step]⟩
    · exact ⟨[], rfl⟩
  | rstep =>
    simp only [step] at h
    split at h
    · simp at h
    · split at h <;> simp at h
      subst h
      exact ⟨[.rStep], by simp_all [Oneshot.run, Oneshot.step]⟩

theorem run_append_some {s s1 s2 : Oneshot.State α} {as bs : List (Oneshot.Act α)}
    (h1 : Oneshot.run s as = some s1) (h2 : Oneshot.run s1 bs = some s2) : Oneshot.run s (as ++ bs) = some s2 := by
  induction as generalizing s with
  | nil => simp [Oneshot.run] at h1; subst h1; exact h2
  | cons a as ih =>
    simp only [Oneshot.run, List.cons_append] at h1 ⊢
    split at h1
    · simp at h1
    · exact ih h1

/-! ### Frames -/

theorem sStep_frame {s s' : Oneshot.State α} (h : Oneshot.sStep s = some s') :
    s'.rpc = s.rpc ∧ received s'.log = received s.log ∧ (Event.closed ∈ s'.log ↔ Event.closed ∈ s.log) ∧
    sends s'.log = sends s.log ∧ pollCanceled s'.log = pollCanceled s.log := by
  obtain ⟨st, data, rxw, txw, freed, spc, rpc, log⟩ := s
  unfold Oneshot.sStep at h
  cases spc <;> simp [SPc.resting] at h
  all_goals
    first
    | (subst h; simp; done)
    | (obtain ⟨-, h⟩ := h
       try simp only [sendTail, Oneshot.State.emit, Oneshot.State.release] at h
       repeat' split at h
       all_goals first
         | (simp at h; done)
         | (try simp only [Option.some.injEq] at h
            first | subst h | (have h := h.2; subst h)
            simp [received, sends, pollCanceled]))

theorem rStep_frame {s s' : Oneshot.State α} (h : Oneshot.rStep s = some s') :
    s'.spc = s.spc ∧ sends s'.log = sends s.log ∧ ((Event.closed ∈ s.log → Event.closed ∈ s'.log)) ∧
    lastCanceled s'.log = lastCanceled s.log ∧ (pollCanceled s.log = true → pollCanceled s'.log = true) := by
  obtain ⟨st, data, rxw, txw, freed, spc, rpc, log⟩ := s
  unfold Oneshot.rStep at h
  cases rpc <;> simp [RPc.resting] at h
  all_goals
    first
    | (subst h; simp; done)
    | (obtain ⟨-, h⟩ := h
       try simp only [dropTail, Oneshot.State.emit, Oneshot.State.release] at h
       repeat' split at h
       all_goals first
         | (simp at h; done)
         | (try simp only [Option.some.injEq] at h
            first | subst h | (have h := h.2; subst h)
            simp +contextual [sends, lastCanceled, pollCanceled]))

/-! ### The generator and its end of the channel -/

/-- Accesses of the sender until it is gone. -/
def rank : SPc α → Nat
  | .sendWrite _ => 5
  | .sendRmw => 4
  | .sendWaker _ => 3
  | .sendBack _ => 2
  | .sendFree _ => 1
  | .drRmw => 3
  | .drWaker _ => 2
  | .drFree => 1
  | _ => 0

/-- Dropping. -/
def dropping : SPc α → Bool
  | .drRmw | .drWaker _ | .drFree => true
  | _ => false

/-- The relation between the generator and the channel. -/
structure Link (pc : Pc) (outs : List (Option α)) (spc : SPc α) (log : List (Event α)) : Prop where
  vals : completions outs = sends log
  idle : pc = .yielded ∨ pc = .resume → spc = .idle
  check : pc = .check → spc = .icLoad
  open_ : pc = .yielded ∨ pc = .check ∨ pc = .resume → sends log = []
  send : pc = .send → sSend spc = true
  last : sends log ≠ [] → ∃ v os, outs = some v :: os
  leave : pc = .leave → dropping spc = true
  closed : pc = .leave ∨ (pc = .done ∧ sends log = []) → Event.closed ∈ log
  done : pc = .done → spc = .gone

theorem sends_sCall (c : Oneshot.State α) (v : α) : sends (sCall c (.send v)).log = v :: sends c.log := rfl

theorem send_step {c c' : Oneshot.State α} (h : Oneshot.sStep c = some c') (hs : sSend c.spc = true) :
    (sSend c'.spc = true ∨ c'.spc = .gone) ∧ rank c'.spc < rank c.spc := by
  obtain ⟨st, data, rxw, txw, freed, spc, rpc, log⟩ := c
  unfold Oneshot.sStep at h
  cases spc <;> simp [sSend] at hs <;> simp [SPc.resting] at h
  all_goals
    (obtain ⟨-, h⟩ := h
     try simp only [sendTail, Oneshot.State.emit, Oneshot.State.release] at h
     repeat' split at h
     all_goals first
       | (simp at h; done)
       | (try simp only [Option.some.injEq] at h
          first | subst h | (have h := h.2; subst h)
          simp [sSend, rank]))

theorem drop_step {c c' : Oneshot.State α} (h : Oneshot.sStep c = some c') (hs : dropping c.spc = true) :
    (dropping c'.spc = true ∨ c'.spc = .gone) ∧ rank c'.spc < rank c.spc := by
  obtain ⟨st, data, rxw, txw, freed, spc, rpc, log⟩ := c
  unfold Oneshot.sStep at h
  cases spc <;> simp [dropping] at hs <;> simp [SPc.resting] at h
  all_goals
    (obtain ⟨-, h⟩ := h
     try simp only [Oneshot.State.emit, Oneshot.State.release] at h
     repeat' split at h
     all_goals first
       | (simp at h; done)
       | (try simp only [Option.some.injEq] at h
          subst h
          simp [dropping, rank]))

theorem check_step {c c' : Oneshot.State α} (h : Oneshot.sStep c = some c') (hs : c.spc = .icLoad) :
    c'.spc = .idle ∧ c'.log = .isCanceled (has c.st CLOSED) :: c.log := by
  obtain ⟨st, data, rxw, txw, freed, spc, rpc, log⟩ := c
  dsimp only at hs; subst hs
  cases freed <;> simp [Oneshot.sStep, SPc.resting, Oneshot.State.emit] at h
  subst h; simp

/-- All that is known of a reachable state. -/
structure Good (s : State α) : Prop where
  chan : ∃ acts, Oneshot.run (Oneshot.init α) acts = some s.ch
  link : Link s.pc s.outs s.ch.spc s.ch.log
  polls : pollCanceled s.ch.log = false

theorem reachA {c : Oneshot.State α} (h : ∃ acts, Oneshot.run (Oneshot.init α) acts = some c) : LogA c ∧ (Inv c ∨ Doomed c) := by
  obtain ⟨acts, h⟩ := h
  have := run_ind step_logA (.inl (init_inv α)) (init_logA α) h
  exact ⟨this.2, this.1⟩

theorem init_good (α : Type) : Good (init α) := by
  refine ⟨⟨[], rfl⟩, ?_, rfl⟩
  constructor <;> simp [init, Oneshot.init, completions, sends]

theorem step_good' {s s' : State α} {a : Act α} (g : Good s) (h : step s a = some s') : Good s' := by
  have hch : ∃ acts, Oneshot.run (Oneshot.init α) acts = some s'.ch := by
    obtain ⟨a1, h1⟩ := g.chan
    obtain ⟨a2, h2⟩ := step_chan h g.link.idle
    exact ⟨_, run_append_some h1 h2⟩
  obtain ⟨l1, l2, l3, l4, l5, l6, l7, l8, l9⟩ := g.link
  have hp := g.polls
  cases a with
  | wake =>
    simp only [step] at h
    split at h <;> simp at h <;> subst h
    · rename_i hpc
      refine ⟨hch, ?_, by simpa [sCall] using hp⟩
      have := l4 (.inl hpc)
      constructor <;> simp_all [sCall]
    · exact g
  | fib out =>
    simp only [step] at h
    split at h
    · rename_i hpc
      have h4 := l4 (.inr (.inr hpc))
      split at h <;> simp at h <;> subst h
      · refine ⟨hch, ?_, hp⟩
        constructor <;> simp_all [completions]
      · refine ⟨hch, ?_, by simpa [sCall, Oneshot.State.emit, pollCanceled] using hp⟩
        constructor <;> simp_all [completions, sCall, Oneshot.State.emit, sends, sSend]
    · simp at h; subst h; exact g
  | call op =>
    simp only [step] at h
    split at h <;> simp at h <;> subst h
    · have e : (rCall s.ch op.toROp).spc = s.ch.spc ∧ (rCall s.ch op.toROp).log = s.ch.log := by
        cases op <;> simp [Op.toROp, rCall]
      refine ⟨hch, ?_, by simpa [e.2] using hp⟩
      dsimp only
      rw [e.1, e.2]; exact g.link
    · exact g
  | rstep =>
    simp only [step] at h
    split at h
    · simp at h
    · rename_i ch hc
      split at h <;> simp at h
      subst h
      obtain ⟨f1, f2, f3, f4, f5⟩ := rStep_frame hc
      refine ⟨hch, ?_, by simp_all⟩
      constructor <;> simp only [f1, f2] <;> try assumption
      intro h; exact f3 (l8 h)
  | step =>
    have logA := (reachA g.chan).1
    simp only [step] at h
    split at h
    · rename_i hpc
      split at h
      · simp at h
      · rename_i ch hc
        simp at h; subst h
        obtain ⟨f1, f2, f3, f4, f5⟩ := sStep_frame hc
        obtain ⟨c1, c2⟩ := check_step hc (l3 hpc)
        have h4 := l4 (.inr (.inl hpc))
        rw [f4.symm] at h4 l1
        have e : lastCanceled ch.log = has s.ch.st CLOSED := by rw [c2]; rfl
        simp only [proceed, hpc, c1, SPc.isIdle, if_true] at hch ⊢
        cases hb : has s.ch.st CLOSED with
        | true =>
          have hcl := logA.closed.2 hb
          simp only [e, hb, if_true] at hch ⊢
          refine ⟨hch, ?_, by simpa [sCall, f5] using hp⟩
          constructor <;> simp_all [sCall, dropping]
        | false =>
          simp only [e, hb] at hch ⊢
          refine ⟨hch, ?_, by simpa [f5] using hp⟩
          constructor <;> simp_all
    · rename_i hpc
      split at h
      · simp at h
      · rename_i ch hc
        simp at h; subst h
        obtain ⟨f1, f2, f3, f4, f5⟩ := sStep_frame hc
        obtain ⟨c1, -⟩ := send_step hc (l5 hpc)
        have hne := logA.sent (l5 hpc)
        simp only [proceed, hpc] at hch ⊢
        split at hch <;> rename_i hrest <;> simp only [hrest, if_true, if_false, Bool.false_eq_true] at hch ⊢
        · refine ⟨hch, ?_, by simpa [f5] using hp⟩
          have hg : ch.spc = .gone := by
            rcases c1 with c1 | c1
            · cases hsp : ch.spc <;> simp [hsp, sSend] at c1 <;> simp [hsp, SPc.resting] at hrest
            · exact c1
          constructor <;> simp_all
        · refine ⟨hch, ?_, by simpa [f5] using hp⟩
          have hg : sSend ch.spc = true := by
            rcases c1 with c1 | c1
            · exact c1
            · simp [c1, SPc.resting] at hrest
          constructor <;> simp_all
    · rename_i hpc
      split at h
      · simp at h
      · rename_i ch hc
        simp at h; subst h
        obtain ⟨f1, f2, f3, f4, f5⟩ := sStep_frame hc
        obtain ⟨c1, -⟩ := drop_step hc (l7 hpc)
        have hcl := f3.2 (l8 (.inl hpc))
        simp only [proceed, hpc] at hch ⊢
        split at hch <;> rename_i hrest <;> simp only [hrest, if_true, if_false, Bool.false_eq_true] at hch ⊢
        · refine ⟨hch, ?_, by simpa [f5] using hp⟩
          have hg : ch.spc = .gone := by
            rcases c1 with c1 | c1
            · cases hsp : ch.spc <;> simp [hsp, dropping] at c1 <;> simp [hsp, SPc.resting] at hrest
            · exact c1
          constructor <;> simp_all
        · refine ⟨hch, ?_, by simpa [f5] using hp⟩
          have hg : dropping ch.spc = true := by
            rcases c1 with c1 | c1
            · exact c1
            · simp [c1, SPc.resting] at hrest
          constructor <;> simp_all
    all_goals simp at h; subst h; exact g

theorem run_good {s s' : State α} {acts : List (Act α)} (g : Good s) (h : run s acts = some s') : Good s' := by
  induction acts generalizing s with
  | nil => simp [run] at h; subst h; exact g
  | cons a as ih =>
    simp only [run] at h
    split at h
    · simp at h
    · rename_i s1 h1
      exact ih (step_good' g h1) h

/-! ### Polls that are not canceled -/

/-- In a `poll`. -/
def polling : RPc → Bool
  | .poRmw _ | .poWrite _ | .poRmw2 _ | .poUndo _ | .read => true
  | _ => false

/-- Before a drop, or in it. -/
def dropOnly : RPc → Bool
  | .drRmw | .drData _ | .drWaker _ | .drFree | .gone => true
  | _ => false

/-- What careful use keeps. -/
structure Quiet (c : Oneshot.State α) : Prop where
  pcs : c.rpc = .idle ∨ polling c.rpc = true ∨ dropOnly c.rpc = true
  fresh : polling c.rpc = true → received c.log = []
  open_ : rDone c.rpc = false → Event.closed ∉ c.log

set_option maxHeartbeats 1000000 in
theorem rStep_quiet {c c' : Oneshot.State α} (q : Quiet c) (inv : Oneshot.Inv c) (la : LogA c)
    (hd : sDone c.spc = true → Event.closed ∉ c.log → sends c.log ≠ []) (hp : pollCanceled c.log = false)
    (h : Oneshot.rStep c = some c') : pollCanceled c'.log = false ∧ Quiet c' := by
  obtain ⟨q1, q2, q3⟩ := q
  obtain ⟨st, data, rxw, txw, freed, spc, rpc, log⟩ := c
  unfold Oneshot.Inv at inv
  unfold LogA at la
  obtain ⟨half, closed, rtx, sundo, sfail, sbad, rundo, rplain, first1, first2, first3, first3', first4, first5, hfreed,
    rStore, hsWk, hrxw, sStore, htxw, hdata, dOk⟩ := inv
  have lclosed := la.closed
  have lvals := la.vals
  have lret := la.ret
  have lrdrop := la.rdrop
  dsimp only at *
  -- before the drop, a finished sender has left its value
  have key : rDone rpc = false → sDone spc = true → received log = [] → data.isSome = true := by
    intro hr hs hrec
    have hc := q3 hr
    have hne := hd hs hc
    have hv : sVal spc = [] := by
      cases spc <;> simp [sDone] at hs <;> simp [sVal]
      have := first1 rfl
      simp [hr] at this
    have hdrop : droppedValues log = [] := Classical.byContradiction fun hh => by simp [hr] at lrdrop; exact hh lrdrop
    have hret : returned log = [] := Classical.byContradiction fun hh => hc (lret hh).2.1
    rw [hv, hrec, hdrop, hret] at lvals
    cases data with
    | none => simp at lvals; exact absurd lvals hne
    | some v => rfl
  have hC : rDone rpc = false → has st CLOSED = false := by
    intro hr
    cases hC : has st CLOSED with
    | false => rfl
    | true => exact absurd (lclosed.2 hC) (q3 hr)
  have hF : rDone rpc = false → sFail spc = false := by
    intro hr
    cases hF : sFail spc with
    | false => rfl
    | true => have := sfail hF; simp [hC hr] at this
  unfold Oneshot.rStep at h
  cases rpc with
  | idle => simp [RPc.resting] at h; subst h; exact ⟨hp, ⟨.inl rfl, by simp [polling], q3⟩⟩
  | gone => simp [RPc.resting] at h; subst h; exact ⟨hp, ⟨.inr (.inr rfl), by simp [polling], q3⟩⟩
  | clRmw => simp [polling, dropOnly] at q1
  | clWaker _ => simp [polling, dropOnly] at q1
  | trRmw => simp [polling, dropOnly] at q1
  | itLoad => simp [polling, dropOnly] at q1
  | read =>
    simp [RPc.resting] at h
    obtain ⟨-, h⟩ := h
    split at h <;> simp at h
    subst h
    refine ⟨by simpa [Oneshot.State.emit, pollCanceled] using hp, ⟨.inl rfl, by simp [polling, Oneshot.State.emit], ?_⟩⟩
    have := q3 rfl
    simpa [Oneshot.State.emit, rDone] using this
  | poRmw w =>
    have hk := key rfl
    have hq := q2 rfl
    have hc := hC rfl
    have hop := q3 rfl
    have hf := hF rfl
    simp only [rDone, Bool.or_false] at half
    cases h1 : has st DATA <;> cases h2 : has st HALF <;> cases h3 : has st RX <;>
      simp [RPc.resting, h1, h2, h3, hc, Oneshot.State.emit] at h
    all_goals obtain ⟨-, h⟩ := h
    case false.true.false => 
      have h5 : sDone spc = true := by rw [← half, h2]
      have h4 := hk h5 hq
      rw [hdata] at h4
      simp [h1, hf, rRead] at h4
      cases spc <;> simp [sWritten] at h4
      simp [sDone] at h5
    case false.true.true => 
      have h5 : sDone spc = true := by rw [← half, h2]
      have h4 := hk h5 hq
      rw [hdata] at h4
      simp [h1, hf, rRead] at h4
      cases spc <;> simp [sWritten] at h4
      simp [sDone] at h5
    all_goals
      subst h
      refine ⟨by simpa [pollCanceled] using hp, ?_⟩
      constructor <;> simp_all [polling, rDone]
  | poWrite w =>
    simp [RPc.resting] at h
    obtain ⟨-, h⟩ := h
    cases rxw <;> simp at h
    subst h
    have hq := q2 rfl
    have hop := q3 rfl
    refine ⟨by simpa [Oneshot.State.emit, pollCanceled] using hp, ?_⟩
    constructor <;> simp_all [polling, rDone, Oneshot.State.emit, received]
  | poRmw2 w =>
    simp [RPc.resting] at h
    obtain ⟨-, h⟩ := h
    have hq := q2 rfl
    have hop := q3 rfl
    split at h <;> simp at h <;> subst h
    · refine ⟨by simpa using hp, ?_⟩
      constructor <;> simp_all [polling, rDone]
    · refine ⟨by simpa [Oneshot.State.emit, pollCanceled] using hp, ?_⟩
      constructor <;> simp_all [polling, rDone, Oneshot.State.emit]
  | poUndo st' =>
    have hq := q2 rfl
    have hop := q3 rfl
    have hf := hF rfl
    have hu := rundo rfl
    have h4 := key rfl hu.2.1 hq
    simp [RPc.resting] at h
    obtain ⟨-, h⟩ := h
    rw [hdata] at h4
    have hw : sWritten spc = false := by
      cases spc <;> simp [sWritten]
      simp [sDone] at hu
    simp [hw, hu.2.2.2, hf, rRead] at h4
    split at h
    · simp at h
    · simp [h4] at h
      subst h
      refine ⟨by simpa [Oneshot.State.emit, pollCanceled] using hp, ?_⟩
      constructor <;> simp_all [polling, rDone, Oneshot.State.emit, received]
  | drRmw =>
    simp [RPc.resting] at h
    obtain ⟨-, h⟩ := h
    simp only [dropTail, Oneshot.State.emit] at h
    repeat' split at h
    all_goals
      simp only [Option.some.injEq] at h
      subst h
      refine ⟨by simpa [pollCanceled] using hp, ?_⟩
      constructor <;> simp [polling, dropOnly, rDone]
  | drData st' =>
    simp [RPc.resting] at h
    obtain ⟨-, h⟩ := h
    simp only [dropTail, Oneshot.State.emit] at h
    repeat' split at h
    all_goals first
      | (simp at h; done)
      | (try simp only [Option.some.injEq] at h
         subst h
         refine ⟨by simpa [pollCanceled] using hp, ?_⟩
         constructor <;> simp [polling, dropOnly, rDone])
  | drWaker st' =>
    simp [RPc.resting] at h
    obtain ⟨-, h⟩ := h
    simp only [Oneshot.State.emit] at h
    repeat' split at h
    all_goals first
      | (simp at h; done)
      | (try simp only [Option.some.injEq] at h
         subst h
         refine ⟨by simpa [pollCanceled] using hp, ?_⟩
         constructor <;> simp [polling, dropOnly, rDone])
  | drFree =>
    simp [RPc.resting] at h
    obtain ⟨-, h⟩ := h
    subst h
    refine ⟨by simpa [pollCanceled, Oneshot.State.emit, Oneshot.State.release] using hp, ?_⟩
    constructor <;> simp [polling, dropOnly, rDone, Oneshot.State.emit, Oneshot.State.release]

end Verif.Fib.Future
