import Verif.Fib.RingSpec
import Verif.Ring.Props2
/-! # Lemmas about fiber streams over the ring channel -/
namespace Verif.Fib.RingStream

open Verif.Spsc Verif.Ring

variable {k cap : Nat} {τ ε : Type} {pol : Policy τ ε}

/-! ### Frames -/

/-- The value being sent. -/
def inProg : SPc k τ ε → Option τ
  | .tsLoad v | .owLoad v | .owClaim v | .owRead v _ | .wrWrite v _ | .wrRmw v _ | .wrBack v _ => some v
  | _ => none

/-- Inside an overwriting send. -/
def overPc : SPc k τ ε → Bool
  | .owLoad _ | .owClaim _ | .owRead _ _ => true
  | _ => false

/-- In the load of `try_send`. -/
def tryPc : SPc k τ ε → Bool
  | .tsLoad _ => true
  | _ => false

/-- What the result of a send says. -/
def Matches (v : τ) : Fate → Res τ → Prop
  | .accepted, .ok => True
  | .dropped, .full u => u = v
  | .canceled, .canceled => True
  | _, _ => False

theorem sStep_frame {s s' : Ring.State k τ ε} (h : Ring.sStep cap s = some s') :
    s'.rpc = s.rpc ∧ (Event.closed ∈ s'.log ↔ Event.closed ∈ s.log) ∧ errs s'.log = errs s.log ∧
    (overPc s.spc = false → (Event.claimTx ∈ s'.log ↔ Event.claimTx ∈ s.log) ∧ overPc s'.spc = false) ∧
    (tryPc s'.spc = true → tryPc s.spc = true) := by
  obtain ⟨st, buf, err, rxw, txw, freed, spc, rpc, log⟩ := s
  unfold Ring.sStep at h
  cases spc <;> simp [SPc.resting] at h
  all_goals
    first
    | (subst h; simp; done)
    | (obtain ⟨-, h⟩ := h
       try simp only [owMid, errTail, closedResult, Ring.State.emit, Ring.State.release] at h
       repeat' split at h
       all_goals first
         | (simp at h; done)
         | (try simp only [Option.some.injEq] at h
            first | subst h | (have h := h.2; subst h)
            simp [errs, overPc, tryPc]))

theorem sStep_send {s s' : Ring.State k τ ε} {v : τ} {l : List (τ × Option Fate)} (h : Ring.sStep cap s = some s')
    (hp : inProg s.spc = some v) (hc : calls s.log = (v, none) :: l) :
    (inProg s'.spc = some v ∧ calls s'.log = calls s.log ∧ pushed s'.log = pushed s.log) ∨
    (inProg s'.spc = none ∧ (s'.spc = .idle ∨ s'.spc = .wakeRef) ∧ ∃ f, calls s'.log = (v, some f) :: l ∧ Matches v f (lastSend s'.log) ∧
      (f = .dropped → tryPc s.spc = true) ∧
      pushed s'.log = pushed s.log ++ accepted [(v, some f)]) := by
  obtain ⟨st, buf, err, rxw, txw, freed, spc, rpc, log⟩ := s
  unfold Ring.sStep at h
  cases spc <;> simp [inProg] at hp <;> simp [SPc.resting] at h
  all_goals
    (subst hp
     obtain ⟨-, h⟩ := h
     dsimp only at hc
     try simp only [owMid, Ring.State.emit] at h
     repeat' split at h
     all_goals first
       | (simp at h; done)
       | (try simp only [Option.some.injEq] at h
          first | subst h | (have h := h.2; subst h)
          simp [inProg, calls, hc, settle, pushed, accepted, lastSend, Matches, tryPc]))

theorem sStep_other {s s' : Ring.State k τ ε} (h : Ring.sStep cap s = some s') (hp : inProg s.spc = none) :
    calls s'.log = calls s.log ∧ pushed s'.log = pushed s.log ∧ lastSend s'.log = lastSend s.log ∧ inProg s'.spc = none := by
  obtain ⟨st, buf, err, rxw, txw, freed, spc, rpc, log⟩ := s
  unfold Ring.sStep at h
  cases spc <;> simp [inProg] at hp <;> simp [SPc.resting] at h
  all_goals
    first
    | (subst h; simp [inProg]; done)
    | (obtain ⟨-, h⟩ := h
       try simp only [errTail, closedResult, Ring.State.emit, Ring.State.release] at h
       repeat' split at h
       all_goals first
         | (simp at h; done)
         | (try simp only [Option.some.injEq] at h
            first | subst h | (have h := h.2; subst h)
            simp [calls, pushed, lastSend, inProg]))

theorem rStep_frame {s s' : Ring.State k τ ε} (h : Ring.rStep cap s = some s') :
    s'.spc = s.spc ∧ (Event.closed ∈ s.log → Event.closed ∈ s'.log) ∧ errs s'.log = errs s.log ∧
    (Event.claimTx ∈ s'.log ↔ Event.claimTx ∈ s.log) ∧
    calls s'.log = calls s.log ∧ pushed s'.log = pushed s.log ∧ lastSend s'.log = lastSend s.log ∧
    lastCanceled s'.log = lastCanceled s.log := by
  obtain ⟨st, buf, err, rxw, txw, freed, spc, rpc, log⟩ := s
  unfold Ring.rStep at h
  cases rpc <;> simp [RPc.resting] at h
  all_goals
    first
    | (subst h; simp; done)
    | (obtain ⟨-, h⟩ := h
       try simp only [takeValue, dropLoop, dropTail, Ring.State.emit, Ring.State.release] at h
       repeat' split at h
       all_goals first
         | (simp at h; done)
         | (try simp only [Option.some.injEq] at h
            first | subst h | (have h := h.2; subst h)
            simp +contextual [errs, calls, pushed, lastSend, lastCanceled]))

/-! ### The generator and its end of the channel -/

/-- Leaving. -/
def quitting : SPc k τ ε → Bool
  | .drRmw | .drWaker _ | .drFree => true
  | _ => false

/-- Inside `send_err`. -/
def failing : SPc k τ ε → Bool
  | .errWrite _ | .errRmw | .errWaker _ | .errBack _ | .errFree _ => true
  | _ => false

theorem check_step {c c' : Ring.State k τ ε} (h : Ring.sStep cap c = some c') (hs : c.spc = .icLoad) :
    c'.spc = .idle ∧ c'.log = .isCanceled (has c.st (CLOSED k)) :: c.log := by
  obtain ⟨st, buf, err, rxw, txw, freed, spc, rpc, log⟩ := c
  dsimp only at hs; subst hs
  cases freed <;> simp [Ring.sStep, SPc.resting, Ring.State.emit] at h
  subst h; simp

theorem quit_step {c c' : Ring.State k τ ε} (h : Ring.sStep cap c = some c') (hs : quitting c.spc = true) :
    quitting c'.spc = true ∨ c'.spc = .gone := by
  obtain ⟨st, buf, err, rxw, txw, freed, spc, rpc, log⟩ := c
  unfold Ring.sStep at h
  cases spc <;> simp [quitting] at hs <;> simp [SPc.resting] at h
  all_goals
    (obtain ⟨-, h⟩ := h
     try simp only [Ring.State.emit, Ring.State.release] at h
     repeat' split at h
     all_goals first
       | (simp at h; done)
       | (try simp only [Option.some.injEq] at h
          first | subst h | (have h := h.2; subst h)
          simp [quitting]))

theorem fail_step {c c' : Ring.State k τ ε} (h : Ring.sStep cap c = some c') (hs : failing c.spc = true) :
    failing c'.spc = true ∨ c'.spc = .gone := by
  obtain ⟨st, buf, err, rxw, txw, freed, spc, rpc, log⟩ := c
  unfold Ring.sStep at h
  cases spc <;> simp [failing] at hs <;> simp [SPc.resting] at h
  all_goals
    (obtain ⟨-, h⟩ := h
     try simp only [errTail, Ring.State.emit, Ring.State.release] at h
     repeat' split at h
     all_goals first
       | (simp at h; done)
       | (try simp only [Option.some.injEq] at h
          first | subst h | (have h := h.2; subst h)
          simp [failing]))

theorem wake_step {c c' : Ring.State k τ ε} (h : Ring.sStep cap c = some c') (hs : c.spc = .wakeRef) : c'.spc = .idle := by
  obtain ⟨st, buf, err, rxw, txw, freed, spc, rpc, log⟩ := c
  dsimp only at hs; subst hs
  cases freed <;> cases rxw <;> simp [Ring.sStep, SPc.resting, Ring.State.emit] at h
  subst h; rfl

/-- The calls are settled, but for the one of the value `p`. -/
def Settled (p : Option τ) (cs : List (τ × Option Fate)) : Prop :=
  match p with
  | none => ∀ c ∈ cs, c.2 ≠ none
  | some v => ∃ l, cs = (v, none) :: l ∧ ∀ c ∈ l, c.2 ≠ none

/-- The value the fiber returned last. -/
def headVal : List (Out τ ε) → Option τ
  | .yielded o :: _ => o
  | .complete (.ok o) :: _ => o
  | _ => none

/-- The fiber returned `Yielded` last. -/
def headYield : List (Out τ ε) → Bool
  | .yielded _ :: _ => true
  | _ => false

/-- The last call has been settled as the generator reads it. -/
def Last (outs : List (Out τ ε)) (log : List (Event τ ε)) : Prop :=
  ∃ v f l, calls log = (v, some f) :: l ∧ headVal outs = some v ∧ Matches v f (lastSend log)

/-- The relation between the generator and the channel. -/
structure Link (pol : Policy τ ε) (pc : Pc) (outs : List (Out τ ε)) (spc : SPc k τ ε) (log : List (Event τ ε)) : Prop where
  vals : (calls log).map (·.1) = offered outs
  settled : Settled (inProg spc) (calls log)
  acc : pushed log = (accepted (calls log)).reverse
  bounded : pol ≠ .overwrite → overPc spc = false ∧ Event.claimTx ∉ log
  over : pol = .overwrite → tryPc spc = false ∧ ∀ c ∈ calls log, c.2 ≠ some .dropped
  idle : pc = .yielded ∨ pc = .resume → spc = .idle
  check : pc = .check → spc = .icLoad ∨ spc = .idle
  send : pc = .send ∨ pc = .sendLast →
    (∃ v, inProg spc = some v ∧ headVal outs = some v) ∨ ((spc = .idle ∨ spc = .wakeRef) ∧ Last outs log)
  yields : pc = .yielded ∨ pc = .check ∨ pc = .resume → ∀ o ∈ outs, o.isComplete = false
  past : ∀ o ∈ outs.tail, o.isComplete = false
  sendY : pc = .send → headYield outs = true
  sendC : pc = .sendLast → headYield outs = false
  noErr : pc ≠ .err → pc ≠ .done → errs log = []
  err : pc = .err → (failing spc = true ∨ spc = .gone) ∧ ∃ e, errs log = [e] ∧ finish pol outs (calls log) = some (some e)
  leave : pc = .leave → (quitting spc = true ∨ spc = .gone) ∧ (Event.closed ∈ log ∨ finish pol outs (calls log) = some none)
  done : pc = .done → spc = .gone ∧ ((errs log = [] ∧ (Event.closed ∈ log ∨ finish pol outs (calls log) = some none)) ∨
    ∃ e, errs log = [e] ∧ finish pol outs (calls log) = some (some e))

theorem init_link (pol : Policy τ ε) : Link pol (init k τ ε).pc (init k τ ε).outs (init k τ ε).ch.spc (init k τ ε).ch.log := by
  constructor <;> simp [init, Ring.init, offered, calls, inProg, Settled, pushed, accepted, errs, overPc, tryPc]

end Verif.Fib.RingStream
