import Verif.Fib.PulseSpec
import Verif.Pulse.Props
/-! # Lemmas about fiber streams over the pulse channel -/
namespace Verif.Fib.PulseStream

open Verif.Spsc Verif.Pulse

variable {n : Nat} {ε : Type} {ov : Policy n ε}

/-! ### Frames -/

/-- The pulses being sent. -/
def inProg : SPc n ε → Option Nat
  | .sendRmw p => some p.toNat
  | _ => none

/-- Inside `saturating_send`. -/
def satPc : SPc n ε → Bool
  | .satRmw _ => true
  | _ => false

/-- Leaving. -/
def quitting : SPc n ε → Bool
  | .drRmw | .drWaker _ | .drFree => true
  | _ => false

/-- Inside `send_err`. -/
def failing : SPc n ε → Bool
  | .errWrite _ | .errRmw | .errWaker _ | .errBack _ | .errFree _ => true
  | _ => false

theorem sStep_frame {s s' : Pulse.State n ε} (h : Pulse.sStep s = some s') :
    s'.rpc = s.rpc ∧ (Event.closed ∈ s'.log ↔ Event.closed ∈ s.log) ∧ errs s'.log = errs s.log ∧
    (satPc s.spc = false → satPc s'.spc = false ∧ ((∃ p r, Event.sat p r ∈ s'.log) ↔ ∃ p r, Event.sat p r ∈ s.log)) ∧
    (inProg s.spc = none → inProg s'.spc = none ∧ sends s'.log = sends s.log ∧ lastSend s'.log = lastSend s.log) ∧
    (∀ p, inProg s.spc = some p → inProg s'.spc = none ∧ (s'.spc = .idle ∨ s'.spc = .wakeRef) ∧
      ∃ r, sends s'.log = (p, r) :: sends s.log ∧ lastSend s'.log = r) ∧
    (quitting s.spc = true → quitting s'.spc = true ∨ s'.spc = .gone) ∧
    (failing s.spc = true → failing s'.spc = true ∨ s'.spc = .gone) ∧
    (s.spc = .wakeRef → s'.spc = .idle) ∧
    (s.spc = .icLoad → s'.spc = .idle ∧ s'.log = .isCanceled (has s.st (CLOSED n)) :: s.log) := by
  obtain ⟨st, err, rxw, txw, freed, spc, rpc, log⟩ := s
  unfold Pulse.sStep at h
  cases spc <;> simp [SPc.resting] at h
  all_goals
    first
    | (subst h; simp [inProg, quitting, failing]; done)
    | (obtain ⟨-, h⟩ := h
       try simp only [sendTail, satTail, errTail, Pulse.State.emit, Pulse.State.release] at h
       repeat' split at h
       all_goals first
         | (simp at h; done)
         | (try simp only [Option.some.injEq] at h
            first | subst h | (have h := h.2; subst h)
            simp [errs, satPc, inProg, sends, lastSend, quitting, failing]))

theorem rStep_frame {s s' : Pulse.State n ε} (h : Pulse.rStep s = some s') :
    s'.spc = s.spc ∧ (Event.closed ∈ s.log → Event.closed ∈ s'.log) ∧ errs s'.log = errs s.log ∧
    ((∃ p r, Event.sat p r ∈ s'.log) ↔ ∃ p r, Event.sat p r ∈ s.log) ∧
    sends s'.log = sends s.log ∧ lastSend s'.log = lastSend s.log ∧
    lastCanceled s'.log = lastCanceled s.log := by
  obtain ⟨st, err, rxw, txw, freed, spc, rpc, log⟩ := s
  unfold Pulse.rStep at h
  cases rpc <;> simp [RPc.resting] at h
  all_goals
    first
    | (subst h; simp; done)
    | (obtain ⟨-, h⟩ := h
       try simp only [gotCount, dropTail, Pulse.State.emit, Pulse.State.release] at h
       repeat' split at h
       all_goals first
         | (simp at h; done)
         | (try simp only [Option.some.injEq] at h
            first | subst h | (have h := h.2; subst h)
            simp +contextual [errs, sends, lastSend, lastCanceled]))

/-! ### The generator and its end of the channel -/

/-- The pulses the fiber returned last. -/
def headVal : List (Out n ε) → Option Nat
  | .yielded o :: _ => o.map (·.toNat)
  | .complete (.ok o) :: _ => o.map (·.toNat)
  | _ => none

/-- The fiber returned `Yielded` last. -/
def headYield : List (Out n ε) → Bool
  | .yielded _ :: _ => true
  | _ => false

/-- The last call has returned and the generator reads its result. -/
def Last (outs : List (Out n ε)) (log : List (Event ε)) : Prop :=
  ∃ p l, sends log = (p, lastSend log) :: l ∧ headVal outs = some p

/-- The relation between the generator and the channel. -/
structure Link (ov : Policy n ε) (pc : Pc) (outs : List (Out n ε)) (spc : SPc n ε) (log : List (Event ε)) : Prop where
  vals : (inProg spc).toList ++ (sends log).map (·.1) = offered outs
  sat : satPc spc = false ∧ ¬∃ p r, Event.sat p r ∈ log
  idle : pc = .yielded ∨ pc = .resume → spc = .idle
  check : pc = .check → spc = .icLoad ∨ spc = .idle
  send : pc = .send ∨ pc = .sendLast →
    (∃ p, inProg spc = some p ∧ headVal outs = some p) ∨ ((spc = .idle ∨ spc = .wakeRef) ∧ Last outs log)
  yields : pc = .yielded ∨ pc = .check ∨ pc = .resume → ∀ o ∈ outs, o.isComplete = false
  past : ∀ o ∈ outs.tail, o.isComplete = false
  sendY : pc = .send → headYield outs = true
  sendC : pc = .sendLast → headYield outs = false
  noErr : pc ≠ .err → pc ≠ .done → errs log = []
  err : pc = .err → (failing spc = true ∨ spc = .gone) ∧ ∃ e, errs log = [e] ∧ finish ov outs (sends log) = some (some e)
  leave : pc = .leave → (quitting spc = true ∨ spc = .gone) ∧ (Event.closed ∈ log ∨ finish ov outs (sends log) = some none)
  done : pc = .done → spc = .gone ∧ ((errs log = [] ∧ (Event.closed ∈ log ∨ finish ov outs (sends log) = some none)) ∨
    ∃ e, errs log = [e] ∧ finish ov outs (sends log) = some (some e))

/-- The link, of a state. -/
def Linked (ov : Policy n ε) (s : State n ε) : Prop := Link ov s.pc s.outs s.ch.spc s.ch.log

theorem init_link (ov : Policy n ε) : Linked ov (init n ε) := by
  unfold Linked
  constructor <;> simp [init, Pulse.init, offered, sends, inProg, errs, satPc]

end Verif.Fib.PulseStream
