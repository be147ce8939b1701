import Verif.Bound.Lemmas
import Verif.Atomic.RefineOneshot
import Verif.Atomic.RefinePulse
import Verif.Atomic.RefineRing
import Verif.Ring.PropsLemmas
/-! # Ranks of the program points of the channels -/
namespace Verif.Bound

/-! ### Oneshot -/
namespace Oneshot
open Verif.Oneshot Verif.Oneshot.Cas

variable {α : Type}

/-- The rest of the call of the sender; an update costs `u`. -/
def sRank (u : Nat) : SPc α → Nat
  | .sendWrite _ => u + 4
  | .sendRmw => u + 3
  | .sendWaker _ => 3
  | .sendBack _ => 2
  | .sendFree _ => 1
  | .pcLoad _ => u + 3
  | .pcWrite _ => u + 2
  | .pcRmw _ => u + 1
  | .pcUndo => 1
  | .icLoad => 1
  | .drRmw => u + 2
  | .drWaker _ => 2
  | .drFree => 1
  | .idle | .gone => 0

/-- The rest of the call of the receiver. -/
def rRank (u : Nat) : RPc → Nat
  | .clRmw => u + 1
  | .clWaker _ => 1
  | .trRmw => u + 1
  | .read => 1
  | .poRmw _ => 2 * u + 3
  | .poWrite _ => u + 3
  | .poRmw2 _ => u + 2
  | .poUndo _ => 2
  | .itLoad => 1
  | .drRmw => u + 3
  | .drData _ => 3
  | .drWaker _ => 2
  | .drFree => 1
  | .idle | .gone => 0

/-- An access of the sender. -/
def sOwn : Act α → Bool
  | .sStep => true
  | _ => false

/-- An access of the receiver. -/
def rOwn : Act α → Bool
  | .rStep => true
  | _ => false

theorem sStep_rpc {s s' : State α} (h : sStep s = some s') : s'.rpc = s.rpc := by
  unfold sStep sendTail at h
  grind [State.emit, State.release]

theorem rStep_spc {s s' : State α} (h : rStep s = some s') : s'.spc = s.spc := by
  unfold rStep dropTail at h
  grind [State.emit, State.release]

theorem sender : Ctx (machine α) 0 .sStep sOwn (fun s => !s.spc.resting) (fun _ => True) (fun u s => sRank u s.spc) where
  own a := by cases a <;> simp [sOwn]
  ctx s := rfl
  total s a f w h := by
    cases a <;> simp only [machine, reduceCtorEq] at h
    · cases hc : sClosure s.spc <;> simp [hc] at h; subst h; simp
    · cases hc : rClosure s.rpc <;> simp [hc] at h; subst h; simp
  inv _ _ _ _ _ := trivial
  pos u s _ hb := by
    cases hp : s.spc <;> simp [hp, SPc.resting, cost, machine, sClosure, sRank] at hb ⊢
  dec u s s' _ hb hs := by
    have hs : sStep s = some s' := hs
    cases hp : s.spc <;> simp only [hp, SPc.resting, Bool.not_true, Bool.false_eq_true, reduceCtorEq] at hb <;>
      simp only [cost, machine, sClosure, hp, Option.map_some, Option.map_none, Option.isSome_some, Option.isSome_none,
        if_true, Bool.false_eq_true, if_false] <;>
      (unfold sStep sendTail at hs; simp only [hp, SPc.resting] at hs; grind [State.emit, State.release, sRank])
  mine s a hb hne hc := by
    cases a <;> simp [machine] at hc hne ⊢
    cases hp : s.spc <;> simp [hp, SPc.resting] at hb <;> simp [step, hp, SPc.isIdle]
  other s a s' hc hs := by
    have : s'.spc = s.spc := by
      cases a <;> simp [machine] at hc hs
      · simp only [step] at hs
        split at hs <;> cases hs <;> try rfl
        rename_i op _
        cases op <;> rfl
      · exact rStep_spc hs
    exact ⟨fun u => by rw [this]; exact Nat.le_refl _, by simp only [machine, this]⟩

theorem receiver : Ctx (machine α) 1 .rStep rOwn (fun s => !s.rpc.resting) (fun _ => True) (fun u s => rRank u s.rpc) where
  own a := by cases a <;> simp [rOwn]
  ctx s := rfl
  total := sender.total
  inv _ _ _ _ _ := trivial
  pos u s _ hb := by
    cases hp : s.rpc <;> simp [hp, RPc.resting, cost, machine, rClosure, rRank] at hb ⊢ <;> omega
  dec u s s' _ hb hs := by
    have hs : rStep s = some s' := hs
    cases hp : s.rpc <;> simp only [hp, RPc.resting, Bool.not_true, Bool.false_eq_true, reduceCtorEq] at hb <;>
      simp only [cost, machine, rClosure, hp, Option.map_some, Option.map_none, Option.isSome_some, Option.isSome_none,
        if_true, Bool.false_eq_true, if_false] <;>
      (unfold rStep dropTail at hs; simp only [hp, RPc.resting] at hs; grind [State.emit, State.release, rRank])
  mine s a hb hne hc := by
    cases a <;> simp [machine] at hc hne ⊢
    cases hp : s.rpc <;> simp [hp, RPc.resting] at hb <;> simp [step, hp, RPc.isIdle]
  other s a s' hc hs := by
    have : s'.rpc = s.rpc := by
      cases a <;> simp [machine] at hc hs
      · simp only [step] at hs
        split at hs <;> cases hs <;> try rfl
        rename_i op _
        cases op <;> rfl
      · exact sStep_rpc hs
    exact ⟨fun u => by rw [this]; exact Nat.le_refl _, by simp only [machine, this]⟩

end Oneshot
/-! ### Pulse -/
namespace Pulse
open Verif.Pulse Verif.Pulse.Cas

variable {n : Nat} {ε : Type}

/-- The rest of the call of the sender; an update costs `u`. -/
def sRank (u : Nat) : SPc n ε → Nat
  | .sendRmw _ | .satRmw _ => u + 1
  | .wakeRef => 1
  | .errWrite _ => u + 4
  | .errRmw => u + 3
  | .errWaker _ => 3
  | .errBack _ => 2
  | .errFree _ => 1
  | .pcLoad _ => u + 3
  | .pcWrite _ => u + 2
  | .pcRmw _ => u + 1
  | .pcUndo => 1
  | .icLoad => 1
  | .drRmw => u + 2
  | .drWaker _ => 2
  | .drFree => 1
  | .idle | .gone => 0

/-- The rest of the call of the receiver. -/
def rRank (u : Nat) : RPc n → Nat
  | .clRmw => u + 1
  | .clWaker _ => 1
  | .tnRmw => u + max u 1
  | .reErr => u
  | .rdErr => 1
  | .pnRmw _ => 2 * u + 2 + max u 1
  | .pnWrite _ => u + 2 + max u 1
  | .pnRmw2 _ => u + 1 + max u 1
  | .pnUndo _ => 1 + max u 1
  | .itLoad => 1
  | .drRmw => u + 3
  | .drErr _ => 3
  | .drWaker _ => 2
  | .drFree => 1
  | .idle | .gone => 0

/-- An access of the sender. -/
def sOwn : Act n ε → Bool
  | .sStep => true
  | _ => false

/-- An access of the receiver. -/
def rOwn : Act n ε → Bool
  | .rStep => true
  | _ => false

theorem sStep_rpc {s s' : State n ε} (h : sStep s = some s') : s'.rpc = s.rpc := by
  unfold sStep sendTail satTail errTail at h
  grind [State.emit, State.release]

theorem rStep_spc {s s' : State n ε} (h : rStep s = some s') : s'.spc = s.spc := by
  unfold rStep dropTail gotCount at h
  grind [State.emit, State.release]

theorem sender : Ctx (machine n ε) 0 .sStep sOwn (fun s => !s.spc.resting) (fun _ => True) (fun u s => sRank u s.spc) where
  own a := by cases a <;> simp [sOwn]
  ctx s := rfl
  total s a f w h := by
    cases a <;> simp only [machine, reduceCtorEq] at h
    · cases hc : sClosure s.spc <;> simp [hc] at h; subst h; simp
    · cases hc : rClosure s.rpc <;> simp [hc] at h; subst h; simp
  inv _ _ _ _ _ := trivial
  pos u s _ hb := by
    cases hp : s.spc <;> simp [hp, SPc.resting, cost, machine, sClosure, sRank] at hb ⊢
  dec u s s' _ hb hs := by
    have hs : sStep s = some s' := hs
    cases hp : s.spc <;> simp only [hp, SPc.resting, Bool.not_true, Bool.false_eq_true, reduceCtorEq] at hb <;>
      simp only [cost, machine, sClosure, hp, Option.map_some, Option.map_none, Option.isSome_some, Option.isSome_none,
        if_true, Bool.false_eq_true, if_false] <;>
      (unfold sStep sendTail satTail errTail at hs; simp only [hp, SPc.resting] at hs; grind [State.emit, State.release, sRank])
  mine s a hb hne hc := by
    cases a <;> simp [machine] at hc hne ⊢
    cases hp : s.spc <;> simp [hp, SPc.resting] at hb <;> simp [step, hp, SPc.isIdle]
  other s a s' hc hs := by
    have : s'.spc = s.spc := by
      cases a <;> simp [machine] at hc hs
      · simp only [step] at hs
        split at hs <;> cases hs <;> try rfl
        rename_i op _
        cases op <;> rfl
      · exact rStep_spc hs
    exact ⟨fun u => by rw [this]; exact Nat.le_refl _, by simp only [machine, this]⟩

theorem receiver : Ctx (machine n ε) 1 .rStep rOwn (fun s => !s.rpc.resting) (fun _ => True) (fun u s => rRank u s.rpc) where
  own a := by cases a <;> simp [rOwn]
  ctx s := rfl
  total := sender.total
  inv _ _ _ _ _ := trivial
  pos u s _ hb := by
    cases hp : s.rpc <;> simp [hp, RPc.resting, cost, machine, rClosure, rRank] at hb ⊢ <;> omega
  dec u s s' _ hb hs := by
    have hs : rStep s = some s' := hs
    cases hp : s.rpc <;> simp only [hp, RPc.resting, Bool.not_true, Bool.false_eq_true, reduceCtorEq] at hb <;>
      simp only [cost, machine, rClosure, hp, Option.map_some, Option.map_none, Option.isSome_some, Option.isSome_none,
        if_true, Bool.false_eq_true, if_false] <;>
      (unfold rStep dropTail gotCount at hs; simp only [hp, RPc.resting] at hs; grind [State.emit, State.release, rRank])
  mine s a hb hne hc := by
    cases a <;> simp [machine] at hc hne ⊢
    cases hp : s.rpc <;> simp [hp, RPc.resting] at hb <;> simp [step, hp, RPc.isIdle]
  other s a s' hc hs := by
    have : s'.rpc = s.rpc := by
      cases a <;> simp [machine] at hc hs
      · simp only [step] at hs
        split at hs <;> cases hs <;> try rfl
        rename_i op _
        cases op <;> simp only [sCall] <;> (try split) <;> rfl
      · exact sStep_rpc hs
    exact ⟨fun u => by rw [this]; exact Nat.le_refl _, by simp only [machine, this]⟩

end Pulse

/-! ### Ring -/
namespace Ring
open Verif.Spsc Verif.Ring Verif.Ring.Cas

variable {k cap : Nat} {τ ε : Type}

/-- The rest of the call of the sender; an update costs `u`. -/
def sRank (u : Nat) : SPc k τ ε → Nat
  | .tsLoad _ => u + 3
  | .owLoad _ => 2 * u + 4
  | .owClaim _ => 2 * u + 3
  | .owRead _ _ => u + 3
  | .wrWrite _ _ => u + 2
  | .wrRmw _ _ => u + 1
  | .wrBack _ _ => 1
  | .wakeRef => 1
  | .errWrite _ => u + 4
  | .errRmw => u + 3
  | .errWaker _ => 3
  | .errBack _ => 2
  | .errFree _ => 1
  | .icLoad => 1
  | .pLoad _ _ => u + 3
  | .pWrite _ _ => u + 2
  | .pRmw _ _ _ => u + 1
  | .pUndo _ => 1
  | .drRmw => u + 2
  | .drWaker _ => 2
  | .drFree => 1
  | .idle | .gone => 0

/-- The rest of the call of the receiver; `m` bounds the number of values in the queue, `half` is the
flag of the sender's drop. -/
def rRank (m u : Nat) (half : Bool) : RPc k → Nat
  | .clRmw => u + 1
  | .clWaker _ => 1
  | .tnRmw => 2 * u + 2
  | .tvRmw _ wake _ => if wake && !half then u + 2 else u + 1
  | .tvWake _ => 2
  | .tvRead _ => 1
  | .rdErr => 1
  | .pnRmw _ => 3 * u + 3
  | .pnWrite _ => 2 * u + 3
  | .pnRmw2 _ => 2 * u + 2
  | .pnUndo _ => if half then u + 2 else u + 3
  | .itLoad => 1
  | .drRmw => u + m + 3
  | .drSlot st j => max 1 (len st - j) + 3
  | .drErr _ => 3
  | .drWaker _ => 2
  | .drFree => 1
  | .idle | .gone => 0

/-- An access of the sender. -/
def sOwn : Act τ ε → Bool
  | .sStep => true
  | _ => false

/-- An access of the receiver. -/
def rOwn : Act τ ε → Bool
  | .rStep => true
  | _ => false

theorem sStep_rpc {s s' : State k τ ε} (h : sStep cap s = some s') : s'.rpc = s.rpc := by
  unfold sStep owMid errTail at h
  grind [State.emit, State.release]

theorem rStep_spc {s s' : State k τ ε} (h : rStep cap s = some s') : s'.spc = s.spc := by
  unfold rStep takeValue dropLoop dropTail at h
  grind [State.emit, State.release]

theorem sender : Ctx (machine k τ ε cap) 0 .sStep sOwn (fun s => !s.spc.resting) (fun _ => True) (fun u s => sRank u s.spc) where
  own a := by cases a <;> simp [sOwn]
  ctx s := rfl
  total s a f w h := by
    cases a <;> simp only [machine, reduceCtorEq] at h
    · cases hc : sClosure cap s.spc <;> simp [hc] at h; subst h; simp
    · cases hc : rClosure cap s.rpc <;> simp [hc] at h; subst h; simp
  inv _ _ _ _ _ := trivial
  pos u s _ hb := by
    cases hp : s.spc <;> simp [hp, SPc.resting, cost, machine, sClosure, sRank] at hb ⊢ <;> omega
  dec u s s' _ hb hs := by
    have hs : sStep cap s = some s' := hs
    cases hp : s.spc <;> simp only [hp, SPc.resting, Bool.not_true, Bool.false_eq_true, reduceCtorEq] at hb <;>
      simp only [cost, machine, sClosure, hp, Option.map_some, Option.map_none, Option.isSome_some, Option.isSome_none,
        if_true, Bool.false_eq_true, if_false] <;>
      (unfold sStep owMid errTail at hs; simp only [hp, SPc.resting] at hs; grind [State.emit, State.release, sRank])
  mine s a hb hne hc := by
    cases a <;> simp [machine] at hc hne ⊢
    cases hp : s.spc <;> simp [hp, SPc.resting] at hb <;> simp [step, hp, SPc.isIdle]
  other s a s' hc hs := by
    have : s'.spc = s.spc := by
      cases a <;> simp [machine] at hc hs
      · simp only [step] at hs
        split at hs <;> cases hs <;> try rfl
        rename_i op _
        cases op <;> rfl
      · exact rStep_spc hs
    exact ⟨fun u => by rw [this]; exact Nat.le_refl _, by simp only [machine, this]⟩

/-- The flag is not cleared. -/
theorem sStep_half {s s' : State k τ ε} (h : sStep cap s = some s') (hh : has s.st (HALF k) = true) : has s'.st (HALF k) = true := by
  have e1 : ∀ st : Word k, has (addLength st) (HALF k) = has st (HALF k) := fun st => has_addLength st (by omega)
  have e2 : ∀ st : Word k, has (claimIfFull cap st) (HALF k) = has st (HALF k) := by
    intro st
    unfold claimIfFull
    split
    · exact has_claimNext cap st _ (by omega)
    · rfl
  have e3 : ∀ (κ : Kind) (st : Word k), has (setKind κ st) (HALF k) = has st (HALF k) := by
    intro κ st
    cases κ <;> simp only [setKind, has_or, has_READY_HALF, has_FLUSH_HALF, has_not_READY_HALF, has_not_FLUSH_HALF, Bool.or_false]
  have e4 : ∀ (m : Word k), has (s.st ||| m) (HALF k) = true := fun m => by rw [has_or, hh]; rfl
  have e5 : ∀ (m m' : Word k), has (s.st ||| m ||| m') (HALF k) = true := fun m m' => by rw [has_or, e4]; rfl
  unfold sStep owMid errTail at h
  cases hp : s.spc <;> simp only [hp, SPc.resting, Bool.false_eq_true, if_false, if_true] at h <;>
    (repeat' split at h) <;> simp only [Option.some.injEq, reduceCtorEq] at h <;> subst h <;>
    simp only [State.emit, State.release, e1, e2, e3, e4, e5, hh]

theorem take_half (st : Word k) : has (take cap st) (HALF k) = has st (HALF k) := by
  unfold take claimUnlessEmpty
  rw [has_not_ERR_HALF]
  split
  · exact has_claimNext cap st _ (by omega)
  · rfl

/-- `m` bounds the number of values in the queue. -/
theorem receiver {m : Nat} {I : State k τ ε → Prop} (hI : ∀ s a s', I s → step cap s a = some s' → I s')
    (hm : ∀ s, I s → len s.st ≤ m) : Ctx (machine k τ ε cap) 1 .rStep rOwn (fun s => !s.rpc.resting) I (fun u s => rRank m u (has s.st (HALF k)) s.rpc) where
  own a := by cases a <;> simp [rOwn]
  ctx s := rfl
  total := sender.total
  inv := hI
  pos u s _ hb := by
    cases hp : s.rpc <;> simp [hp, RPc.resting, cost, machine, rClosure, rRank] at hb ⊢ <;> (try split) <;> omega
  dec u s s' hi hb hs := by
    have hm := hm s hi
    have hs : rStep cap s = some s' := hs
    cases hp : s.rpc <;> simp only [hp, RPc.resting, Bool.not_true, Bool.false_eq_true, reduceCtorEq] at hb <;>
      simp only [cost, machine, rClosure, hp, Option.map_some, Option.map_none, Option.isSome_some, Option.isSome_none,
        if_true, Bool.false_eq_true, if_false] <;>
      (unfold rStep takeValue dropLoop dropTail at hs; simp only [hp, RPc.resting] at hs; grind [State.emit, State.release, rRank, take_half, has_or])
  mine s a hb hne hc := by
    cases a <;> simp [machine] at hc hne ⊢
    cases hp : s.rpc <;> simp [hp, RPc.resting] at hb <;> simp [step, hp, RPc.isIdle]
  other s a s' hc hs := by
    have : s'.rpc = s.rpc ∧ (has s.st (HALF k) = true → has s'.st (HALF k) = true) := by
      cases a <;> simp [machine] at hc hs
      · simp only [step] at hs
        split at hs <;> cases hs <;> try exact ⟨rfl, id⟩
        rename_i op _
        cases op <;> exact ⟨rfl, id⟩
      · exact ⟨sStep_rpc hs, sStep_half hs⟩
    refine ⟨fun u => ?_, by simp only [machine, this]⟩
    rw [this.1]
    cases s.rpc <;> simp only [rRank] <;> grind

end Ring

end Verif.Bound
