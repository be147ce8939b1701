import Verif.Exec.ChanInv
import Verif.Pulse.Read
import Verif.Ring.Read
/-! # One channel, of any kind, whose receiver is read by a task -/
namespace Verif.Exec.Str
open Verif.Exec.Chan (Res)

variable {n k : Nat} {N : Prop}

/-- The receiver was dropped. -/
def Ch.Over : Ch n k → Prop
  | .oneshot c => c.rpc = .gone
  | .pulse c => c.rpc = .gone
  | .ring _ c => c.rpc = .gone

/-- The state of a channel whose receiver is polled with the waker of thread `t`. -/
def Ch.Fit (N : Prop) (t : Nat) : Ch n k → Prop
  | .oneshot c => Chan.Fit t c
  | .pulse c => Pulse.Read.Fit t c
  | .ring cap c => (1 < cap ∧ cap < 2 ^ k) ∧ Ring.Read.Fit cap N t c

/-- The receiver has returned `Poll::Pending` and will be woken. -/
def Ch.Sleep : Ch n k → Prop
  | .oneshot c => Chan.Sleep c
  | .pulse c => Pulse.Read.Sleep c
  | .ring _ c => Ring.Read.Sleep c

/-- The channel is sane. -/
def Ch.Sane : Ch n k → Prop
  | .oneshot c => Oneshot.Inv c
  | .pulse c => Pulse.Inv c
  | .ring cap c => Ring.Inv cap c

theorem fit_new {kd : Kind} (h : kd.Valid k) (t : Nat) : (Ch.new n k kd).Fit N t ∧ ¬ (Ch.new n k kd).Over := by
  cases kd with
  | oneshot => exact ⟨Chan.fit_init t, by simp [Ch.new, Ch.Over, Oneshot.init]⟩
  | pulse => exact ⟨Pulse.Read.fit_init t, by simp [Ch.new, Ch.Over, Pulse.init]⟩
  | ring cap => exact ⟨⟨h, Ring.Read.fit_init t⟩, by simp [Ch.new, Ch.Over, Ring.init]⟩

theorem sane_new {kd : Kind} (h : kd.Valid k) : (Ch.new n k kd).Sane := by
  cases kd with
  | oneshot => exact Oneshot.init_inv Nat
  | pulse => exact Pulse.init_inv n Nat
  | ring cap => exact Ring.init_inv cap k Nat Nat

theorem call_fit {t : Nat} {c c' : Ch n k} {op : Op n} (f : c.Fit N t) (h : c.call op = some c') (hn : N → c'.NoClash) :
    c'.Fit N t ∧ (c'.Over ↔ c.Over) ∧ (c.Sleep → c'.Sleep) := by
  unfold Ch.call at h
  split at h
  · rename_i c op
    obtain ⟨c1, hs, rfl⟩ := Option.map_eq_some_iff.1 h
    exact ⟨Chan.fit_sender f (Chan.sCall_rel hs) (Chan.reach_step f.reach hs), by simp only [Ch.Over]; rw [(Chan.sCall_rel hs).rpc],
      fun sl => Chan.sleep_call sl hs⟩
  · rename_i c op
    obtain ⟨c1, hs, rfl⟩ := Option.map_eq_some_iff.1 h
    exact ⟨Pulse.Read.fit_call f hs, by simp only [Ch.Over]; rw [(Pulse.Read.sCall_rel hs).rpc], fun sl => Pulse.Read.sleep_call sl hs⟩
  · rename_i cap c op
    obtain ⟨c1, hs, rfl⟩ := Option.map_eq_some_iff.1 h
    exact ⟨⟨f.1, Ring.Read.fit_call f.2 hs hn⟩, by simp only [Ch.Over]; rw [(Ring.Read.sCall_rel hs).rpc], fun sl => Ring.Read.sleep_call sl hs⟩
  · simp only [Option.some.injEq] at h; subst h; exact ⟨f, Iff.rfl, id⟩

theorem send_fit {t : Nat} {c c' : Ch n k} {w : Option Nat} (f : c.Fit N t) (h : c.send = some (c', w)) (hn : N → c'.NoClash) :
    c'.Fit N t ∧ (c'.Over ↔ c.Over) ∧ (c.Sleep → c'.Sleep ∨ w = some t) := by
  cases c with
  | oneshot c =>
    obtain ⟨c1, hs, h⟩ := Option.map_eq_some_iff.1 h
    simp only [Prod.mk.injEq] at h
    obtain ⟨rfl, rfl⟩ := h
    exact ⟨Chan.fit_sender f (Chan.sStep_rel hs) (Chan.reach_step f.reach hs), by simp only [Ch.Over]; rw [(Chan.sStep_rel hs).rpc],
      fun sl => Chan.sleep_send f sl hs⟩
  | pulse c =>
    obtain ⟨c1, hs, h⟩ := Option.map_eq_some_iff.1 h
    simp only [Prod.mk.injEq] at h
    obtain ⟨rfl, rfl⟩ := h
    exact ⟨Pulse.Read.fit_send f hs, by simp only [Ch.Over]; rw [(Pulse.Read.sStep_rel (Pulse.Read.arg_lt f.reach) hs).rpc],
      fun sl => Pulse.Read.sleep_send f sl hs⟩
  | ring cap c =>
    obtain ⟨c1, hs, h⟩ := Option.map_eq_some_iff.1 h
    simp only [Prod.mk.injEq] at h
    obtain ⟨rfl, rfl⟩ := h
    exact ⟨⟨f.1, Ring.Read.fit_send f.2 hs hn⟩, by simp only [Ch.Over]; rw [(Ring.Read.sStep_rel hs).rpc],
      fun sl => Ring.Read.sleep_send f.1.1 f.1.2 f.2 sl hs⟩

theorem recv_fit {t : Nat} {c c' : Ch n k} {r : Res} {w : Option Nat} (f : c.Fit N t) (hg : ¬ c.Over) (h : c.recv t = some (c', r, w))
    (hn : N → c'.NoClash) :
    c'.Fit N t ∧ (r = .pending → c'.Sleep) ∧ (r = .ready → c'.Over) ∧ (r ≠ .ready → ¬ c'.Over) := by
  cases c with
  | oneshot c =>
    obtain ⟨c1, hs, h⟩ := Option.map_eq_some_iff.1 h
    simp only [Prod.mk.injEq] at h
    obtain ⟨rfl, rfl, rfl⟩ := h
    obtain ⟨h1, h2, h3, h4⟩ := Chan.recv_fit f hg hs
    refine ⟨h1, h2, h3, fun e => ?_⟩
    cases hr : c1.2 with
    | ready => exact absurd hr e
    | more => exact h4 hr
    | pending => simp only [Ch.Over]; rw [(h2 hr).idle]; simp
  | pulse c =>
    obtain ⟨c1, hs, h⟩ := Option.map_eq_some_iff.1 h
    simp only [Prod.mk.injEq] at h
    obtain ⟨rfl, rfl, rfl⟩ := h
    exact Pulse.Read.recv_fit f hg hs
  | ring cap c =>
    obtain ⟨c1, hs, h⟩ := Option.map_eq_some_iff.1 h
    simp only [Prod.mk.injEq] at h
    obtain ⟨rfl, rfl, rfl⟩ := h
    obtain ⟨h1, h2⟩ := Ring.Read.recv_fit f.1.1 f.1.2 f.2 hg hs hn
    exact ⟨⟨f.1, h1⟩, h2⟩

theorem oneshot_left {c : Oneshot.State Nat} (lg : Oneshot.LogA c) :
    (Oneshot.received c.log ≠ [] ∨ Oneshot.Event.sDropped ∈ c.log) → Oneshot.SenderLeft c.log ∧ Oneshot.received c.log = Oneshot.sends c.log := by
  have h1 := lg.one
  have h2 := lg.vals
  rintro (h | h)
  · cases hrec : Oneshot.received c.log with
    | nil => exact absurd hrec h
    | cons v vs =>
      rw [hrec] at h2
      have hlen := congrArg List.length h2
      simp only [List.length_append, List.length_cons] at hlen
      have hvs : vs = [] := List.eq_nil_of_length_eq_zero (by omega)
      subst hvs
      have e1 := List.eq_nil_of_length_eq_zero (l := Oneshot.sVal c.spc) (by omega)
      have e2 := List.eq_nil_of_length_eq_zero (l := c.data.toList) (by omega)
      have e3 := List.eq_nil_of_length_eq_zero (l := Oneshot.droppedValues c.log) (by omega)
      have e4 := List.eq_nil_of_length_eq_zero (l := Oneshot.returned c.log) (by omega)
      rw [e1, e2, e3, e4] at h2
      have h2 : Oneshot.sends c.log = [v] := by simpa using h2
      exact ⟨.inl (by rw [h2]; simp), h2.symm⟩
  · have hs := (lg.drop1 h).1
    refine ⟨.inr h, ?_⟩
    rw [hs] at h2 ⊢
    have := congrArg List.length h2
    simp only [List.length_append, List.length_nil] at this
    exact List.eq_nil_of_length_eq_zero (by omega)

/-- When the receiver was dropped, the sender has left, and everything has arrived. -/
theorem over_delivered {t : Nat} {c : Ch n k} (f : c.Fit N t) (h : c.Over) : c.Left ∧ ((c.isRing = true → N) → c.Delivered) := by
  cases c with
  | oneshot c =>
    have h : c.rpc = .gone := h
    obtain ⟨h1, h2⟩ := oneshot_left (Chan.reach_inv f.reach).2 (f.ans (by rw [h]; rfl))
    exact ⟨h1, fun _ => h2⟩
  | pulse c =>
    have h : c.rpc = .gone := h
    obtain ⟨h1, h2, h3⟩ := f.ans (by rw [h]; rfl)
    exact ⟨h1, fun _ => ⟨h2, h3⟩⟩
  | ring cap c =>
    have h : c.rpc = .gone := h
    obtain ⟨⟨h1, -, h2, h3⟩, -⟩ := f.2.ans (by rw [h]; rfl)
    exact ⟨h1, fun hN => ⟨h2 (hN rfl), h3⟩⟩

/-- While the receiver sleeps and the sender is in no call, the sender is there and everything has arrived. -/
theorem sleep_waits {t : Nat} {c : Ch n k} (f : c.Fit N t) (sl : c.Sleep) (hr : c.rests = true) : ¬ c.Left ∧ ((c.isRing = true → N) → c.Delivered) := by
  cases c with
  | oneshot c =>
    have lg := (Chan.reach_inv f.reach).2
    have hrest : c.spc.resting = true := hr
    have hid : c.spc = .idle := by
      have := Chan.Sleep.snd sl
      revert this hrest
      cases c.spc <;> simp [Oneshot.SPc.resting, Oneshot.sDone, Oneshot.sWk]
    have hun := lg.unsent (by rw [hid]; rfl) (by rw [hid]; rfl)
    refine ⟨?_, fun _ => ?_⟩
    · rintro (h | h)
      · exact h hun
      · have := (lg.drop1 h).2; rw [hid] at this; simp [Oneshot.sDrop, Oneshot.sGone] at this
    · have hv := lg.vals
      rw [hun] at hv
      have := congrArg List.length hv
      simp only [List.length_append, List.length_nil] at this
      simp only [Ch.Delivered, hun]
      exact List.eq_nil_of_length_eq_zero (by omega)
  | pulse c =>
    obtain ⟨h1, h2⟩ := Pulse.Read.sleep_rest f sl hr
    exact ⟨h1, fun _ => h2⟩
  | ring cap c =>
    obtain ⟨h1, h2, h3⟩ := Ring.Read.sleep_rest f.1.1 f.1.2 f.2 sl hr
    exact ⟨h1, fun hN => ⟨h2 (hN rfl), h3⟩⟩

theorem call_sane {t : Nat} {c : Ch n k} (f : c.Fit True t) (v : c.Sane) (ap : c.Apart) (op : Op n) : ∃ c', c.call op = some c' ∧ c'.Sane := by
  unfold Ch.call
  split
  · obtain ⟨c', h, v'⟩ := Oneshot.step_inv v ap (.sCall _)
    exact ⟨.oneshot c', by rw [h]; rfl, v'⟩
  · obtain ⟨c', h, v'⟩ := Pulse.step_inv v ap (.sCall _)
    exact ⟨.pulse c', by rw [h]; rfl, v'⟩
  · obtain ⟨c', h, v'⟩ := Ring.Read.send_sane f.1.1 f.1.2 f.2 trivial v ap (.sCall _)
    exact ⟨.ring _ c', by rw [h]; rfl, v'⟩
  · exact ⟨_, rfl, v⟩

theorem send_sane {t : Nat} {c : Ch n k} (f : c.Fit True t) (v : c.Sane) (ap : c.Apart) : ∃ c' w, c.send = some (c', w) ∧ c'.Sane := by
  cases c with
  | oneshot c =>
    obtain ⟨c', h, v'⟩ := Oneshot.step_inv v ap .sStep
    exact ⟨.oneshot c', _, by simp only [Ch.send]; rw [h]; rfl, v'⟩
  | pulse c =>
    obtain ⟨c', h, v'⟩ := Pulse.step_inv v ap .sStep
    exact ⟨.pulse c', _, by simp only [Ch.send]; rw [h]; rfl, v'⟩
  | ring cap c =>
    obtain ⟨c', h, v'⟩ := Ring.Read.send_sane f.1.1 f.1.2 f.2 trivial v ap .sStep
    exact ⟨.ring _ c', _, by simp only [Ch.send]; rw [h]; rfl, v'⟩

theorem recv_sane {t : Nat} {c : Ch n k} (f : c.Fit True t) (v : c.Sane) (ap : c.Apart) :
    ∃ c' r w, c.recv t = some (c', r, w) ∧ c'.Sane := by
  cases c with
  | oneshot c =>
    obtain ⟨c', r, h, v'⟩ := Chan.recv_sane (t := t) v ap
    exact ⟨.oneshot c', _, _, by simp only [Ch.recv]; rw [h]; rfl, v'⟩
  | pulse c =>
    obtain ⟨c', r, h, v'⟩ := Pulse.Read.recv_sane (t := t) v ap
    exact ⟨.pulse c', _, _, by simp only [Ch.recv]; rw [h]; rfl, v'⟩
  | ring cap c =>
    obtain ⟨c', r, h, v'⟩ := Ring.Read.recv_sane (t := t) f.1.1 f.1.2 f.2 trivial v ap
    exact ⟨.ring _ c', _, _, by simp only [Ch.recv]; rw [h]; rfl, v'⟩

end Verif.Exec.Str
