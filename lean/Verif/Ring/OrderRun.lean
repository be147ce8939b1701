import Verif.Ring.OrderRecv
/-! # Schedules of the ring channel with memory orderings -/
namespace Verif.Ring

open Verif.Spsc Verif.Order

variable {k cap : Nat} {τ ε : Type}

theorem sCall_flags {s : State k τ ε} (h : s.spc.isIdle = true) (op : SOp τ ε) :
    flags cap (sCall s op) = flags cap s ∧ (sCall s op).freed = s.freed ∧ dn (sCall s op) = dn s ∧ kn (sCall s op) = kn s ∧
    (sCall s op).st = s.st := by
  obtain ⟨st, buf, err, rxw, txw, freed, spc, rpc, log⟩ := s
  cases spc <;> simp [SPc.isIdle] at h
  cases op <;> exact ⟨rfl, rfl, rfl, rfl, rfl⟩

theorem rCall_flags {s : State k τ ε} (h : s.rpc.isIdle = true) (op : ROp) :
    flags cap (rCall s op) = flags cap s ∧ (rCall s op).freed = s.freed ∧ dn (rCall s op) = dn s ∧ kn (rCall s op) = kn s ∧
    (rCall s op).st = s.st := by
  obtain ⟨st, buf, err, rxw, txw, freed, spc, rpc, log⟩ := s
  cases rpc <;> simp [RPc.isIdle] at h
  cases op <;> exact ⟨rfl, rfl, rfl, rfl, rfl⟩

theorem s_dead {o : Ords} {s : State k τ ε} (h : s.freed = true) {a : Acc} (ha : sAcc o s.spc = some a) : sStep cap s = none := by
  have : s.spc.resting = false := by
    cases hc : s.spc <;> rw [hc] at ha <;> first | rfl | cases ha
  simp [sStep, this, h]

theorem r_dead {o : Ords} {s : State k τ ε} (h : s.freed = true) {a : Acc} (ha : rAcc o cap s.rpc = some a) : rStep cap s = none := by
  have : s.rpc.resting = false := by
    cases hc : s.rpc <;> rw [hc] at ha <;> first | rfl | cases ha
  simp [rStep, this, h]

theorem mono_of_eq {f g : Fl} (h : g = f) : Mono f g := by
  subst h; exact ⟨id, id, rfl, rfl, id, id, id⟩

theorem okV_of {s s' : State k τ ε} (h : hasWaker s'.st = hasWaker s.st) {u m : Nat} {v : Word k} (hv : okV u s m v) :
    okV u s' m v := fun h1 h2 => (hv h1 h2).trans h.symm

theorem s_acc0 {o : Ords} {pc : SPc k τ ε} {l : Nat} {a : Bool} (h : sAcc o pc = some (.load l a)) : l = 0 ∧ a = false := by
  cases pc <;> simp [sAcc] at h <;> exact ⟨h.1.symm, h.2⟩

theorem r_acc0 {o : Ords} {pc : RPc k} {l : Nat} {a : Bool} (h : rAcc o cap pc = some (.load l a)) : l = 0 ∧ a = false := by
  cases pc <;> simp [rAcc] at h <;> exact ⟨h.1.symm, h.2⟩

theorem s_acc {o : Ords} {pc : SPc k τ ε} {a : Acc} (h : sAcc o pc = some a) :
    (∀ {l k}, a = .other l k → k.atomic = false) ∧ ∀ {l r}, a ≠ .store l r := by
  cases pc <;> simp [sAcc] at h <;> subst h <;>
    exact ⟨fun h => by cases h <;> rfl, fun h => by cases h⟩

theorem r_acc {o : Ords} {pc : RPc k} {a : Acc} (h : rAcc o cap pc = some a) :
    (∀ {l k}, a = .other l k → k.atomic = false) ∧ ∀ {l r}, a ≠ .store l r := by
  cases pc <;> simp [rAcc] at h <;> subst h <;>
    exact ⟨fun h => by cases h <;> rfl, fun h => by cases h⟩

/-- A guarded step is a step. -/
theorem of_ok {ok : State k τ ε → Bool} {s s' : State k τ ε} (h : (if ok s then sStep cap s else none) = some s') :
    sStep cap s = some s' := by
  split at h
  · exact h
  · cases h

theorem dead_ok {ok : State k τ ε → Bool} {s : State k τ ε} (h : sStep cap s = none) : (if ok s then sStep cap s else none) = none := by
  split
  · exact h
  · rfl

theorem duo {ok : State k τ ε → Bool} {o : Ords} (en : Enough o) :
    Duo (guarded k τ ε cap o ok) (Inv cap) Doomed (flags cap) (fun s => !s.freed) dn kn okV true (DropsRelease o) := by
  refine ⟨⟨init_inv cap k τ ε, fun t l ht hl => ?_, fun t => ?_⟩, fun {s} a inv => ?_, fun {s} a d => ?_, fun {s t a} d ha => ?_, fun s u hu => ?_,
    fun {s t} inv ht hk => ?_, fun {s t l a v s'} k inv ha hok hs => ?_, fun {s t l w s'} inv ha hs => ?_, fun {s t l k s'} inv ha hs => ?_,
    fun {s t l r} ha => ?_, fun {s t a} ha => ?_⟩
  · subst hl; rfl
  · rcases t with _ | _ | t <;> exact ⟨rfl, rfl⟩
  · rcases a with op | op
    · by_cases h : s.spc.isIdle = true
      · obtain ⟨h1, h2, h3, h4, h5⟩ := sCall_flags h op
        simp only [guarded, h, if_true]
        exact ⟨sCall_inv inv h op, mono_of_eq h1, by rw [h2], h3, h4, fun t l v hv => okV_of (by rw [h5]) hv⟩
      · simp only [guarded, h]
        exact ⟨inv, mono_of_eq rfl, rfl, rfl, rfl, fun t l v hv => hv⟩
    · by_cases h : s.rpc.isIdle = true
      · obtain ⟨h1, h2, h3, h4, h5⟩ := rCall_flags h op
        simp only [guarded, h, if_true]
        exact ⟨rCall_inv inv h op, mono_of_eq h1, by rw [h2], h3, h4, fun t l v hv => okV_of (by rw [h5]) hv⟩
      · simp only [guarded, h]
        exact ⟨inv, mono_of_eq rfl, rfl, rfl, rfl, fun t l v hv => hv⟩
  · rcases a with op | op
    · have := d.step (cap := cap) (a := .sCall op) (s' := if s.spc.isIdle then sCall s op else s) (by simp only [step]; split <;> rfl)
      exact this
    · have := d.step (cap := cap) (a := .rCall op) (s' := if s.rpc.isIdle then rCall s op else s) (by simp only [step]; split <;> rfl)
      exact this
  · rcases t with _ | _ | t
    · refine ⟨dead_ok (s_dead d.1 ha), fun l v => ?_⟩
      simp only [guarded]
      split
      · exact dead_ok (s_dead (s := { s with st := v }) d.1 ha)
      · exact dead_ok (s_dead d.1 ha)
    · refine ⟨r_dead d.1 ha, fun l v => ?_⟩
      simp only [guarded]
      split
      · exact r_dead (s := { s with st := v }) d.1 ha
      · exact r_dead d.1 ha
    · cases ha
  · rcases u with _ | _ | u
    · omega
    · omega
    · rfl
  · rcases ht with rfl | rfl
    · exact inv.first2 (by simpa [kn] using hk)
    · exact inv.first1 (by simpa [kn] using hk)
  · rcases t with _ | _ | t
    · have hl : l = 0 := (s_acc0 ha).1
      subst hl
      replace hs := of_ok hs
      obtain ⟨-, h2, h3, h4, h5⟩ := s_load inv (hok rfl rfl) hs ha k
      exact ⟨.inl rfl, rfl, h2, by have := s_alive (s := { s with st := v }) hs ha; simpa using this, h3, h4, fun _ => h5, fun u m v hv => hv⟩
    · have hl : l = 0 := (r_acc0 ha).1
      subst hl
      obtain ⟨-, h2, h3, h4, h5⟩ := r_load inv hs ha k
      exact ⟨.inr rfl, rfl, h2, by have := r_alive (s := { s with st := v }) hs ha; simpa using this, h3, h4, fun _ => h5, fun u m v hv => hv⟩
    · cases ha
  · rcases t with _ | _ | t
    · replace hs := of_ok hs
      obtain ⟨rfl, h2, h3⟩ := s_rmw en inv hs ha
      refine ⟨.inl rfl, rfl, by simp [s_alive hs ha], step_good inv (a := .sStep) hs, h2, h3, fun u m v hv hu h1 h2 => ?_, fun u _ _ => rfl⟩
      subst h1 h2
      exact absurd rfl (hu rfl)
    · obtain ⟨rfl, h2, h3⟩ := r_rmw en inv hs ha
      exact ⟨.inr rfl, rfl, by simp [r_alive hs ha], step_good inv (a := .rStep) hs, h2, h3, fun u m v hv _ => okV_of (r_tx inv hs ha) hv,
        fun u _ _ => rfl⟩
    · cases ha
  · rcases t with _ | _ | t
    · replace hs := of_ok hs
      obtain ⟨h1, h2, h3, h4, h5, h6⟩ := s_other inv hs ha
      exact ⟨h1, h2, by simp [s_alive hs ha], fun h => by simp [h3 h], step_good inv (a := .sStep) hs, h5, fun _ => h6,
        fun u m v hv => okV_of (by rw [h4]) hv⟩
    · obtain ⟨h1, h2, h3, h4, h5, h6⟩ := r_other inv hs ha
      exact ⟨h1, h2, by simp [r_alive hs ha], fun h => by simp [h3 h], step_good inv (a := .rStep) hs, h5, fun _ => h6,
        fun u m v hv => okV_of (by rw [h4]) hv⟩
    · cases ha
  · rcases t with _ | _ | t
    · exact (s_acc (ha : sAcc o s.spc = _)).2 rfl
    · exact (r_acc (ha : rAcc o cap s.rpc = _)).2 rfl
    · cases ha
  · rcases t with _ | _ | t
    · exact .inl rfl
    · exact .inr rfl
    · cases ha

theorem plain (ok : State k τ ε → Bool) (o : Ords) : (guarded k τ ε cap o ok).Plain := by
  intro t s l k ha
  rcases t with _ | _ | t
  · exact (s_acc (ha : sAcc o s.spc = _)).1 rfl
  · exact (r_acc (ha : rAcc o cap s.rpc = _)).1 rfl
  · cases ha

theorem s_word {o : Ords} {s s' : State k τ ε} (hs : sStep cap s = some s') {a : Acc} (ha : sAcc o s.spc = some a)
    (h : a.wr ≠ some 0) : s'.st = s.st := by
  have hf := s_alive hs ha
  obtain ⟨st, buf, err, rxw, txw, freed, spc, rpc, log⟩ := s
  dsimp only at hf
  subst hf
  unfold sStep at hs
  cases spc <;> simp only [sAcc, Option.some.injEq, reduceCtorEq] at ha <;> subst ha <;> (try (exact absurd rfl h)) <;>
    simp only [SPc.resting, Bool.false_eq_true, if_false] at hs <;>
    (try simp only [errTail, owMid, State.emit, State.release] at hs) <;> (repeat' (split at hs)) <;>
    simp only [Option.some.injEq, reduceCtorEq] at hs <;> subst hs <;> rfl

theorem r_word {o : Ords} {s s' : State k τ ε} (hs : rStep cap s = some s') {a : Acc} (ha : rAcc o cap s.rpc = some a)
    (h : a.wr ≠ some 0) : s'.st = s.st := by
  have hf := r_alive hs ha
  obtain ⟨st, buf, err, rxw, txw, freed, spc, rpc, log⟩ := s
  dsimp only at hf
  subst hf
  unfold rStep at hs
  cases rpc <;> simp only [rAcc, Option.some.injEq, reduceCtorEq] at ha <;> subst ha <;> (try (exact absurd rfl h)) <;>
    simp only [RPc.resting, Bool.false_eq_true, if_false] at hs <;>
    (try simp only [takeValue, dropLoop, dropTail, State.emit, State.release] at hs) <;> (repeat' (split at hs)) <;>
    simp only [Option.some.injEq, reduceCtorEq] at hs <;> subst hs <;> rfl

theorem frame (ok : State k τ ε → Bool) (o : Ords) : (guarded k τ ε cap o ok).Frame := by
  refine ⟨fun s a => funext fun l => ?_, fun s l => ?_, fun {t s a s'} ha hs l hl => ?_⟩
  · rcases a with op | op
    · by_cases h : s.spc.isIdle = true
      · simp only [guarded, h, if_true, (sCall_flags (cap := cap) h op).2.2.2.2]
      · simp only [guarded, h]; rfl
    · by_cases h : s.rpc.isIdle = true
      · simp only [guarded, h, if_true, (rCall_flags (cap := cap) h op).2.2.2.2]
      · simp only [guarded, h]; rfl
  · simp only [guarded]
    split <;> rfl
  · simp only [guarded]
    split
    · rename_i h0
      subst h0
      rcases t with _ | _ | t
      · exact s_word (of_ok hs) ha hl
      · exact r_word hs ha hl
      · cases ha
    · rfl

end Verif.Ring
