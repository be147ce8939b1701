import Verif.Mutex.OrderSteps
/-! # Loads of the mutex with memory orderings -/
namespace Verif.Mutex.Order

open Verif.Order

variable {s s' : OState} {p : Nat} {c : Client}

theorem setWord_tk (s : OState) (n : Nat) (v : Bool) :
    setWord s (tk n) v = { s with base := s.base.setN n { s.base.node n with taken := v } } := by
  have h1 : ¬ 4 + 2 * n = 0 := by omega
  have h2 : 4 ≤ 4 + 2 * n ∧ (4 + 2 * n) % 2 = 0 := by omega
  have h3 : (4 + 2 * n - 4) / 2 = n := by omega
  simp only [setWord, tk, lockLoc, if_neg h1, if_pos h2, h3]

theorem sub_zero (g : Good s) (h1 : ∀ w, (s.base.client p).pc ≠ .ppush w) (h2 : ∀ n l, (s.base.client p).pc ≠ .ulCut n l) : s.sub p = 0 := by
  by_cases h : s.sub p = 0
  · exact h
  · rcases g.sub p h with ⟨w, h⟩ | ⟨n, l, h⟩
    · exact absurd h (h1 w)
    · exact absurd h (h2 n l)

/-- In `unlock`. -/
theorem own_unl (g : Good s) (h : (s.base.client p).pc.unl = 1) : own (s.base.client p) = 1 := by
  have := g.inv.le p
  unfold own at *
  omega

theorem at_tk (t n : Nat) (k : Kind) : At n ⟨t, tk n, k⟩ := .inl rfl
theorem at_wk (t n : Nat) (k : Kind) : At n ⟨t, wk n, k⟩ := .inr rfl

theorem at_tk_eq {t n m : Nat} {k : Kind} (h : At m ⟨t, tk n, k⟩) : m = n := at_inj h (at_tk t n k)
theorem at_wk_eq {t n m : Nat} {k : Kind} (h : At m ⟨t, wk n, k⟩) : m = n := at_inj h (at_wk t n k)

theorem prot_tk {t n : Nat} {k : Kind} (h : Prot s ⟨t, tk n, k⟩) : t ≠ s.maker n := by
  rcases h with h | ⟨m, h1, h2⟩
  · simp only [tk, dataLoc] at h; omega
  · rw [at_tk_eq h1] at h2; exact h2

theorem prot_wk {t n : Nat} {k : Kind} (h : Prot s ⟨t, wk n, k⟩) : t ≠ s.maker n := by
  rcases h with h | ⟨m, h1, h2⟩
  · simp only [wk, dataLoc] at h; omega
  · rw [at_wk_eq h1] at h2; exact h2

theorem store_tk {t n l : Nat} {k : Kind} (h : ∀ r, k ≠ .store r) : (⟨t, n, k⟩ : Ev).isStore l = false := by
  cases k with
  | store r => exact absurd rfl (h r)
  | _ => simp [Ev.isStore]

/-- Loads. -/
theorem load_own {o : Ords} {tr : List Ev} {l : Nat} {a v : Bool} (k : Nat) (g : Good s) (w : Own tr s)
    (ha : acc o p s = some (.load l a)) (hs : ostep p (setWord s l v) = some s') :
    Good (setWord s' l (word s l)) ∧ Own (tr ++ [⟨p, l, .load a k⟩]) (setWord s' l (word s l)) ∧ Ordered Allow tr ⟨p, l, .load a k⟩ := by
  have hev : EvOk ⟨p, l, .load a k⟩ := acc_ok (k := k) ha
  unfold acc at ha
  split at ha
  · cases ha
  rename_i hu
  split at ha
  · cases ha
  rename_i hr
  simp only [Bool.not_eq_true] at hu
  -- the result
  have fin : ∀ {n : Nat} {x : Kind} {c : Client} {s'' : OState}, x ≠ .write → (∀ r, x ≠ .store r) → EvOk ⟨p, tk n, x⟩ → Move s s'' p c →
      s''.base.locked = s.base.locked →
      own c = own (s.base.client p) → c.pc.taking = false → (∀ m ∈ seen c.pc, m ∈ seen (s.base.client p).pc) → Pub s n →
      (s.maker n = p ∨ own (s.base.client p) = 1) → Ordered Allow tr ⟨p, tk n, x⟩ →
      Good s'' ∧ Own (tr ++ [⟨p, tk n, x⟩]) s'' ∧ Ordered Allow tr ⟨p, tk n, x⟩ := by
    intro n x c s'' hx1 hx2 hx m h1 h2 h3 h4 h5 h6 h7
    refine ⟨m.good g (invO_same g.inv p h1 m.client h2 (by rw [h3]; simp)),
      m.own_same g w hx hx1 (fun n' h => at_tk_eq h ▸ h5) rfl (.inr h4) h1 h2 (fun h => h6.resolve_left fun e => prot_tk h e.symm)
        (store_tk hx2), h7⟩
  cases hpc : (s.base.client p).pc <;> simp only [hpc, accPc] at ha <;> (try cases ha; done)
  case pchk wk n =>
    simp only [Option.some.injEq, Acc.load.injEq] at ha
    obtain ⟨rfl, rfl⟩ := ha
    obtain ⟨hpub, hmk⟩ := g.mine p n (.inl (by rw [hpc]; rfl))
    have hsub := sub_zero g (p := p) (by simp [hpc]) (by simp [hpc])
    rw [setWord_tk] at hs
    simp only [ostep, hu, hr, State.setN, hpc, Bool.false_eq_true, if_false, pstep, upd_apply, if_true] at hs
    (repeat' split at hs) <;> simp only [Option.map_none, Option.map_some, Option.some.injEq, reduceCtorEq] at hs
    all_goals
      rename_i hfr _
      simp only [Bool.not_eq_true] at hfr
      subst hs
      rw [setWord_tk]
      have ho := ord_mine w (at_tk _ _ _) hev (by simp) hpub hmk hfr
      exact fin (by simp) (by simp) hev (mv rfl rfl (fun m => by
        simp only [State.goto, State.setC, State.emit, State.setN, upd_apply]
        split <;> simp [*]) rfl rfl rfl rfl rfl rfl hu hr hsub (by simp [seen]) (fun m h => .inr (h.resolve_left (by simp [mine]))))
        rfl (by simp only [own, hpc, Pc.unl]) rfl (by simp [seen]) hpub (.inl hmk) ho
  case ulDrain l =>
    cases l with
    | nil => cases ha
    | cons n rest =>
      simp only [Option.some.injEq, Acc.load.injEq] at ha
      obtain ⟨rfl, rfl⟩ := ha
      have hsn : n ∈ seen (s.base.client p).pc := by rw [hpc]; exact List.mem_cons_self
      have hpub := g.seen p n hsn
      have hown := own_unl (p := p) g (by rw [hpc]; rfl)
      have hsub := sub_zero g (p := p) (by simp [hpc]) (by simp [hpc])
      have ho := ord_seen w (at_tk _ _ _) hev hpub.1 (w.seen p n hsn) hown
      rw [setWord_tk] at hs
      simp only [ostep, hu, hr, State.setN, hpc, Bool.false_eq_true, if_false, pstep, upd_apply, if_true] at hs
      (repeat' split at hs) <;> simp only [Option.map_none, Option.map_some, Option.some.injEq, reduceCtorEq] at hs
      all_goals
        subst hs
        rw [setWord_tk]
        exact fin (by simp) (by simp) hev (mv rfl rfl (fun m => by
          simp only [State.goto, State.setC, State.emit, State.setN, upd_apply]
          split <;> simp [*]) rfl rfl rfl rfl rfl rfl hu hr hsub (by simp [seen, hpc] <;> grind) (fun m h => .inr (h.resolve_left (by simp [mine]))))
          rfl (by simp only [own, hpc, Pc.unl]) rfl (by simp [seen, hpc] <;> grind) hpub (.inr hown) ho
  case ulScan l => cases l <;> cases ha
  case ulCut n l =>
    split at ha
    · rename_i hsub
      simp only [Option.some.injEq, Acc.load.injEq] at ha
      obtain ⟨rfl, rfl⟩ := ha
      have hsn : n ∈ seen (s.base.client p).pc := by rw [hpc]; exact List.mem_cons_self
      have hpub := g.seen p n hsn
      have hown := own_unl (p := p) g (by rw [hpc]; rfl)
      have ho := ord_seen w (at_tk _ _ _) hev hpub.1 (w.seen p n hsn) hown
      rw [setWord_tk] at hs
      simp only [ostep, hu, hr, State.setN, hpc, hsub, Bool.false_eq_true, if_false, upd_apply, if_true] at hs
      split at hs <;> simp only [Option.some.injEq, reduceCtorEq] at hs
      subst hs
      rw [setWord_tk]
      exact fin (by simp) (by simp) hev ⟨(by simp only [State.setN]; funext q; rw [upd_apply]; split <;> simp [*]), rfl, fun m => (by
        simp only [State.setN, upd_apply]
        split <;> simp [*]), rfl, rfl, rfl, fun q h => (by simp only [upd_apply, if_neg h]), rfl, rfl, hu, hr,
        fun ⟨⟨w, h⟩, _⟩ => (by rw [hpc] at h; cases h), fun w h => (by rw [hpc] at h; cases h), fun _ => ⟨_, _, hpc⟩, fun m h => .inl h,
        fun m h => h⟩ rfl rfl (by rw [hpc]; rfl) (fun m h => h) hpub (.inr hown) ho
    · cases ha
  case ppush => (repeat' split at ha) <;> cases ha

end Verif.Mutex.Order
