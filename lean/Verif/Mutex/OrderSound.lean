import Verif.Mutex.OrderMoves
/-! # The mutex with memory orderings is sound -/
namespace Verif.Mutex.Order

open Verif.Order

variable {s s' : OState} {p : Nat}

theorem word_kind {f : Ev} {l : Nat} (hf : EvOk f) (h : f.loc = l) (hl : l = lockLoc ∨ l = headLoc) : f.kind ≠ .write := fun e => by
  have := hf.word (h ▸ hl); rw [e] at this; cases this

/-- The step is a `Move`. -/
macro "mv_tac" : tactic => `(tactic| exact mv rfl rfl (fun m => by
    simp only [acquire, acquirePoll, State.goto, State.setC, State.emit, State.setN, upd_apply] <;> (try split) <;> simp [*])
  rfl rfl rfl rfl rfl rfl (by assumption) (by assumption) (by assumption) (by simp [seen, *] <;> grind) (by simp [mine, State.setN, *] <;> grind))

/-- Accesses other than loads. -/
theorem step_own {o : Ords} (ho : Most o) {tr : List Ev} {a : Acc} (g : Good s) (w : Own tr s) (ha : acc o p s = some a)
    (hl : ∀ l b, a ≠ .load l b) (hs : ostep p s = some s') :
    Good s' ∧ Own (tr ++ [a.ev p 0]) s' ∧ Ordered Allow tr (a.ev p 0) := by
  have hev : EvOk (a.ev p 0) := acc_ok (k := 0) ha
  unfold acc at ha
  split at ha
  · rename_i hu
    simp only [Option.some.injEq] at ha
    subst ha
    simp only [ostep, hu, if_true, Option.some.injEq] at hs
    subst hs
    exact use_own g w hu hev
  rename_i hu
  simp only [Bool.not_eq_true] at hu
  split at ha
  · rename_i n hr
    simp only [Option.some.injEq] at ha
    subst ha
    simp only [ostep, hu, Bool.false_eq_true, if_false, hr, Option.some.injEq] at hs
    subst hs
    exact rel_own g w hr hev
  rename_i hr
  have hinv : ∀ {b : State}, pstep s.base p = some b → InvO b := fun h => pstep_invO g.inv h
  -- no access to a node
  have quiet : ∀ {l : Nat} {x : Kind} {c : Client} {s'' : OState}, EvOk ⟨p, l, x⟩ → Move s s'' p c → InvO s''.base → l = lockLoc ∨ l = headLoc ∨ l = noLoc →
      x ≠ .write → (∀ r, x ≠ .store r) → s''.base.locked = s.base.locked → own c = own (s.base.client p) →
      ((l = headLoc ∧ (⟨p, l, x⟩ : Ev).acq = true ∧ src tr ⟨p, l, x⟩ = cnt tr l) ∨ ∀ n ∈ seen c.pc, n ∈ seen (s.base.client p).pc) →
      Good s'' ∧ Own (tr ++ [⟨p, l, x⟩]) s'' ∧ Ordered Allow tr ⟨p, l, x⟩ := by
    intro l x c s'' hx m hi h1 h2 h3 h4 h5 h6
    have hat : ∀ n, ¬ At n ⟨p, l, x⟩ := by
      intro n
      rcases h1 with h | h | h
      · exact not_at_lock h n
      · exact not_at_head h n
      · exact not_at_no h n
    refine ⟨m.good g hi, m.own_same g w hx h2 (fun n h => absurd h (hat n)) rfl h6 h4 h5 (fun h => absurd h (not_prot h1)) (store_tk h3), ?_⟩
    rcases h1 with h | h | h
    · exact ord_word w (.inl h) hx
    · exact ord_word w (.inr h) hx
    · exact ord_none w h hx
  -- access to a node
  have node : ∀ {n : Nat} {f : Ev} {c : Client} {s'' : OState}, f.tid = p → (f.loc = tk n ∨ f.loc = wk n) → EvOk f → Move s s'' p c → InvO s''.base →
      f.kind ≠ .write → (∀ r, f.kind ≠ .store r) → s''.base.locked = s.base.locked → own c = own (s.base.client p) →
      (∀ m ∈ seen c.pc, m ∈ seen (s.base.client p).pc) →
      (mine (s.base.client p).pc = some n ∧ (s.base.node n).freed = false) ∨ (n ∈ seen (s.base.client p).pc ∧ (s.base.client p).pc.unl = 1) →
      Good s'' ∧ Own (tr ++ [f]) s'' ∧ Ordered Allow tr f := by
    rintro n ⟨t, l, x⟩ c s'' rfl hn hx m hi h2 h3 h4 h5 h6 h7
    have hp : Pub s n := by
      rcases h7 with ⟨h, -⟩ | ⟨h, -⟩
      · exact (g.mine t n (.inl h)).1
      · exact g.seen t n h
    refine ⟨m.good g hi, m.own_same g w hx h2 (fun n' h => at_inj h hn ▸ hp) rfl (.inr h6) h4 h5 (fun h => ?_) (store_tk h3), ?_⟩
    · rcases h7 with ⟨h', -⟩ | ⟨-, h'⟩
      · obtain ⟨-, hm⟩ := g.mine t n (.inl h')
        rcases h with h | ⟨n', h, he⟩
        · exact absurd hn (not_at_data h n)
        · rw [at_inj h hn, hm] at he
          exact absurd rfl he
      · exact own_unl g h'
    · rcases h7 with ⟨h, hf⟩ | ⟨h, h'⟩
      · exact ord_mine w hn hx h2 hp (g.mine t n (.inl h)).2 hf
      · exact ord_seen w hn hx hp.1 (w.seen t n h) (own_unl g h')
  -- locking
  have lock : ∀ {c : Client} {s'' : OState}, EvOk ⟨p, lockLoc, .rmw o.lock.acq o.lock.rel⟩ → Move s s'' p c → InvO s''.base → s.base.locked = false →
      s''.base.locked = true → (∀ m ∈ seen c.pc, m ∈ seen (s.base.client p).pc) →
      Good s'' ∧ Own (tr ++ [⟨p, lockLoc, .rmw o.lock.acq o.lock.rel⟩]) s'' ∧ Ordered Allow tr ⟨p, lockLoc, .rmw o.lock.acq o.lock.rel⟩ := by
    intro c s'' hx m hi h1 h2 h3
    exact ⟨m.good g hi, m.own_acq g w hx rfl rfl ho.lock (by simp [Ev.isStore]) rfl h3 h1 h2, ord_word w (.inl rfl) hx⟩
  -- unlocking
  have unlock : ∀ {c : Client} {s'' : OState}, EvOk ⟨p, lockLoc, .store o.unlock⟩ → Move s s'' p c → InvO s''.base → own (s.base.client p) = 1 →
      own c = 0 → (∀ m ∈ seen c.pc, m ∈ seen (s.base.client p).pc) →
      Good s'' ∧ Own (tr ++ [⟨p, lockLoc, .store o.unlock⟩]) s'' ∧ Ordered Allow tr ⟨p, lockLoc, .store o.unlock⟩ := by
    intro c s'' hx m hi h1 h2 h3
    exact ⟨m.good g hi, m.own_rel g w hx rfl rfl (by simp [Ev.writes]) ho.unlock h3 h1 h2, ord_word w (.inl rfl) hx⟩
  cases hpc : (s.base.client p).pc <;> simp only [hpc, accPc] at ha
  case ppush wk' =>
    simp only [ostep, hu, hr, hpc, Bool.false_eq_true, if_false] at hs
    split at ha
    · rename_i hsub
      rw [if_pos hsub] at hs
      simp only [Option.some.injEq] at hs ha
      subst ha
      exact alloc_own g w hu hr hpc hsub hs.symm hev
    · rename_i hsub
      rw [if_neg hsub] at hs
      split at ha
      · rename_i hsub1
        rw [if_pos hsub1] at hs
        simp only [Option.some.injEq] at hs ha
        subst ha
        exact store_own g w hu hr hpc hsub hs.symm hev
      · rename_i hsub1
        rw [if_neg hsub1] at hs
        simp only [Option.some.injEq] at ha
        subst ha
        simp only [pstep, hpc, Option.map_some, Option.some.injEq] at hs
        exact push_own ho.push g w hu hr hpc hsub rfl rfl hs.symm hev
  case ulCut n l =>
    simp only [ostep, hu, hr, hpc, Bool.false_eq_true, if_false] at hs
    split at ha
    · simp only [Option.some.injEq] at ha; exact absurd ha.symm (hl _ _)
    · rename_i hsub
      rw [if_neg hsub] at hs
      simp only [Option.some.injEq] at ha
      subst ha
      simp only [pstep, hpc] at hs
      split at hs
      · cases hs
      · simp only [Option.map_some, Option.some.injEq] at hs
        exact cut_own g w hu hr hpc rfl hs.symm hev
  case idle => cases ha
  case pchk => simp only [Option.some.injEq] at ha; exact absurd ha.symm (hl _ _)
  all_goals
    have hsub := sub_zero g (p := p) (by simp [hpc]) (by simp [hpc])
    simp only [ostep, hu, hr, hpc, Bool.false_eq_true, if_false] at hs
    obtain ⟨b, hps, rfl⟩ := Option.map_eq_some_iff.1 hs
    have hi := hinv hps
  case ulDrain l =>
    cases l with
    | cons n l => simp only [Option.some.injEq] at ha; exact absurd ha.symm (hl _ _)
    | nil =>
      simp only [Option.some.injEq] at ha
      subst ha
      simp only [pstep, hpc, Option.some.injEq] at hps
      subst hps
      exact quiet hev (by mv_tac) hi (.inr (.inr rfl)) (by simp) (by simp) rfl (by simp only [own, hpc, Pc.unl]) (.inr (by simp [seen]))
  case ulScan l =>
    cases l with
    | cons n l =>
      simp only [Option.some.injEq] at ha
      subst ha
      simp only [pstep, hpc, swapTaken] at hps
      split at hps
      · cases hps
      · split at hps <;> simp only [Option.some.injEq] at hps <;> subst hps <;>
          exact node rfl (.inl rfl) hev (by mv_tac) hi (by simp [Acc.ev]) (by simp [Acc.ev]) rfl (by simp only [own, hpc, Pc.unl, State.setN])
            (by simp [seen, hpc] <;> grind) (.inr ⟨by simp [seen, hpc], by rw [hpc]; rfl⟩)
    | nil =>
      simp only [Option.some.injEq] at ha
      subst ha
      simp only [pstep, hpc, Option.some.injEq] at hps
      subst hps
      exact quiet hev (by mv_tac) hi (.inr (.inr rfl)) (by simp) (by simp) rfl (by simp only [own, hpc, Pc.unl]) (.inr (by simp [seen]))
  case ulLoad =>
    simp only [Option.some.injEq] at ha
    subst ha
    simp only [pstep, hpc, Option.some.injEq] at hps
    subst hps
    exact quiet hev (mv rfl rfl (fun _ => rfl) rfl rfl rfl rfl rfl rfl hu hr hsub (fun m h => .inr h) (fun m h => .inr (h.resolve_left (by simp [mine]))))
      hi (.inr (.inl rfl)) (by simp) (by simp) rfl (by simp only [own, hpc, Pc.unl]) (.inl ⟨rfl, ho.drain, rfl⟩)
  case ulHead =>
    simp only [Option.some.injEq] at ha
    subst ha
    simp only [pstep, hpc, Option.some.injEq] at hps
    subst hps
    exact quiet hev (mv rfl rfl (fun _ => rfl) rfl rfl rfl rfl rfl rfl hu hr hsub (fun m h => .inr h) (fun m h => .inr (h.resolve_left (by simp [mine]))))
      hi (.inr (.inl rfl)) (by simp) (by simp) rfl (by simp only [own, hpc, Pc.unl]) (.inl ⟨rfl, ho.iter, rfl⟩)
  case ulStore nw =>
    simp only [Option.some.injEq] at ha
    subst ha
    have h1 := own_unl (p := p) g (by rw [hpc]; rfl)
    have h2 : (s.base.client p).guards = 0 := by simpa [own, hpc, Pc.unl] using h1
    simp only [pstep, hpc] at hps
    split at hps <;> simp only [Option.some.injEq] at hps <;> subst hps <;>
      exact unlock hev (by mv_tac) hi h1 (by simp only [own, Pc.unl, h2]) (by simp [seen])
  case dTry =>
    simp only [Option.some.injEq] at ha
    subst ha
    simp only [pstep, hpc] at hps
    split at hps <;> simp only [Option.some.injEq] at hps <;> subst hps
    · exact quiet hev (by mv_tac) hi (.inl rfl) (by simp) (by simp) rfl (by simp only [own, hpc, Pc.unl]) (.inr (by simp [seen]))
    · rename_i hlk
      exact lock hev (by mv_tac) hi (by simpa using hlk) rfl (by simp [seen])
  case ulRead n =>
    simp only [Option.some.injEq] at ha
    subst ha
    simp only [pstep, hpc] at hps
    split at hps
    · cases hps
    · split at hps <;> simp only [Option.some.injEq, reduceCtorEq] at hps
      subst hps
      exact node rfl (.inr rfl) hev (by mv_tac) hi (by simp [Acc.ev]) (by simp [Acc.ev]) rfl (by simp only [own, hpc, Pc.unl, State.setN])
        (by simp [seen]) (.inr ⟨by simp [seen, hpc], by rw [hpc]; rfl⟩)
  all_goals
    simp only [Option.some.injEq] at ha
    subst ha
    simp only [pstep, hpc, swapTaken, dropWaker] at hps
    (repeat' split at hps) <;> simp only [Option.some.injEq, reduceCtorEq] at hps <;> subst hps
  all_goals
    first
    | exact quiet hev (by mv_tac) hi (.inl rfl) (by simp) (by simp) rfl (by simp only [own, hpc, Pc.unl]) (.inr (by simp [seen]))
    | exact quiet hev (by mv_tac) hi (.inr (.inr rfl)) (by simp) (by simp) rfl (by simp only [own, hpc, Pc.unl]) (.inr (by simp [seen]))
    | exact lock hev (by mv_tac) hi (by simp_all) rfl (by simp [seen])
    | exact node rfl (.inl rfl) hev (by mv_tac) hi (by simp [Acc.ev]) (by simp [Acc.ev]) rfl (by simp only [own, hpc, Pc.unl, State.setN])
        (by simp [seen]) (.inl ⟨by rw [hpc]; rfl, by simp_all⟩)
    | exact node rfl (.inr rfl) hev (by mv_tac) hi (by simp [Acc.ev]) (by simp [Acc.ev]) rfl (by simp only [own, hpc, Pc.unl, State.setN])
        (by simp [seen]) (.inl ⟨by rw [hpc]; rfl, by simp_all⟩)

end Verif.Mutex.Order
