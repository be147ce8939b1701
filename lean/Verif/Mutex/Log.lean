import Verif.Mutex.Wake2
/-! # Invariants of the mutex: the log -/
namespace Verif.Mutex

/-- Guards and waiting futures. -/
structure InvG (s : State) : Prop where
  gd : ∀ p, (holders s.log).count p = (s.client p).guards
  wt : ∀ p, waits p s.log = ((s.client p).waiter.isSome && !(s.client p).pc.polling)

theorem init_invG : InvG init := by constructor <;> simp [init, holders, waits]

theorem call_invG {s : State} (i : InvN s) (g : InvG s) (p : Nat) (op : Op) : InvG (call s p op) := by
  have hf := (i.cl p).fut
  obtain ⟨g1, g2⟩ := g
  have g1p := g1 p
  have g2p := g2 p
  unfold call
  simp only
  split
  · exact ⟨g1, g2⟩
  · rename_i hi
    simp only [Classical.not_not] at hi
    simp only [hi, Pc.polling] at g2p
    cases op <;> simp only <;> (repeat' split) <;>
      first
      | exact ⟨g1, g2⟩
      | (constructor <;> intro q <;> simp only [State.goto, State.setC, State.emit, upd_apply, holders, waits, List.count_erase] <;>
          (have g1q := g1 q; have g2q := g2 q; clear g1 g2; by_cases e : q = p <;> grind [Pc.polling]))

set_option maxHeartbeats 1000000 in
theorem pstep_invG {s s' : State} (i : InvN s) (g : InvG s) {p : Nat} (hs : pstep s p = some s') : InvG s' := by
  obtain ⟨g1, g2⟩ := g
  have g1p := g1 p
  have g2p := g2 p
  obtain ⟨c1, c2, c3, c4, c5, c6, c7, c8, c9, c10, c11⟩ := i.cl p
  clear i c1 c7 c8 c9 c10 c11
  unfold pstep at hs
  simp only at hs
  cases hpc : (s.client p).pc <;> simp only [hpc] at hs <;> simp only [hpc, Pc.polling, Pc.own] at g2p c2 c3 c4 c6 <;>
    step_cases <;>
    simp only [Option.some.injEq, reduceCtorEq] at hs <;> (try subst hs) <;>
      first
      | exact ⟨g1, g2⟩
      | (constructor <;> intro q <;> simp only [upd_apply, holders, waits, List.count_erase, List.erase_cons_head] <;>
          (have g1q := g1 q; have g2q := g2 q; clear g1 g2; by_cases e : q = p <;> grind [Pc.polling]))

end Verif.Mutex
