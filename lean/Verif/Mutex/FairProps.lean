import Verif.Mutex.FairTurn
import Verif.Mutex.Props
/-! # C87: the turn of the waiters -/
namespace Verif.Mutex

/-- **C87**, in every interleaving: who is woken while a future waits has begun to wait after it. So it is overtaken by newcomers only:
by each one at most once, and if there are none it is the next one to be woken. At `s` all clients are between calls, `n` is a node
stored before, in front of which `A` was stored; `L` is what happens until `s'`, where the owner of `n` still waits. -/
theorem C87_newcomers_partial {as bs : List Act} {s s' : State} {n : Nat} {w : Waker} {A B L : List Event} (h : run init as = some s) (hq : Quiet s)
    (hlog : s.log = A ++ .store n w :: B) (h' : run s bs = some s') (hn : (s'.node n).taken = false) (hL : s'.log = L ++ s.log) :
    (∀ x ∈ wakes L, x ∈ stored (L ++ A)) ∧ (wakes L).length ≤ (stored (L ++ A)).length := by
  have i := run_inv init_inv h
  have i' := run_inv i h'
  have d := run_desc init_inv init_desc h
  have d' := run_desc i d h'
  have hst : (n, w) ∈ stored s.log := by rw [hlog, stored_append]; simp [stored]
  have hlt := (i.m.sl n).1 ⟨w, hst⟩
  obtain ⟨L', e, hw⟩ := run_older i d hlt (fun q => by rw [hq q]; exact fun h => h) h' hn
  have e' : L' = L := List.append_cancel_right (e.symm.trans hL)
  subst e'
  have sub : ∀ x ∈ wakes L', x ∈ stored (L' ++ A) := by
    intro x hx
    have hc : x ∈ consumed s'.log := by
      rw [e, consumed_append, List.mem_append]; exact .inl (wakes_consumed hx)
    have hs := (i'.m.cn x.1 x.2 hc).1
    have hlog' : s'.log = (L' ++ A) ++ .store n w :: B := by rw [e, hlog, List.append_assoc]
    have hd := d'.stored
    rw [hlog', stored_append] at hs hd
    rcases List.mem_append.1 hs with h | h
    · exact h
    · exfalso
      have := hw x hx
      rw [List.map_append, List.pairwise_append] at hd
      have hd := hd.2.1
      simp only [stored, List.map_cons, List.pairwise_cons] at hd
      simp only [stored, List.mem_cons] at h
      rcases h with h | h
      · have := congrArg Prod.fst h; simp only at this; omega
      · have := hd.1 x.1 (List.mem_map.2 ⟨_, h, rfl⟩); omega
  refine ⟨sub, ?_⟩
  have hnd : ((wakes L').map Prod.fst).Nodup := by
    have h1 := i'.m.cd
    rw [e, consumed_append, List.map_append] at h1
    have h2 := (List.nodup_append.1 h1).1
    have key : ∀ l : List Event, ((consumed l).map Prod.fst).Nodup → ((wakes l).map Prod.fst).Nodup := by
      intro l
      induction l with
      | nil => intro _; simp [wakes]
      | cons a l ih =>
        cases a <;> simp only [consumed, wakes] <;> (try exact ih)
        · intro h
          rw [List.map_cons, List.nodup_cons] at h ⊢
          refine ⟨fun hm => h.1 ?_, ih h.2⟩
          obtain ⟨y, hy, e⟩ := List.mem_map.1 hm
          exact List.mem_map.2 ⟨y, wakes_consumed hy, e⟩
        · intro h
          rw [List.map_cons, List.nodup_cons] at h
          exact ih h.2
    exact key _ h2
  have hsub : ∀ a ∈ (wakes L').map Prod.fst, a ∈ (stored (L' ++ A)).map Prod.fst := by
    intro a ha
    obtain ⟨y, hy, e⟩ := List.mem_map.1 ha
    exact List.mem_map.2 ⟨y, sub y hy, e⟩
  have := hnd.length_le_of_subset hsub
  simpa using this

/-- **C87 is false**: three clients are enough to let one of them wait for ever. Calls do not overlap and everyone who is woken is polled
at once and gets the lock. Client 1 waits while clients 0 and 2 hand the lock to each other: each asks for it while the other one has it, and
`unlock` wakes the one who came last. -/
theorem C87_starved (bound : Nat) : ∃ as bs s s' L, (∀ a ∈ as ++ bs, a.who < 3) ∧ OwnWaker (as ++ bs) ∧ Always Sequential init (as ++ bs) ∧
    run init as = some s ∧ run s bs = some s' ∧ Quiet s ∧ Quiet s' ∧ s.log.head? = some (.pending 1) ∧ Event.store 0 1 ∈ s.log ∧
    (s'.node 0).taken = false ∧ waits 1 s'.log = true ∧ wokenSince 1 1 s'.log = false ∧ s'.log = L ++ s.log ∧ bound < (wakes L).length := by
  let as := take0 ++ wait 1
  let pre := wait 2 ++ [.call 0 .unlock] ++ List.replicate 9 (.step 0) ++ [.call 2 (.poll 2), .step 2, .step 2]
  have h0 : run init as = some (ran as) := run_ran (by decide +kernel)
  have h1 : run init (as ++ pre) = some (ran (as ++ pre)) := run_ran (by decide +kernel)
  have hq1 : Quiet (ran (as ++ pre)) := quiet_of h1 3 (by decide +kernel) (by decide +kernel)
  have t : Turn (ran (as ++ pre)) 2 0 1 := by
    constructor <;> decide +kernel
  obtain ⟨a, s', L, r, q, e, hw, hn, hws⟩ := cycles_run bound t hq1
  have hl : (ran (as ++ pre)).log = [.acquired 2, .callPoll 2 2, .woke 1 2, .released 0, .pending 2, .store 1 2, .callPoll 2 2, .newFut 2] ++ (ran as).log := by
    decide +kernel
  have hc := cycles_who bound (x := 2) (y := 0) (by omega) (by omega)
  have hp : ∀ a ∈ as ++ pre, a.who < 3 := by decide +kernel
  have ho : OwnWaker (as ++ pre) := ownB_sound (by decide +kernel)
  refine ⟨as, pre ++ cycles 2 0 bound, ran as, s', L ++ [.acquired 2, .callPoll 2 2, .woke 1 2, .released 0, .pending 2, .store 1 2, .callPoll 2 2, .newFut 2],
    ?_, ?_, ?_, h0, ?_, quiet_of h0 3 (by decide +kernel) (by decide +kernel), q, by decide +kernel, by decide +kernel, hn, hws.1, hws.2, ?_, ?_⟩
  · intro a ha
    rw [← List.append_assoc, List.mem_append] at ha
    exact ha.elim (hp a) (hc.1 a)
  · intro p w ha
    rw [← List.append_assoc, List.mem_append] at ha
    exact ha.elim (ho p w) (hc.2 p w)
  · rw [← List.append_assoc]
    refine Always.append (seqB_sound (k := 3) (by decide +kernel)) (fun t ht => ?_)
    rw [h1] at ht
    cases ht
    exact a
  · rw [← run_append h0, ← List.append_assoc, run_append h1]
    exact r
  · rw [e, hl, List.append_assoc]
  · rw [wakes_append, List.length_append, hw]
    simp [wakes]

/-- **C87 is false**: no number bounds the wakes for others while a future waits. -/
theorem C87_false (bound : Nat) : ¬ BoundedOvertaking 3 bound := by
  intro h
  obtain ⟨as, bs, s, s', L, h1, h2, h3, h4, h5, h6, _, _, h7, h8, _, _, h9, h10⟩ := C87_starved bound
  have := h as bs s s' L 0 1 (fun a ha => by have := h1 a ha; cases a <;> exact this) h2 h3 h4 h5 h6 h7 h8 h9
  omega

/-- The hypotheses of `C87_newcomers_partial` can be met, with a newcomer that is woken first. -/
example : ∃ as bs s s' A B L, run init as = some s ∧ Quiet s ∧ s.log = A ++ .store 0 1 :: B ∧ run s bs = some s' ∧ (s'.node 0).taken = false ∧
    s'.log = L ++ s.log ∧ wakes L = [(1, 2)] := by
  let as := take0 ++ wait 1
  let bs := wait 2 ++ [.call 0 .unlock] ++ List.replicate 9 (.step 0)
  have h0 : run init as = some (ran as) := run_ran (by decide +kernel)
  have h1 : run init (as ++ bs) = some (ran (as ++ bs)) := run_ran (by decide +kernel)
  refine ⟨as, bs, ran as, ran (as ++ bs), [.pending 1], [.callPoll 1 1, .newFut 1, .acquired 0], [.woke 1 2, .released 0, .pending 2, .store 1 2, .callPoll 2 2, .newFut 2], h0,
    quiet_of h0 3 (by decide +kernel) (by decide +kernel), ?_, ?_, by decide +kernel, by decide +kernel, rfl⟩
  · decide +kernel
  · rw [← run_append h0]; exact h1

end Verif.Mutex
