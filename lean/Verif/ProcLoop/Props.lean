import Verif.ProcLoop.Lemmas
/-! # Properties of the process loop (C52)

For every synchronous code and every sequence of calls, polls, request results and drops. -/
namespace Verif.ProcLoop

variable {Cmd CmdRes Req ReqRes σ Err : Type} {L : Code Cmd CmdRes Req ReqRes σ}

/-- Code whose command `n` asks `n` questions and returns the sum of the answers: the state
is the number of questions left and the sum so far. -/
def adder : Code Nat Nat Nat Nat (Nat × Nat) where
  start n := (n, 0)
  look
    | (0, a) => .inr a
    | (n + 1, a) => .inl (n, fun r => (n, a + r))

/-- Command 2 with answers 10 and 20, then command 0. -/
def demo : List (Act Nat Nat Unit) :=
  [.call 2, .begin, .answer 10, .answer 20, .call 7, .forget, .call 0, .begin]

/-- C52 is false after a request error: the caller gets the error, but the fiber still waits
for a request result; the next command is read as one. -/
theorem C52_false : run adder (init : State Nat Nat Nat Nat _ Unit)
    [.call 1, .begin, .fail (), .call 1, .begin] = none := rfl

/-- The same after dropping a `cmd` future that waits for a request. -/
theorem C52_false_drop : run adder (init : State Nat Nat Nat Nat _ Unit)
    [.call 1, .begin, .abandon, .call 1, .begin] = none := rfl

/-- Exactly when the fiber reads the wrong kind of input: on the first poll of a command
after some request failed or some future was dropped while waiting. -/
theorem C52_wrong_input_iff {acts : List (Act Cmd ReqRes Err)} {s : State Cmd CmdRes Req ReqRes σ Err}
    (h : run L init acts = some s) (a : Act Cmd ReqRes Err) :
    step L s a = none ↔ (∃ ev ∈ s.log, ev.isBreak = true) ∧ (∃ c, s.call = .fresh c) ∧ (∃ _ : a = .begin, True) := by
  have g := run_shape init_shape h
  rw [step_none g, break_iff g]
  constructor
  · rintro ⟨h1, ⟨c, h2⟩, h3⟩
    exact ⟨⟨h1, by simp [h2]⟩, ⟨c, h2⟩, h3⟩
  · rintro ⟨⟨h1, -⟩, h2, h3⟩
    exact ⟨h1, h2, h3⟩

example : (run adder (init : State Nat Nat Nat Nat _ Unit) [.call 1, .begin, .fail (), .call 1]).isSome ∧
    ((run adder (init : State Nat Nat Nat Nat _ Unit) [.call 1, .begin, .fail (), .call 1]).bind
      (step adder · .begin)).isNone := by decide

/-- If no request fails and no future is dropped while waiting, the fiber always receives a
command when it waits for one and a request result when it waits for one. (False without
these conditions: `C52_false`, `C52_false_drop`.) -/
theorem C52_partial {acts : List (Act Cmd ReqRes Err)} (hc : ∀ a ∈ acts, a.calm) :
    ∃ s : State Cmd CmdRes Req ReqRes σ Err, run L init acts = some s := by
  suffices H : ∀ (acts : List (Act Cmd ReqRes Err)) (s : State Cmd CmdRes Req ReqRes σ Err),
      (∀ a ∈ acts, a.calm) → Shape L s → (∀ ev ∈ s.log, ev.isBreak = false) → ∃ s', run L s acts = some s' from
    H acts init hc init_shape (by simp [init])
  intro acts
  induction acts with
  | nil => intro s _ _ _; exact ⟨s, rfl⟩
  | cons a as ih =>
    intro s hc g hb
    cases h : step L s a with
    | none =>
      rw [step_none g] at h
      obtain ⟨h1, ⟨c, h2⟩, -⟩ := h
      obtain ⟨ev, h3, h4⟩ := (break_iff g).2 ⟨h1, by simp [h2]⟩
      rw [hb ev h3] at h4
      simp at h4
    | some s1 =>
      obtain ⟨s', h'⟩ := ih s1 (fun x hx => hc x (by simp [hx])) (step_shape g h)
        (step_calm (hc a (by simp)) h hb)
      exact ⟨s', by simp [run, h, h']⟩

example : ∀ a ∈ demo, a.calm := by simp [demo, Act.calm]

/-- Each `cmd` call returns the result of that command: whatever happens, as long as nothing
undefined has happened, the caller and the request handler see a sequence of complete
commands, in each of which the requests, in order, are those the command makes given the
results so far, and the value returned is the one it returns; followed by at most one
command that is waiting for a request, has failed or was dropped there. -/
theorem C52_results {acts : List (Act Cmd ReqRes Err)} {s : State Cmd CmdRes Req ReqRes σ Err}
    (h : run L init acts = some s) :
    ∃ ds t, s.log.reverse = sessions ds ++ t ∧ (∀ c l r, (c, l, r) ∈ ds → Returns L c l r) ∧
      (t = [] ∨ ∃ c l q, Asks L c l q ∧ (t = .cmd c :: talk l ++ [.req q] ∨
        ∃ ev : Ev Cmd CmdRes Req ReqRes Err, ev.isBreak = true ∧ t = .cmd c :: talk l ++ [.req q] ++ [ev])) := by
  obtain ⟨ds, t, hd, hl, ht⟩ := run_shape init_shape h
  refine ⟨ds, t, hl, hd, ?_⟩
  generalize s.fib = f at ht
  generalize s.call = cl at ht
  cases ht with
  | none => exact .inl rfl
  | fresh => exact .inl rfl
  | waiting h1 h2 => exact .inr ⟨_, _, _, ⟨_, _, h1, h2⟩, .inl rfl⟩
  | broken h1 h2 ev hb _ hc => exact .inr ⟨_, _, _, ⟨_, _, h1, h2⟩, .inr ⟨ev, hb, rfl⟩⟩

example : (run adder (init : State Nat Nat Nat Nat _ Unit) demo).map (·.log.reverse) =
    some (sessions [(2, [(1, 10), (0, 20)], 30), (0, [], 0)]) ∧
    Returns adder 2 [(1, 10), (0, 20)] 30 :=
  ⟨rfl, (0, 30), .cons (k := fun r => (1, 0 + r)) rfl (.cons (k := fun r => (0, 10 + r)) rfl (.nil _)), rfl⟩

/-- A command completes once its requests are answered: in a session without failed or
dropped commands, if running `c` with the given requests and results returns `r`, then
calling it, polling, and answering these requests makes the call return `r`. -/
theorem C52_completes {acts : List (Act Cmd ReqRes Err)} {s : State Cmd CmdRes Req ReqRes σ Err} {c : Cmd}
    {l : List (Req × ReqRes)} {r : CmdRes}
    (h : run L init acts = some s) (hc : s.call = .none) (hb : ∀ ev ∈ s.log, ev.isBreak = false)
    (hr : Returns L c l r) :
    ∃ s', run L s ([.call c, .begin] ++ l.map fun x => .answer x.2) = some s' ∧ s'.call = .none ∧
      s'.log.reverse = s.log.reverse ++ session c l r := by
  have g := run_shape init_shape h
  have hf : s.fib = .waitCmd := by
    cases hs : s.fib with
    | waitCmd => rfl
    | waitRes k =>
      obtain ⟨ev, h3, h4⟩ := (break_iff g).2 ⟨⟨k, hs⟩, by simp [hc]⟩
      rw [hb ev h3] at h4
      simp at h4
  obtain ⟨p, h1, h2⟩ := hr
  have := loop_run (Err := Err) h1 h2 (.cmd c :: s.log) .waitCmd (.cmd c) (.fresh c) rfl
  rw [run_append]
  simp only [run, step, hc, Option.bind_some, hf]
  refine ⟨⟨.waitCmd, .none, .ok r :: (talk l).reverse ++ .cmd c :: s.log⟩, ?_, rfl, by simp [session]⟩
  rw [← this]
  cases (State.feed L (⟨.waitCmd, .fresh c, .cmd c :: s.log⟩ : State Cmd CmdRes Req ReqRes σ Err) (.cmd c)) <;> rfl

example : (run adder (init : State Nat Nat Nat Nat _ Unit) demo).map
    (fun s => (match s.call with | .none => true | _ => false, s.log.all fun ev => !ev.isBreak)) = some (true, true) := by
  decide

end Verif.ProcLoop
