import Verif.LinkedList.ConcPops
/-!
# Properties C16, C17 and C18

`hw` selects the build: `true` = feature `atomics`, `false` = critical sections.
-/
namespace Verif.LinkedList.Conc

variable {α : Type} [DecidableEq α]

/-- Schedules whose removals are apart: no undefined behaviour, and the log is
that of an abstract list. -/
private theorem main (hw : Bool) (acts : List (Act α)) (hap : Always hw Apart (init α) acts) :
    ∃ s log sp F K C T, run hw (init α) acts = some (s, log) ∧ (Spec.init α).run log = some sp ∧
      Inv s sp F K C T none ∧ ∀ t, sp.taken t ≠ none → ∃ p, s.pc t = .popFree p :=
  run_good hw acts (init_inv α) (fun _ _ => rfl) (fun _ h => absurd rfl h) hap

private theorem quiet_memory {s : State α} {log : List (Event α)} {sp : Spec α} {F K C T : List (Nat × α)}
    (hsp : (Spec.init α).run log = some sp) (inv : Inv s sp F K C T none)
    (htk : ∀ t, sp.taken t ≠ none → ∃ p, s.pc t = .popFree p) (hq : Quiet s) :
    Memory s sp.contents ∧ (pushes log).Perm (sp.contents ++ yields log ++ returned log) := by
  have ha : sp.active = false := by
    cases h : sp.active with
    | false => rfl
    | true =>
      obtain ⟨t, ht⟩ := inv.active h
      rw [hq t] at ht
      simp [Draining] at ht
  obtain ⟨rfl, rfl, rfl, hc, _⟩ := inv.inactive ha
  have htn : ∀ t, sp.taken t = none := by
    intro t
    cases h : sp.taken t with
    | none => rfl
    | some v =>
      obtain ⟨p, hp⟩ := htk t (by rw [h]; simp)
      rw [hq t] at hp
      simp at hp
  have hcont : sp.contents = F.map Prod.snd := by simp [Spec.contents, inv.front, inv.kept, inv.todo]
  refine ⟨⟨F, hcont.symm, by simpa using inv.holds, by simpa using inv.nodup, fun a => ⟨fun h => ?_, fun h => ?_⟩⟩, ?_⟩
  · rcases inv.complete a h with h | ⟨t, ht⟩
    · simpa using h
    · rw [hq t] at ht
      simp [owns] at ht
  · obtain ⟨x, hx, rfl⟩ := List.mem_map.mp h
    obtain ⟨_, nx, hn⟩ := inv.holds.mem (a := x.1) (v := x.2) (by simpa using hx)
    rw [hn]
    simp
  · have hperm := (Spec.returned_all hsp htn).map Prod.snd
    rw [List.perm_iff_count]
    intro x
    have h := Spec.conserve x hsp
    rw [returned_eq]
    have hp := hperm.count_eq x
    simp only [Spec.init, Spec.contents, hc, Option.toList, List.append_nil, List.count_nil, List.count_append] at h ⊢
    omega

/-! ## C16 -/

/-- **C16.** One context drains while any number of others push, in both builds,
under every schedule: no undefined behaviour; and for every complete drain in the
log, the filter is called for exactly the elements in the list at the start of
the drain, once each, from the top; the elements yielded are those selected; what
is in the list afterwards are the elements pushed meanwhile followed by the
elements not selected in their old order. -/
theorem C16_drain (hw : Bool) (acts : List (Act α)) (hap : Always hw Apart (init α) acts) :
    ∃ s log, run hw (init α) acts = some (s, log) ∧
      ∀ pre mid post, log = pre ++ (.drainStart :: mid ++ [.drainEnd]) ++ post → .drainEnd ∉ mid →
        ∃ before after, (Spec.init α).run pre = some before ∧
          (Spec.init α).run (pre ++ (.drainStart :: mid ++ [.drainEnd])) = some after ∧
          (visits mid).map Prod.fst = before.contents ∧ yields mid = selected mid ∧
          after.contents = (pushes mid).reverse ++ unselected mid := by
  obtain ⟨s, log, sp, F, K, C, T, h1, h2, _, _⟩ := main hw acts hap
  refine ⟨s, log, h1, fun pre mid post hlog hne => ?_⟩
  rw [hlog] at h2
  obtain ⟨after, g1, _⟩ := Spec.run_split h2
  obtain ⟨before, g3, g4⟩ := Spec.run_split g1
  have hcut : before.cutting = none := by
    refine Spec.idle_cut (fun _ => rfl) g3 ?_
    cases h : before.active with
    | false => rfl
    | true => simp [Spec.run, Spec.step, h] at g4
  obtain ⟨d1, d2, d3, _⟩ := Spec.drain_whole hne hcut g4
  exact ⟨before, after, g3, g1, d1, d2, d3⟩

/-- **C16**, conservation. When all operations have returned, the memory is a
chain of exactly the elements in the abstract list, nothing else is allocated,
and the pushed elements are the ones in the list, the ones yielded and the ones
returned by pops: none lost, none duplicated. -/
theorem C16_conservation (hw : Bool) (acts : List (Act α)) (hap : Always hw Apart (init α) acts) :
    ∃ s log sp, run hw (init α) acts = some (s, log) ∧ (Spec.init α).run log = some sp ∧
      (Quiet s → Memory s sp.contents ∧ (pushes log).Perm (sp.contents ++ yields log ++ returned log)) := by
  obtain ⟨s, log, sp, F, K, C, T, h1, h2, inv, htk⟩ := main hw acts hap
  exact ⟨s, log, sp, h1, h2, quiet_memory h2 inv htk⟩

/-! ## C17 -/

omit [DecidableEq α] in
/-- Schedule without drains: no context is ever draining. -/
private theorem noDrain_apart {hw : Bool} : ∀ (acts : List (Act α)) {s : State α},
    NoDrain acts → (∀ t, Draining (s.pc t) = false ∧ s.pc t ≠ .drLoad) → Always hw PopsApart s acts →
    Always hw Apart s acts := by
  have apart : ∀ {s : State α}, (∀ t, Draining (s.pc t) = false ∧ s.pc t ≠ .drLoad) → PopsApart s → Apart s := by
    intro s hd hp
    refine ⟨fun t u h => ?_, fun t u h => ?_, hp⟩
    · rw [(hd t).1] at h; simp at h
    · rw [(hd t).1] at h; simp at h
  have keep : ∀ {s s' : State α} {a : Act α} {e : List (Event α)}, (∀ t, a ≠ .drain t) →
      (∀ t, Draining (s.pc t) = false ∧ s.pc t ≠ .drLoad) → step hw s a = some (s', e) →
      ∀ t, Draining (s'.pc t) = false ∧ s'.pc t ≠ .drLoad := by
    intro s s' a e ha hd h
    have key : ∀ (r : State α) (t : Tid) (pc : Pc), r.pc = s.pc → Draining pc = false → pc ≠ .drLoad →
        ∀ u, Draining ((r.goto t pc).pc u) = false ∧ (r.goto t pc).pc u ≠ .drLoad := by
      intro r t pc hr h1 h2 u
      by_cases e : u = t
      · subst e; rw [goto_pc_self]; exact ⟨h1, h2⟩
      · rw [goto_pc_ne _ _ e, hr]; exact hd u
    cases a with
    | drain t => exact absurd rfl (ha t)
    | push t a v =>
      simp only [step] at h
      split at h <;> simp only [Option.some.injEq, Prod.mk.injEq] at h <;> obtain ⟨rfl, rfl⟩ := h
      · exact key _ _ _ rfl rfl (by simp)
      · exact hd
    | pop t =>
      simp only [step] at h
      split at h <;> simp only [Option.some.injEq, Prod.mk.injEq] at h <;> obtain ⟨rfl, rfl⟩ := h
      · exact key _ _ _ rfl rfl (by simp)
      · exact hd
    | step t b =>
      have hdt := hd t
      cases hpc : s.pc t
      case drLoad => exact absurd hpc hdt.2
      all_goals first
        | (rw [hpc] at hdt; simp [Draining] at hdt; done)
        | skip
      all_goals
        simp only [step, hpc, popAfter] at h
        repeat' split at h
      all_goals first
        | (simp at h; done)
        | skip
      all_goals simp only [Option.some.injEq, Prod.mk.injEq] at h
      all_goals obtain ⟨rfl, rfl⟩ := h
      all_goals first
        | exact hd
        | exact key _ _ _ rfl rfl (by simp)
  intro acts
  induction acts with
  | nil => exact fun _ hd hp => apart hd hp
  | cons a as ih =>
    intro s hn hd hp
    have ha : ∀ t, a ≠ .drain t := by rintro t rfl; exact hn
    have hn' : NoDrain as := by cases a <;> first | exact hn | exact hn.elim
    exact ⟨apart hd hp.1, fun s' e h => ih hn' (keep ha hd h) (hp.2 s' e h)⟩

/-- **C17**, build without atomics. Any number of contexts push and pop, every
schedule: no undefined behaviour, every pop behaves as an atomic pop of the
abstract list, and when all operations have returned the pushed elements are
those in the list and those returned by pops. -/
theorem C17_soft (acts : List (Act α)) (hn : NoDrain acts) :
    ∃ s log sp, run false (init α) acts = some (s, log) ∧ (Spec.init α).run log = some sp ∧
      (Quiet s → Memory s sp.contents ∧ (pushes log).Perm (sp.contents ++ yields log ++ returned log)) := by
  have soft : ∀ (acts : List (Act α)) (s : State α), (∀ u, PopMid (s.pc u) = false) →
      Always false PopsApart s acts := by
    intro acts
    induction acts with
    | nil => exact fun s hs t u h => by rw [hs t] at h; simp at h
    | cons a as ih =>
      intro s hs
      exact ⟨fun t u h => by rw [hs t] at h; simp at h, fun s' e h => ih s' (soft_step h hs)⟩
  exact C16_conservation false acts (noDrain_apart acts hn (fun _ => ⟨rfl, by simp [init]⟩) (soft acts _ (fun _ => rfl)))

/-- The property C17 of the build with atomics, as stated: for every schedule of
pushes and pops no undefined behaviour and conservation. -/
def C17_statement : Prop :=
  ∀ acts : List (Act Nat), NoDrain acts →
    ∃ s log sp, run true (init Nat) acts = some (s, log) ∧ (Spec.init Nat).run log = some sp ∧
      (Quiet s → Memory s sp.contents ∧ (pushes log).Perm (sp.contents ++ yields log ++ returned log))

/-- Schedule: context 1 pops element 7 while context 0 has loaded the head. -/
def useAfterFree : List (Act Nat) :=
  [.push 0 1 7, .step 0 false, .step 0 false, .step 0 false,
   .pop 0, .step 0 false,
   .pop 1, .step 1 false, .step 1 false, .step 1 false, .step 1 false,
   .step 0 false]

/-- **C17** fails in the build with atomics: context 0 reads the link of a node
that context 1 has released. -/
theorem C17_lock_free_use_after_free : run true (init Nat) useAfterFree = none := by decide +kernel

/-- Schedule: the address of a popped node is reused between the load and the
compare-exchange of another pop. -/
def aba : List (Act Nat) :=
  [-- list: 30 (address 3), 20 (address 2), 10 (address 1)
   .push 0 1 10, .step 0 false, .step 0 false, .step 0 false,
   .push 0 2 20, .step 0 false, .step 0 false, .step 0 false,
   .push 0 3 30, .step 0 false, .step 0 false, .step 0 false,
   -- context 0: head 3, next 2
   .pop 0, .step 0 false, .step 0 false,
   -- context 1 pops 30 and 20, pushes 40 at address 3
   .pop 1, .step 1 false, .step 1 false, .step 1 false, .step 1 false,
   .pop 1, .step 1 false, .step 1 false, .step 1 false, .step 1 false,
   .push 1 3 40, .step 1 false, .step 1 false, .step 1 false,
   -- context 0 compares and exchanges
   .step 0 false, .step 0 false]

/-- **C17** fails in the build with atomics also without touching released
memory: all operations return, the head points to released memory and element 10
is neither returned nor in the list. -/
theorem C17_lock_free_aba :
    (run true (init Nat) aba).any (fun r => r.1.pc 0 = .idle ∧ r.1.pc 1 = .idle ∧ r.1.head = 2 ∧
      (r.1.node 2).isNone ∧ pushes r.2 = [10, 20, 30, 40] ∧ returned r.2 = [30, 20, 40]) = true := by
  decide +kernel

/-- So the property is false for the build with atomics. -/
theorem C17_false : ¬ C17_statement := by
  intro h
  obtain ⟨s, log, sp, h, _⟩ := h useAfterFree (by simp [NoDrain, useAfterFree])
  rw [C17_lock_free_use_after_free] at h
  simp at h

/-- **C17**, build with atomics, under the restriction that pops do not overlap
between loading the head and the compare-exchange; pushes are not restricted.
Missing: overlapping pops, where the property is false (`C17_false`). -/
theorem C17_lock_free_partial (acts : List (Act α)) (hn : NoDrain acts)
    (hp : Always true PopsApart (init α) acts) :
    ∃ s log sp, run true (init α) acts = some (s, log) ∧ (Spec.init α).run log = some sp ∧
      (Quiet s → Memory s sp.contents ∧ (pushes log).Perm (sp.contents ++ yields log ++ returned log)) :=
  C16_conservation true acts (noDrain_apart acts hn (fun _ => ⟨rfl, by simp [init]⟩) hp)

/-- **C17**, build with atomics, any number of overlapping pushes and pops, under two
restrictions: a node is not released while another context is about to read its link, and a
node is not published at an address with which another context is about to compare-exchange.
Missing: schedules that break one of these, `C17_lock_free_use_after_free` and
`C17_lock_free_aba`. -/
theorem C17_safe_partial (acts : List (Act α)) (hn : NoDrain acts) (hp : AlwaysSafe (init α) acts) :
    ∃ s log sp, run true (init α) acts = some (s, log) ∧ (Spec.init α).run log = some sp ∧
      (Quiet s → Memory s sp.contents ∧ (pushes log).Perm (sp.contents ++ yields log ++ returned log)) := by
  obtain ⟨s, log, sp, L, h1, h2, h3, h4⟩ := run_goodP acts (s := init α) (sp := Spec.init α) (L := [])
    (init_inv α) ⟨by simp [init], by simp [init]⟩ rfl (fun _ h => absurd rfl h) hn (by simp [init]) hp
  refine ⟨s, log, sp, h1, h2, fun hq => ?_⟩
  have e : blur s = s := by
    simp only [blur]
    have : (fun u => blurPc (s.pc u)) = s.pc := by
      funext u
      rw [hq u]
      rfl
    rw [this]
  rw [e] at h3
  exact quiet_memory h2 h3 h4 hq

/-! ## C18

Elements are fibers; `visit v b` is one advance of fiber `v`, `b` = it completed;
`yield v` releases it. -/

/-- **C18.** Resumes of a thread while other contexts add (distinct) fibers; no
undefined behaviour. Every complete resume advances exactly the fibers added
before it started and not yet completed, each once, the last added first; it
releases the completed ones; a fiber added meanwhile is not advanced. -/
theorem C18_resume (hw : Bool) (acts : List (Act α)) (hap : Always hw Apart (init α) acts) :
    ∃ s log, run hw (init α) acts = some (s, log) ∧
      (takenBy log = [] → (pushes log).Nodup →
        ∀ pre mid post, log = pre ++ (.drainStart :: mid ++ [.drainEnd]) ++ post → .drainEnd ∉ mid →
          (visits mid).map Prod.fst = (pushes pre).reverse.filter (fun v => v ∉ yields pre) ∧
          yields mid = selected mid ∧ ∀ v ∈ pushes mid, ∀ b, (v, b) ∉ visits mid) := by
  obtain ⟨s, log, sp, F, K, C, T, h1, h2, _, _⟩ := main hw acts hap
  refine ⟨s, log, h1, fun hnp hnd pre mid post hlog hne => ?_⟩
  have h2' := h2
  rw [hlog] at h2'
  obtain ⟨after, g1, _⟩ := Spec.run_split h2'
  obtain ⟨before, g3, g4⟩ := Spec.run_split g1
  have hcut : before.cutting = none := by
    refine Spec.idle_cut (fun _ => rfl) g3 ?_
    cases h : before.active with
    | false => rfl
    | true => simp [Spec.run, Spec.step, h] at g4
  obtain ⟨d1, d2, _, _⟩ := Spec.drain_whole hne hcut g4
  have hpl : pushes log = pushes pre ++ (pushes mid ++ pushes post) := by
    rw [hlog, pushes_append, pushes_append, List.cons_append]
    simp [pushes, pushes_append]
  have htl : takenBy pre = [] := by
    rw [hlog, takenBy_append, takenBy_append] at hnp
    simp only [List.append_eq_nil_iff] at hnp
    exact hnp.1.1
  rw [hpl] at hnd
  have hord := Spec.order (P := []) (Y := []) g3 htl (by simpa using (List.nodup_append.mp hnd).1) (by simp [Spec.init])
    (by simp [Spec.contents, Spec.init])
  rw [hcut] at hord
  refine ⟨by rw [d1, hord]; simp, d2, fun v hv b hb => ?_⟩
  have : v ∈ before.contents := by
    rw [← d1]
    exact List.mem_map.mpr ⟨(v, b), hb, rfl⟩
  rw [hord] at this
  have := (List.mem_filter.mp this).1
  exact (List.nodup_append.mp hnd).2.2 v (by simpa using this) v (List.mem_append_left _ hv) rfl

/-- **C18.** A completed fiber is never advanced again and is released at most
once; when no resume is running it has been released. -/
theorem C18_completed (hw : Bool) (acts : List (Act α)) (hap : Always hw Apart (init α) acts) :
    ∃ s log, run hw (init α) acts = some (s, log) ∧
      ((pushes log).Nodup → ∀ v pre post, log = pre ++ .visit v true :: post →
        (∀ b, (v, b) ∉ visits post) ∧ (yields log).count v ≤ 1 ∧
        (Quiet s → (yields log).count v = 1)) := by
  obtain ⟨s, log, sp, F, K, C, T, h1, h2, inv, htk⟩ := main hw acts hap
  refine ⟨s, log, h1, fun hnd v pre post hlog => ?_⟩
  have hle : (pushes log).count v ≤ 1 := List.nodup_iff_count.mp hnd v
  have hcons := Spec.conserve v h2
  simp only [Spec.init, Spec.contents, Option.toList, List.append_nil, List.count_nil] at hcons
  -- the state after the completing advance
  have h2' := h2
  rw [hlog, show pre ++ Event.visit v true :: post = (pre ++ [.visit v true]) ++ post by simp] at h2'
  obtain ⟨m, g1, g2⟩ := Spec.run_split h2'
  obtain ⟨m0, g3, g4⟩ := Spec.run_split g1
  have hm : m.cutting = some v := by
    simp only [Spec.run, Spec.step] at g4
    split at g4
    · simp at g4
    · rename_i sp1 hs
      simp only [Option.some.injEq] at g4
      subst g4
      split at hs
      · simp only [↓reduceIte, Option.some.injEq] at hs
        rw [← hs]
      · simp at hs
  refine ⟨?_, by omega, ?_⟩
  · intro b hb
    obtain ⟨p1, p2, hp⟩ : ∃ p1 p2, post = p1 ++ .visit v b :: p2 := by
      clear hlog h2' g2
      induction post with
      | nil => simp [visits] at hb
      | cons x post ih =>
        cases x
        case visit w c =>
          simp only [visits, List.mem_cons, Prod.mk.injEq] at hb
          rcases hb with ⟨rfl, rfl⟩ | hb
          · exact ⟨[], post, rfl⟩
          · obtain ⟨p1, p2, rfl⟩ := ih hb
            exact ⟨_ :: p1, p2, rfl⟩
        all_goals
          obtain ⟨p1, p2, rfl⟩ := ih hb
          exact ⟨_ :: p1, p2, rfl⟩
    rw [hp] at g2
    obtain ⟨q, q1, q2⟩ := Spec.run_split g2
    have hin : 1 ≤ q.contents.count v := by
      simp only [Spec.run, Spec.step] at q2
      split at q2
      · simp at q2
      · rename_i sp1 hs
        split at hs
        · rename_i g
          have : v ∈ q.todo := List.mem_of_mem_head? g.2.2
          exact List.one_le_count_iff.mpr (by simp [Spec.contents, this])
        · simp at hs
    have hq : (Spec.init α).run ((pre ++ [.visit v true]) ++ p1) = some q := by
      rw [Spec.run_append, g1]; exact q1
    have hc := Spec.conserve v hq
    have hmono := Spec.cut_mono v q1
    rw [hm] at hmono
    simp only [Spec.init, Spec.contents, Option.toList, List.append_nil, List.count_nil, yields_append,
      List.count_append, List.count_cons_self] at hc hmono hin
    have hle' : (pushes ((pre ++ [.visit v true]) ++ p1)).count v ≤ (pushes log).count v := by
      rw [hlog, hp, show pre ++ Event.visit v true :: (p1 ++ .visit v b :: p2) =
        ((pre ++ [.visit v true]) ++ p1) ++ .visit v b :: p2 by simp]
      rw [pushes_append _ (Event.visit v b :: p2), List.count_append]
      omega
    omega
  · intro hq
    have ha : sp.active = false := by
      cases h : sp.active with
      | false => rfl
      | true =>
        obtain ⟨t, ht⟩ := inv.active h
        rw [hq t] at ht
        simp [Draining] at ht
    have hc := (inv.inactive ha).2.2.2.1
    have hmono := Spec.cut_mono v g2
    rw [hm, hc] at hmono
    simp only [Option.toList, List.count_cons_self, List.count_nil] at hmono
    have : (yields post).count v ≤ (yields log).count v := by
      rw [hlog, yields_append, List.count_append]
      simp only [yields]
      omega
    omega

/-! ## Examples: the hypotheses are satisfiable -/

/-- Context 0 drains a list of two while context 1 pushes in the middle. -/
def drainWhilePush : List (Act Nat) :=
  [.push 0 1 10, .step 0 false, .step 0 false, .step 0 false,
   .push 0 2 20, .step 0 false, .step 0 false, .step 0 false,
   .drain 0, .step 0 false, .step 0 false,          -- at the filter of 20
   .push 1 3 30, .step 1 false, .step 1 false, .step 1 false,
   .step 0 true, .step 0 false, .step 0 false, .step 0 false, .step 0 false,  -- 20 selected, head moved
   .step 0 false, .step 0 false]

/-- Checker for `Always hw Apart` with the two contexts 0 and 1. -/
def apartB (s : State Nat) : Bool :=
  let d t := Draining (s.pc t)
  let l t := decide (s.pc t = .drLoad)
  let p t := Popping (s.pc t)
  let m t := PopMid (s.pc t)
  !(d 0 && (d 1 || l 1)) && !(d 1 && (d 0 || l 0)) && !(d 0 && p 1) && !(d 1 && p 0) && !(m 0 && m 1)

def alwaysB (hw : Bool) (s : State Nat) : List (Act Nat) → Bool
  | [] => apartB s
  | a :: as => apartB s && match step hw s a with
    | none => true
    | some (s', _) => alwaysB hw s' as

def tidOf : Act Nat → Nat
  | .push t _ _ | .pop t | .drain t | .step t _ => t

theorem step_idle {hw : Bool} {s s' : State Nat} {a : Act Nat} {e : List (Event Nat)}
    (h : step hw s a = some (s', e)) {t : Nat} (ht : tidOf a ≠ t) : s'.pc t = s.pc t := by
  have key : ∀ (r : State Nat) (u : Tid) (pc : Pc), r.pc = s.pc → u ≠ t → (r.goto u pc).pc t = s.pc t := by
    intro r u pc hr hu
    rw [goto_pc_ne _ _ (fun e => hu e.symm), hr]
  cases a with
  | step u b =>
    cases hpc : s.pc u <;> simp only [step, hpc, cutAfter, popAfter, drTest] at h
    all_goals repeat' split at h
    all_goals first
      | (simp at h; done)
      | skip
    all_goals simp only [Option.some.injEq, Prod.mk.injEq] at h
    all_goals obtain ⟨rfl, rfl⟩ := h
    all_goals first
      | rfl
      | exact key _ _ _ rfl ht
  | _ =>
    simp only [step] at h
    split at h <;> simp only [Option.some.injEq, Prod.mk.injEq] at h <;> obtain ⟨rfl, rfl⟩ := h
    · exact key _ _ _ rfl ht
    · rfl

theorem apartB_sound {s : State Nat} (h : apartB s = true) (hi : ∀ t : Nat, 2 ≤ t → s.pc t = .idle) :
    Apart s := by
  have two : ∀ t : Nat, s.pc t = .idle ∨ t = 0 ∨ t = 1 := by
    intro t
    by_cases h : 2 ≤ t
    · exact Or.inl (hi t h)
    · omega
  simp only [apartB, Bool.and_eq_true, Bool.not_eq_true', Bool.and_eq_false_iff, Bool.or_eq_false_iff,
    decide_eq_false_iff_not] at h
  refine ⟨fun t u h1 h2 => ?_, fun t u h1 h2 => ?_, fun t u h1 h2 => ?_⟩ <;>
    rcases two t with e | rfl | rfl <;> rcases two u with e' | rfl | rfl <;>
    first
    | (simp_all [Draining, Popping, PopMid]; done)
    | (cases hp : s.pc 0 <;> simp_all [Draining, Popping, PopMid]; done)
    | (cases hp : s.pc 1 <;> simp_all [Draining, Popping, PopMid]; done)

theorem alwaysB_sound {hw : Bool} : ∀ (acts : List (Act Nat)) {s : State Nat},
    alwaysB hw s acts = true → (∀ t : Nat, 2 ≤ t → s.pc t = .idle) → (∀ a ∈ acts, tidOf a < 2) →
    Always hw Apart s acts
  | [], _, h, hi, _ => apartB_sound h hi
  | a :: as, s, h, hi, hlt => by
    simp only [alwaysB, Bool.and_eq_true] at h
    refine ⟨apartB_sound h.1 hi, fun s' e hs => ?_⟩
    have h2 := h.2
    rw [hs] at h2
    refine alwaysB_sound as h2 (fun t ht => ?_) (fun b hb => hlt b (List.mem_cons_of_mem _ hb))
    rw [step_idle hs (by have := hlt a (by simp); omega)]
    exact hi t ht

/-- The hypothesis of C16 holds for a drain with a push in the middle, in both
builds … -/
example : Always true Apart (init Nat) drainWhilePush ∧ Always false Apart (init Nat) drainWhilePush :=
  ⟨alwaysB_sound _ (by decide +kernel) (fun _ _ => rfl) (by decide),
   alwaysB_sound _ (by decide +kernel) (fun _ _ => rfl) (by decide)⟩

/-- … and its log contains a complete drain that selected one element, kept one
and did not visit the one pushed meanwhile. -/
example : (run true (init Nat) drainWhilePush).map (fun r => r.2) =
    some [.pushed 10, .pushed 20, .drainStart, .pushed 30, .visit 20 true, .yield 20, .visit 10 false,
      .drainEnd] := by decide +kernel

/-- C17: schedules of pushes and pops with overlapping contexts. -/
example : NoDrain useAfterFree ∧ (run false (init Nat) useAfterFree).isSome := by
  exact ⟨by simp [NoDrain, useAfterFree], by decide +kernel⟩

private def safeB (s : State Nat) : Act Nat → Bool
  | .step t b =>
    match s.pc t with
    | .popFree p => s.pc 0 ≠ .popRead p && s.pc 1 ≠ .popRead p
    | .pushCas n old => s.head ≠ old || b || ([0, 1].all fun u => match s.pc u with | .popCas m _ => m ≠ n | _ => true)
    | _ => true
  | _ => true

private def alwaysSafeB (s : State Nat) : List (Act Nat) → Bool
  | [] => true
  | a :: as => safeB s a && (match step true s a with | some (s', _) => alwaysSafeB s' as | none => true)

private theorem safeB_sound {s : State Nat} {a : Act Nat} (h : safeB s a = true)
    (hi : ∀ t : Nat, 2 ≤ t → s.pc t = .idle) : Safe s a := by
  have two : ∀ t : Nat, s.pc t = .idle ∨ t = 0 ∨ t = 1 := by
    intro t
    by_cases h : 2 ≤ t
    · exact Or.inl (hi t h)
    · omega
  cases a with
  | step t b =>
    simp only [safeB] at h
    simp only [Safe]
    split
    · rename_i p hp
      simp only [hp, Bool.and_eq_true, decide_eq_true_eq] at h
      intro u
      rcases two u with e | rfl | rfl
      · rw [e]; simp
      · exact h.1
      · exact h.2
    · rename_i n old hp
      simp only [hp] at h
      intro h1 h2 u next hu
      simp only [h1, h2, ne_eq, not_true_eq_false, decide_false, Bool.false_or, List.all_cons, List.all_nil,
        Bool.and_true, Bool.and_eq_true] at h
      rcases two u with e | rfl | rfl
      · rw [e] at hu; simp at hu
      · have := h.1; rw [hu] at this; simp at this
      · have := h.2; rw [hu] at this; simp at this
    · trivial
  | _ => trivial

private theorem alwaysSafeB_sound : ∀ (acts : List (Act Nat)) {s : State Nat},
    alwaysSafeB s acts = true → (∀ t : Nat, 2 ≤ t → s.pc t = .idle) → (∀ a ∈ acts, tidOf a < 2) →
    AlwaysSafe s acts
  | [], _, _, _, _ => trivial
  | a :: as, s, h, hi, hlt => by
    simp only [alwaysSafeB, Bool.and_eq_true] at h
    refine ⟨safeB_sound h.1 hi, fun s' e hs => ?_⟩
    have h2 := h.2
    rw [hs] at h2
    refine alwaysSafeB_sound as h2 (fun t ht => ?_) (fun b hb => hlt b (List.mem_cons_of_mem _ hb))
    rw [step_idle hs (by have := hlt a (by simp); omega)]
    exact hi t ht

/-- C17 (partial): two pops overlap, both having read the same head and link; the second to
compare-exchange tries again and gets the element pushed meanwhile, at the address released by
the first. -/
example : ∃ acts : List (Act Nat), NoDrain acts ∧ AlwaysSafe (init Nat) acts ∧
    (run true (init Nat) acts).map (fun r => (returned r.2, r.1.head)) = some ([20, 30], 1) := by
  refine ⟨[.push 0 1 10, .step 0 false, .step 0 false, .step 0 false,
    .push 0 2 20, .step 0 false, .step 0 false, .step 0 false,
    .pop 0, .step 0 false, .pop 1, .step 1 false, .step 1 false, .step 0 false, .step 1 false, .step 1 false,
    .push 1 2 30, .step 1 false, .step 0 false, .step 0 false, .step 1 false, .step 1 false, .step 0 false,
    .step 0 false, .step 0 false, .step 0 false, .step 1 false, .step 1 false, .step 0 false], by simp [NoDrain],
    alwaysSafeB_sound _ (by decide +kernel) (fun _ _ => rfl) (by decide), by decide +kernel⟩

/-- C17 (partial): pushes overlap a pop. -/
example : ∃ acts : List (Act Nat), NoDrain acts ∧ Always true PopsApart (init Nat) acts ∧
    (run true (init Nat) acts).map (fun r => returned r.2) = some [20] := by
  refine ⟨[.push 0 1 10, .step 0 false, .step 0 false, .step 0 false,
    .pop 0, .step 0 false, .step 0 false, .push 1 2 20, .step 1 false, .step 1 false, .step 1 false,
    .step 0 false, .step 0 false, .step 0 false, .step 0 false], by simp [NoDrain], ?_, by decide +kernel⟩
  have h : Always true Apart (init Nat) _ := alwaysB_sound _
    (show alwaysB true (init Nat) [.push 0 1 10, .step 0 false, .step 0 false, .step 0 false,
    .pop 0, .step 0 false, .step 0 false, .push 1 2 20, .step 1 false, .step 1 false, .step 1 false,
    .step 0 false, .step 0 false, .step 0 false, .step 0 false] = true by decide +kernel) (fun _ _ => rfl) (by decide)
  have weaken : ∀ (acts : List (Act Nat)) (s : State Nat), Always true Apart s acts → Always true PopsApart s acts := by
    intro acts
    induction acts with
    | nil => exact fun s h => h.pops
    | cons a as ih => exact fun s h => ⟨h.1.pops, fun s' e hs => ih s' (h.2 s' e hs)⟩
  exact weaken _ _ h

end Verif.LinkedList.Conc
