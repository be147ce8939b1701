import Verif.Bound.Lemmas
import Verif.LinkedList.ConcSteps
/-! # The drain of the linked list -/
namespace Verif.Bound

variable {S A : Type}

/-- A potential that depends on more than the state: `R s n` says that `n` is enough. -/
theorem within_of_relation (P : Prog S A) (R : S → Nat → Prop)
    (h0 : ∀ s n, R s n → P.busy s = true → 0 < n)
    (h1 : ∀ s a s' n, R s n → P.busy s = true → P.step s a = some s' →
      ∃ m, R s' m ∧ m + (if P.own s a then 1 else 0) ≤ n + P.excuse s a s') :
    ∀ s n, R s n → P.Within s n := by
  intro s n hs as s' hr hn
  induction as generalizing s n with
  | nil =>
    refine ⟨[], [], s, rfl, rfl, ?_⟩
    cases hb : P.busy s with
    | false => rfl
    | true =>
      have := h0 s n hs hb
      simp only [Prog.excuses, Prog.accesses] at hn
      omega
  | cons a as ih =>
    cases hb : P.busy s with
    | false => exact ⟨[], a :: as, s, rfl, rfl, hb⟩
    | true =>
      cases hst : P.step s a with
      | none => simp [Prog.run, hst] at hr
      | some s₁ =>
        simp only [Prog.run, hst] at hr
        simp only [Prog.excuses, Prog.accesses, hst] at hn
        obtain ⟨m, hm, h⟩ := h1 s a s₁ n hs hb hst
        obtain ⟨bs, cs, s₂, e1, e2, e3⟩ := ih s₁ m hm hr (by omega)
        exact ⟨a :: bs, cs, s₂, by rw [e1]; rfl, by simp only [Prog.run, hst]; exact e2, e3⟩

namespace LinkedList
open Verif.LinkedList.Conc

variable {α : Type}

/-- Context `t` is in a drain. -/
def inDrain (pc : Pc) : Bool := Draining pc || decide (pc = .drLoad)

/-- The list seen from context `t` which drains. Nobody calls `pop` or another drain meanwhile. Excused: a
compare-exchange that fails spuriously; an element that another context pushes, with all accesses for one element if the
drain has not loaded the head yet, with two otherwise. -/
def drainProg (hw : Bool) (t : Tid) : Prog (State α) (Act α) where
  step s a :=
    match a with
    | .pop _ | .drain _ => none
    | _ => (step hw s a).map (·.1)
  own _ a := match a with | .step u _ => u == t | _ => false
  busy s := inDrain (s.pc t)
  excuse s a s' :=
    match a with
    | .step u b =>
      if u = t then (match s.pc t with | .cutCas _ _ => if b then 1 else 0 | _ => 0)
      else if s.head = s'.head then 0 else if s.pc t = .drLoad then (if hw then 5 else 4) else 2
    | _ => 0

/-- From node `p` there are `r` steps to the node before `c`, inclusive. -/
inductive Walk (node : Nat → Option (Nat × α)) (c : Nat) : Nat → Nat → Prop
  | last {p : Nat} {w : α} : node p = some (c, w) → Walk node c p 1
  | more {p nx r : Nat} {w : α} : node p = some (nx, w) → nx ≠ c → Walk node c nx r → Walk node c p (r + 1)

theorem walk_of_holds {node : Nat → Option (Nat × α)} {c : Nat} {v : α} {B : List (Nat × α)} :
    ∀ {L : List (Nat × α)} {p : Nat}, Holds node p (L ++ (c, v) :: B) → (addrs (L ++ (c, v) :: B)).Nodup → L ≠ [] →
    Walk node c p L.length
  | [], _, _, _, h => absurd rfl h
  | [(a, w)], p, ⟨h1, _, nx, h3, h4⟩, _, _ => by
    obtain ⟨rfl, _⟩ := h4
    subst h1
    exact .last h3
  | (a, w) :: (b, u) :: L, p, ⟨h1, _, nx, h3, h4⟩, hn, _ => by
    subst h1
    have hn' := (List.nodup_cons.mp hn).2
    have hb : nx = b := h4.1
    refine .more h3 ?_ (walk_of_holds (L := (b, u) :: L) h4 hn' (by simp))
    rw [hb]
    intro e
    have := (List.nodup_cons.mp hn').1
    apply this
    simp [addrs, e]

theorem Walk.frame {node node' : Nat → Option (Nat × α)} {c p r : Nat} {v : α} {F B : List (Nat × α)} {q : Nat}
    (h : Walk node c p r) (hh : Holds node q (F ++ (c, v) :: B)) (hn : (addrs (F ++ (c, v) :: B)).Nodup)
    (hp : ∃ w, (p, w) ∈ F) (hf : ∀ x ∈ addrs (F ++ (c, v) :: B), node' x = node x) : Walk node' c p r := by
  induction h with
  | last e =>
    obtain ⟨w, hp⟩ := hp
    exact .last (by rw [hf _ (List.mem_map.mpr ⟨_, List.mem_append_left _ hp, rfl⟩)]; exact e)
  | more e hne _ ih =>
    obtain ⟨w, hp⟩ := hp
    refine .more (by rw [hf _ (List.mem_map.mpr ⟨_, List.mem_append_left _ hp, rfl⟩)]; exact e) hne (ih ?_)
    rcases Holds.walk hh hn hp e with ⟨h, _⟩ | ⟨_, h⟩
    · exact absurd h hne
    · exact h

/-- The cost of walking over the elements pushed meanwhile, if that may still be needed. -/
def walk (prev n : Nat) : Nat := if prev = 0 ∧ n ≠ 0 then n + 1 else 0

/-- `n` accesses are enough for the rest of the drain; `f` elements were pushed meanwhile, `d` are not visited. -/
def Enough (hw : Bool) (node : Nat → Option (Nat × α)) (f d n : Nat) : Pc → Prop
  | .drLoad => 1 + (if hw then 5 else 4) * f ≤ n
  | .drNext prev _ => (if hw then 5 else 4) * d + walk prev f ≤ n
  | .drFilter prev _ _ => (if hw then 5 else 4) * d + walk prev f ≤ n + 1
  | .cutLoad _ _ => (if hw then 5 else 4) * d + (if hw then 3 else 2) + walk 0 f ≤ n
  | .cutCas _ _ => (if hw then 5 else 4) * d + 2 + walk 0 f ≤ n
  | .cutWalk p curr _ => ∃ r, Walk node curr p r ∧ (if hw then 5 else 4) * d + r + 2 ≤ n
  | .cutWrite _ _ _ => (if hw then 5 else 4) * d + 2 ≤ n
  | .drFree prev _ _ => (if hw then 5 else 4) * d + 1 + walk prev f ≤ n
  | _ => True

/-- What is known while `t` drains. -/
structure Rel (hw : Bool) (t : Tid) (s : State α) (n : Nat) : Prop where
  ex : ∃ sp F K C T, Inv s sp F K C T none ∧ (∀ u, sp.taken u ≠ none → ∃ p, s.pc u = .popFree p) ∧
    Enough hw s.node F.length T.length n (s.pc t)
  alone : ∀ u, u ≠ t → inDrain (s.pc u) = false ∧ Popping (s.pc u) = false
  self : Popping (s.pc t) = false

theorem Rel.apart {hw : Bool} {t : Tid} {s : State α} (h1 : ∀ u, u ≠ t → inDrain (s.pc u) = false ∧ Popping (s.pc u) = false)
    (h2 : Popping (s.pc t) = false) : Apart s := by
  have hp : ∀ u, Popping (s.pc u) = false := fun u => by
    by_cases e : u = t
    · rw [e]; exact h2
    · exact (h1 u e).2
  have hm : ∀ u, PopMid (s.pc u) = false := fun u => by
    have := hp u
    cases h : s.pc u <;> simp_all [Popping, PopMid]
  have hd : ∀ u, Draining (s.pc u) = true ∨ s.pc u = .drLoad → u = t := fun u h => by
    by_cases e : u = t
    · exact e
    · have := (h1 u e).1
      simp only [inDrain, Bool.or_eq_false_iff, decide_eq_false_iff_not] at this
      rcases h with h | h
      · rw [this.1] at h; cases h
      · exact absurd h this.2
  refine ⟨fun u v h h' => ?_, fun u v _ h => ?_, fun u v h => ?_⟩
  · rw [hd u (.inl h), hd v h']
  · rw [hp v] at h; cases h
  · rw [hm u] at h; cases h

/-- A step of the program, other than of the drain. -/
theorem other_step {hw : Bool} {t : Tid} {s s' : State α} {a : Act α} {e : List (Event α)} {sp : Spec α} {F K C T : List (Nat × α)}
    (inv : Inv s sp F K C T none) (hb : inDrain (s.pc t) = true)
    (alone : ∀ u, u ≠ t → inDrain (s.pc u) = false ∧ Popping (s.pc u) = false) (ha : ∀ b, a ≠ .step t b)
    (hpop : ∀ u, a ≠ .pop u ∧ a ≠ .drain u) (h : step hw s a = some (s', e)) :
    s'.pc t = s.pc t ∧ (∀ x ∈ addrs (F ++ (K ++ (C ++ T))), s'.node x = s.node x) ∧
    (∀ u, u ≠ t → inDrain (s'.pc u) = false ∧ Popping (s'.pc u) = false) ∧
    ((s'.head = s.head ∧ (e = [] ∨ ∃ u v, e = [.popRet u v])) ∨ (s'.head ≠ s.head ∧ ∃ v, e = [.pushed v])) := by
  have hne : s.pc t ≠ .idle := by intro e; simp [e, inDrain, Draining] at hb
  cases a with
  | pop u => exact absurd rfl (hpop u).1
  | drain u => exact absurd rfl (hpop u).2
  | push u a v =>
    simp only [step] at h
    split at h
    · rename_i hc
      simp only [Option.some.injEq, Prod.mk.injEq] at h
      obtain ⟨rfl, rfl⟩ := h
      have hut : u ≠ t := by intro e; rw [e] at hc; exact hne hc.1
      refine ⟨by simp [State.goto, State.put, Ne.symm hut], fun x hx => ?_, fun w hw' => ?_, .inl ⟨rfl, .inl rfl⟩⟩
      · have : x ≠ a := by
          intro e
          rw [e] at hx
          obtain ⟨⟨y, w⟩, hy, rfl⟩ := List.mem_map.mp hx
          obtain ⟨_, nx, h3⟩ := Holds.mem inv.holds hy
          have := hc.2.2
          rw [h3] at this
          cases this
        simp [State.goto, State.put, this]
      · by_cases e : w = u
        · subst e; simp [State.goto, State.put, inDrain, Draining, Popping]
        · simpa [State.goto, State.put, e] using alone w hw'
    · simp only [Option.some.injEq, Prod.mk.injEq] at h
      obtain ⟨rfl, rfl⟩ := h
      exact ⟨rfl, fun _ _ => rfl, alone, .inl ⟨rfl, .inl rfl⟩⟩
  | step u b =>
    have hut : u ≠ t := by intro e; subst e; exact ha b rfl
    have ho := inv.own u
    have hal := alone u hut
    -- an owned node is not in the list
    have hown : ∀ n, owns (s.pc u) = some n → ∀ x ∈ addrs (F ++ (K ++ (C ++ T))), x ≠ n := by
      intro n hn x hx e
      rw [e] at hx
      exact (ho n hn).2.2 hx
    have hhead : ∀ n, owns (s.pc u) = some n → n ≠ s.head := by
      intro n hn e
      have h1 := ho n hn
      have : s.head ≠ 0 := by rw [← e]; exact h1.1
      obtain ⟨v, L', hL⟩ := Holds.top inv.holds this
      apply h1.2.2
      rw [hL, e]
      simp [addrs]
    have hpc : ∀ (x : State α) pc, (x.goto u pc).pc t = x.pc t := fun x pc => by simp [State.goto, Ne.symm hut]
    have hal' : ∀ (x : State α) pc, (∀ w, x.pc w = s.pc w) → inDrain pc = false → Popping pc = false →
        ∀ w, w ≠ t → inDrain ((x.goto u pc).pc w) = false ∧ Popping ((x.goto u pc).pc w) = false := by
      intro x pc hx h1 h2 w hw'
      by_cases e : w = u
      · subst e; simp [State.goto, h1, h2]
      · simp only [State.goto, e, if_false, hx]; exact alone w hw'
    simp only [step] at h
    cases hp : s.pc u <;> simp only [hp] at h hal hown hhead <;> try (simp [inDrain, Draining, Popping] at hal; done)
    case idle =>
      simp only [Option.some.injEq, Prod.mk.injEq] at h
      obtain ⟨rfl, rfl⟩ := h
      exact ⟨rfl, fun _ _ => rfl, alone, .inl ⟨rfl, .inl rfl⟩⟩
    case pushLoad n =>
      split at h
      · simp only [Option.some.injEq, Prod.mk.injEq] at h
        obtain ⟨rfl, rfl⟩ := h
        exact ⟨hpc _ _, fun _ _ => rfl, hal' s _ (fun _ => rfl) rfl rfl, .inl ⟨rfl, .inl rfl⟩⟩
      · split at h
        · cases h
        · simp only [Option.some.injEq, Prod.mk.injEq] at h
          obtain ⟨rfl, rfl⟩ := h
          refine ⟨hpc _ _, fun x hx => ?_, hal' (s.put n _) _ (fun _ => rfl) rfl rfl, .inr ⟨hhead n rfl, _, rfl⟩⟩
          simp [State.goto, State.put, hown n rfl x hx]
    case pushWrite n old =>
      split at h
      · cases h
      · simp only [Option.some.injEq, Prod.mk.injEq] at h
        obtain ⟨rfl, rfl⟩ := h
        refine ⟨hpc _ _, fun x hx => ?_, hal' (s.put n _) _ (fun _ => rfl) rfl rfl, .inl ⟨rfl, .inl rfl⟩⟩
        simp [State.goto, State.put, hown n rfl x hx]
    case pushCas n old =>
      split at h
      · split at h
        · cases h
        · simp only [Option.some.injEq, Prod.mk.injEq] at h
          obtain ⟨rfl, rfl⟩ := h
          exact ⟨hpc _ _, fun _ _ => rfl, hal' s _ (fun _ => rfl) rfl rfl, .inr ⟨hhead n rfl, _, rfl⟩⟩
      · simp only [Option.some.injEq, Prod.mk.injEq] at h
        obtain ⟨rfl, rfl⟩ := h
        exact ⟨hpc _ _, fun _ _ => rfl, hal' s _ (fun _ => rfl) rfl rfl, .inl ⟨rfl, .inl rfl⟩⟩
    case popFree p =>
      split at h
      · cases h
      · simp only [Option.some.injEq, Prod.mk.injEq] at h
        obtain ⟨rfl, rfl⟩ := h
        refine ⟨hpc _ _, fun x hx => ?_, hal' (s.put p _) _ (fun _ => rfl) rfl rfl, .inl ⟨rfl, .inr ⟨_, _, rfl⟩⟩⟩
        simp [State.goto, State.put, hown p rfl x hx]

/-- The counts after the events of one step. -/
theorem run_counts [DecidableEq α] {sp sp' : Spec α} {e : List (Event α)} (h : sp.run e = some sp') :
    (e = [] → sp' = sp) ∧
    (∀ v, e = [.pushed v] → sp'.front.length = sp.front.length + 1 ∧ sp'.todo.length = sp.todo.length) ∧
    (∀ u v, e = [.popRet u v] → sp'.front.length = sp.front.length ∧ sp'.todo.length = sp.todo.length) ∧
    (e = [.drainStart] → sp'.front.length = 0 ∧ sp'.todo.length = sp.front.length + sp.kept.length + sp.todo.length) ∧
    (∀ v b, e = [.visit v b] → sp'.front.length = sp.front.length ∧ sp'.todo.length + 1 = sp.todo.length) ∧
    (∀ v, e = [.yield v] → sp'.front.length = sp.front.length ∧ sp'.todo.length = sp.todo.length) := by
  refine ⟨?_, ?_, ?_, ?_, ?_, ?_⟩
  · rintro rfl; simpa [Spec.run] using h.symm
  · rintro v rfl
    simp only [Spec.run, Spec.step, Option.some.injEq] at h
    subst h; simp
  · rintro u v rfl
    simp only [Spec.run, Spec.step] at h
    split at h
    · cases h
    · rename_i he; split at he
      · cases he; cases h; simp
      · cases he
  · rintro rfl
    simp only [Spec.run, Spec.step] at h
    split at h
    · cases h
    · rename_i he; split at he
      · cases he; cases h; simp [Spec.contents]; omega
      · cases he
  · rintro v b rfl
    simp only [Spec.run, Spec.step] at h
    split at h
    · cases h
    · rename_i he; split at he
      · rename_i hc
        have : sp.todo ≠ [] := by intro e; simp [e] at hc
        have : 0 < sp.todo.length := List.length_pos_iff.mpr this
        split at he <;> cases he <;> cases h <;> simp <;> omega
      · cases he
  · rintro v rfl
    simp only [Spec.run, Spec.step] at h
    split at h
    · cases h
    · rename_i he; split at he
      · cases he; cases h; simp
      · cases he

/-- An access of the drain. -/
theorem own_step [DecidableEq α] {hw : Bool} {t : Tid} {s s' : State α} {b : Bool} {e : List (Event α)} {sp sp' : Spec α}
    {F K C T F' K' C' T' : List (Nat × α)} {n : Nat} (inv : Inv s sp F K C T none) (inv' : Inv s' sp' F' K' C' T' none)
    (hb : inDrain (s.pc t) = true) (alone : ∀ u, u ≠ t → inDrain (s.pc u) = false ∧ Popping (s.pc u) = false)
    (hn : Enough hw s.node F.length T.length n (s.pc t)) (h : step hw s (.step t b) = some (s', e)) (hsp : sp.run e = some sp') :
    (∃ m, Enough hw s'.node F'.length T'.length m (s'.pc t) ∧
      m + 1 ≤ n + (match s.pc t with | .cutCas _ _ => if b then 1 else 0 | _ => 0)) ∧
    (∀ u, u ≠ t → s'.pc u = s.pc u) ∧ Popping (s'.pc t) = false := by
  have lf : F.length = sp.front.length := by rw [inv.front]; simp
  have lt : T.length = sp.todo.length := by rw [inv.todo]; simp
  have lk : K.length = sp.kept.length := by rw [inv.kept]; simp
  have lf' : F'.length = sp'.front.length := by rw [inv'.front]; simp
  have lt' : T'.length = sp'.todo.length := by rw [inv'.todo]; simp
  have ok := inv.ok t (by simp)
  obtain ⟨c0, -, -, c3, c4, c5⟩ := run_counts hsp
  rw [lf, lt] at hn
  rw [lf', lt']
  -- the front is walked over
  have hwalk : ∀ curr v, K = [] → C = [(curr, v)] → s.head ≠ curr → Walk s.node curr s.head sp.front.length ∧ walk 0 sp.front.length = sp.front.length + 1 := by
    intro curr v hK hC hh
    have hh' := inv.holds
    have hnd := inv.nodup
    rw [hK, hC] at hh' hnd
    have hF : F ≠ [] := by
      intro e
      rw [e] at hh'
      exact hh hh'.1
    rw [← lf]
    refine ⟨walk_of_holds hh' hnd hF, ?_⟩
    have : F.length ≠ 0 := by simpa using hF
    simp [walk, this]
  simp only [step] at h
  cases hp : s.pc t <;> simp only [hp] at h ok hn <;> try (simp [hp, inDrain, Draining] at hb; done)
  case drLoad =>
    have hin : sp.active = false := by
      cases ha : sp.active with
      | false => rfl
      | true =>
        obtain ⟨u, hu⟩ := inv.active ha
        by_cases e : u = t
        · rw [e, hp] at hu; cases hu
        · have := (alone u e).1
          simp [inDrain, hu] at this
    obtain ⟨hK, -, hT, -, -⟩ := inv.inactive hin
    simp only [hK, hT, List.length_nil] at lk lt
    simp only [Enough] at hn
    unfold drTest at h
    split at h <;> simp only [Option.some.injEq, Prod.mk.injEq] at h <;> obtain ⟨rfl, rfl⟩ := h
    · refine ⟨⟨n - 1, by simp [State.goto, Enough], by simp only; omega⟩, fun u hu => by simp [State.goto, hu], by simp [State.goto, Popping]⟩
    · have := c3 rfl
      refine ⟨⟨n - 1, ?_, by simp only; omega⟩, fun u hu => by simp [State.goto, hu], by simp [State.goto, Popping]⟩
      simp only [State.goto, if_true, Enough]
      rw [this.1, this.2, ← lk, ← lt]
      simp only [walk]
      split <;> simp_all <;> omega
  case drNext prev curr =>
    obtain ⟨-, -, -, v, T₁, hT⟩ := ok
    have : 0 < sp.todo.length := by rw [← lt, hT]; simp
    simp only [Enough] at hn
    split at h
    · cases h
    · simp only [Option.some.injEq, Prod.mk.injEq] at h
      obtain ⟨rfl, rfl⟩ := h
      rw [c0 rfl]
      refine ⟨⟨n - 1, ?_, ?_⟩, fun u hu => by simp [State.goto, hu], by simp [State.goto, Popping]⟩
      · simp only [State.goto, if_true, Enough]
        omega
      · cases hw <;> simp only [if_true, Bool.false_eq_true, if_false] at hn ⊢ <;> omega
  case drFilter prev curr next =>
    obtain ⟨-, -, -, v, T₁, hT, -⟩ := ok
    have hcurr : curr ≠ 0 := by
      have := inv.holds
      rw [hT] at this
      exact (Holds.mem this (a := curr) (v := v) (by simp)).1
    have : 0 < sp.todo.length := by rw [← lt, hT]; simp
    simp only [Enough] at hn
    split at h
    · cases h
    · split at h
      · split at h <;> simp only [Option.some.injEq, Prod.mk.injEq] at h <;> obtain ⟨rfl, rfl⟩ := h <;>
          (have hc := c4 _ _ rfl; refine ⟨⟨n - 1, ?_, ?_⟩, fun u hu => by simp [State.goto, hu], by simp [State.goto, Popping]⟩)
        · rename_i h0
          rw [h0] at hn
          simp only [State.goto, if_true, Enough]
          rw [hc.1]
          cases hw <;> simp only [if_true, Bool.false_eq_true, if_false] at hn ⊢ <;> omega
        · cases hw <;> simp only [if_true, Bool.false_eq_true, if_false] at hn ⊢ <;> omega
        · simp only [State.goto, if_true, Enough]
          cases hw <;> simp only [if_true, Bool.false_eq_true, if_false] at hn ⊢ <;> omega
        · cases hw <;> simp only [if_true, Bool.false_eq_true, if_false] at hn ⊢ <;> omega
      · unfold drTest at h
        split at h <;> simp only [Option.some.injEq, Prod.mk.injEq] at h <;> obtain ⟨rfl, rfl⟩ := h <;>
          refine ⟨⟨n - 1, ?_, ?_⟩, fun u hu => by simp [State.goto, hu], by simp [State.goto, Popping]⟩
        · simp [State.goto, Enough]
        · cases hw <;> simp only [if_true, Bool.false_eq_true, if_false] at hn ⊢ <;> omega
        · have hc := c4 _ _ rfl
          simp only [State.goto, if_true, Enough, walk, hcurr, false_and, if_false]
          cases hw <;> simp only [if_true, Bool.false_eq_true, if_false] at hn ⊢ <;> omega
        · cases hw <;> simp only [if_true, Bool.false_eq_true, if_false] at hn ⊢ <;> omega
  case cutLoad curr next =>
    obtain ⟨hK, v, hC, -, -⟩ := ok
    simp only [Enough] at hn
    have h1 : ∃ m, m + 1 = n := ⟨n - 1, by split at hn <;> omega⟩
    obtain ⟨m, rfl⟩ := h1
    cases hw
    · simp only [Bool.false_eq_true, if_false] at h hn
      split at h <;> simp only [Option.some.injEq, Prod.mk.injEq] at h <;> obtain ⟨rfl, rfl⟩ := h <;> rw [c0 rfl] <;>
        refine ⟨⟨m, ?_, by simp⟩, fun u hu => by simp [State.goto, hu], by simp [State.goto, Popping]⟩
      · simp only [State.goto, if_true, Enough, Bool.false_eq_true, if_false]
        omega
      · rename_i hh
        obtain ⟨w1, w2⟩ := hwalk curr v hK hC hh
        simp only [State.goto, if_true, Enough, Bool.false_eq_true, if_false]
        exact ⟨_, w1, by omega⟩
    · simp only [if_true] at h hn
      unfold cutAfter at h
      split at h <;> simp only [Option.some.injEq, Prod.mk.injEq] at h <;> obtain ⟨rfl, rfl⟩ := h <;> rw [c0 rfl] <;>
        refine ⟨⟨m, ?_, by simp⟩, fun u hu => by simp [State.goto, hu], by simp [State.goto, Popping]⟩
      · simp only [State.goto, if_true, Enough]
        omega
      · rename_i hh
        obtain ⟨w1, w2⟩ := hwalk curr v hK hC hh
        simp only [State.goto, if_true, Enough]
        exact ⟨_, w1, by omega⟩
  case cutCas curr next =>
    obtain ⟨hK, v, hC, -, -⟩ := ok
    simp only [Enough] at hn
    have h1 : ∃ m, m + 1 = n := ⟨n - 1, by split at hn <;> omega⟩
    obtain ⟨m, rfl⟩ := h1
    split at h
    · simp only [Option.some.injEq, Prod.mk.injEq] at h
      obtain ⟨rfl, rfl⟩ := h
      rw [c0 rfl]
      refine ⟨⟨m, ?_, by simp only; omega⟩, fun u hu => by simp [State.goto, hu], by simp [State.goto, Popping]⟩
      simp only [State.goto, if_true, Enough]
      omega
    · rename_i hcas
      unfold cutAfter at h
      split at h <;> simp only [Option.some.injEq, Prod.mk.injEq] at h <;> obtain ⟨rfl, rfl⟩ := h <;> rw [c0 rfl]
      · rename_i hh
        have : b = true := by
          cases b with
          | true => rfl
          | false => exact absurd ⟨hh, rfl⟩ hcas
        subst this
        refine ⟨⟨m + 1, ?_, by simp⟩, fun u hu => by simp [State.goto, hu], by simp [State.goto, Popping]⟩
        simp only [State.goto, if_true, Enough]
        exact hn
      · rename_i hh
        obtain ⟨w1, w2⟩ := hwalk curr v hK hC hh
        refine ⟨⟨m, ?_, by simp only; omega⟩, fun u hu => by simp [State.goto, hu], by simp [State.goto, Popping]⟩
        simp only [State.goto, if_true, Enough]
        exact ⟨_, w1, by omega⟩
  case cutWalk p curr next =>
    simp only [Enough] at hn
    obtain ⟨r, hr, hn⟩ := hn
    cases hr with
    | last e =>
      simp only [e, if_true, Option.some.injEq, Prod.mk.injEq] at h
      obtain ⟨rfl, rfl⟩ := h
      rw [c0 rfl]
      refine ⟨⟨n - 1, ?_, by simp only; omega⟩, fun u hu => by simp [State.goto, hu], by simp [State.goto, Popping]⟩
      simp only [State.goto, if_true, Enough]
      omega
    | more e hne hr =>
      simp only [e, hne, if_false, Option.some.injEq, Prod.mk.injEq] at h
      obtain ⟨rfl, rfl⟩ := h
      rw [c0 rfl]
      refine ⟨⟨n - 1, ?_, by simp only; omega⟩, fun u hu => by simp [State.goto, hu], by simp [State.goto, Popping]⟩
      simp only [State.goto, if_true, Enough]
      exact ⟨_, hr, by omega⟩
  case cutWrite prev curr next =>
    obtain ⟨-, w, hl⟩ := ok
    have hprev : prev ≠ 0 := by
      have hm := getLast?_mem' hl
      refine (Holds.mem inv.holds (a := prev) (v := w) ?_).1
      rcases List.mem_append.mp hm with hm | hm
      · exact List.mem_append_left _ hm
      · exact List.mem_append_right _ (List.mem_append_left _ hm)
    simp only [Enough] at hn
    split at h
    · cases h
    · simp only [Option.some.injEq, Prod.mk.injEq] at h
      obtain ⟨rfl, rfl⟩ := h
      rw [c0 rfl]
      refine ⟨⟨n - 1, ?_, by simp only; omega⟩, fun u hu => by simp [State.goto, State.put, hu], by simp [State.goto, Popping]⟩
      simp only [State.goto, if_true, Enough, walk, hprev, false_and, if_false]
      omega
  case drFree prev curr next =>
    simp only [Enough] at hn
    split at h
    · cases h
    · unfold drTest at h
      split at h <;> simp only [Option.some.injEq, Prod.mk.injEq] at h <;> obtain ⟨rfl, rfl⟩ := h <;>
        refine ⟨⟨n - 1, ?_, by simp only; omega⟩, fun u hu => by simp [State.goto, State.put, hu], by simp [State.goto, Popping]⟩
      · simp [State.goto, Enough]
      · have hc := c5 _ rfl
        simp only [State.goto, if_true, Enough]
        rw [hc.1, hc.2]
        omega

theorem walk_succ (prev f : Nat) : walk prev (f + 1) ≤ walk prev f + 2 := by
  unfold walk
  split <;> split <;> simp_all <;> omega

/-- A change of the front by another context. -/
theorem Enough.other {hw : Bool} {node node' : Nat → Option (Nat × α)} {f d n : Nat} {pc : Pc} (h : Enough hw node f d n pc)
    (hw' : ∀ p curr next r, pc = .cutWalk p curr next → Walk node curr p r → Walk node' curr p r) :
    Enough hw node' f d n pc ∧ Enough hw node' (f + 1) d (n + if pc = .drLoad then (if hw then 5 else 4) else 2) pc := by
  cases pc with
  | cutWalk p curr next =>
    obtain ⟨r, hr, h⟩ := h
    exact ⟨⟨r, hw' _ _ _ _ rfl hr, h⟩, r, hw' _ _ _ _ rfl hr, by simp; omega⟩
  | drLoad => exact ⟨h, by simp only [Enough, if_true] at h ⊢; split at h <;> simp_all <;> omega⟩
  | drNext prev curr =>
    refine ⟨h, ?_⟩
    have := walk_succ prev f
    simp only [Enough, reduceCtorEq, if_false] at h ⊢
    omega
  | drFilter prev curr next =>
    refine ⟨h, ?_⟩
    have := walk_succ prev f
    simp only [Enough, reduceCtorEq, if_false] at h ⊢
    omega
  | cutLoad curr next =>
    refine ⟨h, ?_⟩
    have := walk_succ 0 f
    simp only [Enough, reduceCtorEq, if_false] at h ⊢
    omega
  | cutCas curr next =>
    refine ⟨h, ?_⟩
    have := walk_succ 0 f
    simp only [Enough, reduceCtorEq, if_false] at h ⊢
    omega
  | drFree prev curr next =>
    refine ⟨h, ?_⟩
    have := walk_succ prev f
    simp only [Enough, reduceCtorEq, if_false] at h ⊢
    omega
  | cutWrite prev curr next => exact ⟨h, by simp only [Enough, reduceCtorEq, if_false] at h ⊢; omega⟩
  | _ => exact ⟨trivial, trivial⟩

theorem Enough.pos {hw : Bool} {t : Tid} {s : State α} {sp : Spec α} {F K C T : List (Nat × α)} {n : Nat}
    (inv : Inv s sp F K C T none) (hb : inDrain (s.pc t) = true) (h : Enough hw s.node F.length T.length n (s.pc t)) : 0 < n := by
  have ok := inv.ok t (by simp)
  cases hp : s.pc t <;> simp only [hp, Enough] at h ok <;> try (simp [hp, inDrain, Draining] at hb; done)
  case drNext => obtain ⟨-, -, -, v, T₁, hT⟩ := ok; rw [hT] at h; simp only [List.length_cons] at h; split at h <;> omega
  case drFilter => obtain ⟨-, -, -, v, T₁, hT, -⟩ := ok; rw [hT] at h; simp only [List.length_cons] at h; split at h <;> omega
  case cutWalk => obtain ⟨r, -, h⟩ := h; omega
  case cutLoad => split at h <;> omega
  all_goals omega

theorem rel_step {hw : Bool} {t : Tid} {s s' : State α} {a : Act α} {n : Nat} (h : Rel hw t s n)
    (hb : inDrain (s.pc t) = true) (hs : (drainProg hw t).step s a = some s') :
    ∃ m, Rel hw t s' m ∧ m + (if (drainProg hw t).own s a then 1 else 0) ≤ n + (drainProg hw t).excuse s a s' := by
  classical
  obtain ⟨⟨sp, F, K, C, T, inv, htk, hn⟩, alone, self⟩ := h
  have hpop : ∀ u, a ≠ .pop u ∧ a ≠ .drain u := fun u => by
    constructor <;> (intro e; subst e; simp [drainProg] at hs)
  have hs' : ∃ e, step hw s a = some (s', e) := by
    cases a with
    | pop u => exact absurd rfl (hpop u).1
    | drain u => exact absurd rfl (hpop u).2
    | push u p v => simp only [drainProg, Option.map_eq_some_iff] at hs; obtain ⟨⟨x, e⟩, h, rfl⟩ := hs; exact ⟨e, h⟩
    | step u b => simp only [drainProg, Option.map_eq_some_iff] at hs; obtain ⟨⟨x, e⟩, h, rfl⟩ := hs; exact ⟨e, h⟩
  obtain ⟨e, hst⟩ := hs'
  have hsoft : ∀ u, PopMid (s.pc u) = false := fun u => by
    have : Popping (s.pc u) = false := by
      by_cases e : u = t
      · rw [e]; exact self
      · exact (alone u e).2
    cases h : s.pc u <;> simp_all [Popping, PopMid]
  by_cases ha : ∃ b, a = .step t b
  · obtain ⟨b, rfl⟩ := ha
    -- the other contexts are where they were
    have hpcs : (∀ u, u ≠ t → s'.pc u = s.pc u) ∧ Popping (s'.pc t) = false := by
      unfold step drTest cutAfter State.goto State.put at hst
      simp only at hst
      cases hp : s.pc t <;> simp only [hp] at hst <;> (try (simp [hp, inDrain, Draining] at hb; done)) <;>
        (repeat' split at hst) <;> simp only [Option.some.injEq, Prod.mk.injEq, reduceCtorEq] at hst <;>
        (try (obtain ⟨rfl, rfl⟩ := hst)) <;> (try constructor) <;> (try intro u hu) <;> (try split) <;>
        (try simp_all [Popping])
    have alone' : ∀ u, u ≠ t → inDrain (s'.pc u) = false ∧ Popping (s'.pc u) = false := fun u hu => by
      rw [hpcs.1 u hu]; exact alone u hu
    obtain ⟨s₁, e₁, sp', F', K', C', T', g1, g2, g3⟩ := step_good hw inv (fun _ => hsoft) htk (Rel.apart (hw := hw) alone self)
      (.step t b) (fun x e' hx => by rw [hst] at hx; cases hx; exact Rel.apart (hw := hw) alone' hpcs.2)
    rw [hst] at g1
    cases g1
    obtain ⟨⟨m, hm, hle⟩, -, -⟩ := own_step inv g3 hb alone hn hst g2
    refine ⟨m, ⟨⟨sp', F', K', C', T', g3, fun u hu => ?_, hm⟩, alone', hpcs.2⟩, ?_⟩
    · rw [Spec.run_taken g2] at hu; exact taken_step hst htk u hu
    · simp only [drainProg, beq_self_eq_true, if_true]
      exact hle
  · have ha : ∀ b, a ≠ .step t b := fun b e => ha ⟨b, e⟩
    obtain ⟨p1, p2, alone', p4⟩ := other_step inv hb alone ha hpop hst
    have self' : Popping (s'.pc t) = false := by rw [p1]; exact self
    obtain ⟨s₁, e₁, sp', F', K', C', T', g1, g2, g3⟩ := step_good hw inv (fun _ => hsoft) htk (Rel.apart (hw := hw) alone self)
      a (fun x e' hx => by rw [hst] at hx; cases hx; exact Rel.apart (hw := hw) alone' self')
    rw [hst] at g1
    cases g1
    have htk' : ∀ u, sp'.taken u ≠ none → ∃ p, s'.pc u = .popFree p := fun u hu => by
      rw [Spec.run_taken g2] at hu; exact taken_step hst htk u hu
    have lf : F.length = sp.front.length := by rw [inv.front]; simp
    have lt : T.length = sp.todo.length := by rw [inv.todo]; simp
    have lf' : F'.length = sp'.front.length := by rw [g3.front]; simp
    have lt' : T'.length = sp'.todo.length := by rw [g3.todo]; simp
    obtain ⟨c0, c1, c2, -, -, -⟩ := run_counts g2
    have hE := hn.other (node' := s'.node) (fun p curr next r hp hr => by
      have ok := inv.ok t (by simp)
      rw [hp] at ok
      obtain ⟨hK, ⟨v, hC, -, -⟩, hF⟩ := ok
      have h1 := inv.holds
      have h2 := inv.nodup
      rw [hK, hC] at h1 h2 p2
      exact hr.frame h1 h2 hF p2)
    have hex : (drainProg hw t).own s a = false := by
      cases a with
      | step u b => simp only [drainProg, beq_eq_false_iff_ne]; intro e; subst e; exact ha b rfl
      | _ => rfl
    rw [hex]
    rcases p4 with ⟨hh, he⟩ | ⟨hh, v, he⟩
    · refine ⟨n, ⟨⟨sp', F', K', C', T', g3, htk', ?_⟩, alone', self'⟩, by simp⟩
      have hl : sp'.front.length = sp.front.length ∧ sp'.todo.length = sp.todo.length := by
        rcases he with he | ⟨u, v, he⟩
        · rw [c0 he]; exact ⟨rfl, rfl⟩
        · exact c2 u v he
      rw [p1, lf', lt', hl.1, hl.2, ← lf, ← lt]
      exact hE.1
    · have hl := c1 v he
      refine ⟨n + if s.pc t = .drLoad then (if hw then 5 else 4) else 2, ⟨⟨sp', F', K', C', T', g3, htk', ?_⟩, alone', self'⟩, ?_⟩
      · rw [p1, lf', lt', hl.1, hl.2, ← lf, ← lt]
        exact hE.2
      · have hx : (drainProg hw t).excuse s a s' = if s.pc t = .drLoad then (if hw then 5 else 4) else 2 := by
          cases a with
          | step u b =>
            have hut : u ≠ t := by intro e; subst e; exact ha b rfl
            simp only [drainProg, hut, if_false, Ne.symm hh]
          | pop u => exact absurd rfl (hpop u).1
          | drain u => exact absurd rfl (hpop u).2
          | push u p v' =>
            exfalso
            simp only [step] at hst
            split at hst <;> simp only [Option.some.injEq, Prod.mk.injEq] at hst <;> (rw [he] at hst; simp at hst)
        rw [hx]
        simp

theorem drain_within {hw : Bool} {t : Tid} {s : State α} {n : Nat} (h : Rel hw t s n) : (drainProg hw t).Within s n := by
  refine within_of_relation (drainProg hw t) (Rel hw t) (fun s n h hb => ?_) (fun s a s' n h hb hs => rel_step h hb hs) s n h
  obtain ⟨⟨sp, F, K, C, T, inv, -, hn⟩, -, -⟩ := h
  exact hn.pos inv hb

end LinkedList
end Verif.Bound
