import Verif.Bitfield.DeriveSpec
import Verif.Bitfield.Lemmas
/-! # Lemmas for `#[derive(Bitfield)]` -/
namespace Verif.Bitfield.Derive

theorem find_unique {l : List (String × Body)} (hn : (l.map (·.1)).Nodup) {m : String × Body} (hm : m ∈ l) :
    l.find? (fun a => a.1 = m.1) = some m := by
  induction l with
  | nil => cases hm
  | cons a l ih =>
    rw [List.map_cons, List.nodup_cons] at hn
    rcases List.mem_cons.1 hm with rfl | hm
    · simp
    · rw [List.find?_cons]
      have : ¬ a.1 = m.1 := fun e => hn.1 (e ▸ List.mem_map_of_mem hm)
      simp only [this, decide_false]
      exact ih hn.2 hm

/-- The method for a use. -/
def Use.body {n : Nat} (f : Field) : Use n → Body
  | .get => if f.bits = 1 then .readBit f.offset else .readBits f.offset f.bits
  | .set => .setBit f.offset
  | .clear => .clearBit f.offset
  | .toggle => .toggleBit f.offset
  | .putBit _ => .writeBit f.offset
  | .put _ => .writeBits f.offset f.bits

theorem body_mem {n : Nat} (f : Field) (u : Use n) (h : u.allowed f) :
    (u.callName f.name, u.body f) ∈ methods f := by
  unfold methods
  cases u with
  | get =>
    have hr : f.mode.isRead = true := by
      cases hm : f.mode <;> simp [Mode.isRead]
      exact absurd hm h
    by_cases hb : f.bits = 1 <;> simp [Use.callName, Use.body, hb, hr]
  | put v =>
    have hr : f.mode.isWrite = true := by
      cases hm : f.mode <;> simp [Mode.isWrite]
      exact absurd hm h.1
    simp [Use.callName, Use.body, h.2, hr]
  | set | clear | toggle | putBit b =>
    have hr : f.mode.isWrite = true := by
      cases hm : f.mode <;> simp [Mode.isWrite]
      exact absurd hm h.1
    simp [Use.callName, Use.body, h.2, hr]

theorem call_eq {n : Nat} {fs : List Field} (hc : compiles fs) {f : Field} (hf : f ∈ fs) (x : BitVec n) (u : Use n)
    (hu : u.allowed f) : call fs x (u.callName f.name) u.arg = (u.body f).exec x u.arg := by
  have := find_unique hc (List.mem_flatMap.2 ⟨f, hf, body_mem f u hu⟩)
  unfold call
  simp only at this
  rw [this]

/-- The write operation of a use. -/
def Use.op {n : Nat} (f : Field) : Use n → Option (FieldOp n)
  | .get => none
  | .set => some (.set f.offset)
  | .clear => some (.clear f.offset)
  | .toggle => some (.toggle f.offset)
  | .putBit b => some (.writeBit f.offset b)
  | .put v => some (.writeBits f.offset f.bits v)

theorem op_field {n : Nat} {f : Field} {u : Use n} (hu : u.allowed f) {op : FieldOp n} (h : u.op f = some op) :
    op.field = (f.offset, f.bits) := by
  cases u <;> simp only [Use.op, Option.some.injEq, reduceCtorEq] at h <;> subst h <;>
    simp only [FieldOp.field] <;> rw [hu.2]

theorem op_effect {n : Nat} {f : Field} {u : Use n} {op : FieldOp n} (h : u.op f = some op)
    (cur : Nat) : op.effect cur = u.effect f.bits cur := by
  cases u <;> simp only [Use.op, Option.some.injEq, reduceCtorEq] at h <;> subst h <;>
    simp only [FieldOp.effect, Use.effect]
  rename_i b
  cases b <;> rfl

theorem exec_op {n : Nat} {f : Field} {u : Use n} {op : FieldOp n} (h : u.op f = some op) (x : BitVec n) :
    (u.body f).exec x u.arg = ret (op.apply x) := by
  cases u <;> simp only [Use.op, Option.some.injEq, reduceCtorEq] at h <;> subst h <;> rfl

theorem readBit_num {n : Nat} (x : BitVec n) {o : Nat} (h : o < n) :
    Bitfield.readBit x o = some (x.getLsbD o) := readBit_eq x h

/-- One call does what the record does. -/
theorem call_ok {n : Nat} {fs : List Field} (hc : compiles fs) {f : Field} (hf : f ∈ fs)
    (hr : InRange n (f.offset, f.bits)) (x : BitVec n) (u : Use n) (hu : u.allowed f) :
    ∃ y o, call fs x (u.callName f.name) u.arg = .ok y o ∧
      o.num = u.result (fieldVal x f.offset f.bits) ∧
      fieldVal y f.offset f.bits = u.effect f.bits (fieldVal x f.offset f.bits) ∧
      ∀ i, i < f.offset ∨ f.offset + f.bits ≤ i → y.getLsbD i = x.getLsbD i := by
  rw [call_eq hc hf x u hu]
  cases hop : u.op f with
  | none =>
    cases u <;> simp only [Use.op, reduceCtorEq] at hop
    simp only [Use.body, Use.arg]
    by_cases hb : f.bits = 1
    · simp only [if_pos hb, Body.exec]
      rw [readBit_eq x hr.1]
      refine ⟨x, _, rfl, ?_, rfl, fun _ _ => rfl⟩
      rw [hb, fieldVal_one]
      cases x.getLsbD f.offset <;> rfl
    · simp only [if_neg hb, Body.exec]
      obtain ⟨r, hr'⟩ := readBits_isSome x hr.1 hr.2
      simp only [hr']
      refine ⟨x, _, rfl, ?_, rfl, fun _ _ => rfl⟩
      simp only [Out.num, Use.result]
      rw [readBits_toNat hr.1 hr.2 hr']
  | some op =>
    have hfd := op_field hu hop
    have hr' : InRange n op.field := by rw [hfd]; exact hr
    obtain ⟨y, hy⟩ := op.apply_isSome x hr'
    rw [exec_op hop x, hy]
    refine ⟨y, _, rfl, ?_, ?_, fun i hi => ?_⟩
    · cases u <;> first | rfl | cases hop
    · have := FieldOp.apply_effect hr' hy
      rw [hfd] at this
      rw [this, op_effect hop]
    · exact FieldOp.apply_frame hr' hy (by rw [hfd]; exact hi)

theorem useWord_ok {n : Nat} {fs : List Field} (hc : compiles fs) (hr : ∀ f ∈ fs, InRange n (f.offset, f.bits))
    (hd : fs.Pairwise fun f g => Disjoint (f.offset, f.bits) (g.offset, g.bits)) :
    ∀ (us : List (Nat × Use n)) (x : BitVec n), (∀ p ∈ us, ∃ f, fs[p.1]? = some f ∧ p.2.allowed f) →
      ∃ y os, useWord fs x us = some (y, os) ∧ useRecord fs (recordOf fs x) us = (recordOf fs y, os) ∧
        ∀ i, (∀ f ∈ fs, i < f.offset ∨ f.offset + f.bits ≤ i) → y.getLsbD i = x.getLsbD i
  | [], x, _ => ⟨x, [], rfl, rfl, fun _ _ => rfl⟩
  | (i, u) :: us, x, ha => by
    obtain ⟨f, hf, hu⟩ := ha (i, u) List.mem_cons_self
    simp only at hf hu
    have hfm := List.mem_of_getElem? hf
    obtain ⟨y, o, h1, h2, h3, h4⟩ := call_ok hc hfm (hr f hfm) x u hu
    obtain ⟨z, os, g1, g2, g3⟩ := useWord_ok hc hr hd us y (fun p hp => ha p (List.mem_cons_of_mem _ hp))
    have hrec : (fun j => if j = i then u.effect f.bits (recordOf fs x i) else recordOf fs x j) = recordOf fs y := by
      funext j
      by_cases hj : j = i
      · subst hj
        simp only [if_true, recordOf, hf]
        exact h3.symm
      · simp only [if_neg hj, recordOf]
        cases hg : fs[j]? with
        | none => rfl
        | some g =>
          refine fieldVal_congr fun k k1 k2 => (h4 k ?_).symm
          have hdis : Disjoint (f.offset, f.bits) (g.offset, g.bits) ∨ Disjoint (g.offset, g.bits) (f.offset, f.bits) := by
            obtain ⟨hi', hi⟩ := List.getElem?_eq_some_iff.1 hf
            obtain ⟨hj', hj2⟩ := List.getElem?_eq_some_iff.1 hg
            have hp := List.pairwise_iff_getElem.1 hd
            rcases Nat.lt_or_gt_of_ne hj with h | h
            · right; rw [← hi, ← hj2]; exact hp j i hj' hi' h
            · left; rw [← hi, ← hj2]; exact hp i j hi' hj' h
          unfold Disjoint at hdis
          simp only at hdis
          omega
    refine ⟨z, o.num :: os, ?_, ?_, fun k hk => ?_⟩
    · simp only [useWord, hf, h1, g1]
    · simp only [useRecord, hf, hrec, g2, h2]
      simp only [recordOf, hf]
    · rw [g3 k hk, h4 k (hk f hfm)]

/-! ### Names -/

theorem names_eq (f : Field) : (methods f).map (·.1) =
    (if f.mode.isRead then [f.name] else []) ++
    (if f.mode.isWrite then (if f.bits = 1 then ["set_" ++ f.name, "clear_" ++ f.name, "toggle_" ++ f.name] else []) ++
      ["write_" ++ f.name] else []) := by
  unfold methods
  by_cases hb : f.bits = 1 <;> cases f.mode.isRead <;> cases f.mode.isWrite <;> simp [hb]

theorem mem_names {f : Field} {s : String} : s ∈ (methods f).map (·.1) ↔
    f.mode.isRead = true ∧ s = f.name ∨ f.mode.isWrite = true ∧ (s = "write_" ++ f.name ∨
      f.bits = 1 ∧ (s = "set_" ++ f.name ∨ s = "clear_" ++ f.name ∨ s = "toggle_" ++ f.name)) := by
  rw [names_eq]
  by_cases hb : f.bits = 1 <;> cases f.mode.isRead <;> cases f.mode.isWrite <;> simp [hb]
  · constructor
    · rintro (h | h | h | h) <;> simp [h]
    · rintro (h | h | h | h) <;> simp [h]
  · constructor
    · rintro (h | h | h | h | h) <;> simp [h]
    · rintro (h | h | h | h | h) <;> simp [h]

theorem ne_self (a : String) : "set_" ++ a ≠ a ∧ "clear_" ++ a ≠ a ∧ "toggle_" ++ a ≠ a ∧ "write_" ++ a ≠ a := by
  refine ⟨fun h => ?_, fun h => ?_, fun h => ?_, fun h => ?_⟩ <;>
  · have := congrArg (fun s => s.toList.length) h
    simp at this
    omega

theorem head_ne {a b : String} :
    "set_" ++ a ≠ "clear_" ++ b ∧ "set_" ++ a ≠ "toggle_" ++ b ∧ "set_" ++ a ≠ "write_" ++ b ∧
    "clear_" ++ a ≠ "toggle_" ++ b ∧ "clear_" ++ a ≠ "write_" ++ b ∧ "toggle_" ++ a ≠ "write_" ++ b := by
  refine ⟨fun h => ?_, fun h => ?_, fun h => ?_, fun h => ?_, fun h => ?_, fun h => ?_⟩ <;>
  · have := congrArg (fun s => s.toList.head?) h
    simp at this

theorem one_nodup (f : Field) : ((methods f).map (·.1)).Nodup := by
  rw [names_eq]
  obtain ⟨n1, n2, n3, n4⟩ := ne_self f.name
  obtain ⟨m1, m2, m3, m4, m5, m6⟩ := @head_ne f.name f.name
  by_cases hb : f.bits = 1 <;> cases f.mode.isRead <;> cases f.mode.isWrite <;>
    simp [hb, n1.symm, n2.symm, n3.symm, n4.symm, m1, m2, m3, m4, m5, m6]

theorem clash_iff (f g : Field) : Clash f g ↔
    ∃ s, s ∈ (methods f).map (·.1) ∧ s ∈ (methods g).map (·.1) := by
  unfold Clash
  constructor
  · rintro (⟨he, ⟨h1, h2⟩ | ⟨h1, h2⟩⟩ | ⟨h1, h2, h3⟩ | ⟨h1, h2, h3⟩)
    · exact ⟨f.name, mem_names.2 (.inl ⟨h1, rfl⟩), mem_names.2 (.inl ⟨h2, he⟩)⟩
    · exact ⟨"write_" ++ f.name, mem_names.2 (.inr ⟨h1, .inl rfl⟩), mem_names.2 (.inr ⟨h2, .inl (by rw [he])⟩)⟩
    · exact ⟨f.name, mem_names.2 (.inl ⟨h1, rfl⟩), mem_names.2 (.inr ⟨h2, h3⟩)⟩
    · exact ⟨g.name, mem_names.2 (.inr ⟨h2, h3⟩), mem_names.2 (.inl ⟨h1, rfl⟩)⟩
  · rintro ⟨s, hf, hg⟩
    rw [mem_names] at hf hg
    rcases hf with ⟨h1, rfl⟩ | ⟨h1, h2⟩
    · rcases hg with ⟨h3, h4⟩ | ⟨h3, h4⟩
      · exact .inl ⟨h4, .inl ⟨h1, h3⟩⟩
      · exact .inr (.inl ⟨h1, h3, h4⟩)
    · rcases hg with ⟨h3, rfl⟩ | ⟨h3, h4⟩
      · exact .inr (.inr ⟨h3, h1, h2⟩)
      · refine .inl ⟨?_, .inr ⟨h1, h3⟩⟩
        obtain ⟨m1, m2, m3, m4, m5, m6⟩ := @head_ne f.name g.name
        obtain ⟨k1, k2, k3, k4, k5, k6⟩ := @head_ne g.name f.name
        rcases h2 with rfl | ⟨-, rfl | rfl | rfl⟩ <;> rcases h4 with h | ⟨-, h | h | h⟩ <;>
          first
          | simpa using h
          | exact absurd h (by assumption)
          | exact absurd h.symm (by assumption)

end Verif.Bitfield.Derive
