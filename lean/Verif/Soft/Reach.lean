import Verif.Soft.Header
import Verif.Soft.Rows
/-! # Invariants of the software threads: how far the cell pointer goes, every pool size -/
namespace Verif.Soft

/-- The furthest start of the search of a level (plus one). -/
def reach (count priority : Nat) : Nat := rowAt count priority + (rowSize count - 1) * (27 - priority)

/-- The pointer of a scheduler loop. -/
def RowPc.Near (count : Nat) (r : Row) : RowPc → Prop
  | .load thr => thr % 32 = 0 ∧ r.ptr ≤ reach count r.priority + thr / 32
  | .bits thr _ bit => bit = 1#32 <<< (thr % 32) ∧ r.ptr ≤ reach count r.priority + thr / 32
  | .call thr _ bit _ => bit = 1#32 <<< (thr % 32) ∧ r.ptr ≤ reach count r.priority + thr / 32
  | .next => r.ptr ≤ reach count r.priority + (rowSize count - 1)

/-- The pointer of a call in progress. -/
def Frame.Near (count : Nat) : Frame → Prop
  | .row r pc => pc.Near count r
  | _ => True

/-- The pointers of all calls in progress. -/
def AllNear (count : Nat) (st : List Frame) : Prop := ∀ f ∈ st, f.Near count

theorem allNear_cons {count : Nat} {f : Frame} {st : List Frame} : AllNear count (f :: st) ↔ f.Near count ∧ AllNear count st := by
  simp [AllNear]

theorem div_row {count thr : Nat} (h : thr < count) : thr / 32 ≤ rowSize count - 1 ∧ 0 < rowSize count := by
  have := ptr_lt (p := 27) (by omega) (by omega) h
  have h26 := ptr_lt (p := 1) (by omega) (by omega) h
  rw [rowAt, pendingSize, levels] at h26
  omega

theorem reach_next {count p q ptr : Nat} (hp : p ≤ 27) (hq : q < p) (h : ptr ≤ reach count p + (rowSize count - 1)) :
    ptr + rowSize count * (p - q) ≤ reach count q := by
  obtain ⟨d, rfl⟩ : ∃ d, p = q + 1 + d := ⟨p - q - 1, by omega⟩
  rw [reach, rowAt] at h ⊢
  have e : 27 - q = (27 - (q + 1 + d)) + (d + 1) := by omega
  rw [e, show q + 1 + d - q = d + 1 from by omega]
  simp only [Nat.mul_add, Nat.mul_one] at h ⊢
  omega

theorem advance_near {count thr : Nat} {r : Row} {cell bit : U32} (ht : thr < count) (hb : bit = 1#32 <<< (thr % 32))
    (h : r.ptr ≤ reach count r.priority + thr / 32) : (advance count r thr cell bit).Near count := by
  have hd := div_row ht
  rw [hb, advance_wide]
  split
  · simp only [Frame.Near, RowPc.Near]; omega
  · split
    · simp only [Frame.Near, RowPc.Near]; omega
    · refine ⟨rfl, ?_⟩; omega

theorem frameStep_near {count : Nat} {s s' : State} {f : Frame} {rest : List Frame} (i : InvH count s)
    (hst : s.stack = f :: rest) (n : AllNear count s.stack) (h : frameStep count s rest f = some s') : AllNear count s'.stack := by
  rw [hst, allNear_cons] at n
  obtain ⟨n1, n2⟩ := n
  have j := i.ok
  rw [hst] at j
  have j2 := j.2
  replace j := j.1
  cases f with
  | req thr pc =>
    cases pc <;> simp only [frameStep] at h
    · simp only [Option.some.injEq] at h; subst h; exact allNear_cons.2 ⟨trivial, n2⟩
    · split at h
      · simp only [Option.some.injEq] at h; subst h
        dsimp only; split
        · exact allNear_cons.2 ⟨trivial, n2⟩
        · exact n2
      · simp at h
    · simp only [Option.some.injEq] at h; subst h
      dsimp only; split
      · exact allNear_cons.2 ⟨trivial, n2⟩
      · exact n2
  | start =>
    simp only [frameStep] at h
    split at h <;> (simp only [Option.some.injEq] at h; subst h)
    · exact n2
    · refine allNear_cons.2 ⟨⟨rfl, ?_⟩, n2⟩
      simp only [reach, rowAt, levels]; omega
  | row r pc =>
    obtain ⟨k2, k3, k4, k5, k6⟩ := j
    cases pc with
    | load thr =>
      have hd := div_row k6
      obtain ⟨m1, m2⟩ := n1
      simp only [frameStep] at h
      split at h
      · split at h
        · split at h
          · simp only [Option.some.injEq] at h
            subst h
            dsimp only
            rw [show (1 <<< colBits) = 32 from rfl]
            split
            · refine allNear_cons.2 ⟨?_, n2⟩
              simp only [Frame.Near, RowPc.Near]; omega
            · refine allNear_cons.2 ⟨?_, n2⟩
              simp only [Frame.Near, RowPc.Near]; omega
          · simp at h
        · simp only [Option.some.injEq] at h
          subst h
          refine allNear_cons.2 ⟨⟨?_, m2⟩, n2⟩
          rw [m1]; rfl
      · simp at h
    | bits thr cell bit =>
      simp only [frameStep] at h
      split at h
      · split at h
        · simp only [Option.some.injEq] at h; subst h
          exact allNear_cons.2 ⟨n1, n2⟩
        · simp at h
      · simp only [Option.some.injEq] at h; subst h
        exact allNear_cons.2 ⟨advance_near k6.1 n1.1 n1.2, n2⟩
    | call thr cell bit c =>
      simp only [frameStep] at h
      split at h <;> (simp only [Option.some.injEq] at h; subst h)
      · exact allNear_cons.2 ⟨n1, n2⟩
      · exact allNear_cons.2 ⟨advance_near k6.1 n1.1 n1.2, n2⟩
    | next =>
      simp only [frameStep, Option.some.injEq] at h
      have sp := findPriority_spec (s.mem 0) r.prev (r.priority - 1) (by omega) (by omega)
      cases hf : findPriority (s.mem 0) r.prev (r.priority - 1) with
      | mk new next =>
        rw [hf] at sp h
        dsimp only at h
        cases new with
        | none =>
          simp only at sp
          simp only [sp.1, ↓reduceIte, Option.getD] at h
          subst h
          exact n2
        | some new =>
          simp only at sp
          obtain ⟨a1, a2, -⟩ := sp
          have hne : next ≠ r.prev := by omega
          have hne2 : next ≠ r.priority := by omega
          simp only [hne, hne2, ne_eq, not_false_eq_true, ↓reduceIte, Option.getD] at h
          subst h
          refine allNear_cons.2 ⟨⟨rfl, ?_⟩, n2⟩
          have := reach_next k4 (show next < r.priority by omega) n1
          simp only; omega
  | clear thr p =>
    cases p <;> simp only [frameStep] at h
    · simp only [Option.some.injEq] at h; subst h; exact allNear_cons.2 ⟨trivial, n2⟩
    · split at h
      · simp only [Option.some.injEq] at h; subst h; exact n2
      · simp at h
  | plain thr c =>
    simp only [frameStep] at h
    split at h <;> (simp only [Option.some.injEq] at h; subst h)
    · exact allNear_cons.2 ⟨trivial, n2⟩
    · exact n2

theorem ret_near {count : Nat} {st : List Frame} (h : AllNear count st) : AllNear count (ret st) := by
  unfold ret
  split
  · rw [allNear_cons] at h ⊢; exact ⟨h.1, h.2⟩
  · rw [allNear_cons] at h ⊢; exact ⟨trivial, h.2⟩
  · exact h

theorem step_near {count : Nat} {s s' : State} {a : Act} (i : InvH count s) (n : AllNear count s.stack)
    (h : step count s a = some s') : AllNear count s'.stack := by
  cases a <;> simp only [step] at h
  case step =>
    split at h
    · simp only [Option.some.injEq] at h; exact h ▸ n
    · rename_i f rest hst; exact frameStep_near i hst n h
  case ret => simp only [Option.some.injEq] at h; subst h; exact ret_near n
  case setPrio =>
    split at h
    · simp only [Option.some.injEq] at h; subst h; exact n
    · simp at h
  all_goals
    simp only [Option.some.injEq] at h
    try split at h
    all_goals subst h
    all_goals first
      | exact n
      | exact allNear_cons.2 ⟨trivial, n⟩

theorem run_near {count : Nat} : ∀ {acts : List Act} {s s' : State}, InvH count s → AllNear count s.stack →
    run count s acts = some s' → AllNear count s'.stack
  | [], s, s', _, n, h => by simp only [run, Option.some.injEq] at h; exact h ▸ n
  | a :: as, s, s', i, n, h => by
    simp only [run] at h
    split at h
    · simp at h
    · rename_i m hm
      exact run_near (step_invH i hm) (step_near i n hm) h

/-- The bound in terms of the size of the array. -/
theorem reach_le {count p ptr thr : Nat} (h0 : 0 < p) (ht : thr < count) (h : ptr ≤ reach count p + thr / 32) :
    ptr < pendingSize count + 26 * (rowSize count - 1) := by
  have hd := div_row ht
  have h1 : rowSize count * (27 - p) ≤ rowSize count * 26 := Nat.mul_le_mul_left _ (by omega)
  have h2 : (rowSize count - 1) * (27 - p) ≤ (rowSize count - 1) * 26 := Nat.mul_le_mul_left _ (by omega)
  rw [reach, rowAt] at h
  rw [pendingSize, levels]
  omega

end Verif.Soft
