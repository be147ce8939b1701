import Verif.Soft.Lemmas
/-! # Software threads: the rows of cells, every pool size -/
namespace Verif.Soft

/-- Where the row of a level (plus one) starts. -/
def rowAt (count priority : Nat) : Nat := 1 + rowSize count * (27 - priority)

theorem cellIdx_row {count t p : Nat} (hp : p < 27) : cellIdx count t p = rowAt count (p + 1) + t / 32 := by
  rw [cellIdx_eq, rowAt, show 27 - (p + 1) = 26 - p from by omega]

theorem bit_shift {k : Nat} (hk : k < 32) : ((1#32 <<< k) <<< 1 = 0) ↔ k = 31 := by
  rw [← BitVec.shiftLeft_add]
  constructor
  · intro h
    refine Classical.byContradiction fun hn => ?_
    have := congrArg (fun y => y.getLsbD (k + 1)) h
    simp only [getLsbD_one_shift (show k + 1 < 32 by omega), decide_true] at this
    simp at this
  · rintro rfl; decide

/-- `row_run` goes on to the next thread. -/
theorem advance_wide {count thr : Nat} (r : Row) (cell : U32) :
    advance count r thr cell (1#32 <<< (thr % 32)) =
      if thr + 1 = count then .row r .next
      else if thr % 32 = 31 then .row { r with ptr := r.ptr + 1 } (.load (thr + 1))
      else .row r (.bits (thr + 1) cell (1#32 <<< ((thr + 1) % 32))) := by
  unfold advance
  split
  · rfl
  · have hm : thr % 32 < 32 := Nat.mod_lt _ (by omega)
    by_cases e : thr % 32 = 31
    · rw [if_pos ((bit_shift hm).2 e), if_pos e]
    · rw [if_neg (fun h => e ((bit_shift hm).1 h)), if_neg e, ← BitVec.shiftLeft_add, show (thr + 1) % 32 = thr % 32 + 1 from by omega]

theorem ptr_lt {count p thr : Nat} (h1 : 0 < p) (h2 : p ≤ 27) (ht : thr < count) : rowAt count p + thr / 32 < pendingSize count := by
  have := cellIdx_lt (p := p - 1) ht (by omega)
  rwa [cellIdx_row (by omega), show p - 1 + 1 = p from by omega] at this

end Verif.Soft
