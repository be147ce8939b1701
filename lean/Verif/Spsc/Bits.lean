/-!
# State words of the single-producer single-consumer channels

The three channels keep flags (and for pulse and ring counters) in one word.
`has s m` is the test `state & M != 0`.
-/
namespace Verif.Spsc

/-- `1 << i`. -/
def flag (w i : Nat) : BitVec w := 1#w <<< i

/-- `s & m != 0`. -/
def has {w : Nat} (s m : BitVec w) : Bool := s &&& m != 0#w

theorem flag_eq (w i : Nat) : flag w i = BitVec.twoPow w i := by
  unfold flag
  exact BitVec.shiftLeft_eq_mul_twoPow .. |>.trans (BitVec.one_mul _)

/-- Testing a single-bit mask is reading that bit. -/
theorem has_flag {w : Nat} (s : BitVec w) (i : Nat) : has s (flag w i) = s.getLsbD i := by
  unfold has
  rw [flag_eq, BitVec.and_twoPow]
  by_cases h : s.getLsbD i
  · have hi : i < w := BitVec.lt_of_getLsbD h
    rw [if_pos h, h]
    simp only [bne_iff_ne, ne_eq]
    intro e
    have := congrArg (fun x => BitVec.getLsbD x i) e
    simp [hi] at this
  · rw [if_neg h]
    simp at h
    simp [h]

theorem getLsbD_flag (w i j : Nat) : (flag w i).getLsbD j = (decide (i < w) && decide (i = j)) := by
  rw [flag_eq, BitVec.getLsbD_twoPow]

end Verif.Spsc
