import Verif.Model.Ptr

/-! # Tagged pointers: bits and signs -/

namespace DD
namespace Raw

theorem one_bit (i : Nat) : (1#64).getLsbD i = decide (i = 0) := by
  rw [BitVec.getLsbD_one]; simp

theorem isNegative_eq (p : BitVec 64) : isNegative p = p.getLsbD 0 := by
  unfold isNegative
  by_cases h : p.getLsbD 0 = true
  · rw [h, bne_iff_ne]
    intro e
    have h1 : (p &&& 1#64).getLsbD 0 = true := by rw [BitVec.getLsbD_and, h]; rfl
    rw [e] at h1
    simp at h1
  · have h' : p.getLsbD 0 = false := by simpa using h
    rw [h']
    have : p &&& 1#64 = 0#64 := by
      apply BitVec.eq_of_getLsbD_eq
      intro i _
      rw [BitVec.getLsbD_and, one_bit]
      by_cases hi : i = 0
      · subst hi; rw [h']; rfl
      · simp [hi]
    rw [this]; rfl

theorem aligned_bit (p : BitVec 64) (i : Nat) : (aligned p).getLsbD i = (p.getLsbD i && decide (i ≠ 0)) := by
  unfold aligned
  rw [BitVec.getLsbD_and, BitVec.getLsbD_not, one_bit]
  by_cases hi : i < 64
  · by_cases h0 : i = 0 <;> simp [hi, h0]
  · rw [BitVec.getLsbD_of_ge p i (by omega)]; simp

theorem negative_bit (p : BitVec 64) (i : Nat) : (negative p).getLsbD i = (p.getLsbD i || decide (i = 0)) := by
  unfold negative
  rw [BitVec.getLsbD_or, one_bit]

theorem xor_bit (p : BitVec 64) (i : Nat) : (p ^^^ 1#64).getLsbD i = (p.getLsbD i ^^ decide (i = 0)) := by
  rw [BitVec.getLsbD_xor, one_bit]

theorem aligned_even {p : BitVec 64} (h : p.getLsbD 0 = false) : aligned p = p := by
  apply BitVec.eq_of_getLsbD_eq
  intro i _
  rw [aligned_bit]
  by_cases h0 : i = 0
  · subst h0; rw [h]; rfl
  · simp [h0]

theorem aligned_negative {p : BitVec 64} (h : p.getLsbD 0 = false) : aligned (negative p) = p := by
  apply BitVec.eq_of_getLsbD_eq
  intro i _
  rw [aligned_bit, negative_bit]
  by_cases h0 : i = 0
  · subst h0; rw [h]; rfl
  · simp [h0]

theorem xor_even {p : BitVec 64} (h : p.getLsbD 0 = false) : p ^^^ 1#64 = negative p := by
  apply BitVec.eq_of_getLsbD_eq
  intro i _
  rw [xor_bit, negative_bit]
  by_cases h0 : i = 0
  · subst h0; rw [h]; rfl
  · simp [h0]

theorem xor_odd {p : BitVec 64} (h : p.getLsbD 0 = false) : negative p ^^^ 1#64 = p := by
  apply BitVec.eq_of_getLsbD_eq
  intro i _
  rw [xor_bit, negative_bit]
  by_cases h0 : i = 0
  · subst h0; rw [h]; rfl
  · simp [h0]

theorem aligned_xor (p : BitVec 64) : aligned (p ^^^ 1#64) = aligned p := by
  apply BitVec.eq_of_getLsbD_eq
  intro i _
  rw [aligned_bit, aligned_bit, xor_bit]
  by_cases h0 : i = 0
  · subst h0; simp
  · simp [h0]

theorem aligned_idem (p : BitVec 64) : aligned (aligned p) = aligned p :=
  aligned_even (by rw [aligned_bit]; simp)

end Raw
end DD
