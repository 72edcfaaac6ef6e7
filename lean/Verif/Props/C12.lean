import Verif.Model.Hash
import Verif.Proofs.CTabHash
import Mathlib.Tactic.NormNum

/-!
# C12: hash functions stay in range and mix injectively

"Every table index computed by the package is smaller than the number of buckets, and murmur64 is a bijection on 64-bit
words, so distinct pointers have distinct mixed keys."
-/

namespace DD
open Hash

theorem index_lt {nb : Nat} (h0 : 0 < nb) (h : nb < 2 ^ 64) (x : BitVec 64) : index nb x < nb := by
  unfold index
  have h1 : (BitVec.ofNat 64 nb - 1#64).toNat = nb - 1 := by
    have e1 : (1#64).toNat = 1 := rfl
    rw [BitVec.toNat_sub, e1, BitVec.toNat_ofNat, Nat.mod_eq_of_lt h]
    omega
  have := Nat.and_le_right (n := x.toNat) (m := (BitVec.ofNat 64 nb - 1#64).toNat)
  rw [BitVec.toNat_and]
  omega

/-- The index of every table is in range, for every number of buckets and all keys. -/
theorem C12_range {nb : Nat} (h0 : 0 < nb) (h : nb < 2 ^ 64) :
    (∀ h1 h2, computeTable nb h1 h2 < nb) ∧ (∀ h1, unaryTable nb h1 < nb) ∧ (∀ es, uniqueTable nb es < nb) ∧
    (∀ cs t, toffoliTable nb cs t < nb) ∧ (∀ h1 qs, densityNoiseTable nb h1 qs < nb) :=
  ⟨fun _ _ => index_lt h0 h _, fun _ => index_lt h0 h _, fun _ => index_lt h0 h _, fun _ _ => index_lt h0 h _,
    fun _ _ => index_lt h0 h _⟩

/-- The index of the number table is in range, for every non-negative number, however large. -/
theorem C12_number_range {R : Type} [Field R] [LinearOrder R] [IsStrictOrderedRing R] [FloorRing R] {C : CCfg R}
    (hnb : 0 < C.nb) {v : R} (hv : 0 ≤ v) : 0 ≤ CTab.hash C v ∧ (CTab.hash C v).toNat < C.nb :=
  ⟨CTab.hash_nonneg C hv, CTab.hash_toNat_lt C hnb hv⟩

/-- If the number of buckets is a power of two, as the comments in the code demand, every bucket is used. -/
theorem C12_onto {k : Nat} (hk : k < 64) (i : Nat) (hi : i < 2 ^ k) : ∃ x, index (2 ^ k) x = i := by
  have h64 : (2 : Nat) ^ k < 2 ^ 64 := Nat.pow_lt_pow_right (by decide) hk
  refine ⟨BitVec.ofNat 64 i, ?_⟩
  unfold index
  have h1 : (BitVec.ofNat 64 (2 ^ k) - 1#64).toNat = 2 ^ k - 1 := by
    have e1 : (1#64).toNat = 1 := rfl
    have : 0 < 2 ^ k := Nat.two_pow_pos k
    rw [BitVec.toNat_sub, e1, BitVec.toNat_ofNat, Nat.mod_eq_of_lt h64]
    omega
  rw [BitVec.toNat_and, h1, BitVec.toNat_ofNat, Nat.mod_eq_of_lt (by omega), Nat.and_two_pow_sub_one_eq_mod,
    Nat.mod_eq_of_lt hi]

/-- With another number of buckets the range is still respected, but buckets can be dead: with 5 buckets only 0 and 4 are
used. -/
theorem C12_onto_false : ∀ x, index 5 x = 0 ∨ index 5 x = 4 := by
  intro x
  unfold index
  have h1 : BitVec.ofNat 64 5 - 1#64 = 4#64 := by decide
  rw [h1]
  by_cases h : x.getLsbD 2
  · right
    have : x &&& 4#64 = 4#64 := by
      apply BitVec.eq_of_getLsbD_eq
      intro i hi
      rw [BitVec.getLsbD_and, show (4#64 : BitVec 64) = BitVec.twoPow 64 2 from rfl, BitVec.getLsbD_twoPow]
      by_cases h2 : 2 = i
      · subst h2; simp only [h]; rfl
      · simp [h2]
    rw [this]; rfl
  · left
    have : x &&& 4#64 = 0#64 := by
      apply BitVec.eq_of_getLsbD_eq
      intro i hi
      rw [BitVec.getLsbD_and, show (4#64 : BitVec 64) = BitVec.twoPow 64 2 from rfl, BitVec.getLsbD_twoPow]
      by_cases h2 : 2 = i
      · subst h2; simp only [Bool.not_eq_true] at h; simp only [h]; rfl
      · simp [h2]
    rw [this]; rfl

theorem xorshift_invol (k : BitVec 64) : (k ^^^ (k >>> 33)) ^^^ ((k ^^^ (k >>> 33)) >>> 33) = k := by
  have h0 : (k >>> 33) >>> 33 = 0#64 := by
    rw [← BitVec.shiftRight_add]
    apply BitVec.eq_of_toNat_eq
    rw [BitVec.toNat_ushiftRight, Nat.shiftRight_eq_div_pow]
    have := k.isLt
    rw [Nat.div_eq_of_lt (by omega)]
    rfl
  rw [BitVec.ushiftRight_xor_distrib, h0, BitVec.xor_zero, BitVec.xor_assoc, BitVec.xor_self, BitVec.xor_zero]

/-- The inverse of `murmur64`. -/
def unmurmur64 (k : BitVec 64) : BitVec 64 :=
  let k := k ^^^ (k >>> 33)
  let k := k * 0x9cb4b2f8129337db#64
  let k := k ^^^ (k >>> 33)
  let k := k * 0x4f74430c22a54005#64
  k ^^^ (k >>> 33)

/-- `murmur64` is a bijection on 64-bit words. -/
theorem C12_murmur_bijective : Function.Bijective murmur64 := by
  have e1 : 0xff51afd7ed558ccd#64 * 0x4f74430c22a54005#64 = 1#64 := by decide
  have e2 : 0xc4ceb9fe1a85ec53#64 * 0x9cb4b2f8129337db#64 = 1#64 := by decide
  have e1' : 0x4f74430c22a54005#64 * 0xff51afd7ed558ccd#64 = 1#64 := by decide
  have e2' : 0x9cb4b2f8129337db#64 * 0xc4ceb9fe1a85ec53#64 = 1#64 := by decide
  rw [Function.bijective_iff_has_inverse]
  refine ⟨unmurmur64, fun k => ?_, fun k => ?_⟩
  · unfold murmur64 unmurmur64
    simp only
    rw [xorshift_invol, BitVec.mul_assoc, e2, BitVec.mul_one, xorshift_invol, BitVec.mul_assoc, e1, BitVec.mul_one,
      xorshift_invol]
  · unfold murmur64 unmurmur64
    simp only
    rw [xorshift_invol, BitVec.mul_assoc, e1', BitVec.mul_one, xorshift_invol, BitVec.mul_assoc, e2', BitVec.mul_one,
      xorshift_invol]

/-- Distinct pointers have distinct mixed keys. -/
theorem C12_distinct {p q : BitVec 64} (h : p ≠ q) : murmur64 p ≠ murmur64 q :=
  fun e => h (C12_murmur_bijective.1 e)

/-- Combining with a fixed first hash is injective in the second, so complex numbers with equal real and different
imaginary pointers, and edges to the same node with such weights, have different hashes. -/
theorem C12_combine_injective (l : BitVec 64) : Function.Injective (combineHash l) := by
  intro a b h
  unfold combineHash at h
  have := congrArg (l ^^^ ·) h
  simp only [← BitVec.xor_assoc, BitVec.xor_self, BitVec.zero_xor] at this
  have h2 := congrArg (fun x => x - (l >>> 2) - (l <<< 6) - 0x9e3779b97f4a7c15#64) this
  simpa only [BitVec.add_sub_cancel] using h2

theorem C12_complex_distinct {r i i' p : BitVec 64} (h : i ≠ i') :
    complex ⟨r, i⟩ ≠ complex ⟨r, i'⟩ ∧ edge ⟨p, r, i⟩ ≠ edge ⟨p, r, i'⟩ := by
  have h1 : complex ⟨r, i⟩ ≠ complex ⟨r, i'⟩ :=
    fun e => C12_distinct h (C12_combine_injective _ e)
  exact ⟨h1, fun e => h1 (C12_combine_injective _ e)⟩

/-- The hash of an edge with weight stored by value is undefined behaviour in C++ if a component is negative and not close
to zero: a negative `double` is converted to an unsigned integer. Such keys occur in the addition caches. -/
theorem C12_negative_undefined {R : Type} [Field R] [LinearOrder R] [IsStrictOrderedRing R] [FloorRing R] {tol re im : R}
    (ht : 0 < tol) (h : re ≤ -tol) : Hash.value tol re im = none := by
  have h1 : re / tol ≤ -1 := by rw [div_le_iff₀ ht]; linarith
  have h2 : round (re / tol) ≤ -1 := by
    rw [round_eq, ← Int.lt_add_one_iff, Int.floor_lt]
    push_cast
    linarith [show (1 : R) / 2 < 1 by norm_num]
  unfold Hash.value toSize
  rw [if_neg (by omega)]
  rfl

/-- It is defined exactly for components that are not negative, up to half the tolerance, and fit into 64 bits in units of the tolerance. -/
theorem C12_value_defined {R : Type} [Field R] [LinearOrder R] [IsStrictOrderedRing R] [FloorRing R] {tol re im : R} (ht : 0 < tol) :
    (Hash.value tol re im).isSome ↔ (-tol / 2 ≤ re ∧ re < (2 ^ 64 - 1 / 2) * tol) ∧ -tol / 2 ≤ im ∧ im < (2 ^ 64 - 1 / 2) * tol := by
  have key : ∀ x : R, (toSize (round (x / tol))).isSome ↔ -tol / 2 ≤ x ∧ x < (2 ^ 64 - 1 / 2) * tol := by
    intro x
    have h1 : 0 ≤ round (x / tol) ↔ -tol / 2 ≤ x := by
      rw [round_eq, Int.le_floor, Int.cast_zero]
      have : 0 ≤ x / tol + 1 / 2 ↔ -(1 / 2) ≤ x / tol := by constructor <;> intro h <;> linarith
      rw [this, le_div_iff₀ ht]
      constructor <;> intro h <;> linarith
    have h2 : round (x / tol) < 2 ^ 64 ↔ x < (2 ^ 64 - 1 / 2) * tol := by
      rw [round_eq, Int.floor_lt]
      push_cast
      rw [← div_lt_iff₀ ht]
      constructor <;> intro h <;> linarith
    unfold toSize
    rw [← h1, ← h2]
    split_ifs with h
    · simpa using h
    · simpa using h
  rw [← key re, ← key im]
  unfold Hash.value
  cases toSize (round (re / tol)) <;> cases toSize (round (im / tol)) <;> simp

/-- All gates with a control on qubit 0 share one bucket of the table of Toffoli gates. -/
theorem C12_toffoli_zero {nb : Nat} {cs : List (BitVec 64 × Bool)} {c : BitVec 64 × Bool} (hc : c ∈ cs) (h : c.1 = 0#64) (t : BitVec 64) :
    toffoliTable nb cs t = 0 := by
  have z : ∀ cs : List (BitVec 64 × Bool), cs.foldl (fun key c => key * ((if c.2 then 29#64 else 71#64) * c.1)) 0#64 = 0#64 := by
    intro cs
    induction cs with
    | nil => rfl
    | cons d cs ih => rw [List.foldl_cons, BitVec.zero_mul, ih]
  have : ∀ t : BitVec 64, cs.foldl (fun key c => key * ((if c.2 then 29#64 else 71#64) * c.1)) t = 0#64 := by
    induction cs with
    | nil => cases hc
    | cons d cs ih =>
      intro t
      rw [List.foldl_cons]
      rcases List.mem_cons.1 hc with rfl | hc
      · rw [h, BitVec.mul_zero, BitVec.mul_zero, z]
      · exact ih hc _
  unfold toffoliTable index
  rw [this, BitVec.zero_and]
  rfl

namespace Ex

/-- The bucket counts of the package meet the hypotheses of `C12_range`. -/
example : (0 < 32768 ∧ 32768 < 2 ^ 64) ∧ (0 < 1 ∧ 1 < 2 ^ 64) ∧ computeTable 16384 0x1234#64 0xffffffffffffffff#64 < 16384 := by
  decide

example : murmur64 1#64 = 0xb456bcfc34c2cb2c#64 := by decide

end Ex
end DD
