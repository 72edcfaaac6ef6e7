import Verif.Model.Export
import Verif.Proofs.State

/-!
# C54: bit strings
-/

namespace DD

theorem intToString_loop (value : Char) (size m : Nat) : ∀ k ≤ size,
    let r := (List.range k).foldl
      (fun p i => (if p.2 % 2 ≠ 0 then p.1.set (size - (i + 1)) value else p.1, p.2 >>> 1)) (List.replicate size '0', m)
    r.2 = m >>> k ∧ r.1.length = size ∧
      ∀ j, j < size → r.1[j]? = some (if size - (j + 1) < k ∧ m.testBit (size - (j + 1)) then value else '0') := by
  intro k
  induction k with
  | zero =>
    intro _
    refine ⟨by simp, by simp, fun j hj => ?_⟩
    simp [hj]
  | succ k ih =>
    intro hk
    obtain ⟨h1, h2, h3⟩ := ih (by omega)
    dsimp only at h1 h2 h3 ⊢
    rw [List.range_succ, List.foldl_append]
    generalize (List.range k).foldl
      (fun p i => (if p.2 % 2 ≠ 0 then p.1.set (size - (i + 1)) value else p.1, p.2 >>> 1)) (List.replicate size '0', m) = r at h1 h2 h3
    simp only [List.foldl_cons, List.foldl_nil]
    have hb : (r.2 % 2 ≠ 0) ↔ m.testBit k = true := by
      rw [h1, Nat.testBit_eq_decide_div_mod_eq, Nat.shiftRight_eq_div_pow]
      simp
    refine ⟨by rw [h1, Nat.shiftRight_add], ?_, fun j hj => ?_⟩
    · split_ifs <;> simp [h2]
    · by_cases hjk : size - (j + 1) = k
      · have hj2 : size - (k + 1) = j := by omega
        by_cases hm : r.2 % 2 ≠ 0
        · rw [if_pos hm, hj2, List.getElem?_set_self (by omega), hjk, if_pos ⟨by omega, hb.1 hm⟩]
        · rw [if_neg hm, h3 j hj, hjk, if_neg (by omega), if_neg]
          intro h; exact hm (hb.2 h.2)
      · have h4 : size - (k + 1) ≠ j := by omega
        have h5 : (if r.2 % 2 ≠ 0 then r.1.set (size - (k + 1)) value else r.1)[j]? = r.1[j]? := by
          by_cases hm : r.2 % 2 ≠ 0
          · rw [if_pos hm, List.getElem?_set_ne h4]
          · rw [if_neg hm]
        rw [h5, h3 j hj]
        congr 1
        have : size - (j + 1) < k + 1 ↔ size - (j + 1) < k := by omega
        simp only [this]

/-- The string has `size` characters, and the character at position `j` is `value` exactly if bit `size - 1 - j` of `m` is
one and '0' otherwise: the highest of the `size` bits comes first. -/
theorem C54_bits (m : Nat) (value : Char) (size : Nat) :
    (intToString m value size).length = size ∧
    ∀ j, j < size → (intToString m value size)[j]? = some (if m.testBit (size - 1 - j) then value else '0') := by
  have := intToString_loop value size m size le_rfl
  refine ⟨this.2.1, fun j hj => ?_⟩
  have h := this.2.2 j hj
  rw [show size - (j + 1) = size - 1 - j by omega] at h
  refine h.trans ?_
  congr 1
  have : size - 1 - j < size := by omega
  simp [this]

/-- Distinct numbers below `2 ^ size` have distinct strings. -/
theorem C54_injective {m m' size : Nat} {value : Char} (hv : value ≠ '0') (h : m < 2 ^ size) (h' : m' < 2 ^ size)
    (he : intToString m value size = intToString m' value size) : m = m' := by
  apply Nat.eq_of_testBit_eq
  intro i
  by_cases hi : i < size
  · have h1 := (C54_bits m value size).2 (size - 1 - i) (by omega)
    have h2 := (C54_bits m' value size).2 (size - 1 - i) (by omega)
    rw [he, h2, show size - 1 - (size - 1 - i) = i by omega] at h1
    simp only [Option.some.injEq] at h1
    cases hm : m.testBit i <;> cases hm' : m'.testBit i <;> simp [hm, hm'] at h1 ⊢
    · exact hv h1
    · exact hv h1.symm
  · rw [Nat.testBit_lt_two_pow (lt_of_lt_of_le h (Nat.pow_le_pow_right (by omega) (by omega))),
      Nat.testBit_lt_two_pow (lt_of_lt_of_le h' (Nat.pow_le_pow_right (by omega) (by omega)))]

/-- Higher bits are ignored. -/
theorem C54_low_bits (m : Nat) (value : Char) (size : Nat) :
    intToString (m % 2 ^ size) value size = intToString m value size := by
  apply List.ext_getElem?
  intro j
  by_cases hj : j < size
  · rw [(C54_bits _ value size).2 j hj, (C54_bits _ value size).2 j hj, Nat.testBit_mod_two_pow]
    have : size - 1 - j < size := by omega
    simp [this]
  · rw [List.getElem?_eq_none (by rw [(C54_bits _ _ _).1]; omega), List.getElem?_eq_none (by rw [(C54_bits _ _ _).1]; omega)]

/-- Every string of `size` characters '0' and '1' is the string of a number below `2 ^ size`. -/
theorem C54_surjective {size : Nat} {s : List Char} (hs : s.length = size) (hc : ∀ c ∈ s, c = '0' ∨ c = '1') :
    ∃ m < 2 ^ size, intToString m '1' size = s := by
  let d : Fin size → Fin 2 := fun i => if s[size - 1 - i.val]? = some '1' then 1 else 0
  refine ⟨bitIdx d, bitIdx_lt d, ?_⟩
  apply List.ext_getElem?
  intro j
  by_cases hj : j < size
  · rw [(C54_bits _ _ size).2 j hj]
    have h1 : (bitIdx d).testBit (size - 1 - j) = decide (s[j]? = some '1') := by
      have h2 := congrFun (bitsOf_bitIdx d) ⟨size - 1 - j, by omega⟩
      unfold bitsOf at h2
      dsimp only at h2
      have h3 : d ⟨size - 1 - j, by omega⟩ = if s[j]? = some '1' then 1 else 0 := by
        simp only [d, show size - 1 - (size - 1 - j) = j by omega]
      rw [h3] at h2
      generalize (bitIdx d).testBit (size - 1 - j) = b at h2 ⊢
      cases b <;> by_cases hx : s[j]? = some '1' <;> simp [hx] at h2 ⊢
    rw [h1]
    have h3 : s[j]? = some s[j] := List.getElem?_eq_getElem (by omega)
    rcases hc s[j] (List.getElem_mem _) with h | h
    · rw [h3, h]; simp
    · rw [h3, h]; simp
  · rw [List.getElem?_eq_none (by rw [(C54_bits _ _ _).1]; omega), List.getElem?_eq_none (by omega)]

end DD

namespace DD.Ex

example : intToString 6 '1' 4 = ['0', '1', '1', '0'] := by decide +kernel
example : (6 : Nat) < 2 ^ 4 ∧ (3 : Nat) < 2 ^ 4 ∧ intToString 6 '1' 4 ≠ intToString 3 '1' 4 := by decide +kernel

end DD.Ex
