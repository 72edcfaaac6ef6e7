import Verif.Proofs.TextNum

/-! # Text: 17 digits determine a number of double precision -/

namespace DD

theorem rne_of_near {y : ℝ} {k : ℤ} (h : |y - k| < 1 / 2) : rne y = k := by
  have h1 := rne_near y
  have h2 : |((rne y - k : ℤ) : ℝ)| < 1 := by
    push_cast
    calc |(rne y : ℝ) - k| = |((rne y : ℝ) - y) + (y - k)| := by ring_nf
      _ ≤ |(rne y : ℝ) - y| + |y - k| := abs_add_le _ _
      _ < 1 := by linarith
  have h3 : |rne y - k| < 1 := by exact_mod_cast h2
  have := Int.abs_lt_one_iff.1 h3
  omega

theorem ieee_of_near {d x : ℝ} {k : ℤ} (hx : x = k * 2 ^ ulpExp d) (h : |d - x| < 1 / 2 * 2 ^ ulpExp d) : ieee d = x := by
  have hp := two_zpow_pos (ulpExp d)
  have : rne (d / 2 ^ ulpExp d) = k := by
    refine rne_of_near ?_
    have e : d / 2 ^ ulpExp d - k = (d - x) / 2 ^ ulpExp d := by rw [hx]; field_simp
    rw [e, abs_div, abs_of_pos hp, div_lt_iff₀ hp]
    exact h
  unfold ieee
  rw [this, hx]

/-- A normal number is the nearest one to every number that differs by less than 0.455 units of the last digit. -/
theorem ieee_recover {x d : ℝ} (hx : ieee x = x) (h0 : (2 : ℝ) ^ (-1022 : ℤ) ≤ x) (hd : |d - x| ≤ 91 / 100 / 2 ^ 54 * x) : ieee d = x := by
  have hpos : 0 < x := lt_of_lt_of_le (two_zpow_pos _) h0
  have l1 := Int.zpow_log_le_self (b := 2) (by norm_num) hpos
  have l2 := Int.lt_zpow_succ_log_self (b := 2) (by norm_num) x
  have hE : -1022 ≤ Int.log 2 x := (Int.zpow_le_iff_le_log (b := 2) (by norm_num) hpos).1 (by exact_mod_cast h0)
  push_cast at l1 l2
  have hu : ulpExp x = Int.log 2 x - 52 := by unfold ulpExp; rw [abs_of_pos hpos]; omega
  set E := Int.log 2 x with hEd
  set k := rne (x / 2 ^ ulpExp x) with hk
  have hxk : x = k * 2 ^ (E - 52) := by rw [← hu]; exact hx.symm
  have p52 : (2 : ℝ) ^ E = 2 ^ 52 * 2 ^ (E - 52) := by
    rw [← zpow_natCast, ← zpow_add₀ (by norm_num)]; congr 1; push_cast; ring
  have p53 : (2 : ℝ) ^ (E + 1) = 2 ^ 53 * 2 ^ (E - 52) := by
    rw [← zpow_natCast, ← zpow_add₀ (by norm_num)]; congr 1; push_cast; ring
  have p1 : (2 : ℝ) ^ (E - 52) = 2 * 2 ^ (E - 53) := by
    have : E - 52 = 1 + (E - 53) := by ring
    rw [this, zpow_add₀ (by norm_num), zpow_one]
  have p51 : (2 : ℝ) ^ (E - 1) = 2 ^ 52 * 2 ^ (E - 53) := by
    rw [← zpow_natCast, ← zpow_add₀ (by norm_num)]; congr 1; push_cast; ring
  have hw := two_zpow_pos (E - 52)
  have hw' := two_zpow_pos (E - 53)
  have k1 : (2 : ℤ) ^ 52 ≤ k := by
    have : (2 : ℝ) ^ 52 ≤ k := by
      rw [p52, hxk] at l1
      exact le_of_mul_le_mul_right l1 hw
    exact_mod_cast this
  have k2 : k < (2 : ℤ) ^ 53 := by
    have : (k : ℝ) < 2 ^ 53 := by
      rw [p53, hxk] at l2
      exact lt_of_mul_lt_mul_right l2 hw.le
    exact_mod_cast this
  have k3 : (k : ℝ) ≤ 2 ^ 53 - 1 := by
    have : k ≤ 2 ^ 53 - 1 := by omega
    exact_mod_cast this
  have hδ : |d - x| ≤ 91 / 200 * 2 ^ (E - 52) := by
    refine hd.trans ?_
    rw [p53] at l2
    have : 91 / 100 / 2 ^ 54 * x ≤ 91 / 100 / 2 ^ 54 * (2 ^ 53 * 2 ^ (E - 52)) := mul_le_mul_of_nonneg_left l2.le (by norm_num)
    refine this.trans (le_of_eq ?_)
    ring
  obtain ⟨a1, a2⟩ := abs_le.1 hδ
  have dpos : 0 < d := by
    have : 0 < 2 ^ 52 * (2 : ℝ) ^ (E - 52) - 91 / 200 * 2 ^ (E - 52) := by nlinarith
    rw [p52] at l1
    linarith
  have dlt : d < 2 ^ (E + 1) := by
    rw [p53]
    have : x ≤ (2 ^ 53 - 1) * 2 ^ (E - 52) := by rw [hxk]; exact mul_le_mul_of_nonneg_right k3 hw.le
    nlinarith
  by_cases hc : (2 : ℝ) ^ E ≤ d
  · have : Int.log 2 d = E := by
      have b1 := (Int.zpow_le_iff_le_log (b := 2) (by norm_num) dpos).1 (by exact_mod_cast hc)
      have b2 := (Int.lt_zpow_iff_log_lt (b := 2) (by norm_num) dpos).1 (by exact_mod_cast dlt)
      omega
    have hud : ulpExp d = E - 52 := by unfold ulpExp; rw [abs_of_pos dpos, this]; omega
    refine ieee_of_near (k := k) (by rw [hud]; exact hxk) ?_
    rw [hud]; linarith
  · have hc := not_le.1 hc
    have kk : k = 2 ^ 52 := by
      have : (k : ℝ) < 2 ^ 52 + 1 := by
        have : (k : ℝ) * 2 ^ (E - 52) < (2 ^ 52 + 1) * 2 ^ (E - 52) := by rw [← hxk]; rw [p52] at hc; linarith
        exact lt_of_mul_lt_mul_right this hw.le
      have : k < 2 ^ 52 + 1 := by exact_mod_cast this
      omega
    have hxE : x = 2 ^ E := by rw [hxk, kk, p52]; norm_num
    have hδ' : |d - x| ≤ 91 / 200 * 2 ^ (E - 53) := by
      refine hd.trans (le_of_eq ?_)
      rw [hxE, p52, p1]; ring
    have dge : (2 : ℝ) ^ (E - 1) ≤ d := by
      obtain ⟨b1, -⟩ := abs_le.1 hδ'
      rw [hxE, p52, p1] at b1
      rw [p51]
      linarith
    have : Int.log 2 d = E - 1 := by
      have b1 := (Int.zpow_le_iff_le_log (b := 2) (by norm_num) dpos).1 (by exact_mod_cast dge)
      have b2 := (Int.lt_zpow_iff_log_lt (b := 2) (by norm_num) dpos).1 (by exact_mod_cast hc)
      omega
    by_cases hs : E = -1022
    · have hud : ulpExp d = E - 52 := by unfold ulpExp; rw [abs_of_pos dpos, this]; omega
      refine ieee_of_near (k := k) (by rw [hud]; exact hxk) ?_
      rw [hud]; linarith
    · have hud : ulpExp d = E - 53 := by unfold ulpExp; rw [abs_of_pos dpos, this]; omega
      refine ieee_of_near (k := 2 ^ 53) ?_ ?_
      · rw [hud, hxE, p52, p1]; push_cast; ring
      · rw [hud]; linarith

theorem decimal_neg {p : Nat} (hp : 1 ≤ p) (x : ℝ) : decimal p (-x) = -decimal p x := by
  by_cases hx : x = 0
  · subst hx; simp [decimal_zero]
  · rw [decimal_eq hp hx, decimal_eq hp (neg_ne_zero.2 hx), abs_neg]
    rcases lt_or_gt_of_ne hx with h | h
    · rw [if_pos h, if_neg (not_lt.2 (neg_nonneg.2 h.le))]; ring
    · rw [if_pos (neg_lt_zero.2 h), if_neg (not_lt.2 h.le)]; ring

/-- Seventeen digits are enough. -/
theorem decimal17 {x : ℝ} (hx : ieee x = x) (h0 : (2 : ℝ) ^ (-1022 : ℤ) ≤ |x|) : ieee (decimal 17 x) = x := by
  have pos : ∀ {x : ℝ}, ieee x = x → (2 : ℝ) ^ (-1022 : ℤ) ≤ x → ieee (decimal 17 x) = x := by
    intro x hx h0
    have hpos : 0 < x := lt_of_lt_of_le (two_zpow_pos _) h0
    refine ieee_recover hx h0 ((decimal_err (by norm_num) x).trans ?_)
    rw [abs_of_pos hpos]
    refine mul_le_mul_of_nonneg_right ?_ hpos.le
    norm_num
  rcases le_total 0 x with h | h
  · rw [abs_of_nonneg h] at h0; exact pos hx h0
  · rw [abs_of_nonpos h] at h0
    have := pos (x := -x) (by rw [ieee_neg, hx]) h0
    rw [decimal_neg (by norm_num), ieee_neg] at this
    linarith

/-- Sixteen are not: the number nearest to 0.1 + 0.2 is written as 0.3. -/
theorem decimal16_false : ∃ x : ℝ, 0 < x ∧ x < 1 ∧ ieee x = x ∧ decimal 16 x = 3 / 10 ∧ ieee (decimal 16 x) ≠ x := by
  have hlog10 : Int.log 10 |(5404319552844596 : ℝ) * 2 ^ (-54 : ℤ)| = -1 := by
    rw [abs_of_pos (by positivity)]
    have hpos : (0 : ℝ) < (5404319552844596 : ℝ) * 2 ^ (-54 : ℤ) := by positivity
    have b1 := (Int.zpow_le_iff_le_log (b := 10) (x := -1) (by norm_num) hpos).1 (by norm_num)
    have b2 := (Int.lt_zpow_iff_log_lt (b := 10) (x := 0) (by norm_num) hpos).1 (by norm_num)
    omega
  have hd : decimal 16 ((5404319552844596 : ℝ) * 2 ^ (-54 : ℤ)) = 3 / 10 := by
    rw [decimal_eq (by norm_num) (by positivity), hlog10, if_neg (not_lt.2 (by positivity)), abs_of_pos (by positivity)]
    rw [rne_of_near (k := 3000000000000000)]
    · norm_num
    · rw [abs_lt]; constructor <;> norm_num
  have hu : ulpExp (3 / 10) = -54 := by
    have hpos : (0 : ℝ) < 3 / 10 := by norm_num
    have b1 := (Int.zpow_le_iff_le_log (b := 2) (x := -2) (by norm_num) hpos).1 (by norm_num)
    have b2 := (Int.lt_zpow_iff_log_lt (b := 2) (x := -1) (by norm_num) hpos).1 (by norm_num)
    unfold ulpExp
    rw [abs_of_pos hpos]
    omega
  refine ⟨(5404319552844596 : ℝ) * 2 ^ (-54 : ℤ), by positivity, by norm_num, ?_, hd, ?_⟩
  · have := ieee_fixed (k := 5404319552844596) (e := -54) (by norm_num) (by norm_num)
    push_cast at this
    exact this
  · rw [hd, ieee_of_near (d := 3 / 10) (x := 5404319552844595 * 2 ^ (-54 : ℤ)) (k := 5404319552844595)]
    · norm_num
    · rw [hu]; push_cast; rfl
    · rw [hu, abs_lt]; constructor <;> norm_num

end DD
