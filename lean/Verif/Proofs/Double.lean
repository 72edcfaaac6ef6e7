import Verif.Model.Double
import Mathlib.Tactic.Linarith
import Mathlib.Tactic.Positivity
import Mathlib.Tactic.NormNum
import Mathlib.Tactic.FieldSimp
import Mathlib.Algebra.Order.Round

/-! # Rounding to double precision -/

namespace DD

theorem rne_int (n : ℤ) : rne n = n := by simp [rne]

theorem rne_near (x : ℝ) : |(rne x : ℝ) - x| ≤ 1 / 2 := by
  have h0 := Int.fract_nonneg x
  have h1 := Int.fract_lt_one x
  have h2 := Int.floor_add_fract x
  unfold rne
  rw [abs_le]
  split_ifs <;> push_cast <;> constructor <;> linarith

theorem rne_lo (x : ℝ) : ⌊x⌋ ≤ rne x := by
  unfold rne
  split_ifs <;> omega

theorem rne_hi (x : ℝ) : rne x ≤ ⌊x⌋ + 1 := by
  unfold rne
  split_ifs <;> omega

theorem rne_mono : Monotone rne := by
  intro x y h
  have hf := Int.floor_le_floor h
  rcases lt_or_eq_of_le hf with h1 | h1
  · have := rne_hi x
    have := rne_lo y
    omega
  · have h2 := Int.floor_add_fract x
    have h3 := Int.floor_add_fract y
    rw [h1] at h2
    unfold rne
    rw [h1]
    split_ifs <;> first | omega | (exfalso; linarith) | (exfalso; tauto) | skip

theorem rne_neg (x : ℝ) : rne (-x) = -rne x := by
  by_cases hx : Int.fract x = 0
  · have h2 := Int.floor_add_fract x
    rw [hx, add_zero] at h2
    rw [← h2, ← Int.cast_neg, rne_int, rne_int]
  · have h1 := Int.fract_neg hx
    have h3 : ⌊-x⌋ = -⌊x⌋ - 1 := by
      have e1 := Int.floor_add_fract x
      have e2 := Int.floor_add_fract (-x)
      rw [h1] at e2
      have : ((⌊-x⌋ : ℤ) : ℝ) = ((-⌊x⌋ - 1 : ℤ) : ℝ) := by push_cast; linarith
      exact_mod_cast this
    have h4 : Even (-⌊x⌋ - 1) ↔ ¬ Even ⌊x⌋ := by
      rw [Int.even_sub_one, even_neg]
    unfold rne
    rw [h1, h3]
    simp only [h4]
    split_ifs <;> first | omega | (exfalso; linarith) | (exfalso; tauto) | skip

theorem two_zpow_pos (e : ℤ) : (0 : ℝ) < 2 ^ e := zpow_pos (by norm_num) e

theorem ulpExp_neg (x : ℝ) : ulpExp (-x) = ulpExp x := by unfold ulpExp; rw [abs_neg]

theorem ieee_neg (x : ℝ) : ieee (-x) = -ieee x := by
  unfold ieee
  rw [ulpExp_neg, neg_div, rne_neg]
  push_cast
  ring

theorem ieee_zero : ieee 0 = 0 := by
  have : rne (0 : ℝ) = 0 := by simpa using rne_int 0
  unfold ieee
  rw [zero_div, this]
  simp

theorem ieee_nonneg {x : ℝ} (h : 0 ≤ x) : 0 ≤ ieee x := by
  have h0 : rne (0 : ℝ) = 0 := by simpa using rne_int 0
  have h1 := rne_mono (div_nonneg h (two_zpow_pos (ulpExp x)).le)
  rw [h0] at h1
  have : (0 : ℝ) ≤ rne (x / 2 ^ ulpExp x) := by exact_mod_cast h1
  exact mul_nonneg this (two_zpow_pos _).le

/-- A whole multiple of the unit is rounded monotonically. -/
theorem ieee_le_mul {x : ℝ} {k : ℤ} (h : x ≤ k * 2 ^ ulpExp x) : ieee x ≤ k * 2 ^ ulpExp x := by
  have h1 : x / 2 ^ ulpExp x ≤ k := by rwa [div_le_iff₀ (two_zpow_pos _)]
  have h2 := rne_mono h1
  rw [rne_int] at h2
  have h3 : (rne (x / 2 ^ ulpExp x) : ℝ) ≤ k := by exact_mod_cast h2
  exact mul_le_mul_of_nonneg_right h3 (two_zpow_pos _).le

theorem mul_le_ieee {x : ℝ} {k : ℤ} (h : k * 2 ^ ulpExp x ≤ x) : k * 2 ^ ulpExp x ≤ ieee x := by
  have h1 : (k : ℝ) ≤ x / 2 ^ ulpExp x := by rwa [le_div_iff₀ (two_zpow_pos _)]
  have h2 := rne_mono h1
  rw [rne_int] at h2
  have h3 : (k : ℝ) ≤ rne (x / 2 ^ ulpExp x) := by exact_mod_cast h2
  exact mul_le_mul_of_nonneg_right h3 (two_zpow_pos _).le

theorem pow_split {a b : ℤ} (h : b ≤ a) : (2 : ℝ) ^ a = ((2 ^ (a - b).toNat : ℤ) : ℝ) * 2 ^ b := by
  push_cast
  rw [← zpow_natCast, ← zpow_add₀ (by norm_num)]
  congr 1
  omega

theorem ieee_mono_pos {x y : ℝ} (hx : 0 < x) (h : x ≤ y) : ieee x ≤ ieee y := by
  have hy : 0 < y := hx.trans_le h
  have hl : Int.log 2 |x| ≤ Int.log 2 |y| := by
    rw [abs_of_pos hx, abs_of_pos hy]
    exact Int.log_mono_right hx h
  have he : ulpExp x ≤ ulpExp y := max_le_max (by omega) le_rfl
  rcases lt_or_eq_of_le he with h1 | h1
  · have h2 : ulpExp y = Int.log 2 |y| - 52 := by unfold ulpExp at h1 ⊢; omega
    have h3 : Int.log 2 |x| < Int.log 2 |y| := by unfold ulpExp at h1; omega
    have h4 : ulpExp x ≤ Int.log 2 |y| := by omega
    have p1 : (2 : ℝ) ^ Int.log 2 |y| ≤ y := by
      rw [abs_of_pos hy]; exact_mod_cast Int.zpow_log_le_self (b := 2) (by norm_num) hy
    have p2 : x ≤ (2 : ℝ) ^ Int.log 2 |y| := by
      have a1 : x < (2 : ℝ) ^ (Int.log 2 |x| + 1) := by
        rw [abs_of_pos hx]; exact_mod_cast Int.lt_zpow_succ_log_self (b := 2) (by norm_num) x
      exact a1.le.trans (zpow_le_zpow_right₀ (by norm_num) (by omega))
    refine le_trans (b := (2 : ℝ) ^ Int.log 2 |y|) ?_ ?_
    · rw [pow_split h4] at p2 ⊢
      exact ieee_le_mul p2
    · rw [pow_split (b := ulpExp y) (by omega)] at p1 ⊢
      exact mul_le_ieee p1
  · unfold ieee
    rw [h1]
    refine mul_le_mul_of_nonneg_right ?_ (two_zpow_pos _).le
    exact_mod_cast rne_mono (div_le_div_of_nonneg_right h (two_zpow_pos _).le)

/-- Rounding is monotone. -/
theorem ieee_mono : Monotone ieee := by
  intro x y h
  rcases lt_trichotomy x 0 with hx | hx | hx
  · rcases lt_or_ge y 0 with hy | hy
    · have := ieee_mono_pos (neg_pos.2 hy) (neg_le_neg h)
      rw [ieee_neg, ieee_neg] at this
      linarith
    · have := ieee_nonneg (neg_nonneg.2 hx.le)
      rw [ieee_neg] at this
      linarith [ieee_nonneg hy]
  · rw [hx, ieee_zero]
    exact ieee_nonneg (by linarith)
  · exact ieee_mono_pos hx h

/-- Numbers with at most 53 digits are not changed. -/
theorem ieee_fixed {k e : ℤ} (he : -1074 ≤ e) (hk : |k| < 2 ^ 53) : ieee ((k : ℝ) * 2 ^ e) = k * 2 ^ e := by
  by_cases h0 : k = 0
  · rw [h0]; simp [ieee_zero]
  have hv : (0 : ℝ) < |(k : ℝ) * 2 ^ e| := abs_pos.2 (mul_ne_zero (by exact_mod_cast h0) (two_zpow_pos e).ne')
  have h1 : |(k : ℝ) * 2 ^ e| < ((2 : ℕ) : ℝ) ^ (53 + e) := by
    rw [abs_mul, abs_of_pos (two_zpow_pos e), zpow_add₀ (by norm_num)]
    refine mul_lt_mul_of_pos_right ?_ (two_zpow_pos e)
    have : ((|k| : ℤ) : ℝ) < ((2 ^ 53 : ℤ) : ℝ) := by exact_mod_cast hk
    rw [Int.cast_abs] at this
    refine this.trans_le (le_of_eq ?_)
    push_cast
    norm_cast
  have h2 : Int.log 2 |(k : ℝ) * 2 ^ e| < 53 + e := (Int.lt_zpow_iff_log_lt (by norm_num) hv).1 h1
  have h3 : ulpExp ((k : ℝ) * 2 ^ e) ≤ e := by unfold ulpExp; omega
  unfold ieee
  generalize ulpExp ((k : ℝ) * 2 ^ e) = u at h3
  have h4 : (k : ℝ) * 2 ^ e / 2 ^ u = ((k * 2 ^ (e - u).toNat : ℤ) : ℝ) := by
    rw [div_eq_iff (two_zpow_pos u).ne', pow_split h3]
    push_cast
    ring
  rw [h4, rne_int, ← h4, div_mul_cancel₀ _ (two_zpow_pos u).ne']

theorem ieee_one : ieee 1 = 1 := by
  have := ieee_fixed (k := 1) (e := 0) (by norm_num) (by norm_num)
  simpa using this

theorem ulp_bound {x : ℝ} (hx : x ≠ 0) : |x| ≤ 2 ^ 53 * 2 ^ ulpExp x := by
  have h1 : |x| < ((2 : ℕ) : ℝ) ^ (Int.log 2 |x| + 1) := Int.lt_zpow_succ_log_self (by norm_num) _
  refine h1.le.trans ?_
  have : ((2 : ℝ) ^ 53 * 2 ^ ulpExp x) = 2 ^ (53 + ulpExp x) := by
    rw [zpow_add₀ (by norm_num)]; norm_cast
  rw [this]
  exact_mod_cast zpow_le_zpow_right₀ (by norm_num : (1 : ℝ) ≤ 2) (by unfold ulpExp; omega)

/-- What has been rounded is not changed by rounding. -/
theorem ieee_idem (x : ℝ) : ieee (ieee x) = ieee x := by
  by_cases hx : x = 0
  · rw [hx, ieee_zero, ieee_zero]
  have he : -1074 ≤ ulpExp x := le_max_right _ _
  have hb := ulp_bound hx
  rw [abs_le] at hb
  have h1 : rne (x / 2 ^ ulpExp x) ≤ 2 ^ 53 := by
    have a : x / 2 ^ ulpExp x ≤ ((2 ^ 53 : ℤ) : ℝ) := by
      rw [div_le_iff₀ (two_zpow_pos _)]; push_cast; linarith [hb.2]
    have := rne_mono a
    rwa [rne_int] at this
  have h2 : -2 ^ 53 ≤ rne (x / 2 ^ ulpExp x) := by
    have a : ((-2 ^ 53 : ℤ) : ℝ) ≤ x / 2 ^ ulpExp x := by
      rw [le_div_iff₀ (two_zpow_pos _)]; push_cast; linarith [hb.1]
    have := rne_mono a
    rwa [rne_int] at this
  have e0 : ieee x = rne (x / 2 ^ ulpExp x) * 2 ^ ulpExp x := rfl
  rw [e0]
  generalize rne (x / 2 ^ ulpExp x) = k at h1 h2
  generalize ulpExp x = e at he
  rcases lt_or_eq_of_le (abs_le.2 ⟨h2, h1⟩) with h | h
  · exact ieee_fixed he h
  · have hs : ∀ σ : ℤ, |σ| = 1 → ieee (((σ * 2 ^ 53 : ℤ) : ℝ) * 2 ^ e) = ((σ * 2 ^ 53 : ℤ) : ℝ) * 2 ^ e := by
      intro σ hσ
      have e1 : ((σ * 2 ^ 53 : ℤ) : ℝ) * 2 ^ e = ((σ * 2 ^ 52 : ℤ) : ℝ) * 2 ^ (e + 1) := by
        rw [zpow_add₀ (by norm_num)]; push_cast; ring
      rw [e1]
      exact ieee_fixed (by omega) (by rw [abs_mul, hσ]; norm_num)
    rcases (abs_eq (by norm_num)).1 h with h | h
    · rw [h]; simpa using hs 1 (by norm_num)
    · rw [h]; simpa using hs (-1) (by norm_num)

/-- The error of rounding. -/
theorem ieee_err (x : ℝ) : |ieee x - x| ≤ 1 / 2 ^ 53 * |x| + 1 / 2 ^ 1075 := by
  by_cases hx : x = 0
  · rw [hx, ieee_zero]; simp
  have h1 := rne_near (x / 2 ^ ulpExp x)
  have e1 : ieee x - x = (rne (x / 2 ^ ulpExp x) - x / 2 ^ ulpExp x) * 2 ^ ulpExp x := by
    rw [sub_mul, div_mul_cancel₀ _ (two_zpow_pos _).ne']; rfl
  have h2 : |ieee x - x| ≤ 1 / 2 * 2 ^ ulpExp x := by
    rw [e1, abs_mul, abs_of_pos (two_zpow_pos (ulpExp x))]
    exact mul_le_mul_of_nonneg_right h1 (two_zpow_pos _).le
  refine h2.trans ?_
  have p0 : (0 : ℝ) < |x| := abs_pos.2 hx
  rcases le_total (Int.log 2 |x| - 52) (-1074) with h | h
  · have : ulpExp x = -1074 := max_eq_right h
    rw [this]
    have : (1 : ℝ) / 2 * 2 ^ (-1074 : ℤ) = 1 / 2 ^ 1075 := by
      have e2 : (2 : ℝ) ^ (-1074 : ℤ) = 1 / 2 ^ 1074 := by rw [zpow_neg, one_div]; norm_cast
      rw [e2, div_mul_div_comm, one_mul, ← pow_succ']
    rw [this]
    have : 0 ≤ 1 / 2 ^ 53 * |x| := by positivity
    linarith
  · have : ulpExp x = Int.log 2 |x| - 52 := max_eq_left h
    rw [this, zpow_sub₀ (by norm_num)]
    have h3 : (2 : ℝ) ^ Int.log 2 |x| ≤ |x| := by exact_mod_cast Int.zpow_log_le_self (b := 2) (by norm_num) p0
    have h4 : (0 : ℝ) ≤ 1 / 2 ^ 1075 := by positivity
    have h5 : (1 : ℝ) / 2 * (2 ^ Int.log 2 |x| / 2 ^ (52 : ℤ)) = 1 / 2 ^ 53 * 2 ^ Int.log 2 |x| := by
      norm_cast
      ring
    rw [h5]
    have := mul_le_mul_of_nonneg_left h3 (by positivity : (0 : ℝ) ≤ 1 / 2 ^ 53)
    linarith

end DD
