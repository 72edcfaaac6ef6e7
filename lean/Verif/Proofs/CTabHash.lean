import Verif.Model.ComplexTable
import Mathlib.Tactic.Linarith
import Mathlib.Tactic.Positivity
import Mathlib.Tactic.Push
import Mathlib.Tactic.Ring
import Mathlib.Tactic.NormNum

/-! # Rounding and bucket indices -/

namespace DD

variable {R : Type} [Field R] [LinearOrder R] [IsStrictOrderedRing R] [FloorRing R]

theorem nearbyint_le (x : R) : (nearbyint x : R) ≤ x + 1 / 2 := by
  unfold nearbyint
  have h1 := Int.floor_le x
  have h2 := Int.lt_floor_add_one x
  dsimp only
  split_ifs <;> push_cast <;> linarith

theorem le_nearbyint (x : R) : x - 1 / 2 ≤ (nearbyint x : R) := by
  unfold nearbyint
  have h1 := Int.floor_le x
  have h2 := Int.lt_floor_add_one x
  dsimp only
  split_ifs <;> push_cast <;> linarith

theorem nearbyint_mono {x y : R} (h : x ≤ y) : nearbyint x ≤ nearbyint y := by
  have hf : ⌊x⌋ ≤ ⌊y⌋ := Int.floor_mono h
  have h1 := Int.floor_le x
  have h2 := Int.lt_floor_add_one x
  have h3 := Int.floor_le y
  have h4 := Int.lt_floor_add_one y
  rcases hf.lt_or_eq with hlt | heq
  · have hx : nearbyint x ≤ ⌊x⌋ + 1 := by
      unfold nearbyint; dsimp only; split_ifs <;> omega
    have hy : ⌊y⌋ ≤ nearbyint y := by
      unfold nearbyint; dsimp only; split_ifs <;> omega
    omega
  · unfold nearbyint
    dsimp only
    rw [← heq] at h3 h4 ⊢
    split_ifs <;> first | omega | (exfalso; linarith)

theorem nearbyint_nonneg {x : R} (h : 0 ≤ x) : 0 ≤ nearbyint x := by
  have h1 := le_nearbyint x
  have : (-1 : R) < (nearbyint x : R) := by linarith [show (1:R)/2 < 1 by norm_num]
  have : (-1 : Int) < nearbyint x := by exact_mod_cast this
  omega

theorem nearbyint_step {x y : R} (h : y - x < 1) : nearbyint y ≤ nearbyint x + 1 := by
  have h1 := nearbyint_le y
  have h2 := le_nearbyint x
  have : (nearbyint y : R) < nearbyint x + 2 := by linarith
  have : nearbyint y < nearbyint x + 2 := by exact_mod_cast this
  omega

namespace CTab

theorem hash_mono (C : CCfg R) {x y : R} (h : x ≤ y) : hash C x ≤ hash C y := by
  unfold hash
  apply min_le_min _ le_rfl
  apply nearbyint_mono
  exact mul_le_mul_of_nonneg_right h (by positivity)

theorem hash_nonneg (C : CCfg R) {x : R} (h : 0 ≤ x) : 0 ≤ hash C x := by
  unfold hash
  apply le_min
  · exact nearbyint_nonneg (by positivity)
  · positivity

theorem hash_le (C : CCfg R) (x : R) : hash C x ≤ mask C := min_le_right _ _

theorem hash_toNat_lt (C : CCfg R) (hnb : 0 < C.nb) {x : R} (h : 0 ≤ x) : (hash C x).toNat < C.nb := by
  have h1 := hash_nonneg C h
  have h2 := hash_le C x
  unfold mask at h2
  omega

theorem hash_step (C : CCfg R) {x y : R} (h : (y - x) * (mask C : R) < 1) : hash C y ≤ hash C x + 1 := by
  unfold hash
  have := nearbyint_step (x := x * (mask C : R)) (y := y * (mask C : R)) (by linarith)
  omega

end CTab
end DD
