import Verif.Model.Derived
import Verif.Proofs.Use

/-! # Derived functions -/

namespace DD

variable {R : Type} [Field R] [LinearOrder R] [IsStrictOrderedRing R] [HasSqrt R] [LawfulSqrt R]

theorem sqrt_mul_sqrt {x y : R} (hx : 0 ≤ x) (hy : 0 ≤ y) :
    (HasSqrt.sqrt (x * y) : R) = HasSqrt.sqrt x * HasSqrt.sqrt y := by
  have h1 := LawfulSqrt.mul_self (x * y) (mul_nonneg hx hy)
  have h2 := LawfulSqrt.mul_self x hx
  have h3 := LawfulSqrt.mul_self y hy
  have h4 := LawfulSqrt.nonneg (x * y)
  have h5 := mul_nonneg (LawfulSqrt.nonneg x) (LawfulSqrt.nonneg y)
  refine (mul_self_inj h4 h5).1 ?_
  rw [h1]; linear_combination (-(HasSqrt.sqrt y * HasSqrt.sqrt y)) * h2 - x * h3

theorem sqrt_zero' : (HasSqrt.sqrt 0 : R) = 0 := mul_self_eq_zero.1 (LawfulSqrt.mul_self 0 le_rfl)

theorem mag_mul (a b : Cx R) : Pkg.mag (a * b) = Pkg.mag a * Pkg.mag b := by
  unfold Pkg.mag; rw [Cx.mag2_mul, sqrt_mul_sqrt (Cx.mag2_nonneg a) (Cx.mag2_nonneg b)]

theorem mag_zero : Pkg.mag (0 : Cx R) = 0 := by unfold Pkg.mag; rw [Cx.mag2_zero, sqrt_zero']

theorem fidOutF_spec {t : UTable (Cx R) 2} (hc : Children t) (probs : Nat → Option R) : ∀ (l : Nat) (e : PEdge R) (b : Nat),
    Valid t l e →
    Pkg.fidOutF t probs l e (b * 2 ^ l) = ∑ d, Pkg.mag (amp t l e d) * rootProb probs (b * 2 ^ l + bitIdx d) := by
  intro l
  induction l with
  | zero =>
    intro e b _
    rw [sum_zero]
    unfold Pkg.fidOutF rootProb
    have : bitIdx (Fin.elim0 : Fin 0 → Fin 2) = 0 := by simp [bitIdx]
    rw [this, amp_zero, add_zero]
    cases probs (b * 2 ^ 0) <;> simp
  | succ l ih =>
    intro e b hv
    unfold Pkg.fidOutF
    cases hp : e.p with
    | none =>
      rw [valid_none hp] at hv
      have hw : e.w = 0 := by
        rcases hv with hv | hv
        · omega
        · exact hv
      have h1 : ∑ d, Pkg.mag (amp t (l + 1) e d) * rootProb probs (b * 2 ^ (l + 1) + bitIdx d) = 0 :=
        Finset.sum_eq_zero (fun d _ => by rw [amp_w_zero hw, mag_zero, zero_mul])
      rw [h1]
      dsimp only
      rw [hw, mag_zero]
      cases probs (b * 2 ^ (l + 1)) <;> simp
    | some a =>
      obtain ⟨v1, v2, v3⟩ := (valid_some hp).1 hv
      have hva : (t.mem a).v = l := by omega
      have hch : ∀ j, Valid t l ((t.mem a).e j) := fun j => by have := hc a v1 j; rwa [hva] at this
      dsimp only
      have part : ∀ (j : Fin 2) (c : Nat), c * 2 ^ l = b * 2 ^ (l + 1) + j * 2 ^ l →
          (if ((t.mem a).e j).w = 0 then 0 else Pkg.fidOutF t probs l ((t.mem a).e j) (c * 2 ^ l)) =
          ∑ d, Pkg.mag (amp t l ((t.mem a).e j) d) * rootProb probs (b * 2 ^ (l + 1) + (bitIdx d + j * 2 ^ l)) := by
        intro j c hcj
        by_cases hz : ((t.mem a).e j).w = 0
        · rw [if_pos hz]
          exact (Finset.sum_eq_zero (fun d _ => by rw [amp_w_zero hz, mag_zero, zero_mul])).symm
        · rw [if_neg hz, ih _ _ (hch j), hcj]
          refine Finset.sum_congr rfl (fun d _ => ?_)
          congr 2; ring
      rw [hva, or_pow]
      have e0 : b * 2 ^ (l + 1) = (2 * b) * 2 ^ l := by ring
      have e1 : b * 2 ^ (l + 1) + 2 ^ l = (2 * b + 1) * 2 ^ l := by ring
      have p0 := part 0 (2 * b) (by simp; ring)
      have p1 := part 1 (2 * b + 1) (by simp; ring)
      rw [← e0] at p0
      rw [← e1] at p1
      rw [p0, p1, sum_snoc, Fin.sum_univ_two, mul_add, Finset.mul_sum, Finset.mul_sum]
      congr 1
      all_goals
        refine Finset.sum_congr rfl (fun d _ => ?_)
        rw [amp_snoc hp, mag_mul, bitIdx_snoc, Fin.init_snoc, Fin.snoc_last]
        ring

end DD
