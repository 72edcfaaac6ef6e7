import Verif.Proofs.ApproxMulAcc

/-! # Accuracy of inner products with a tolerance -/

namespace DD

open Pkg UTable JState

variable {R : Type} [Field R] [LinearOrder R] [IsStrictOrderedRing R] [FloorRing R] {J : JCfg R} {τ : R}
variable {s s' s'' : JState R} [HasSqrt R] [LawfulSqrt R]

section numbers

theorem mag_sum {ι : Type} (S : Finset ι) (f : ι → Cx R) : mag (∑ i ∈ S, f i) ≤ ∑ i ∈ S, mag (f i) := by
  classical
  induction S using Finset.induction_on with
  | empty => rw [Finset.sum_empty, Finset.sum_empty, mag_zero]
  | insert a S ha ih =>
    rw [Finset.sum_insert ha, Finset.sum_insert ha]
    exact (mag_add _ _).trans (add_le_add_right ih _)

theorem mag_conj (z : Cx R) : mag z.conj = mag z := by unfold Pkg.mag; rw [Cx.mag2_conj]

/-- The inequality of Cauchy and Schwarz. -/
theorem inner_le {l : Nat} (f g : (Fin l → Fin 2) → Cx R) : mag (∑ d, (f d).conj * g d) ≤ vnorm f * vnorm g := by
  refine (mag_sum _ _).trans ?_
  refine le_of_sq (mul_nonneg (vnorm_nonneg _) (vnorm_nonneg _)) ?_
  have h1 := Finset.sum_mul_sq_le_sq_mul_sq Finset.univ (fun d => mag (f d)) (fun d => mag (g d))
  have e1 : ∀ d, mag ((f d).conj * g d) = mag (f d) * mag (g d) := fun d => by rw [mag_mul, mag_conj]
  have e2 : ∀ h : (Fin l → Fin 2) → Cx R, ∑ d, mag (h d) ^ 2 = vnorm h * vnorm h := fun h => by
    rw [vnorm_sq]
    exact Finset.sum_congr rfl fun d _ => by rw [sq, mag_sq]
  simp only [e1]
  rw [e2, e2] at h1
  calc _ = (∑ d, mag (f d) * mag (g d)) ^ 2 := by ring
    _ ≤ _ := h1
    _ = _ := by ring

/-- The error of a product, in one formula. -/
theorem mulV_err3 {t : CTab R} {fl : R → R} (hr : RndOk fl t.tol) (a b : Cx R) :
    mag (t.mulV fl a b - a * b) ≤ 3 / 2 * t.tol * (mag a + mag b + mag a * mag b) := by
  have hτ : 0 ≤ t.tol := by obtain ⟨ε, η, hr⟩ := hr; exact hr.pos
  have ha := mag_nonneg a
  have hb := mag_nonneg b
  have hab := mul_nonneg ha hb
  rcases mulV_err hr a b with h | h
  · refine h.trans (mul_le_mul_of_nonneg_left ?_ (by linarith))
    exact max_le (by linarith) (by linarith)
  · have h1 : 1 / 100 * t.tol * (mag a * mag b) ≤ 3 / 2 * t.tol * (mag a * mag b) := mul_le_mul_of_nonneg_right (by linarith) hab
    have h2 : 3 / 2 * t.tol * (mag a * mag b) ≤ 3 / 2 * t.tol * (mag a + mag b + mag a * mag b) :=
      mul_le_mul_of_nonneg_left (by linarith) (by linarith)
    linarith

/-- The error of a sum. -/
theorem addC_err {fl : R → R} {ε η : R} (hr : Rnd fl τ ε η) (a b : Cx R) : mag (addC fl a b - (a + b)) ≤ 3 / 2 * (ε * mag (a + b) + η) := by
  have h0 := mag_nonneg (a + b)
  have h1 : |(a + b).re| ≤ mag (a + b) := by
    refine le_of_sq h0 ?_
    rw [mag_sq, abs_mul_abs_self]
    unfold Cx.mag2
    nlinarith [mul_self_nonneg (a + b).im]
  have h2 : |(a + b).im| ≤ mag (a + b) := by
    refine le_of_sq h0 ?_
    rw [mag_sq, abs_mul_abs_self]
    unfold Cx.mag2
    nlinarith [mul_self_nonneg (a + b).re]
  refine mag_of_comp' (add_nonneg (mul_nonneg hr.nn h0) hr.eta) ?_ ?_
  · refine (hr.err (a.re + b.re)).trans ?_
    have : ε * |a.re + b.re| ≤ ε * mag (a + b) := mul_le_mul_of_nonneg_left h1 hr.nn
    linarith
  · refine (hr.err (a.im + b.im)).trans ?_
    have : ε * |a.im + b.im| ≤ ε * mag (a + b) := mul_le_mul_of_nonneg_left h2 hr.nn
    linarith

/-- What is lost when the weights `a` and `b` are multiplied to a value `V` close to `I`; real numbers only. -/
theorem edge_num {N M C α β v c1 E : R} (hτ : 0 ≤ τ) (hN : 49 / 50 ≤ N) (hM : 49 / 50 ≤ M) (hNC : N ≤ C) (hMC : M ≤ C)
    (hC : 1000 * C * τ ≤ 1) (hα : 0 ≤ α) (hβ : 0 ≤ β) (hv0 : 0 ≤ v) (hv : v ≤ 21 / 20 * (N * M))
    (hc1 : c1 ≤ v * α + 3 / 2 * τ * (v + α + v * α)) (h1C : 1 ≤ C) :
    3 / 2 * τ * (c1 + β + c1 * β) + β * (3 / 2 * τ * (v + α + v * α)) + α * β * (E * (N * M)) ≤
      5 * τ * C * (1 / 1000 + α * N + β * M + α * N * (β * M)) + E * (α * N * (β * M)) := by
  have X0 : 0 ≤ α * N := mul_nonneg hα (by linarith)
  have Y0 : 0 ≤ β * M := mul_nonneg hβ (by linarith)
  have aX' : α ≤ 103 / 100 * (α * N) := by
    have := mul_le_mul_of_nonneg_left hN hα
    linarith
  have bY : β ≤ 103 / 100 * (β * M) := by
    have := mul_le_mul_of_nonneg_left hM hβ
    linarith
  have XY0 : 0 ≤ α * N * (β * M) := mul_nonneg X0 Y0
  have va : v * α ≤ 21 / 20 * (C * (α * N)) := by
    have h1 : v * α ≤ 21 / 20 * (N * M) * α := mul_le_mul_of_nonneg_right hv hα
    have h2 : M * (α * N) ≤ C * (α * N) := mul_le_mul_of_nonneg_right hMC X0
    linarith
  have vb : v * β ≤ 21 / 20 * (C * (β * M)) := by
    have h1 : v * β ≤ 21 / 20 * (N * M) * β := mul_le_mul_of_nonneg_right hv hβ
    have h2 : N * (β * M) ≤ C * (β * M) := mul_le_mul_of_nonneg_right hNC Y0
    linarith
  have vab : v * α * β ≤ 21 / 20 * (α * N * (β * M)) := by
    have h1 : v * (α * β) ≤ 21 / 20 * (N * M) * (α * β) := mul_le_mul_of_nonneg_right hv (mul_nonneg hα hβ)
    linarith
  have ab : α * β ≤ 11 / 10 * (α * N * (β * M)) := by
    have := mul_le_mul aX' bY hβ (by linarith)
    linarith
  have τC : τ * C ≤ 1 / 1000 := by linarith
  have τv : τ * v ≤ 21 / 20 * (C / 1000) := by
    have h1 : N * M ≤ C * C := mul_le_mul hNC hMC (by linarith) (by linarith)
    have h2 : τ * v ≤ τ * (21 / 20 * (C * C)) := mul_le_mul_of_nonneg_left (by linarith) hτ
    have h3 : τ * C * C ≤ 1 / 1000 * C := mul_le_mul_of_nonneg_right τC (by linarith)
    linarith
  have τ1 : τ ≤ 1 / 1000 := by
    have := mul_le_mul_of_nonneg_left h1C hτ
    linarith
  have cX : 0 ≤ C * (α * N) := by positivity
  have cY : 0 ≤ C * (β * M) := by positivity
  have XC : α * N ≤ C * (α * N) := le_mul_of_one_le_left X0 h1C
  have YC : β * M ≤ C * (β * M) := le_mul_of_one_le_left Y0 h1C
  have XYC : α * N * (β * M) ≤ C * (α * N * (β * M)) := le_mul_of_one_le_left XY0 h1C
  have τva : τ * (v * α) ≤ 1 / 1000 * (21 / 20 * (C * (α * N))) := mul_le_mul τ1 va (mul_nonneg hv0 hα) (by norm_num)
  have τα : τ * α ≤ 1 / 1000 * (103 / 100 * (C * (α * N))) := mul_le_mul τ1 (by linarith) hα (by norm_num)
  have c1b : c1 ≤ 53 / 50 * (C * (α * N)) + 1 / 500 * C := by
    have : c1 ≤ v * α + (3 / 2 * (τ * v) + 3 / 2 * (τ * α) + 3 / 2 * (τ * (v * α))) := by linarith
    linarith
  have τvb : τ * (v * β) ≤ 21 / 20 * (β * M) * (1 / 1000) := by
    have h1 := mul_le_mul_of_nonneg_left vb hτ
    have h2 : τ * C * (β * M) ≤ 1 / 1000 * (β * M) := mul_le_mul_of_nonneg_right τC Y0
    linarith
  have τab : τ * (α * β) ≤ 1 / 1000 * (11 / 10 * (α * N * (β * M))) := mul_le_mul τ1 ab (mul_nonneg hα hβ) (by norm_num)
  have τvab : τ * (v * α * β) ≤ 1 / 1000 * (21 / 20 * (α * N * (β * M))) :=
    mul_le_mul τ1 vab (mul_nonneg (mul_nonneg hv0 hα) hβ) (by norm_num)
  have c1β : c1 * β ≤ 53 / 50 * (α * N * (β * M)) + 1 / 500 * (β * M) := by
    have h1 := mul_le_mul_of_nonneg_right hc1 hβ
    have h2 : (v * α + 3 / 2 * τ * (v + α + v * α)) * β = v * α * β + (3 / 2 * (τ * (v * β)) + 3 / 2 * (τ * (α * β)) + 3 / 2 * (τ * (v * α * β))) := by
      ring
    rw [h2] at h1
    linarith
  have s1 : c1 + β + c1 * β ≤ 53 / 50 * (C * (α * N)) + 1 / 500 * C + 104 / 100 * (C * (β * M)) + 53 / 50 * (C * (α * N * (β * M))) := by
    linarith
  have s2 : β * (v + α + v * α) ≤ 21 / 20 * (C * (β * M)) + 22 / 10 * (C * (α * N * (β * M))) := by
    have e : β * (v + α + v * α) = v * β + α * β + v * α * β := by ring
    rw [e]
    linarith
  have t1 := mul_le_mul_of_nonneg_left s1 hτ
  have t2 := mul_le_mul_of_nonneg_left s2 hτ
  have p1 : 0 ≤ τ * (C * (α * N)) := by positivity
  have p2 : 0 ≤ τ * (C * (β * M)) := by positivity
  have p3 : 0 ≤ τ * (C * (α * N * (β * M))) := by positivity
  have p4 : 0 ≤ τ * C := by positivity
  have e : α * β * (E * (N * M)) = E * (α * N * (β * M)) := by ring
  rw [e]
  linarith

/-- What is lost when the weights `a` and `b` are multiplied to a value `V` close to `I`. -/
theorem edge_err {t : CTab R} {fl : R → R} (hr : RndOk fl t.tol) {N M C E : R} {a b V I : Cx R} (hN : 49 / 50 ≤ N) (hM : 49 / 50 ≤ M)
    (hNC : N ≤ C) (hMC : M ≤ C) (h1C : 1 ≤ C) (hC : 1000 * C * t.tol ≤ 1) (hE : E ≤ 1 / 20) (hI : mag I ≤ N * M)
    (hV : mag (V - I) ≤ E * (N * M)) :
    mag (t.mulV fl (t.mulV fl V a) b - a * b * I) ≤
      5 * t.tol * C * (1 / 1000 + mag a * N + mag b * M + mag a * N * (mag b * M)) + E * (mag a * N * (mag b * M)) := by
  have hτ : 0 ≤ t.tol := by obtain ⟨ε, η, hr⟩ := hr; exact hr.pos
  have NM : 0 ≤ N * M := mul_nonneg (by linarith) (by linarith)
  have hv : mag V ≤ 21 / 20 * (N * M) := by
    have h1 := mag_le_add V I
    have h2 : E * (N * M) ≤ 1 / 20 * (N * M) := mul_le_mul_of_nonneg_right hE NM
    linarith
  have e1 := mulV_err3 hr V a
  have e2 := mulV_err3 hr (t.mulV fl V a) b
  set c1 := t.mulV fl V a
  have hc1 : mag c1 ≤ mag V * mag a + 3 / 2 * t.tol * (mag V + mag a + mag V * mag a) := by
    have := mag_le_add c1 (V * a)
    rw [mag_mul] at this
    linarith
  have hb := mag_nonneg b
  have ha := mag_nonneg a
  have h1 : mag (c1 * b - a * b * I) ≤ mag b * (3 / 2 * t.tol * (mag V + mag a + mag V * mag a)) + mag a * mag b * (E * (N * M)) := by
    have h2 : mag (c1 * b - V * a * b) ≤ mag b * (3 / 2 * t.tol * (mag V + mag a + mag V * mag a)) := by
      have : c1 * b - V * a * b = b * (c1 - V * a) := by ring
      rw [this, mag_mul]
      exact mul_le_mul_of_nonneg_left e1 hb
    have h3 : mag (V * a * b - a * b * I) ≤ mag a * mag b * (E * (N * M)) := by
      have : V * a * b - a * b * I = a * b * (V - I) := by ring
      rw [this, mag_mul, mag_mul]
      exact mul_le_mul_of_nonneg_left hV (mul_nonneg ha hb)
    refine (mag_tri _ (V * a * b) _).trans ?_
    linarith
  refine (mag_tri _ (c1 * b) _).trans ?_
  refine le_trans ?_ (edge_num hτ hN hM hNC hMC hC ha hb (mag_nonneg V) hv hc1 h1C)
  linarith

/-- Weights that are zero up to the tolerance. -/
theorem edge_zero {N M C : R} {a b I : Cx R} (hτ : 0 ≤ τ) (hN : 49 / 50 ≤ N) (hM : 49 / 50 ≤ M)
    (hNC : N ≤ C) (hMC : M ≤ C) (hI : mag I ≤ N * M) (h : mag a ≤ 3 / 2 * τ ∨ mag b ≤ 3 / 2 * τ) {E : R} (hE : 0 ≤ E) :
    mag (0 - a * b * I) ≤ 5 * τ * C * (1 / 1000 + mag a * N + mag b * M + mag a * N * (mag b * M)) + E * (mag a * N * (mag b * M)) := by
  have ha := mag_nonneg a
  have hb := mag_nonneg b
  have X0 : 0 ≤ mag a * N := mul_nonneg ha (by linarith)
  have Y0 : 0 ≤ mag b * M := mul_nonneg hb (by linarith)
  have XY := mul_nonneg X0 Y0
  have C0 : 0 ≤ τ * C := mul_nonneg hτ (by linarith)
  rw [zero_sub, mag_neg, mag_mul, mag_mul]
  have h1 : mag a * mag b * mag I ≤ mag a * mag b * (N * M) := mul_le_mul_of_nonneg_left hI (mul_nonneg ha hb)
  have p1 := mul_nonneg C0 X0
  have p2 := mul_nonneg C0 Y0
  have p3 := mul_nonneg C0 XY
  have p4 := mul_nonneg hE XY
  rcases h with h | h
  · have h2 : mag a * N ≤ 3 / 2 * τ * C := mul_le_mul h hNC (by linarith) (by linarith)
    have h3 := mul_le_mul_of_nonneg_right h2 Y0
    linarith
  · have h2 : mag b * M ≤ 3 / 2 * τ * C := mul_le_mul h hMC (by linarith) (by linarith)
    have h3 := mul_le_mul_of_nonneg_left h2 X0
    linarith

/-- The products of the norms of the successors; real numbers only. -/
theorem node_num1 {N M : R} {X Y : Fin 2 → R} (hN : 49 / 50 ≤ N) (hM : 49 / 50 ≤ M)
    (hXN : X 0 * X 0 + X 1 * X 1 = N * N) (hYM : Y 0 * Y 0 + Y 1 * Y 1 = M * M) :
    1 / 500 + (X 0 + X 1) + (Y 0 + Y 1) + (X 0 * Y 0 + X 1 * Y 1) ≤ 42 / 10 * (N * M) ∧ X 0 * Y 0 + X 1 * Y 1 ≤ N * M ∧ 1 ≤ 11 / 10 * (N * M) := by
  have sX : X 0 + X 1 ≤ 3 / 2 * N := by
    refine le_of_sq (by linarith only [hN]) ?_
    have h1 := mul_self_nonneg (X 0 - X 1)
    have h2 := mul_self_nonneg N
    linarith only [h1, h2, hXN]
  have sY : Y 0 + Y 1 ≤ 3 / 2 * M := by
    refine le_of_sq (by linarith only [hM]) ?_
    have h1 := mul_self_nonneg (Y 0 - Y 1)
    have h2 := mul_self_nonneg M
    linarith only [h1, h2, hYM]
  have sXY : X 0 * Y 0 + X 1 * Y 1 ≤ N * M := by
    refine le_of_sq (mul_nonneg (by linarith only [hN]) (by linarith only [hM])) ?_
    have e : N * M * (N * M) = (X 0 * X 0 + X 1 * X 1) * (Y 0 * Y 0 + Y 1 * Y 1) := by rw [hXN, hYM]; ring
    rw [e]
    have h1 := mul_self_nonneg (X 0 * Y 1 - X 1 * Y 0)
    linarith only [h1]
  have n1 : N ≤ 103 / 100 * (N * M) := by
    have h1 := mul_le_mul_of_nonneg_left hM (by linarith only [hN] : (0 : R) ≤ N)
    linarith only [h1, hN]
  have m1 : M ≤ 103 / 100 * (N * M) := by
    have h1 := mul_le_mul_of_nonneg_right hN (by linarith only [hM] : (0 : R) ≤ M)
    linarith only [h1, hM]
  have nm1 : 1 ≤ 11 / 10 * (N * M) := by linarith only [n1, hN]
  exact ⟨by linarith only [sX, sY, sXY, n1, m1, nm1], sXY, nm1⟩

/-- The rounding of the sum; real numbers only. -/
theorem node_num2 {P C ε η z0 z1 : R} (hr : 1000 * ε ≤ τ) (hε : 0 ≤ ε) (hη : η ≤ ε) (h1C : 1 ≤ C) (hC : 1000 * C * τ ≤ 1)
    (hP : 1 ≤ 11 / 10 * P) (hz : z0 + z1 ≤ 12 / 10 * P) (hz0 : z0 ≤ 12 / 10 * P) :
    3 / 2 * (ε * z0 + η) + 3 / 2 * (ε * (z0 + 3 / 2 * (ε * z0 + η) + z1) + η) ≤ 19 * τ * C * P := by
  have hτ : 0 ≤ τ := by linarith only [hr, hε]
  have P0 : 0 ≤ P := by linarith only [hP]
  have hτC := mul_le_mul_of_nonneg_left h1C hτ
  have εz : ε * (z0 + z1) ≤ ε * (12 / 10 * P) := mul_le_mul_of_nonneg_left hz hε
  have εz0 : ε * z0 ≤ ε * (12 / 10 * P) := mul_le_mul_of_nonneg_left hz0 hε
  have εP' : ε ≤ 11 / 10 * (ε * P) := by
    have := mul_le_mul_of_nonneg_left hP hε
    linarith only [this]
  have h1 : ε * z0 + η ≤ 23 / 10 * (ε * P) := by linarith only [εz0, hη, εP']
  have ε1 : ε ≤ 1 := by linarith only [hr, hC, hτC, hτ]
  have εP0 := mul_nonneg hε P0
  have h2 : ε * (ε * z0 + η) ≤ 1 * (23 / 10 * (ε * P)) := by
    refine (mul_le_mul_of_nonneg_left h1 hε).trans ?_
    exact mul_le_mul_of_nonneg_right ε1 (by linarith only [εP0])
  have h3 : ε * P ≤ τ * C * P := mul_le_mul_of_nonneg_right (by linarith only [hr, hτC, hε]) P0
  have e : ε * (z0 + 3 / 2 * (ε * z0 + η) + z1) = ε * (z0 + z1) + 3 / 2 * (ε * (ε * z0 + η)) := by ring
  rw [e]
  linarith only [h1, h2, h3, εz, εP', hη, εP0]

/-- The two successors together; real numbers only. -/
theorem node_num {P C E ε η : R} {X0 X1 Y0 Y1 Q0 Q1 : R} {r0 r1 z0 z1 : R} (hr : 1000 * ε ≤ τ) (hε : 0 ≤ ε) (hη : η ≤ ε)
    (h1C : 1 ≤ C) (hC : 1000 * C * τ ≤ 1) (hE0 : 0 ≤ E) (hE : E ≤ 1 / 20)
    (hS : 1 / 500 + (X0 + X1) + (Y0 + Y1) + (Q0 + Q1) ≤ 42 / 10 * P) (hQ : Q0 + Q1 ≤ P) (hP : 1 ≤ 11 / 10 * P)
    (q1 : 0 ≤ Q1) (hr1' : 0 ≤ r1)
    (h0 : r0 ≤ 5 * τ * C * (1 / 1000 + X0 + Y0 + Q0) + E * Q0) (h1 : r1 ≤ 5 * τ * C * (1 / 1000 + X1 + Y1 + Q1) + E * Q1)
    (hz0 : z0 ≤ Q0 + r0) (hz1 : z1 ≤ Q1 + r1) :
    r0 + r1 + (3 / 2 * (ε * z0 + η) + 3 / 2 * (ε * (z0 + 3 / 2 * (ε * z0 + η) + z1) + η)) ≤ (E + 40 * τ * C) * P := by
  have hτ : 0 ≤ τ := by linarith only [hr, hε]
  have P0 : 0 ≤ P := by linarith only [hP]
  have C0 : 0 ≤ τ * C := mul_nonneg hτ (by linarith only [h1C])
  have SC := mul_le_mul_of_nonneg_left hS C0
  have SE := mul_le_mul_of_nonneg_left hQ hE0
  have rr : r0 + r1 ≤ 21 * (τ * C * P) + E * P := by linarith only [h0, h1, SC, SE]
  have EP : E * P ≤ 1 / 20 * P := mul_le_mul_of_nonneg_right hE P0
  have τCP : τ * C * P ≤ 1 / 1000 * P := mul_le_mul_of_nonneg_right (by linarith only [hC]) P0
  have zz : z0 + z1 ≤ 12 / 10 * P := by linarith only [hz0, hz1, rr, EP, τCP, hQ, P0]
  have z0b : z0 ≤ 12 / 10 * P := by linarith only [hz0, rr, EP, τCP, hQ, P0, q1, hr1']
  have := node_num2 hr hε hη h1C hC hP zz z0b
  linarith only [this, rr]

end numbers

/-! ## The cache -/

omit [HasSqrt R] [LawfulSqrt R] [IsStrictOrderedRing R] in
theorem innIns_slot (s : JState R) (a b : Option Nat) (z : Cx R) : (s.innIns J a b z).cache .vectorInnerProduct =
    (s.cache .vectorInnerProduct).insert (J.h .vectorInnerProduct) (innKey a b) (.val .v ⟨none, z⟩) :=
  Function.update_self (β := fun _ : CK => Cache (CKey R) (CArg R)) CK.vectorInnerProduct _ s.cache

omit [LawfulSqrt R] in
theorem innIns_grow (hJ : J.Good) (hτ : 0 ≤ τ) (h : TInv J τ s) {a b : Option Nat} {z : Cx R}
    (hok : InnOk J τ s (innKey a b, .val .v ⟨none, z⟩)) : TInv J τ (s.innIns J a b z) ∧ Grow J s (s.innIns J a b z) := by
  obtain ⟨pin, hi⟩ := h.reach.inv hJ (zero_tol hτ)
  obtain ⟨l, a', b', z', he, hx, hy, hF⟩ := id hok
  simp only [innKey, Prod.mk.injEq, List.cons.injEq, CArg.ptr.injEq, CArg.val.injEq, Edge.mk.injEq, true_and, and_true] at he
  obtain ⟨⟨rfl, rfl⟩, rfl⟩ := he
  have kv : ∀ p : Option Nat, s.NodeOk l p → ∀ c, p = some c → c ∈ (s.tab .v).tab.all := by
    intro p hp c hc
    subst hc
    exact hp.1
  have hst : JStep J (· = τ) s (s.innIns J a b z) := by
    refine .insert .vectorInnerProduct (innKey a b) (.val .v ⟨none, z⟩) ?_ ?_ ?_ ?_ (fun e => by cases e)
    · exact .cons rfl (.cons rfl .nil)
    · exact rfl
    · intro x hx' q hq
      simp only [innKey, List.mem_cons, List.not_mem_nil, or_false] at hx'
      rcases hx' with rfl | rfl
      · exact (known_ptr (e := ⟨a, CNum.one⟩).2 ⟨⟨trivial, trivial⟩, fun c hc => kv _ hx c hc⟩) q hq
      · exact (known_ptr (e := ⟨b, CNum.one⟩).2 ⟨⟨trivial, trivial⟩, fun c hc => kv _ hy c hc⟩) q hq
    · intro q hq
      have hq' : q ∈ nodeRefs .v none := hq
      simp [nodeRefs] at hq'
  have ha := hst.agree hJ (zero_tol hτ) hi
  have g : Grow J s (s.innIns J a b z) := ⟨ha, fun _ a ha => ha, fun l hl => hl, fun _ => rfl⟩
  refine ⟨h.keep hJ hτ (h.reach.step hst) ha (fun a ha => Or.inl ha) (fun a ha => Or.inl ha) (fun i k hs => Or.inl hs)
    (fun i k hs => Or.inl hs) (fun i k hs => Or.inl hs) (fun i k hs => Or.inl hs) (fun i k hs => ?_), g⟩
  rw [innIns_slot] at hs
  simp only [Cache.insert] at hs
  split_ifs at hs with h1
  · right
    simp only [Option.some.injEq] at hs
    subst hs
    have valid' : ∀ a' ∈ ((s.innIns J a b z).tab .v).tab.all, ∀ i, (s.innIns J a b z).ValidV J (((s.innIns J a b z).tab .v).tab.mem a').v
        ((((s.innIns J a b z).tab .v).tab.mem a').e i) := fun a' ha' i => g.validV (h.kids a' ha' i).1
    refine ⟨l, a, b, z, rfl, hx, hy, fun B hB0 hsm n1 n2 => ?_⟩
    have := hF B hB0 hsm (normLe_agree h.valid valid' ha l a hx (g.nodeOk hx) n1) (normLe_agree h.valid valid' ha l b hy (g.nodeOk hy) n2)
    have e1 : (s.innIns J a b z).namp J l a = s.namp J l a := funext fun d => namp_agree h.valid valid' ha l _ d hx (g.nodeOk hx)
    have e2 : (s.innIns J a b z).namp J l b = s.namp J l b := funext fun d => namp_agree h.valid valid' ha l _ d hy (g.nodeOk hy)
    have e3 : (s.innIns J a b z).innN J l a b = s.innN J l a b := by unfold JState.innN; rw [e1, e2]
    rw [e1, e2, e3]
    exact this
  · exact Or.inl hs

omit [LawfulSqrt R] in
/-- A hit in the cache of `innerProduct`. -/
theorem innLook_hit (h : TInv J τ s) {a b : Option Nat} {z : Cx R} (hh : s.innLook J a b = some z) :
    InnOk J τ s (innKey a b, .val .v ⟨none, z⟩) := by
  unfold JState.innLook Cache.lookup at hh
  cases hs : (s.cache .vectorInnerProduct).slot (J.h .vectorInnerProduct (innKey a b)) with
  | none => rw [hs] at hh; simp at hh
  | some kr =>
    rw [hs] at hh
    have hok := h.inn _ _ hs
    obtain ⟨l, a', b', z', rfl, _⟩ := id hok
    simp only [Bool.and_true] at hh
    split_ifs at hh with hsame
    · simp only [Option.some.injEq] at hh
      subst hh
      simp only [innKey, sameKey, sameArg, Bool.and_eq_true, decide_eq_true_eq, true_and, and_true] at hsame
      obtain ⟨⟨a1, _⟩, b1, _⟩ := hsame
      subst a1 b1
      exact hok

/-! ## The recursion -/

/-- The bound on the error for two edges. -/
def innE (τ : R) (l : Nat) (C X Y : R) : R := 5 * τ * C * (1 / 1000 + X + Y + X * Y) + 40 * τ * l * C * (X * Y)

/-- What an inner product satisfies. -/
structure InnRes (J : JCfg R) (τ : R) (s : JState R) (l : Nat) (x y : ValEdge R) (r : JState R × Cx R) : Prop where
  inv : TInv J τ r.1
  grow : Grow J s r.1
  ct : r.1.ct = s.ct
  tab : r.1.tab = s.tab
  err : ∀ B, 0 ≤ B → 1000 * ((l : R) + 1) * (1 + B) * τ ≤ 1 → s.NormLe J B l x.p → s.NormLe J B l y.p →
    mag (r.2 - x.w * y.w * s.innN J l x.p y.p) ≤
      innE τ l (1 + B) (mag x.w * vnorm (s.namp J l x.p)) (mag y.w * vnorm (s.namp J l y.p))

theorem innN_le (s : JState R) (l : Nat) (a b : Option Nat) :
    mag (s.innN J l a b) ≤ vnorm (s.namp J l a) * vnorm (s.namp J l b) := inner_le _ _

theorem innN_succ (s : JState R) (l a b : Nat) : s.innN J (l + 1) (some a) (some b) =
    ∑ i : Fin 2, (s.ct.cval J.C (((s.tab .v).tab.mem a).e i).w).conj * s.ct.cval J.C (((s.tab .v).tab.mem b).e i).w *
      s.innN J l (((s.tab .v).tab.mem a).e i).p (((s.tab .v).tab.mem b).e i).p := by
  unfold JState.innN
  have := sum_split (fun (i : Fin 2) (d : Fin l → Fin 2) =>
    (s.ct.cval J.C (((s.tab .v).tab.mem a).e i).w * s.namp J l (((s.tab .v).tab.mem a).e i).p d).conj *
      (s.ct.cval J.C (((s.tab .v).tab.mem b).e i).w * s.namp J l (((s.tab .v).tab.mem b).e i).p d))
  refine Eq.trans ?_ (this.trans ?_)
  · rfl
  · refine Finset.sum_congr rfl fun i _ => ?_
    rw [Finset.mul_sum]
    refine Finset.sum_congr rfl fun d _ => ?_
    rw [Cx.conj_mul]
    ring

/-- The norm of the vector of a node. -/
theorem node_low (hτ : 0 ≤ τ) (h : TInv J τ s) {l : Nat} {B : R} (hB : 0 ≤ B) (hsm : 1000 * ((l : R) + 1) * (1 + B) * τ ≤ 1) {p : Option Nat}
    (hp : s.NodeOk l p) : 49 / 50 ≤ vnorm (s.namp J l p) := by
  have n0 : (0 : R) ≤ l := Nat.cast_nonneg l
  have h0 : 1000 * ((l : R) + 1) * τ ≤ 1 := by
    have : 0 ≤ 1000 * ((l : R) + 1) * τ * B := by positivity
    linarith
  have e0 : 1000 * ((l : R) + 1) * τ = 1000 * ((l : R) * τ) + 1000 * τ := by ring
  have hnτ := mul_nonneg n0 hτ
  have h1 := namp_low hτ (by linarith) h l p hp
  have h3 := bernoulli (x := 12 * τ) (by linarith) l
  have h4 : (l : R) * (12 * τ) ≤ 12 / 1000 := by
    have e : (l : R) * (12 * τ) = 12 * ((l : R) * τ) := by ring
    rw [e]
    linarith
  have h5 : 0 ≤ (1 + 12 * τ) ^ l := by positivity
  have h6 : (1 + 12 * τ) ^ l * (1 - 12 / 1000) ≤ 1 := le_trans (mul_le_mul_of_nonneg_left (by linarith) h5) h3
  have h7 := vnorm_nonneg (s.namp J l p)
  have h8 : (1 + 12 * τ) ^ l * vnorm (s.namp J l p) ≤ 1 / (1 - 12 / 1000) * vnorm (s.namp J l p) :=
    mul_le_mul_of_nonneg_right (by rw [le_div_iff₀ (by norm_num)]; exact h6) h7
  have h9 : 1 / (1 - 12 / 1000) * vnorm (s.namp J l p) = 250 / 247 * vnorm (s.namp J l p) := by norm_num
  rw [h9] at h8
  linarith

theorem InnRes.back {l : Nat} {x y : ValEdge R} {r : JState R × Cx R} (m : InnRes J τ s' l x y r) (g : Grow J s s') (h : TInv J τ s)
    (h' : TInv J τ s') (hct : s'.ct = s.ct) (htab : s'.tab = s.tab) (hx : s.NodeOk l x.p) (hy : s.NodeOk l y.p) : InnRes J τ s l x y r := by
  refine ⟨m.inv, g.trans m.grow, m.ct.trans hct, m.tab.trans htab, fun B hB hsm n1 n2 => ?_⟩
  have := m.err B hB hsm (g.normLe h h' hx n1) (g.normLe h h' hy n2)
  have e1 : s'.namp J l x.p = s.namp J l x.p := funext fun d => g.namp h h' d hx
  have e2 : s'.namp J l y.p = s.namp J l y.p := funext fun d => g.namp h h' d hy
  have e3 : s'.innN J l x.p y.p = s.innN J l x.p y.p := by unfold JState.innN; rw [e1, e2]
  rwa [e1, e2, e3] at this

theorem innE_nonneg (hτ : 0 ≤ τ) (l : Nat) {C X Y : R} (hC : 0 ≤ C) (hX : 0 ≤ X) (hY : 0 ≤ Y) : 0 ≤ innE τ l C X Y := by
  unfold innE
  positivity

omit [FloorRing R] [HasSqrt R] [LawfulSqrt R] in
theorem inn_small (hτ : 0 ≤ τ) {l : Nat} {B : R} (hB : 0 ≤ B) (hsm : 1000 * ((l : R) + 1) * (1 + B) * τ ≤ 1) :
    1000 * (1 + B) * τ ≤ 1 ∧ 0 ≤ 40 * τ * l * (1 + B) ∧ 40 * τ * l * (1 + B) ≤ 1 / 20 := by
  have n0 : (0 : R) ≤ l := Nat.cast_nonneg l
  have h1 : 0 ≤ (l : R) * (1 + B) * τ := by positivity
  have h2 : 0 ≤ (1 + B) * τ := by positivity
  exact ⟨by linarith, by positivity, by linarith⟩

/-- Weights that are zero up to the tolerance. -/
theorem inn_zero (hτ : 0 ≤ τ) (h : TInv J τ s) {l : Nat} {x y : ValEdge R} (hx : s.NodeOk l x.p) (hy : s.NodeOk l y.p)
    (hx0 : x.p = none → l = 0 ∨ x.w = 0) (hy0 : y.p = none → l = 0 ∨ y.w = 0) (hz : mag x.w ≤ 3 / 2 * τ ∨ mag y.w ≤ 3 / 2 * τ) :
    ∀ B, 0 ≤ B → 1000 * ((l : R) + 1) * (1 + B) * τ ≤ 1 → s.NormLe J B l x.p → s.NormLe J B l y.p →
    mag (0 - x.w * y.w * s.innN J l x.p y.p) ≤
      innE τ l (1 + B) (mag x.w * vnorm (s.namp J l x.p)) (mag y.w * vnorm (s.namp J l y.p)) := by
  intro B hB hsm n1 n2
  have X0 := mul_nonneg (mag_nonneg x.w) (vnorm_nonneg (s.namp J l x.p))
  have Y0 := mul_nonneg (mag_nonneg y.w) (vnorm_nonneg (s.namp J l y.p))
  by_cases hw : x.w = 0 ∨ y.w = 0
  · have e : x.w * y.w = 0 := by rcases hw with h | h <;> rw [h] <;> ring
    rw [e, zero_mul, sub_zero, mag_zero]
    exact innE_nonneg hτ l (by linarith) X0 Y0
  · rw [not_or] at hw
    obtain ⟨c1, c2, c3⟩ := inn_small hτ hB hsm
    have := edge_zero (E := 40 * τ * l * (1 + B)) hτ (node_low hτ h hB hsm hx) (node_low hτ h hB hsm hy)
      (namp_normLe hB l x.p (fun e => (hx0 e).resolve_right hw.1) n1) (namp_normLe hB l y.p (fun e => (hy0 e).resolve_right hw.2) n2)
      (innN_le s l x.p y.p) hz c2
    exact this

/-- Weights multiplied to the inner product of two nodes. -/
theorem inn_edge (hJ : J.Good) (hτ : 0 ≤ τ) (h : TInv J τ s) {l : Nat} {x y : ValEdge R} (hx : s.NodeOk l x.p) (hy : s.NodeOk l y.p)
    (hx0 : x.p = none → l = 0) (hy0 : y.p = none → l = 0) {z : Cx R}
    (hz : ∀ B, 0 ≤ B → 1000 * ((l : R) + 1) * (1 + B) * τ ≤ 1 → s.NormLe J B l x.p → s.NormLe J B l y.p →
      mag (z - s.innN J l x.p y.p) ≤ 40 * τ * l * (1 + B) * (vnorm (s.namp J l x.p) * vnorm (s.namp J l y.p))) :
    ∀ B, 0 ≤ B → 1000 * ((l : R) + 1) * (1 + B) * τ ≤ 1 → s.NormLe J B l x.p → s.NormLe J B l y.p →
    mag (s.ct.mulV J.fl (s.ct.mulV J.fl z x.w) y.w - x.w * y.w * s.innN J l x.p y.p) ≤
      innE τ l (1 + B) (mag x.w * vnorm (s.namp J l x.p)) (mag y.w * vnorm (s.namp J l y.p)) := by
  intro B hB hsm n1 n2
  obtain ⟨c1, c2, c3⟩ := inn_small hτ hB hsm
  have ok := h.ok hJ hτ
  have tol := h.tol hJ hτ
  have := edge_err ok (a := x.w) (b := y.w) (node_low hτ h hB hsm hx) (node_low hτ h hB hsm hy) (namp_normLe hB l x.p hx0 n1)
    (namp_normLe hB l y.p hy0 n2) (by linarith) (by rw [tol]; exact c1) c3 (innN_le s l x.p y.p) (hz B hB hsm n1 n2)
  rw [tol] at this
  exact this

/-- The sum for two nodes. -/
theorem inn_node (hτ : 0 ≤ τ) (h : TInv J τ s) {l a b : Nat} (hx : s.NodeOk (l + 1) (some a)) (hy : s.NodeOk (l + 1) (some b))
    {z : Fin 2 → Cx R} (hz : ∀ i, ∀ B, 0 ≤ B → 1000 * ((l : R) + 1) * (1 + B) * τ ≤ 1 → s.NormLe J B l (((s.tab .v).tab.mem a).e i).p →
      s.NormLe J B l (((s.tab .v).tab.mem b).e i).p →
      mag (z i - (s.ct.cval J.C (((s.tab .v).tab.mem a).e i).w).conj * s.ct.cval J.C (((s.tab .v).tab.mem b).e i).w *
        s.innN J l (((s.tab .v).tab.mem a).e i).p (((s.tab .v).tab.mem b).e i).p) ≤
      innE τ l (1 + B) (mag (s.ct.cval J.C (((s.tab .v).tab.mem a).e i).w).conj * vnorm (s.namp J l (((s.tab .v).tab.mem a).e i).p))
        (mag (s.ct.cval J.C (((s.tab .v).tab.mem b).e i).w) * vnorm (s.namp J l (((s.tab .v).tab.mem b).e i).p))) :
    ∀ B, 0 ≤ B → 1000 * (((l + 1 : Nat) : R) + 1) * (1 + B) * τ ≤ 1 → s.NormLe J B (l + 1) (some a) → s.NormLe J B (l + 1) (some b) →
      mag (addC J.fl (addC J.fl 0 (z 0)) (z 1) - s.innN J (l + 1) (some a) (some b)) ≤
        40 * τ * ((l + 1 : Nat) : R) * (1 + B) * (vnorm (s.namp J (l + 1) (some a)) * vnorm (s.namp J (l + 1) (some b))) := by
  intro B hB hsm n1 n2
  have n0 : (0 : R) ≤ l := Nat.cast_nonneg l
  have hN := node_low hτ h hB hsm hx
  have hM := node_low hτ h hB hsm hy
  have hsm' : 1000 * ((l : R) + 1) * (1 + B) * τ ≤ 1 := by
    have : 0 ≤ 1000 * (1 + B) * τ := by positivity
    push_cast at hsm
    linarith
  obtain ⟨c1, c2, c3⟩ := inn_small hτ hB hsm'
  obtain ⟨ε, η, hε0, hε1, hε2, hη0, hη1, hη2, herr⟩ := h.rnd
  have rd : Rnd J.fl τ ε η := ⟨hε0, hε1, hε2, hη0, hη1, hη2, herr⟩
  set wa : Fin 2 → Cx R := fun i => s.ct.cval J.C (((s.tab .v).tab.mem a).e i).w with hwa
  set wb : Fin 2 → Cx R := fun i => s.ct.cval J.C (((s.tab .v).tab.mem b).e i).w with hwb
  set X : Fin 2 → R := fun i => mag (wa i) * vnorm (s.namp J l (((s.tab .v).tab.mem a).e i).p) with hX
  set Y : Fin 2 → R := fun i => mag (wb i) * vnorm (s.namp J l (((s.tab .v).tab.mem b).e i).p) with hY
  set t : Fin 2 → Cx R := fun i => (wa i).conj * wb i * s.innN J l (((s.tab .v).tab.mem a).e i).p (((s.tab .v).tab.mem b).e i).p with ht
  have X0 : ∀ i, 0 ≤ X i := fun i => mul_nonneg (mag_nonneg _) (vnorm_nonneg _)
  have Y0 : ∀ i, 0 ≤ Y i := fun i => mul_nonneg (mag_nonneg _) (vnorm_nonneg _)
  have XN : X 0 * X 0 + X 1 * X 1 = vnorm (s.namp J (l + 1) (some a)) * vnorm (s.namp J (l + 1) (some a)) := by
    have := vnorm_split (fun (i : Fin 2) (d : Fin l → Fin 2) => wa i * s.namp J l (((s.tab .v).tab.mem a).e i).p d)
    rw [vnorm_smul, vnorm_smul] at this
    exact this.symm
  have YM : Y 0 * Y 0 + Y 1 * Y 1 = vnorm (s.namp J (l + 1) (some b)) * vnorm (s.namp J (l + 1) (some b)) := by
    have := vnorm_split (fun (i : Fin 2) (d : Fin l → Fin 2) => wb i * s.namp J l (((s.tab .v).tab.mem b).e i).p d)
    rw [vnorm_smul, vnorm_smul] at this
    exact this.symm
  have r : ∀ i, mag (z i - t i) ≤ 5 * τ * (1 + B) * (1 / 1000 + X i + Y i + X i * Y i) + 40 * τ * l * (1 + B) * (X i * Y i) := by
    intro i
    have := hz i B hB hsm' (n1.2 i) (n2.2 i)
    rw [mag_conj] at this
    exact this
  have tl : ∀ i, mag (t i) ≤ X i * Y i := by
    intro i
    rw [ht]
    dsimp only
    rw [mag_mul, mag_mul, mag_conj]
    have h1 := mul_le_mul_of_nonneg_left (innN_le (J := J) s l (((s.tab .v).tab.mem a).e i).p (((s.tab .v).tab.mem b).e i).p)
      (mul_nonneg (mag_nonneg (wa i)) (mag_nonneg (wb i)))
    refine h1.trans (le_of_eq ?_)
    rw [hX, hY]
    ring
  have zl : ∀ i, mag (z i) ≤ X i * Y i + mag (z i - t i) := by
    intro i
    have := mag_le_add (z i) (t i)
    have := tl i
    linarith
  obtain ⟨k1, k2, k3⟩ := node_num1 hN hM XN YM
  have fin := node_num (r0 := mag (z 0 - t 0)) (r1 := mag (z 1 - t 1)) hε1 hε0 hη1 (by linarith) c1 c2 c3 k1 k2 k3 (mul_nonneg (X0 1) (Y0 1))
    (mag_nonneg _) (r 0) (r 1) (zl 0) (zl 1)
  rw [innN_succ, Fin.sum_univ_two]
  have e1 := addC_err rd 0 (z 0)
  have e2 := addC_err rd (addC J.fl 0 (z 0)) (z 1)
  rw [zero_add] at e1
  set s0 := addC J.fl 0 (z 0)
  have m0 : mag s0 ≤ mag (z 0) + 3 / 2 * (ε * mag (z 0) + η) := by
    have := mag_le_add s0 (z 0)
    linarith
  have m1 : mag (s0 + z 1) ≤ mag (z 0) + 3 / 2 * (ε * mag (z 0) + η) + mag (z 1) := by
    have := mag_add s0 (z 1)
    linarith
  have m2 := mul_le_mul_of_nonneg_left m1 hε0
  have goal : mag (addC J.fl s0 (z 1) - (t 0 + t 1)) ≤ mag (z 0 - t 0) + mag (z 1 - t 1) +
      (3 / 2 * (ε * mag (z 0) + η) + 3 / 2 * (ε * (mag (z 0) + 3 / 2 * (ε * mag (z 0) + η) + mag (z 1)) + η)) := by
    have h1 := mag_tri (addC J.fl s0 (z 1)) (s0 + z 1) (t 0 + t 1)
    have h2 : mag (s0 + z 1 - (t 0 + t 1)) ≤ mag (s0 - z 0) + (mag (z 0 - t 0) + mag (z 1 - t 1)) := by
      have e : s0 + z 1 - (t 0 + t 1) = (s0 - z 0) + ((z 0 - t 0) + (z 1 - t 1)) := by ring
      rw [e]
      refine (mag_add _ _).trans ?_
      have := mag_add (z 0 - t 0) (z 1 - t 1)
      linarith
    linarith
  refine goal.trans (fin.trans (le_of_eq ?_))
  push_cast
  ring

theorem innerF_acc (hJ : J.Good) (hτ : 0 ≤ τ) : ∀ (l : Nat) (s : JState R) (x y : ValEdge R), TInv J τ s → s.NodeOk l x.p → s.NodeOk l y.p →
    (x.p = none → l = 0 ∨ x.w = 0) → (y.p = none → l = 0 ∨ y.w = 0) → InnRes J τ s l x y (JState.innerF J l s x y) := by
  intro l
  induction l with
  | zero =>
    intro s x y h hx hy hx0 hy0
    have ok := h.ok hJ hτ
    have tol := h.tol hJ hτ
    unfold JState.innerF
    split_ifs with hz
    · refine ⟨h, .refl _, rfl, rfl, inn_zero hτ h hx hy hx0 hy0 ?_⟩
      rw [← tol]
      rw [Bool.or_eq_true] at hz
      exact hz.imp (zeroV_mag' (by rw [tol]; exact hτ)) (zeroV_mag' (by rw [tol]; exact hτ))
    · refine ⟨h, .refl _, rfl, rfl, fun B hB hsm n1 n2 => ?_⟩
      have e1 : ∀ p, vnorm (s.namp J 0 p) = 1 := by
        intro p
        have h1 : vnorm (s.namp J 0 p) * vnorm (s.namp J 0 p) = 1 := by
          rw [vnorm_sq]
          show ∑ d : Fin 0 → Fin 2, (1 : Cx R).mag2 = 1
          simp [Cx.mag2_one]
        have h2 := vnorm_nonneg (s.namp J 0 p)
        nlinarith
      have e2 : s.innN J 0 x.p y.p = 1 := by
        show ∑ d : Fin 0 → Fin 2, (1 : Cx R).conj * 1 = 1
        simp
      rw [e1, e1, e2, mul_one, mul_one, mul_one]
      have h1 := mulV_err3 ok x.w y.w
      rw [tol] at h1
      have h2 := mag_nonneg x.w
      have h3 := mag_nonneg y.w
      have h4 := mul_nonneg h2 h3
      have hS : 0 ≤ mag x.w + mag y.w + mag x.w * mag y.w := by linarith
      refine h1.trans ?_
      unfold innE
      have h5 : 3 / 2 * τ * (mag x.w + mag y.w + mag x.w * mag y.w) ≤ 5 * τ * (1 + B) * (mag x.w + mag y.w + mag x.w * mag y.w) := by
        refine mul_le_mul_of_nonneg_right ?_ hS
        have := mul_nonneg hτ hB
        linarith
      have h6 : 0 ≤ 5 * τ * (1 + B) * (1 / 1000) := by positivity
      have h7 : 0 ≤ 40 * τ * ((0 : Nat) : R) * (1 + B) * (mag x.w * mag y.w) := by positivity
      linarith
  | succ l ih =>
    intro s x y h hx hy hx0 hy0
    have ok := h.ok hJ hτ
    have tol := h.tol hJ hτ
    unfold JState.innerF
    split_ifs with hz
    · refine ⟨h, .refl _, rfl, rfl, inn_zero hτ h hx hy hx0 hy0 ?_⟩
      rw [← tol]
      rw [Bool.or_eq_true] at hz
      exact hz.imp (zeroV_mag' (by rw [tol]; exact hτ)) (zeroV_mag' (by rw [tol]; exact hτ))
    rw [Bool.or_eq_true, not_or] at hz
    have nz : ∀ e : ValEdge R, ¬ s.ct.zeroV e.w = true → (e.p = none → l + 1 = 0 ∨ e.w = 0) → ∃ a, e.p = some a := by
      intro e he h0
      cases hp : e.p with
      | some a => exact ⟨a, rfl⟩
      | none =>
        rcases h0 hp with h1 | h1
        · omega
        · exact absurd (by rw [h1]; exact zeroV_zero (by rw [tol]; exact hτ)) he
    obtain ⟨a, ha⟩ := nz x hz.1 hx0
    obtain ⟨b, hb⟩ := nz y hz.2 hy0
    dsimp only
    cases hl : s.innLook J x.p y.p with
    | some r =>
      refine ⟨h, .refl _, rfl, rfl, inn_edge hJ hτ h hx hy (fun e => by rw [ha] at e; cases e) (fun e => by rw [hb] at e; cases e) ?_⟩
      obtain ⟨l', a', b', z', he, hA, hB, hF⟩ := innLook_hit h hl
      simp only [innKey, Prod.mk.injEq, List.cons.injEq, CArg.ptr.injEq, CArg.val.injEq, Edge.mk.injEq, true_and, and_true] at he
      obtain ⟨⟨e1, e2⟩, e3⟩ := he
      subst e1 e2 e3
      have : l' = l + 1 := by
        rw [ha] at hA hx
        exact hA.2.symm.trans hx.2
      subst this
      exact hF
    | none =>
      dsimp only
      obtain ⟨x1, x2⟩ : a ∈ (s.tab .v).tab.all ∧ ((s.tab .v).tab.mem a).v + 1 = l + 1 := by rw [ha] at hx; exact hx
      obtain ⟨y1, y2⟩ : b ∈ (s.tab .v).tab.all ∧ ((s.tab .v).tab.mem b).v + 1 = l + 1 := by rw [hb] at hy; exact hy
      have kx : ∀ i, innKid J s Cx.conj x.p l i = ⟨(((s.tab .v).tab.mem a).e i).p, (s.ct.cval J.C (((s.tab .v).tab.mem a).e i).w).conj⟩ := by
        intro i
        unfold innKid
        rw [ha]
        dsimp only
        rw [if_pos (by omega)]
      have ky : ∀ i, innKid J s id y.p l i = ⟨(((s.tab .v).tab.mem b).e i).p, s.ct.cval J.C (((s.tab .v).tab.mem b).e i).w⟩ := by
        intro i
        unfold innKid
        rw [hb]
        dsimp only
        rw [if_pos (by omega)]
        rfl
      have xv : ((s.tab .v).tab.mem a).v = l := by omega
      have yv : ((s.tab .v).tab.mem b).v = l := by omega
      have vx := fun i => (h.kids a x1 i).1
      have vy := fun i => (h.kids b y1 i).1
      rw [xv] at vx
      rw [yv] at vy
      have zx : ∀ i, (innKid J s Cx.conj x.p l i).p = none → l = 0 ∨ (innKid J s Cx.conj x.p l i).w = 0 := by
        intro i
        rw [kx]
        intro e
        refine ((vx i).none e).imp id fun e => ?_
        dsimp only
        rw [e, cval_zero, Cx.conj_zero]
      have zy : ∀ i, (innKid J s id y.p l i).p = none → l = 0 ∨ (innKid J s id y.p l i).w = 0 := by
        intro i
        rw [ky]
        intro e
        refine ((vy i).none e).imp id fun e => ?_
        dsimp only
        rw [e, cval_zero]
      have ox : ∀ i, s.NodeOk l (innKid J s Cx.conj x.p l i).p := fun i => by rw [kx]; exact (vx i).node
      have oy : ∀ i, s.NodeOk l (innKid J s id y.p l i).p := fun i => by rw [ky]; exact (vy i).node
      have m0 := ih s _ _ h (ox 0) (oy 0) (zx 0) (zy 0)
      set a0 := JState.innerF J l s (innKid J s Cx.conj x.p l 0) (innKid J s id y.p l 0)
      have m1 := (ih a0.1 _ _ m0.inv (m0.grow.nodeOk (ox 1)) (m0.grow.nodeOk (oy 1)) (zx 1) (zy 1)).back m0.grow h m0.inv m0.ct m0.tab (ox 1) (oy 1)
      set a1 := JState.innerF J l a0.1 (innKid J s Cx.conj x.p l 1) (innKid J s id y.p l 1)
      have hz : ∀ B, 0 ≤ B → 1000 * (((l + 1 : Nat) : R) + 1) * (1 + B) * τ ≤ 1 → s.NormLe J B (l + 1) x.p → s.NormLe J B (l + 1) y.p →
          mag (addC J.fl (addC J.fl 0 a0.2) a1.2 - s.innN J (l + 1) x.p y.p) ≤
            40 * τ * ((l + 1 : Nat) : R) * (1 + B) * (vnorm (s.namp J (l + 1) x.p) * vnorm (s.namp J (l + 1) y.p)) := by
        rw [ha] at hx ⊢
        rw [hb] at hy ⊢
        refine inn_node hτ h hx hy (z := (![a0.2, a1.2] : Fin 2 → Cx R)) ?_
        have q0 := m0.err
        have q1 := m1.err
        rw [kx, ky] at q0 q1
        exact Fin.forall_fin_two.mpr ⟨q0, q1⟩
      have ok1 : InnOk J τ a1.1 (innKey x.p y.p, .val .v ⟨none, addC J.fl (addC J.fl 0 a0.2) a1.2⟩) := by
        refine ⟨l + 1, x.p, y.p, _, rfl, m1.grow.nodeOk hx, m1.grow.nodeOk hy, fun B hB hsm n1 n2 => ?_⟩
        have := hz B hB hsm (normLe_agree h.valid m1.inv.valid m1.grow.rel _ _ hx (m1.grow.nodeOk hx) n1)
          (normLe_agree h.valid m1.inv.valid m1.grow.rel _ _ hy (m1.grow.nodeOk hy) n2)
        have e1 : a1.1.namp J (l + 1) x.p = s.namp J (l + 1) x.p := funext fun d => m1.grow.namp h m1.inv d hx
        have e2 : a1.1.namp J (l + 1) y.p = s.namp J (l + 1) y.p := funext fun d => m1.grow.namp h m1.inv d hy
        have e3 : a1.1.innN J (l + 1) x.p y.p = s.innN J (l + 1) x.p y.p := by unfold JState.innN; rw [e1, e2]
        rwa [e1, e2, e3]
      obtain ⟨i1, i2⟩ := innIns_grow hJ hτ m1.inv ok1
      exact ⟨i1, m1.grow.trans i2, m1.ct, m1.tab,
        inn_edge hJ hτ h hx hy (fun e => by rw [ha] at e; cases e) (fun e => by rw [hb] at e; cases e) hz⟩

/-- `innerProduct`. -/
theorem innerProduct_acc (hJ : J.Good) (hτ : 0 ≤ τ) (h : TInv J τ s) {l : Nat} {x y : PtrEdge} (hx : s.ValidV J l x) (hy : s.ValidV J l y) :
    InnRes J τ s l ⟨x.p, (s.ct.cval J.C x.w).conj⟩ ⟨y.p, s.ct.cval J.C y.w⟩ (s.innerProduct J x y) := by
  have tol := h.tol hJ hτ
  have wz : ∀ {e : PtrEdge}, s.ValidV J l e → e.p = none → l = 0 ∨ s.ct.cval J.C e.w = 0 := fun he hp =>
    (he.none hp).imp id fun e => by rw [e, cval_zero]
  have wx := wz hx
  have wy := wz hy
  have wx' : x.p = none → l = 0 ∨ (s.ct.cval J.C x.w).conj = 0 := fun e => (wx e).imp id fun e => by rw [e, Cx.conj_zero]
  unfold JState.innerProduct
  split_ifs with hz
  · refine ⟨h, .refl _, rfl, rfl, inn_zero hτ h hx.node hy.node wx' wy ?_⟩
    rw [← tol]
    rw [Bool.or_eq_true] at hz
    refine hz.imp (fun e => ?_) (zeroV_mag' (by rw [tol]; exact hτ))
    dsimp only
    rw [mag_conj]
    exact zeroV_mag' (by rw [tol]; exact hτ) e
  · rw [Bool.or_eq_true, not_or] at hz
    have lv : ∀ {e : PtrEdge}, s.ValidV J l e → ¬ s.ct.zeroV (s.ct.cval J.C e.w) = true → s.lvlV e.p = l := by
      intro e he hw
      cases hq : e.p with
      | some a => exact nodeOk_lvl (hq ▸ he.node)
      | none =>
        rcases wz he hq with h1 | h1
        · rw [h1]; rfl
        · exact absurd (by rw [h1]; exact zeroV_zero (by rw [tol]; exact hτ)) hw
    rw [lv hx hz.1, lv hy hz.2, max_self]
    exact innerF_acc hJ hτ l s _ _ h hx.node hy.node wx' wy

end DD
