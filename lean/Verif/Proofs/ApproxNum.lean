import Verif.ApproxSpec
import Verif.Proofs.Derived
import Verif.Proofs.CTabLookup

/-! # Absolute values, and the arithmetic with shortcuts -/

namespace DD

open Pkg

variable {R : Type} [Field R] [LinearOrder R] [IsStrictOrderedRing R] [HasSqrt R] [LawfulSqrt R]

theorem mag_nonneg (a : Cx R) : 0 ≤ mag a := LawfulSqrt.nonneg _

theorem mag_sq (a : Cx R) : mag a * mag a = a.mag2 := LawfulSqrt.mul_self _ (Cx.mag2_nonneg a)

theorem mag_le {a : Cx R} {c : R} (hc : 0 ≤ c) (h : a.mag2 ≤ c * c) : mag a ≤ c := by
  rw [← mag_sq] at h
  by_contra hn
  push Not at hn
  nlinarith

theorem mag_one : mag (1 : Cx R) = 1 := by
  have h1 := mag_sq (1 : Cx R)
  have h2 := mag_nonneg (1 : Cx R)
  rw [Cx.mag2_one] at h1
  have : (mag (1 : Cx R) - 1) * (mag (1 : Cx R) + 1) = 0 := by ring_nf; rw [sq, h1]; ring
  rcases mul_eq_zero.1 this with h | h <;> linarith

theorem mag_eq_zero {a : Cx R} (h : mag a = 0) : a = 0 := by
  have := mag_sq a
  rw [h, mul_zero] at this
  exact Cx.mag2_eq_zero.1 this.symm

theorem mag_neg (a : Cx R) : mag (-a) = mag a := by
  unfold mag; congr 1; simp [Cx.mag2]

theorem mag_sub_comm (a b : Cx R) : mag (a - b) = mag (b - a) := by rw [← mag_neg]; congr 1; ring

theorem mag_add (a b : Cx R) : mag (a + b) ≤ mag a + mag b := by
  have ha := mag_nonneg a
  have hb := mag_nonneg b
  apply mag_le (by linarith)
  have h1 := mag_sq a
  have h2 := mag_sq b
  have h3 : a.re * b.re + a.im * b.im ≤ mag a * mag b := by
    by_contra hn
    push Not at hn
    have hp : 0 ≤ mag a * mag b := mul_nonneg ha hb
    have : (mag a * mag b) * (mag a * mag b) < (a.re * b.re + a.im * b.im) * (a.re * b.re + a.im * b.im) := by nlinarith
    have e : (mag a * mag b) * (mag a * mag b) = a.mag2 * b.mag2 := by rw [← h1, ← h2]; ring
    rw [e] at this
    unfold Cx.mag2 at this
    nlinarith [mul_self_nonneg (a.re * b.im - a.im * b.re)]
  have e : (mag a + mag b) * (mag a + mag b) = a.mag2 + b.mag2 + 2 * (mag a * mag b) := by rw [← h1, ← h2]; ring
  rw [e]
  unfold Cx.mag2
  simp only [Cx.add_re, Cx.add_im]
  nlinarith

/-- The triangle inequality, over an intermediate point. -/
theorem mag_tri (a b c : Cx R) : mag (a - c) ≤ mag (a - b) + mag (b - c) := by
  have := mag_add (a - b) (b - c)
  rwa [sub_add_sub_cancel] at this

theorem mag_le_add (a b : Cx R) : mag a ≤ mag b + mag (a - b) := by
  have := mag_add b (a - b)
  rwa [add_sub_cancel] at this

theorem mag_mono_mul {a b : Cx R} {p q : R} (ha : mag a ≤ p) (hb : mag b ≤ q) : mag (a * b) ≤ p * q := by
  rw [mag_mul]
  exact mul_le_mul ha hb (mag_nonneg b) ((mag_nonneg a).trans ha)

theorem abs_re_le (a : Cx R) : |a.re| ≤ mag a := by
  have h1 := mag_sq a
  have h2 := mag_nonneg a
  unfold Cx.mag2 at h1
  rw [abs_le]
  constructor <;> nlinarith [mul_self_nonneg a.re, mul_self_nonneg a.im]

/-- Componentwise closeness. -/
theorem mag_of_comp' {a b : Cx R} {τ : R} (hτ : 0 ≤ τ) (hr : |a.re - b.re| ≤ τ) (hi : |a.im - b.im| ≤ τ) : mag (a - b) ≤ 3 / 2 * τ := by
  apply mag_le (by linarith)
  unfold Cx.mag2
  rw [abs_le] at hr hi
  simp only [Cx.sub_re, Cx.sub_im]
  nlinarith

theorem mag_of_comp'' {a b : Cx R} {τ : R} (hτ : 0 ≤ τ) (hr : |a.re - b.re| ≤ τ) (hi : |a.im - b.im| ≤ τ) : mag (a - b) ≤ 29 / 20 * τ := by
  apply mag_le (by linarith)
  unfold Cx.mag2
  rw [abs_le] at hr hi
  simp only [Cx.sub_re, Cx.sub_im]
  nlinarith

theorem mag_of_comp {a b : Cx R} {τ : R} (hτ : 0 ≤ τ) (hr : |a.re - b.re| ≤ τ) (hi : |a.im - b.im| ≤ τ) : mag (a - b) ≤ 2 * τ :=
  (mag_of_comp' hτ hr hi).trans (by linarith)

theorem abs_im_le (a : Cx R) : |a.im| ≤ mag a := by
  have h1 := mag_sq a
  have h2 := mag_nonneg a
  unfold Cx.mag2 at h1
  rw [abs_le]
  constructor <;> nlinarith [mul_self_nonneg a.re, mul_self_nonneg a.im]

/-! ## Rounding -/

section rounding

/-- The assumptions on the rounding, with the bounds on the errors given. -/
structure Rnd (fl : R → R) (τ ε η : R) : Prop where
  nn : 0 ≤ ε
  tol : 1000 * ε ≤ τ
  one : 1000 * ε ≤ 1
  eta : 0 ≤ η
  eta1 : η ≤ ε
  eta2 : η ≤ ε * τ ^ 2
  err : ∀ x, |fl x - x| ≤ ε * |x| + η

variable {fl : R → R} {τ ε η : R}

omit [HasSqrt R] [LawfulSqrt R] in
theorem Rnd.pos (h : Rnd fl τ ε η) : 0 ≤ τ := by linarith [h.nn, h.tol]

omit [HasSqrt R] [LawfulSqrt R] in
theorem Rnd.eta3 (h : Rnd fl τ ε η) : η ≤ ε * τ := by
  have h0 := h.nn
  have h1 := h.eta1
  have h2 := h.eta2
  have h3 := h.pos
  rcases le_total τ 1 with h4 | h4
  · refine h2.trans (mul_le_mul_of_nonneg_left ?_ h0)
    nlinarith
  · refine h1.trans ?_
    nlinarith

omit [HasSqrt R] [LawfulSqrt R] in
/-- A rounded sum of two rounded numbers. -/
theorem Rnd.dot (h : Rnd fl τ ε η) {x y m : R} (hm : |x| + |y| ≤ m) (ht : τ ^ 2 ≤ m) (sg : R) (hs : sg = 1 ∨ sg = -1) :
    |fl (fl x + sg * fl y) - (x + sg * y)| ≤ 6 * ε * m := by
  have e0 := h.nn
  have e1 := h.one
  have e3 := h.eta2
  have m0 : 0 ≤ m := (add_nonneg (abs_nonneg x) (abs_nonneg y)).trans hm
  have eη : η ≤ ε * m := e3.trans (mul_le_mul_of_nonneg_left ht e0)
  have hx := h.err x
  have hy := h.err y
  have sabs : |sg| = 1 := by rcases hs with rfl | rfl <;> simp
  have h1 : |(fl x + sg * fl y) - (x + sg * y)| ≤ 3 * ε * m := by
    have e : (fl x + sg * fl y) - (x + sg * y) = (fl x - x) + sg * (fl y - y) := by ring
    rw [e]
    refine (abs_add_le _ _).trans ?_
    rw [abs_mul, sabs, one_mul]
    have := mul_le_mul_of_nonneg_left hm e0
    linarith
  have h2 : |fl x + sg * fl y| ≤ m + 3 * ε * m := by
    have e : fl x + sg * fl y = (x + sg * y) + ((fl x + sg * fl y) - (x + sg * y)) := by ring
    rw [e]
    refine (abs_add_le _ _).trans (add_le_add ?_ h1)
    refine (abs_add_le _ _).trans ?_
    rw [abs_mul, sabs, one_mul]
    exact hm
  have h3 := h.err (fl x + sg * fl y)
  have e : fl (fl x + sg * fl y) - (x + sg * y) = (fl (fl x + sg * fl y) - (fl x + sg * fl y)) + ((fl x + sg * fl y) - (x + sg * y)) := by ring
  rw [e]
  refine (abs_add_le _ _).trans ((add_le_add h3 h1).trans ?_)
  have h4 := mul_le_mul_of_nonneg_left h2 e0
  have h5 : ε * (3 * ε * m) ≤ ε * m * (3 / 1000) := by
    have : ε * (3 * ε * m) = ε * m * (3 * ε) := by ring
    rw [this]
    exact mul_le_mul_of_nonneg_left (by linarith) (mul_nonneg e0 m0)
  have h6 : 0 ≤ ε * m := mul_nonneg e0 m0
  linarith

omit [HasSqrt R] [LawfulSqrt R] in
theorem Rnd.dotAdd (h : Rnd fl τ ε η) {x y m : R} (hm : |x| + |y| ≤ m) (ht : τ ^ 2 ≤ m) : |fl (fl x + fl y) - (x + y)| ≤ 6 * ε * m := by
  have := h.dot hm ht 1 (Or.inl rfl)
  rwa [one_mul, one_mul] at this

omit [HasSqrt R] [LawfulSqrt R] in
theorem Rnd.dotSub (h : Rnd fl τ ε η) {x y m : R} (hm : |x| + |y| ≤ m) (ht : τ ^ 2 ≤ m) : |fl (fl x - fl y) - (x - y)| ≤ 6 * ε * m := by
  have := h.dot hm ht (-1) (Or.inr rfl)
  rwa [neg_one_mul, neg_one_mul, ← sub_eq_add_neg, ← sub_eq_add_neg] at this

/-- The Cauchy-Schwarz inequality for two terms. -/
theorem cs_two (a b : Cx R) : |a.re * b.re| + |a.im * b.im| ≤ mag a * mag b ∧ |a.re * b.im| + |a.im * b.re| ≤ mag a * mag b := by
  have ha := mag_nonneg a
  have hb := mag_nonneg b
  have h1 := mag_sq a
  have h2 := mag_sq b
  have main : ∀ p q u v : R, 0 ≤ p → 0 ≤ q → 0 ≤ u → 0 ≤ v → p * p + q * q = a.mag2 → u * u + v * v = b.mag2 → p * u + q * v ≤ mag a * mag b := by
    intro p q u v hp hq hu hv e1 e2
    by_contra hn
    push Not at hn
    have hp' : 0 ≤ mag a * mag b := mul_nonneg ha hb
    have h3 : (mag a * mag b) * (mag a * mag b) < (p * u + q * v) * (p * u + q * v) := by nlinarith
    have e : (mag a * mag b) * (mag a * mag b) = (p * p + q * q) * (u * u + v * v) := by rw [e1, e2, ← h1, ← h2]; ring
    rw [e] at h3
    nlinarith [mul_self_nonneg (p * v - q * u)]
  constructor
  · rw [abs_mul, abs_mul]
    refine main _ _ _ _ (abs_nonneg _) (abs_nonneg _) (abs_nonneg _) (abs_nonneg _) ?_ ?_ <;>
      (rw [abs_mul_abs_self, abs_mul_abs_self]; rfl)
  · rw [abs_mul, abs_mul]
    refine main _ _ _ _ (abs_nonneg _) (abs_nonneg _) (abs_nonneg _) (abs_nonneg _) ?_ ?_
    · rw [abs_mul_abs_self, abs_mul_abs_self]; rfl
    · rw [abs_mul_abs_self, abs_mul_abs_self, add_comm]; rfl

/-- A product with rounding. -/
theorem Rnd.mul (h : Rnd fl τ ε η) {a b : Cx R} (ha : τ ≤ mag a) (hb : τ ≤ mag b) :
    mag (⟨fl (fl (a.re * b.re) - fl (a.im * b.im)), fl (fl (a.re * b.im) + fl (a.im * b.re))⟩ - a * b) ≤ 9 * ε * (mag a * mag b) := by
  have ht := h.pos
  have hm : τ ^ 2 ≤ mag a * mag b := by rw [sq]; exact mul_le_mul ha hb ht (mag_nonneg a)
  obtain ⟨c1, c2⟩ := cs_two a b
  have e0 := h.nn
  have p0 : 0 ≤ mag a * mag b := mul_nonneg (mag_nonneg a) (mag_nonneg b)
  have := mag_of_comp' (a := ⟨fl (fl (a.re * b.re) - fl (a.im * b.im)), fl (fl (a.re * b.im) + fl (a.im * b.re))⟩) (b := a * b)
    (τ := 6 * ε * (mag a * mag b)) (by positivity) (h.dotSub c1 hm) (h.dotAdd c2 hm)
  refine this.trans (le_of_eq (by ring))

/-- A squared absolute value with rounding. -/
theorem Rnd.mag2 (h : Rnd fl τ ε η) {z : Cx R} (hz : τ ≤ mag z) : |mag2F fl z - z.mag2| ≤ 6 * ε * z.mag2 := by
  have hm : τ ^ 2 ≤ mag z * mag z := by rw [sq]; exact mul_le_mul hz hz h.pos (mag_nonneg z)
  rw [mag_sq] at hm
  refine h.dotAdd ?_ hm
  rw [abs_mul_self, abs_mul_self]
  exact le_refl _

omit [HasSqrt R] [LawfulSqrt R] in
/-- A quotient with rounding. -/
theorem Rnd.quot (h : Rnd fl τ ε η) {n n' c c' A k : R} (hc : 0 < c) (hk : 0 ≤ k) (hk1 : k * ε ≤ 1 / 10) (hcc : |c' - c| ≤ k * ε * c)
    (hn : |n| ≤ A * c) (hnn : |n' - n| ≤ k * ε * (A * c)) : |n' / c' - n / c| ≤ 9 / 4 * (k * ε) * A ∧ 0 < c' := by
  have e0 := h.nn
  have ke : 0 ≤ k * ε := mul_nonneg hk e0
  have A0 : 0 ≤ A := by
    by_contra hA
    push Not at hA
    have := (abs_nonneg n).trans hn
    nlinarith
  rw [abs_le] at hcc
  have c'lo : 9 / 10 * c ≤ c' := by nlinarith [hcc.1]
  have c'pos : 0 < c' := by linarith
  refine ⟨?_, c'pos⟩
  have e : n' / c' - n / c = ((n' - n) * c - n * (c' - c)) / (c' * c) := by
    field_simp
    ring
  rw [e, abs_div, abs_of_pos (mul_pos c'pos hc), div_le_iff₀ (mul_pos c'pos hc)]
  have h1 : |(n' - n) * c - n * (c' - c)| ≤ 2 * (k * ε) * A * (c * c) := by
    refine (abs_sub _ _).trans ?_
    rw [abs_mul, abs_mul, abs_of_pos hc]
    have h2 : |n' - n| * c ≤ k * ε * (A * c) * c := mul_le_mul_of_nonneg_right hnn hc.le
    have h3 : |n| * |c' - c| ≤ (A * c) * (k * ε * c) := mul_le_mul hn (abs_le.2 hcc) (abs_nonneg _) (mul_nonneg A0 hc.le)
    linarith
  refine h1.trans ?_
  have h4 : 9 / 10 * (c * c) ≤ c' * c := by nlinarith
  have h5 : 0 ≤ k * ε * A := mul_nonneg ke A0
  have h6 := mul_le_mul_of_nonneg_left h4 h5
  nlinarith [mul_nonneg h5 (mul_nonneg hc.le hc.le)]

/-- A complex quotient with rounding. -/
theorem Rnd.div (h : Rnd fl τ ε η) {a b : Cx R} (ha : τ ≤ mag a) (hb : τ ≤ mag b) (hb0 : 0 < mag b) :
    mag (⟨fl (fl (fl (a.re * b.re) + fl (a.im * b.im)) / fl (fl (b.re * b.re) + fl (b.im * b.im))),
      fl (fl (fl (a.im * b.re) - fl (a.re * b.im)) / fl (fl (b.re * b.re) + fl (b.im * b.im)))⟩ - a / b) ≤
      23 * ε * (mag a / mag b) + 3 / 2 * η := by
  have ht := h.pos
  have e0 := h.nn
  have e1 := h.one
  have η0 := h.eta
  have hm : τ ^ 2 ≤ mag a * mag b := by rw [sq]; exact mul_le_mul ha hb ht (mag_nonneg a)
  have b2 := mag_sq b
  have a0 := mag_nonneg a
  obtain ⟨c1, c2⟩ := cs_two a b
  set A := mag a / mag b with hA
  have A0 : 0 ≤ A := div_nonneg a0 hb0.le
  have eA : mag a * mag b = A * (mag b * mag b) := by rw [hA]; field_simp
  have hcc := h.mag2 hb
  unfold mag2F at hcc
  rw [← b2] at hcc
  have c0 : 0 < mag b * mag b := mul_pos hb0 hb0
  have main : ∀ n n' : R, |n| ≤ mag a * mag b → |n' - n| ≤ 6 * ε * (mag a * mag b) →
      |fl (n' / fl (fl (b.re * b.re) + fl (b.im * b.im))) - n / (mag b * mag b)| ≤ 15 * ε * A + η := by
    intro n n' hn hnn
    rw [eA] at hn hnn
    obtain ⟨q1, -⟩ := h.quot (k := 6) c0 (by norm_num) (by linarith) hcc hn hnn
    have q2 := h.err (n' / fl (fl (b.re * b.re) + fl (b.im * b.im)))
    have q3 : |n / (mag b * mag b)| ≤ A := by
      rw [abs_div, abs_of_pos c0, div_le_iff₀ c0]; exact hn
    have q4 : |n' / fl (fl (b.re * b.re) + fl (b.im * b.im))| ≤ A + 9 / 4 * (6 * ε) * A := by
      have := abs_add_le (n / (mag b * mag b)) (n' / fl (fl (b.re * b.re) + fl (b.im * b.im)) - n / (mag b * mag b))
      rw [add_sub_cancel] at this
      linarith
    have q5 := mul_le_mul_of_nonneg_left q4 e0
    have q6 : ε * (9 / 4 * (6 * ε) * A) ≤ ε * A * (1 / 10) := by
      have : ε * (9 / 4 * (6 * ε) * A) = ε * A * (9 / 4 * (6 * ε)) := by ring
      rw [this]
      exact mul_le_mul_of_nonneg_left (by linarith) (mul_nonneg e0 A0)
    have := abs_add_le (fl (n' / fl (fl (b.re * b.re) + fl (b.im * b.im))) - n' / fl (fl (b.re * b.re) + fl (b.im * b.im)))
      (n' / fl (fl (b.re * b.re) + fl (b.im * b.im)) - n / (mag b * mag b))
    rw [sub_add_sub_cancel] at this
    have := mul_nonneg e0 A0
    linarith
  have dre : (a / b).re = (a.re * b.re + a.im * b.im) / (mag b * mag b) := by rw [b2]; rfl
  have dim : (a / b).im = (a.im * b.re - a.re * b.im) / (mag b * mag b) := by rw [b2]; rfl
  have c3 : |a.im * b.re| + |a.re * b.im| ≤ mag a * mag b := by linarith
  have r1 := main _ _ ((abs_add_le _ _).trans c1) (h.dotAdd c1 hm)
  have r2 := main _ _ ((abs_sub _ _).trans c3) (h.dotSub c3 hm)
  rw [← dre] at r1
  rw [← dim] at r2
  have := mag_of_comp' (a := ⟨fl (fl (fl (a.re * b.re) + fl (a.im * b.im)) / fl (fl (b.re * b.re) + fl (b.im * b.im))),
      fl (fl (fl (a.im * b.re) - fl (a.re * b.im)) / fl (fl (b.re * b.re) + fl (b.im * b.im)))⟩) (b := a / b)
    (τ := 15 * ε * A + η) (by positivity) r1 r2
  refine this.trans ?_
  have := mul_nonneg e0 A0
  linarith

/-- A sum with rounding. -/
theorem Rnd.add (h : Rnd fl τ ε η) (a b : Cx R) : mag (addC fl a b - (a + b)) ≤ 3 / 2 * (ε * mag (a + b) + η) := by
  have e0 := h.nn
  refine mag_of_comp' (add_nonneg (mul_nonneg e0 (mag_nonneg _)) h.eta) ?_ ?_
  · refine (h.err (a.re + b.re)).trans ?_
    have := mul_le_mul_of_nonneg_left (abs_re_le (a + b)) e0
    rw [Cx.add_re] at this
    linarith
  · refine (h.err (a.im + b.im)).trans ?_
    have := mul_le_mul_of_nonneg_left (abs_im_le (a + b)) e0
    rw [Cx.add_im] at this
    linarith

/-- A square root with rounding. -/
theorem Rnd.sqrt (h : Rnd fl τ ε η) {x X k : R} (hX : τ ≤ X) (hX0 : 0 < X) (hk : 0 ≤ k) (hk1 : k * ε ≤ 1 / 100)
    (hx : |x - X * X| ≤ k * ε * (X * X)) : |fl (HasSqrt.sqrt x) - X| ≤ (k + 21 / 10) * ε * X := by
  have e0 := h.nn
  have η3 := h.eta3
  have XX : 0 < X * X := mul_pos hX0 hX0
  have x0 : 0 ≤ x := by
    rw [abs_le] at hx
    nlinarith [hx.1]
  have y0 : 0 ≤ HasSqrt.sqrt x := LawfulSqrt.nonneg x
  have y2 := LawfulSqrt.mul_self x x0
  set y := HasSqrt.sqrt x
  have h1 : |y - X| ≤ k * ε * X := by
    have h2 : |y - X| * (y + X) ≤ k * ε * X * X := by
      rw [← abs_of_pos (by linarith : 0 < y + X), ← abs_mul]
      have e : (y - X) * (y + X) = x - X * X := by rw [← y2]; ring
      rw [e]
      exact hx.trans (le_of_eq (by ring))
    have h3 : |y - X| * X ≤ |y - X| * (y + X) := mul_le_mul_of_nonneg_left (by linarith) (abs_nonneg _)
    exact le_of_mul_le_mul_right (h3.trans h2) hX0
  have h2 : y ≤ X + 1 / 100 * X := by
    have := (abs_le.1 h1).2
    nlinarith
  have h3 := h.err y
  rw [abs_of_nonneg y0] at h3
  have h4 : |fl y - X| ≤ |fl y - y| + |y - X| := by
    have := abs_add_le (fl y - y) (y - X)
    rwa [sub_add_sub_cancel] at this
  have h5 := mul_le_mul_of_nonneg_left h2 e0
  have h6 := mul_le_mul_of_nonneg_left hX e0
  have h7 := mul_nonneg e0 hX0.le
  nlinarith

/-- The numbers computed when two amplitudes are normalised. -/
theorem Rnd.vec (h : Rnd fl τ ε η) {mx : Cx R} (hx : τ ≤ mag mx) (hx0 : 0 < mag mx) {N n2 : R} (hN : mag mx ≤ N)
    (hn2 : |n2 - N * N| ≤ 89 / 10 * ε * (N * N)) {norm mm cf a : R} (e1 : norm = fl (HasSqrt.sqrt n2)) (e2 : mm = fl (HasSqrt.sqrt (mag2F fl mx)))
    (e3 : cf = fl (norm / mm)) (e4 : a = fl (mm / norm)) {top : Cx R} (e5 : top = ⟨fl (mx.re * cf), fl (mx.im * cf)⟩) :
    mag top ≤ N + 31 * ε * N ∧ N ≤ mag top + 31 * ε * N ∧ |a - mag mx / N| ≤ 27 * ε ∧ mag (top * ⟨a, 0⟩ - mx) ≤ 59 * ε * N := by
  have e0 := h.nn
  have e1' := h.one
  have η0 := h.eta
  have η1 := h.eta1
  have η3 := h.eta3
  have N0 : 0 < N := by linarith
  have εN : 0 ≤ ε * N := mul_nonneg e0 N0.le
  have hnorm : |norm - N| ≤ 11 * ε * N := by
    rw [e1]
    exact (h.sqrt (hx.trans hN) N0 (by norm_num) (by linarith) hn2).trans (le_of_eq (by ring))
  have hmm : |mm - mag mx| ≤ 11 * ε * mag mx := by
    rw [e2]
    have := h.mag2 hx
    rw [← mag_sq] at this
    exact (h.sqrt hx hx0 (by norm_num) (by linarith) this).trans (by have := mul_nonneg e0 hx0.le; linarith)
  obtain ⟨q1, mmpos⟩ := h.quot (n := N) (n' := norm) (c := mag mx) (c' := mm) (A := N / mag mx) (k := 11) hx0 (by norm_num) (by linarith) hmm
    (by rw [abs_of_pos N0, div_mul_cancel₀ _ hx0.ne']) (by rw [div_mul_cancel₀ _ hx0.ne']; exact hnorm)
  obtain ⟨q2, npos⟩ := h.quot (n := mag mx) (n' := mm) (c := N) (c' := norm) (A := mag mx / N) (k := 11) N0 (by norm_num) (by linarith) hnorm
    (by rw [abs_of_pos hx0, div_mul_cancel₀ _ N0.ne']) (by rw [div_mul_cancel₀ _ N0.ne']; exact hmm)
  have Q1 : 1 ≤ N / mag mx := by rw [le_div_iff₀ hx0]; linarith
  set Q := N / mag mx with hQ
  have eQ : mag mx * Q = N := by rw [hQ]; exact mul_div_cancel₀ _ hx0.ne'
  set r := mag mx / N with hr
  have er : N * r = mag mx := by rw [hr]; exact mul_div_cancel₀ _ N0.ne'
  have r0 : 0 ≤ r := div_nonneg hx0.le N0.le
  have r1 : r ≤ 1 := by rw [hr, div_le_one N0]; exact hN
  have εQ : 0 ≤ ε * Q := mul_nonneg e0 (by linarith)
  have εεQ : ε * (ε * Q) ≤ 1 / 1000 * (ε * Q) := mul_le_mul_of_nonneg_right (by linarith) εQ
  have hcf : |cf - Q| ≤ 27 * ε * Q := by
    have a1 := h.err (norm / mm)
    have a2 : |norm / mm| ≤ Q + 9 / 4 * (11 * ε) * Q := by
      have := abs_add_le Q (norm / mm - Q)
      rw [add_sub_cancel, abs_of_pos (by linarith : 0 < Q)] at this
      linarith
    have a3 := abs_add_le (fl (norm / mm) - norm / mm) (norm / mm - Q)
    rw [sub_add_sub_cancel] at a3
    rw [e3]
    have a4 := mul_le_mul_of_nonneg_left a2 e0
    have a5 : η ≤ ε * Q := η1.trans (le_mul_of_one_le_right e0 Q1)
    linarith
  have εr : 0 ≤ ε * r := mul_nonneg e0 r0
  have εr1 : ε * r ≤ ε := mul_le_of_le_one_right e0 r1
  have εεr : ε * (ε * r) ≤ 1 / 1000 * (ε * r) := mul_le_mul_of_nonneg_right (by linarith) εr
  have ha : |a - r| ≤ 27 * ε := by
    have a1 := h.err (mm / norm)
    have a2 : |mm / norm| ≤ r + 9 / 4 * (11 * ε) * r := by
      have := abs_add_le r (mm / norm - r)
      rw [add_sub_cancel, abs_of_nonneg r0] at this
      linarith
    have a3 := abs_add_le (fl (mm / norm) - mm / norm) (mm / norm - r)
    rw [sub_add_sub_cancel] at a3
    rw [e4]
    have a4 := mul_le_mul_of_nonneg_left a2 e0
    linarith
  have mof : ∀ x : R, mag (Cx.ofReal x) = |x| := by
    intro x
    have h1 := mag_sq (Cx.ofReal x)
    rw [Cx.mag2_ofReal] at h1
    have h2 := mag_nonneg (Cx.ofReal x)
    rw [← abs_mul_abs_self x] at h1
    rcases mul_self_eq_mul_self_iff.1 h1 with h3 | h3
    · exact h3
    · have := abs_nonneg x; linarith
  have osub : ∀ x y : R, Cx.ofReal (x - y) = Cx.ofReal x - Cx.ofReal y := fun x y => by ext <;> simp
  have t1 : mag (mx * Cx.ofReal cf - mx * Cx.ofReal Q) ≤ 27 * ε * N := by
    rw [← mul_sub, ← osub, mag_mul, mof, ← eQ]
    have := mul_le_mul_of_nonneg_left hcf hx0.le
    linarith
  have mcf : mag (mx * Cx.ofReal cf) ≤ N + 27 * ε * N := by
    have := mag_le_add (mx * Cx.ofReal cf) (mx * Cx.ofReal Q)
    rw [mag_mul mx (Cx.ofReal Q), mof, abs_of_pos (by linarith : 0 < Q), eQ] at this
    linarith
  have t2 : mag (top - mx * Cx.ofReal cf) ≤ 32 / 10 * ε * N := by
    have c0 : 0 ≤ ε * mag (mx * Cx.ofReal cf) + η := add_nonneg (mul_nonneg e0 (mag_nonneg _)) η0
    have re' : (mx * Cx.ofReal cf).re = mx.re * cf := by simp
    have im' : (mx * Cx.ofReal cf).im = mx.im * cf := by simp
    have := mag_of_comp' (a := top) (b := mx * Cx.ofReal cf) c0 (by
      rw [e5, re']
      refine (h.err (mx.re * cf)).trans ?_
      have := mul_le_mul_of_nonneg_left (abs_re_le (mx * Cx.ofReal cf)) e0
      rw [re'] at this
      linarith) (by
      rw [e5, im']
      refine (h.err (mx.im * cf)).trans ?_
      have := mul_le_mul_of_nonneg_left (abs_im_le (mx * Cx.ofReal cf)) e0
      rw [im'] at this
      linarith)
    refine this.trans ?_
    have a1 := mul_le_mul_of_nonneg_left mcf e0
    have a2 : ε * (ε * N) ≤ 1 / 1000 * (ε * N) := mul_le_mul_of_nonneg_right (by linarith) εN
    have a3 : η ≤ ε * N := η3.trans (mul_le_mul_of_nonneg_left (hx.trans hN) e0)
    linarith
  have t3 : mag (top - mx * Cx.ofReal Q) ≤ 31 * ε * N := (mag_tri _ _ _).trans (by linarith)
  have t4 : mag (mx * Cx.ofReal Q) = N := by rw [mag_mul, mof, abs_of_pos (by linarith : 0 < Q), eQ]
  have t5 := mag_le_add top (mx * Cx.ofReal Q)
  rw [t4] at t5
  have t6 := mag_le_add (mx * Cx.ofReal Q) top
  rw [t4, mag_sub_comm] at t6
  refine ⟨by linarith, by linarith, ha, ?_⟩
  have e6 : mx * Cx.ofReal Q * Cx.ofReal r = mx := by
    have : Q * r = 1 := by rw [hQ, hr, div_mul_div_cancel₀ hx0.ne', div_self N0.ne']
    rw [mul_assoc, ← Cx.ofReal_mul, this, Cx.ofReal_one, mul_one]
  have e7 : top * ⟨a, 0⟩ - mx = top * Cx.ofReal (a - r) + (top - mx * Cx.ofReal Q) * Cx.ofReal r := by
    have : (⟨a, 0⟩ : Cx R) = Cx.ofReal a := rfl
    rw [this, sub_mul, e6, osub]
    ring
  rw [e7]
  refine (mag_add _ _).trans ?_
  rw [mag_mul, mag_mul, mof, mof, abs_of_nonneg r0]
  have u1 : mag top * |a - r| ≤ (N + 31 * ε * N) * (27 * ε) := mul_le_mul (by linarith) ha (abs_nonneg _) (by linarith)
  have u2 : mag (top - mx * Cx.ofReal Q) * r ≤ 31 * ε * N * 1 := mul_le_mul t3 r1 r0 (by linarith)
  have u3 : ε * (ε * N) ≤ 1 / 1000 * (ε * N) := mul_le_mul_of_nonneg_right (by linarith) εN
  linarith

end rounding

/-- The assumptions on the rounding. -/
def RndOk (fl : R → R) (τ : R) : Prop := ∃ ε η, Rnd fl τ ε η

omit [HasSqrt R] [LawfulSqrt R] [IsStrictOrderedRing R] in
theorem JCfg.Rounds.ok [FloorRing R] {J : JCfg R} {τ : R} (h : J.Rounds τ) : RndOk J.fl τ := by
  obtain ⟨ε, η, h1, h2, h3, h4, h5, h6, h7⟩ := h
  exact ⟨ε, η, h1, h2, h3, h4, h5, h6, h7⟩

/-- A factor for the effect of rounding. -/
def rho (τ : R) : R := 1 + min τ 1 / 25

section
omit [HasSqrt R] [LawfulSqrt R]
variable {τ : R}

theorem rho_one (hτ : 0 ≤ τ) : 1 ≤ rho τ := by
  unfold rho
  have : 0 ≤ min τ 1 := le_min hτ zero_le_one
  linarith

theorem rho_le (τ : R) : rho τ ≤ 1 + τ / 25 := by
  unfold rho
  have := min_le_left τ 1
  linarith

theorem rho_le' (τ : R) : rho τ ≤ 26 / 25 := by
  unfold rho
  have := min_le_right τ 1
  linarith

theorem Rnd.rho {fl : R → R} {ε η : R} (h : Rnd fl τ ε η) : 1 + 40 * ε ≤ rho τ := by
  unfold DD.rho
  have := le_min h.tol h.one
  linarith

end

section
variable [FloorRing R] {t : CTab R}

theorem zeroV_mag' (hτ : 0 ≤ t.tol) {z : Cx R} (h : t.zeroV z = true) : mag z ≤ 3 / 2 * t.tol := by
  unfold CTab.zeroV CTab.approxZero at h
  simp only [Bool.and_eq_true, decide_eq_true_eq] at h
  have := mag_of_comp' (a := z) (b := 0) hτ (by simpa using h.1) (by simpa using h.2)
  rwa [sub_zero] at this

theorem zeroV_mag (hτ : 0 ≤ t.tol) {z : Cx R} (h : t.zeroV z = true) : mag z ≤ 2 * t.tol :=
  (zeroV_mag' hτ h).trans (by linarith)

theorem nzV_mag {z : Cx R} (h : ¬ t.zeroV z = true) : t.tol ≤ mag z := by
  unfold CTab.zeroV CTab.approxZero at h
  simp only [Bool.and_eq_true, decide_eq_true_eq, not_and_or, not_le] at h
  rcases h with h | h
  · exact h.le.trans (abs_re_le z)
  · exact h.le.trans (abs_im_le z)

theorem zeroV_zero (hτ : 0 ≤ t.tol) : t.zeroV (0 : Cx R) = true := by
  unfold CTab.zeroV CTab.approxZero; simp [hτ]

theorem oneV_mag' (hτ : 0 ≤ t.tol) {z : Cx R} (h : t.oneV z = true) : mag (z - 1) ≤ 3 / 2 * t.tol := by
  unfold CTab.oneV CTab.approxOne at h
  simp only [Bool.and_eq_true] at h
  refine mag_of_comp' hτ ?_ ?_
  · exact (CTab.approxEq_iff hτ).1 h.1
  · have := h.2
    unfold CTab.approxZero at this
    simpa using this

theorem oneV_mag (hτ : 0 ≤ t.tol) {z : Cx R} (h : t.oneV z = true) : mag (z - 1) ≤ 2 * t.tol :=
  (oneV_mag' hτ h).trans (by linarith)

theorem eqV_mag' (hτ : 0 ≤ t.tol) {a b : Cx R} (h : t.eqV a b = true) : mag (a - b) ≤ 3 / 2 * t.tol := by
  unfold CTab.eqV at h
  simp only [Bool.and_eq_true] at h
  exact mag_of_comp' hτ ((CTab.approxEq_iff hτ).1 h.1) ((CTab.approxEq_iff hτ).1 h.2)

theorem eqV_mag (hτ : 0 ≤ t.tol) {a b : Cx R} (h : t.eqV a b = true) : mag (a - b) ≤ 2 * t.tol :=
  (eqV_mag' hτ h).trans (by linarith)

variable {fl : R → R}

/-- Multiplication with shortcuts and rounding, in terms of the factors. -/
theorem mulV_err (hr : RndOk fl t.tol) (a b : Cx R) :
    mag (t.mulV fl a b - a * b) ≤ 3 / 2 * t.tol * max (mag a) (mag b) ∨ mag (t.mulV fl a b - a * b) ≤ 1 / 100 * t.tol * (mag a * mag b) := by
  obtain ⟨ε, η, hr⟩ := hr
  have hτ := hr.pos
  have ha := mag_nonneg a
  have hb := mag_nonneg b
  have ma := le_max_left (mag a) (mag b)
  have mb := le_max_right (mag a) (mag b)
  unfold CTab.mulV
  split_ifs with h1 h2 h3
  · left
    have e : b - a * b = (1 - a) * b := by ring
    rw [e]
    exact mag_mono_mul ((mag_sub_comm (1 : Cx R) a).trans_le (oneV_mag' hτ h1)) mb
  · left
    have e : a - a * b = (1 - b) * a := by ring
    rw [e]
    exact mag_mono_mul ((mag_sub_comm (1 : Cx R) b).trans_le (oneV_mag' hτ h2)) ma
  · left
    have e0 : (⟨0, 0⟩ : Cx R) = 0 := rfl
    rw [e0, zero_sub, mag_neg]
    simp only [Bool.or_eq_true] at h3
    rcases h3 with h3 | h3
    · exact mag_mono_mul (zeroV_mag' hτ h3) mb
    · rw [mul_comm]
      exact mag_mono_mul (zeroV_mag' hτ h3) ma
  · right
    simp only [Bool.or_eq_true, not_or] at h3
    refine (hr.mul (nzV_mag h3.1) (nzV_mag h3.2)).trans ?_
    refine mul_le_mul_of_nonneg_right ?_ (mul_nonneg ha hb)
    linarith [hr.tol, hr.nn]

/-- The absolute value of a product with shortcuts and rounding. -/
theorem mulV_mag (hr : RndOk fl t.tol) {a b : Cx R} {p q : R} (ha : mag a ≤ p) (hb : mag b ≤ q) (hp : 1 ≤ p) (hq : 1 ≤ q) :
    mag (t.mulV fl a b) ≤ rho t.tol * (p * q) := by
  obtain ⟨ε, η, hr⟩ := hr
  have hτ := hr.pos
  have hpq : 1 ≤ p * q := by nlinarith
  have r1 := rho_one hτ
  have up : p * q ≤ rho t.tol * (p * q) := by nlinarith
  unfold CTab.mulV
  split_ifs with h1 h2 h3
  · nlinarith
  · nlinarith
  · have e0 : (⟨0, 0⟩ : Cx R) = 0 := rfl
    rw [e0, mag_zero]
    linarith
  · simp only [Bool.or_eq_true, not_or] at h3
    have m := hr.mul (nzV_mag h3.1) (nzV_mag h3.2)
    have m1 := mag_le_add (⟨fl (fl (a.re * b.re) - fl (a.im * b.im)), fl (fl (a.re * b.im) + fl (a.im * b.re))⟩ : Cx R) (a * b)
    rw [mag_mul] at m1
    have m2 : mag a * mag b ≤ p * q := mul_le_mul ha hb (mag_nonneg b) (by linarith)
    have m3 := hr.rho
    have m4 := hr.nn
    calc _ ≤ (1 + 9 * ε) * (mag a * mag b) := by linarith
      _ ≤ (1 + 9 * ε) * (p * q) := mul_le_mul_of_nonneg_left m2 (by linarith)
      _ ≤ rho t.tol * (p * q) := mul_le_mul_of_nonneg_right (by linarith) (by linarith)

/-- Multiplication with shortcuts and rounding. -/
theorem mulV_spec (hr : RndOk fl t.tol) {a b : Cx R} {p q : R} (ha : mag a ≤ p) (hb : mag b ≤ q) (hp : 1 ≤ p) (hq : 1 ≤ q) :
    mag (t.mulV fl a b) ≤ rho t.tol * (p * q) ∧ mag (t.mulV fl a b - a * b) ≤ 3 / 2 * t.tol * (p * q) := by
  refine ⟨mulV_mag hr ha hb hp hq, ?_⟩
  have hτ : 0 ≤ t.tol := by obtain ⟨ε, η, hr⟩ := hr; exact hr.pos
  have hm : max (mag a) (mag b) ≤ p * q := max_le (by nlinarith) (by nlinarith)
  have hm' : mag a * mag b ≤ p * q := mul_le_mul ha hb (mag_nonneg b) (by linarith)
  have hpq : 0 ≤ p * q := by nlinarith
  rcases mulV_err hr a b with h | h
  · exact h.trans (mul_le_mul_of_nonneg_left hm (by linarith))
  · refine h.trans ((mul_le_mul_of_nonneg_left hm' (by linarith)).trans ?_)
    exact mul_le_mul_of_nonneg_right (by linarith) hpq

/-- Division with shortcuts and rounding, for a divisor that is not much smaller than the dividend. -/
theorem divV_spec (hr : RndOk fl t.tol) {a b : Cx R} (ha : t.tol ≤ mag a) (hb : t.tol ≤ mag b) (hb0 : 0 < mag b)
    (hab : mag a ≤ rho t.tol * mag b) :
    mag (t.divV fl a b) ≤ 1 + 8 / 5 * t.tol ∧ mag (b * t.divV fl a b - a) ≤ 8 / 5 * t.tol * (1 + mag b) ∧
    mag a ≤ (mag (t.divV fl a b) + 8 / 5 * t.tol) * mag b := by
  obtain ⟨ε, η, hr⟩ := hr
  have hτ := hr.pos
  have hne : b ≠ 0 := by rintro rfl; rw [mag_zero] at hb0; exact lt_irrefl _ hb0
  have r1 := rho_le t.tol
  have r2 := rho_le' t.tol
  have a0 := mag_nonneg a
  have tb : 0 ≤ t.tol * mag b := mul_nonneg hτ hb0.le
  have ab1 : mag a ≤ mag b + t.tol / 25 * mag b := hab.trans (by nlinarith)
  have ab2 : mag a ≤ 26 / 25 * mag b := hab.trans (mul_le_mul_of_nonneg_right r2 hb0.le)
  unfold CTab.divV
  split_ifs with h1 h2
  · have e0 : (⟨1, 0⟩ : Cx R) = 1 := rfl
    have h := eqV_mag' hτ h1
    rw [mag_sub_comm] at h
    rw [e0, mag_one, mul_one]
    exact ⟨by linarith, by nlinarith, by nlinarith⟩
  · have h := oneV_mag' hτ h2
    refine ⟨?_, ?_, ?_⟩
    · have := mag_le_add b 1
      rw [mag_one] at this
      refine hab.trans ?_
      have : rho t.tol * mag b ≤ rho t.tol * (1 + 3 / 2 * t.tol) := mul_le_mul_of_nonneg_left (by linarith) (by linarith [rho_one hτ])
      refine this.trans ?_
      nlinarith
    · have e : b * a - a = (b - 1) * a := by ring
      rw [e]
      refine (mag_mono_mul h ab2).trans ?_
      nlinarith
    · have h4 := mag_le_add 1 b
      rw [mag_one, mag_sub_comm] at h4
      have h5 : mag a * 1 ≤ mag a * (mag b + 3 / 2 * t.tol) := mul_le_mul_of_nonneg_left (by linarith) a0
      have h6 : t.tol * mag a ≤ t.tol * (26 / 25 * mag b) := mul_le_mul_of_nonneg_left ab2 hτ
      nlinarith
  · have d := hr.div ha hb hb0
    dsimp only
    set q : Cx R := ⟨fl (fl (fl (a.re * b.re) + fl (a.im * b.im)) / fl (fl (b.re * b.re) + fl (b.im * b.im))),
      fl (fl (fl (a.im * b.re) - fl (a.re * b.im)) / fl (fl (b.re * b.re) + fl (b.im * b.im)))⟩
    have e0 := hr.nn
    have e1 := hr.tol
    have e2 := hr.eta1
    set A := mag a / mag b with hA
    have A0 : 0 ≤ A := div_nonneg a0 hb0.le
    have eA : A * mag b = mag a := by rw [hA]; exact div_mul_cancel₀ _ hb0.ne'
    have A1 : A ≤ 26 / 25 := by rw [hA, div_le_iff₀ hb0]; exact ab2
    have A2 : A ≤ 1 + t.tol / 25 := by rw [hA, div_le_iff₀ hb0]; linarith
    have mq : mag (a / b) = A := by
      have h : mag (a / b) * mag b = mag a := by rw [← mag_mul, div_mul_cancel₀ _ hne]
      rw [hA, ← h, mul_div_cancel_right₀ _ hb0.ne']
    have err : 23 * ε * A + 3 / 2 * η ≤ 3 / 100 * t.tol := by
      have : ε * A ≤ ε * (26 / 25) := mul_le_mul_of_nonneg_left A1 e0
      linarith
    have d' := d.trans err
    refine ⟨?_, ?_, ?_⟩
    · have := mag_le_add q (a / b)
      rw [mq] at this
      linarith
    · have e : b * q - a = b * (q - a / b) := by rw [mul_sub, mul_div_cancel₀ a hne]
      rw [e]
      refine (mag_mono_mul (le_refl _) d').trans ?_
      nlinarith
    · have h3 := mag_le_add (a / b) q
      rw [mq, mag_sub_comm] at h3
      rw [← eA]
      refine mul_le_mul_of_nonneg_right ?_ hb0.le
      linarith

end
end DD
