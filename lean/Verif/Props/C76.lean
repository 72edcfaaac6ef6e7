import Verif.Props.C75

/-!
# C76: inner products and fidelities are accurate up to the tolerance

In a package with tolerance `τ`, `innerProduct` takes shortcuts for numbers that are almost zero or one, reuses cached inner products of
nodes and rounds every sum and product. Its result is nevertheless the inner product of the two vectors up to a multiple of `τ`, after any
history, and `fidelity` is its squared absolute value.
-/

namespace DD

open Pkg

variable {R : Type} [Field R] [LinearOrder R] [IsStrictOrderedRing R] [FloorRing R] [HasSqrt R] [LawfulSqrt R]
variable {J : JCfg R} {τ : R} {s : JState R}

/-- Only the cache is changed. -/
theorem C76_keeps (hJ : J.Good) (hτ : 0 ≤ τ) (hR : J.Rounds τ) (hr : TReach J τ s) {n : Nat} {x y : PtrEdge} (hx : s.ValidV J n x) (hy : s.ValidV J n y) :
    let r := s.innerProduct J x y
    TReach J τ r.1 ∧ r.1.tab = s.tab ∧ r.1.ct = s.ct ∧
      (∀ l e', s.ValidV J l e' → r.1.ValidV J l e' ∧ r.1.vecJ J l e' = s.vecJ J l e') ∧
      ∀ l e', s.ValidM J l e' → r.1.ValidM J l e' ∧ r.1.matJ J l e' = s.matJ J l e' := by
  have hi := hr.inv hJ hR hτ
  have m := innerProduct_acc hJ hτ hi hx hy
  refine ⟨hr.step (.innerProduct n x y hx hy), m.tab, m.ct, fun l e' hv => ⟨m.grow.validV hv, ?_⟩,
    fun l e' hv => ⟨m.grow.validM hv, m.grow.matJ hJ hτ hi hv⟩⟩
  funext d
  rw [vecJ_eq, vecJ_eq, m.grow.cval hv.live, m.grow.namp hi m.inv d hv.node]

/-- The error of an inner product of two vectors, where `B` bounds the norms of the nodes of the vectors (1 if they are normalised). The
tolerance has to be small for the number of qubits. -/
theorem C76_inner (hJ : J.Good) (hτ : 0 ≤ τ) (hR : J.Rounds τ) (hr : TReach J τ s) {n : Nat} {x y : PtrEdge} (hx : s.ValidV J n x) (hy : s.ValidV J n y)
    {B : R} (hB : 0 ≤ B) (hn : 1000 * ((n : R) + 1) * (1 + B) * τ ≤ 1) (hxB : s.NormLe J B n x.p) (hyB : s.NormLe J B n y.p) :
    mag ((s.innerProduct J x y).2 - ∑ d, (s.vecJ J n x d).conj * s.vecJ J n y d) ≤
      5 * τ * (1 + B) * (1 / 1000 + vnorm (s.vecJ J n x) + vnorm (s.vecJ J n y) + vnorm (s.vecJ J n x) * vnorm (s.vecJ J n y)) +
        40 * τ * n * (1 + B) * (vnorm (s.vecJ J n x) * vnorm (s.vecJ J n y)) := by
  have := (innerProduct_acc hJ hτ (hr.inv hJ hR hτ) hx hy).err B hB hn hxB hyB
  have ev : ∀ e : PtrEdge, vnorm (s.vecJ J n e) = mag (s.ct.cval J.C e.w) * vnorm (s.namp J n e.p) := by
    intro e
    rw [← vnorm_evec s n ⟨e.p, s.ct.cval J.C e.w⟩]
    congr 1
    funext d
    exact vecJ_eq ..
  have es : ∑ d, (s.vecJ J n x d).conj * s.vecJ J n y d = (s.ct.cval J.C x.w).conj * s.ct.cval J.C y.w * s.innN J n x.p y.p := by
    unfold JState.innN
    rw [Finset.mul_sum]
    refine Finset.sum_congr rfl fun d _ => ?_
    rw [vecJ_eq, vecJ_eq, Cx.conj_mul]
    ring
  rw [ev, ev, es]
  dsimp only at this
  rw [mag_conj] at this
  exact this

/-- A bound for the norms of the nodes that always holds. -/
theorem C76_any (hJ : J.Good) (hτ : 0 ≤ τ) (hR : J.Rounds τ) (hr : TReach J τ s) {n : Nat} {x y : PtrEdge} (hx : s.ValidV J n x) (hy : s.ValidV J n y)
    (hn : 1000 * ((n : R) + 1) * (1 + (3 / 2 * (1 + 4 * τ)) ^ n) * τ ≤ 1) :
    mag ((s.innerProduct J x y).2 - ∑ d, (s.vecJ J n x d).conj * s.vecJ J n y d) ≤
      5 * τ * (1 + (3 / 2 * (1 + 4 * τ)) ^ n) * (1 / 1000 + vnorm (s.vecJ J n x) + vnorm (s.vecJ J n y) + vnorm (s.vecJ J n x) * vnorm (s.vecJ J n y)) +
        40 * τ * n * (1 + (3 / 2 * (1 + 4 * τ)) ^ n) * (vnorm (s.vecJ J n x) * vnorm (s.vecJ J n y)) := by
  have hi := hr.inv hJ hR hτ
  exact C76_inner hJ hτ hR hr hx hy (by positivity) hn (normLe_exists hτ hi n _ hx.node n (le_refl n)) (normLe_exists hτ hi n _ hy.node n (le_refl n))

/-- With tolerance 0 inner products and fidelities are exact. -/
theorem C76_exact (hJ : J.Good) (hR : J.Rounds 0) (hr : TReach J 0 s) {n : Nat} {x y : PtrEdge} (hx : s.ValidV J n x) (hy : s.ValidV J n y) :
    (s.innerProduct J x y).2 = ∑ d, (s.vecJ J n x d).conj * s.vecJ J n y d := by
  have := C76_any hJ (le_refl 0) hR hr hx hy (by simp)
  simp only [mul_zero, zero_mul, add_zero] at this
  exact sub_eq_zero.1 (mag_eq_zero (le_antisymm this (mag_nonneg _)))

theorem mag2F_err {ε η : R} (h : Rnd J.fl τ ε η) (z : Cx R) : |mag2F J.fl z - z.mag2| ≤ τ / 200 * (1 + z.mag2) := by
  obtain ⟨h1, h2, h3, h4, h5, h6, herr⟩ := h
  have a1 := herr (z.re * z.re)
  have a2 := herr (z.im * z.im)
  have a3 := herr (J.fl (z.re * z.re) + J.fl (z.im * z.im))
  rw [abs_mul_self] at a1 a2
  have p1 := mul_self_nonneg z.re
  have p2 := mul_self_nonneg z.im
  unfold mag2F Cx.mag2
  generalize z.re * z.re = p at *
  generalize z.im * z.im = q at *
  generalize J.fl p = P at *
  generalize J.fl q = Q at *
  rw [abs_le] at a1 a2
  have b : |P + Q| ≤ 2 * (p + q) + 2 * η := by
    have e1 : ε * p ≤ 1 / 1000 * p := mul_le_mul_of_nonneg_right (by linarith) p1
    have e2 : ε * q ≤ 1 / 1000 * q := mul_le_mul_of_nonneg_right (by linarith) p2
    rw [abs_le]
    constructor <;> linarith
  have b1 := mul_le_mul_of_nonneg_left b h1
  have b2 : ε * η ≤ 1 / 1000 * η := mul_le_mul_of_nonneg_right (by linarith) h4
  have c1 := mul_le_mul_of_nonneg_right h2 (add_nonneg p1 p2)
  rw [abs_le] at a3 ⊢
  constructor <;> linarith

/-- The error of a fidelity, from that of the inner product. -/
theorem fidelity_err {ε η : R} (h : Rnd J.fl τ ε η) (hτ : 0 ≤ τ) {z I : Cx R} {δ P : R} (hz : mag (z - I) ≤ δ) (hI : mag I ≤ P) :
    |mag2F J.fl z - I.mag2| ≤ δ * (2 * P + δ) + τ / 200 * (1 + (P + δ) ^ 2) := by
  have z0 := mag_nonneg z
  have I0 := mag_nonneg I
  have d0 := mag_nonneg (z - I)
  have h1 := mag_le_add z I
  have h2 := mag_le_add I z
  rw [mag_sub_comm] at h2
  have h3 := mag2F_err h z
  rw [← mag_sq] at h3 ⊢
  have zP : mag z ≤ P + δ := by linarith
  have h4 : mag z * mag z ≤ (P + δ) ^ 2 := by rw [sq]; exact mul_le_mul zP zP z0 (by linarith)
  have h5 : |mag z * mag z - I.mag2| ≤ δ * (2 * P + δ) := by
    rw [← mag_sq, show mag z * mag z - mag I * mag I = (mag z - mag I) * (mag z + mag I) by ring, abs_mul, abs_of_nonneg (add_nonneg z0 I0)]
    refine mul_le_mul (abs_le.2 ⟨by linarith, by linarith⟩) (by linarith) (by linarith) (by linarith)
  have h6 : τ / 200 * (1 + mag z * mag z) ≤ τ / 200 * (1 + (P + δ) ^ 2) := mul_le_mul_of_nonneg_left (by linarith) (by linarith)
  rw [mag_sq] at *
  refine (abs_sub_le _ z.mag2 _).trans ?_
  linarith

/-- `fidelity` is the squared absolute value of the inner product, where `δ` is the error of the inner product. -/
theorem C76_fidelity (hJ : J.Good) (hτ : 0 ≤ τ) (hR : J.Rounds τ) (hr : TReach J τ s) {n : Nat} {x y : PtrEdge} (hx : s.ValidV J n x) (hy : s.ValidV J n y)
    {B : R} (hB : 0 ≤ B) (hn : 1000 * ((n : R) + 1) * (1 + B) * τ ≤ 1) (hxB : s.NormLe J B n x.p) (hyB : s.NormLe J B n y.p) :
    let P := vnorm (s.vecJ J n x) * vnorm (s.vecJ J n y)
    let δ := 5 * τ * (1 + B) * (1 / 1000 + vnorm (s.vecJ J n x) + vnorm (s.vecJ J n y) + P) + 40 * τ * n * (1 + B) * P
    (s.fidelity J x y).1 = (s.innerProduct J x y).1 ∧
    |(s.fidelity J x y).2 - (∑ d, (s.vecJ J n x d).conj * s.vecJ J n y d).mag2| ≤ δ * (2 * P + δ) + τ / 200 * (1 + (P + δ) ^ 2) := by
  obtain ⟨ε, η, h1, h2, h3, h4, h5, h6, herr⟩ := hR
  exact ⟨rfl, fidelity_err ⟨h1, h2, h3, h4, h5, h6, herr⟩ hτ (C76_inner hJ hτ ⟨ε, η, h1, h2, h3, h4, h5, h6, herr⟩ hr hx hy hB hn hxB hyB)
    (inner_le _ _)⟩

/-- For states, i.e. vectors of norm about one. -/
theorem C76_states (hJ : J.Good) (hτ : 0 ≤ τ) (hR : J.Rounds τ) (hr : TReach J τ s) {n : Nat} {x y : PtrEdge} (hx : s.ValidV J n x) (hy : s.ValidV J n y)
    (hn : 2020 * ((n : R) + 1) * τ ≤ 1) (hxB : s.NormLe J (51 / 50) n x.p) (hyB : s.NormLe J (51 / 50) n y.p)
    (hx1 : vnorm (s.vecJ J n x) ≤ 101 / 100) (hy1 : vnorm (s.vecJ J n y) ≤ 101 / 100) :
    mag ((s.innerProduct J x y).2 - ∑ d, (s.vecJ J n x d).conj * s.vecJ J n y d) ≤ 90 * τ * ((n : R) + 1) ∧
    |(s.fidelity J x y).2 - (∑ d, (s.vecJ J n x d).conj * s.vecJ J n y d).mag2| ≤ 190 * τ * ((n : R) + 1) := by
  have hi := C76_inner hJ hτ hR hr hx hy (by norm_num) (by linarith) hxB hyB
  have x0 := vnorm_nonneg (s.vecJ J n x)
  have y0 := vnorm_nonneg (s.vecJ J n y)
  have hP : vnorm (s.vecJ J n x) * vnorm (s.vecJ J n y) ≤ 101 / 100 * (101 / 100) := mul_le_mul hx1 hy1 y0 (by norm_num)
  have hP0 := mul_nonneg x0 y0
  have n0 : (0 : R) ≤ n := Nat.cast_nonneg n
  have nt := mul_nonneg n0 hτ
  have k1 := mul_le_mul_of_nonneg_left hP nt
  have k2 := mul_le_mul_of_nonneg_left hP hτ
  have k3 := mul_le_mul_of_nonneg_left hx1 hτ
  have k4 := mul_le_mul_of_nonneg_left hy1 hτ
  have hδ : mag ((s.innerProduct J x y).2 - ∑ d, (s.vecJ J n x d).conj * s.vecJ J n y d) ≤ 90 * τ * ((n : R) + 1) := by
    refine hi.trans ?_
    linarith
  refine ⟨hδ, ?_⟩
  obtain ⟨ε, η, h1, h2, h3, h4, h5, h6, herr⟩ := hR
  refine (fidelity_err ⟨h1, h2, h3, h4, h5, h6, herr⟩ hτ hδ ((inner_le _ _).trans hP)).trans ?_
  have d0 : 0 ≤ 90 * τ * ((n : R) + 1) := by positivity
  have d1 : 90 * τ * ((n : R) + 1) ≤ 9 / 200 := by linarith
  have e1 : 90 * τ * ((n : R) + 1) * (2 * (101 / 100 * (101 / 100)) + 90 * τ * ((n : R) + 1)) ≤
      90 * τ * ((n : R) + 1) * (2 * (101 / 100 * (101 / 100)) + 9 / 200) := mul_le_mul_of_nonneg_left (by linarith) d0
  have e2 : (101 / 100 * (101 / 100) + 90 * τ * ((n : R) + 1)) ^ 2 ≤ (3 / 2 : R) ^ 2 := pow_le_pow_left₀ (by positivity) (by linarith) 2
  have e3 : τ / 200 * (1 + (101 / 100 * (101 / 100) + 90 * τ * ((n : R) + 1)) ^ 2) ≤ τ / 200 * (1 + (3 / 2 : R) ^ 2) :=
    mul_le_mul_of_nonneg_left (by linarith) (by linarith)
  refine (add_le_add e1 e3).trans ?_
  linarith

/-! ## Examples -/

namespace Ex

/-- Two vectors in one package. -/
theorem two_vectors {τ : ℝ} (hτ : 0 ≤ τ) {n : Nat} (u v : List (Cx ℝ)) (hu : u.length = 2 ^ n) (hv : v.length = 2 ^ n) :
    ∃ s x y, TReach JR τ s ∧ s.ValidV JR n x ∧ s.ValidV JR n y ∧
      (∀ d, mag (s.vecJ JR n x d - u.getD (bitIdx d) 0) ≤ 2 * τ * (n * (1 + 3 * norm2 u) + 1) * (1 + 4 * τ) ^ n) ∧
      ∀ d, mag (s.vecJ JR n y d - v.getD (bitIdx d) 0) ≤ 2 * τ * (n * (1 + 3 * norm2 v) + 1) * (1 + 4 * τ) ^ n := by
  obtain ⟨s1, x, _, r1, v1, b1, n1, -⟩ := C59_build JR_good hτ (JR_rounds hτ) (jr_reach τ n) (le_refl n) u hu
  obtain ⟨s2, y, _, r2, v2, b2, -, k2⟩ := C59_build JR_good hτ (JR_rounds hτ) r1 (by rw [n1]; exact le_refl n) v hv
  refine ⟨s2, x, y, r2, (k2 n x v1).1, v2, fun d => ?_, b2⟩
  rw [(k2 n x v1).2]
  exact b1 d

/-- With tolerance 0: the first vector is conjugated. -/
example : ∃ s x y, TReach JR 0 s ∧ s.ValidV JR 1 x ∧ s.ValidV JR 1 y ∧ (s.innerProduct JR x y).2 = ⟨15, -2⟩ := by
  obtain ⟨s, x, y, hr, hx, hy, bx, hy'⟩ := two_vectors (le_refl 0) (n := 1) [⟨3, 0⟩, ⟨0, 1⟩] [⟨5, 0⟩, ⟨2, 0⟩] rfl rfl
  have ex : ∀ d, s.vecJ JR 1 x d = [⟨3, 0⟩, ⟨0, 1⟩].getD (bitIdx d) 0 := by
    intro d
    have := bx d
    rw [mul_zero, zero_mul, zero_mul] at this
    exact sub_eq_zero.1 (mag_eq_zero (le_antisymm this (mag_nonneg _)))
  have ey : ∀ d, s.vecJ JR 1 y d = [⟨5, 0⟩, ⟨2, 0⟩].getD (bitIdx d) 0 := by
    intro d
    have := hy' d
    rw [mul_zero, zero_mul, zero_mul] at this
    exact sub_eq_zero.1 (mag_eq_zero (le_antisymm this (mag_nonneg _)))
  have sum2 : ∀ f : (Fin 1 → Fin 2) → Cx ℝ, ∑ c, f c = f ![0] + f ![1] := by
    intro f
    rw [← (Equiv.funUnique (Fin 1) (Fin 2)).symm.sum_comp, Fin.sum_univ_two]
    congr 2 <;> (funext i; fin_cases i; rfl)
  refine ⟨s, x, y, hr, hx, hy, ?_⟩
  rw [C76_exact JR_good (JR_rounds (le_refl 0)) hr hx hy, sum2, ex, ex, ey, ey]
  ext <;> simp [bitIdx, Cx.conj] <;> norm_num

/-- With a tolerance of 2⁻⁴², that of the package, all hypotheses are met by diagrams on two qubits. -/
example : ∃ s x y, TReach JR (1 / 2 ^ 42) s ∧ s.ValidV JR 2 x ∧ s.ValidV JR 2 y ∧ s.NormLe JR 3 2 x.p ∧ s.NormLe JR 3 2 y.p ∧
    mag ((s.innerProduct JR x y).2 - ∑ d, (s.vecJ JR 2 x d).conj * s.vecJ JR 2 y d) ≤
      20 / 2 ^ 42 * (1 / 1000 + vnorm (s.vecJ JR 2 x) + vnorm (s.vecJ JR 2 y)) + 340 / 2 ^ 42 * (vnorm (s.vecJ JR 2 x) * vnorm (s.vecJ JR 2 y)) := by
  obtain ⟨s, x, y, hr, hx, hy, -⟩ := two_vectors (τ := 1 / 2 ^ 42) (by norm_num) (n := 2) [⟨0, 3 / 5⟩, 0, 0, ⟨4 / 5, 0⟩]
    [⟨1 / 3, 2 / 3⟩, 0, ⟨2 / 3, 0⟩, 0] rfl rfl
  have hi := hr.inv JR_good (JR_rounds (by norm_num)) (by norm_num)
  have nb : ∀ {e : PtrEdge}, s.ValidV JR 2 e → s.NormLe JR 3 2 e.p := fun he =>
    (normLe_exists (by norm_num) hi 2 _ he.node 2 (le_refl 2)).mono (by norm_num)
  refine ⟨s, x, y, hr, hx, hy, nb hx, nb hy, ?_⟩
  refine (C76_inner JR_good (by norm_num) (JR_rounds (by norm_num)) hr hx hy (by norm_num) (by norm_num) (nb hx) (nb hy)).trans (le_of_eq ?_)
  push_cast
  ring

/-- Forty qubits: the fidelity of two states. -/
example {s : JState ℝ} (hr : TReach JR (1 / 2 ^ 42) s) {x y : PtrEdge} (hx : s.ValidV JR 40 x) (hy : s.ValidV JR 40 y)
    (hxB : s.NormLe JR (51 / 50) 40 x.p) (hyB : s.NormLe JR (51 / 50) 40 y.p) (hx1 : vnorm (s.vecJ JR 40 x) ≤ 101 / 100)
    (hy1 : vnorm (s.vecJ JR 40 y) ≤ 101 / 100) :
    |(s.fidelity JR x y).2 - (∑ d, (s.vecJ JR 40 x d).conj * s.vecJ JR 40 y d).mag2| ≤ 2 / 10 ^ 9 := by
  refine (C76_states JR_good (by norm_num) (JR_rounds (by norm_num)) hr hx hy (by norm_num) hxB hyB hx1 hy1).2.trans ?_
  norm_num

/-- The square roots that occur in the run. -/
local instance : HasSqrt ℚ := ⟨fun q => if q = 9 / 25 then 3 / 5 else if q = 16 / 25 then 4 / 5 else if q = 4 then 2 else q⟩

/-- A run with rational numbers and a tolerance; the second inner product finds the first in the cache. -/
def innerRun : Option (List (Cx ℚ)) := do
  let p ← j3.makeStateFromVector JQ [⟨0, 3 / 5⟩, 0, ⟨4 / 5, 0⟩, 0]
  let q ← p.1.makeStateFromVector JQ [⟨4 / 5, 0⟩, 0, ⟨3 / 5, 0⟩, 0]
  let q' ← q.1.makeStateFromVector JQ [⟨8 / 5, 0⟩, 0, ⟨6 / 5, 0⟩, 0]
  let a := q'.1.innerProduct JQ p.2 q.2
  let b := a.1.innerProduct JQ p.2 q'.2
  let c := b.1.fidelity JQ q.2 q.2
  return [a.2, b.2, ⟨c.2, 0⟩]

example : innerRun = some [⟨12 / 25, -12 / 25⟩, ⟨24 / 25, -24 / 25⟩, 1] := by decide +kernel

end Ex
end DD
