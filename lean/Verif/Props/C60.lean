import Verif.Props.C59

/-!
# C60: sums of vectors are accurate up to the tolerance

In a package with tolerance `τ`, `add` takes shortcuts for numbers that are almost zero, one or equal, reuses cached sums of operands that
are only almost the same, and shares nodes that are only almost the same. Its result is nevertheless accurate up to a multiple of `τ`, after
any history.
-/

namespace DD

open Pkg

variable {R : Type} [Field R] [LinearOrder R] [IsStrictOrderedRing R] [FloorRing R] [HasSqrt R] [LawfulSqrt R]
variable {J : JCfg R} {τ : R} {s : JState R}

/-- `U` bounds the weights of the operands. The number of levels enters exponentially, because the nodes that the operands share need not
be normalised: of two numbers that are almost equal the code takes the quotient to be one, however small they are. -/
theorem C60_add (hJ : J.Good) (hτ : 0 ≤ τ) (hR : J.Rounds τ) (hr : TReach J τ s) {n : Nat} {x y : PtrEdge} (hx : s.ValidV J n x) (hy : s.ValidV J n y)
    {U : R} (hU : 1 ≤ U) (hxU : mag (s.ct.cval J.C x.w) ≤ U) (hyU : mag (s.ct.cval J.C y.w) ≤ U) :
    let r := s.add J x y
    TReach J τ r.1 ∧ r.1.ValidV J n r.2 ∧
      (∀ d : Fin n → Fin 2, mag (r.1.vecJ J n r.2 d - (s.vecJ J n x d + s.vecJ J n y d)) ≤
        68 * τ * (1 + 2 * τ) * (3 / 2 * ((1 + 2 * τ) * (1 + 4 * τ) ^ 2)) ^ n * U) ∧
      ∀ l e', s.ValidV J l e' → r.1.ValidV J l e' ∧ r.1.vecJ J l e' = s.vecJ J l e' := by
  have hi := hr.inv hJ hR hτ
  obtain ⟨a1, a2, a3, a4, -⟩ := add_acc hJ hτ hi hx hy
  refine ⟨hr.step (.add n x y hx hy), a3, a4 U hU hxU hyU, fun l e' hv => ⟨a2.validV hv, ?_⟩⟩
  funext d
  rw [vecJ_eq, vecJ_eq, a2.cval hv.live, a2.namp hi a1 d hv.node]

/-- If the tolerance is small for the number of qubits, the error grows only linearly with it, times the norms of the two vectors: the nodes
that are not normalised have so small weights above them that they do not matter. With the tolerance of the package, about 2 · 10⁻¹³, the
condition holds for up to 45 qubits. -/
theorem C60_small (hJ : J.Good) (hτ : 0 ≤ τ) (hR : J.Rounds τ) (hr : TReach J τ s) {n : Nat} (hn : 1000 * ((n : R) + 1) * (3 / 2) ^ n * τ ≤ 1)
    {x y : PtrEdge} (hx : s.ValidV J n x) (hy : s.ValidV J n y) (d : Fin n → Fin 2) :
    mag ((s.add J x y).1.vecJ J n (s.add J x y).2 d - (s.vecJ J n x d + s.vecJ J n y d)) ≤
      21 * τ * ((n : R) + 1) * (1 + (vnorm (s.vecJ J n x) + vnorm (s.vecJ J n y))) := by
  obtain ⟨-, -, -, -, a⟩ := add_acc hJ hτ (hr.inv hJ hR hτ) hx hy
  exact a hn d

/-- With tolerance 0 the sum is exact. -/
theorem C60_exact (hJ : J.Good) (hR : J.Rounds 0) (hr : TReach J 0 s) {n : Nat} {x y : PtrEdge} (hx : s.ValidV J n x) (hy : s.ValidV J n y)
    (d : Fin n → Fin 2) : (s.add J x y).1.vecJ J n (s.add J x y).2 d = s.vecJ J n x d + s.vecJ J n y d := by
  have := (C60_add hJ (le_refl 0) hR hr hx hy (U := max 1 (max (mag (s.ct.cval J.C x.w)) (mag (s.ct.cval J.C y.w)))) (le_max_left _ _)
    ((le_max_left _ _).trans (le_max_right _ _)) ((le_max_right _ _).trans (le_max_right _ _))).2.2.1 d
  simp only [mul_zero, zero_mul] at this
  exact sub_eq_zero.1 (mag_eq_zero (le_antisymm this (mag_nonneg _)))

/-! ## Examples -/

namespace Ex

/-- The sum of two states, and the sum of that with one of them. -/
example : ∃ s x y, TReach JR (1 / 10 ^ 13) s ∧ s.ValidV JR 2 x ∧ s.ValidV JR 2 y ∧
    TReach JR (1 / 10 ^ 13) (s.add JR x y).1 ∧
    ∀ d, mag ((s.add JR x y).1.vecJ JR 2 (s.add JR x y).2 d - (s.vecJ JR 2 x d + s.vecJ JR 2 y d)) ≤
      1 / 10 ^ 10 * max 1 (max (mag (s.ct.cval JR.C x.w)) (mag (s.ct.cval JR.C y.w))) := by
  obtain ⟨s, x, y, hr, hx, hy, -⟩ := two_states
  obtain ⟨h1, h2, h3, h4⟩ := C60_add JR_good (by norm_num) (JR_rounds (by norm_num)) hr hx hy
    (U := max 1 (max (mag (s.ct.cval JR.C x.w)) (mag (s.ct.cval JR.C y.w)))) (le_max_left _ _)
    ((le_max_left _ _).trans (le_max_right _ _)) ((le_max_right _ _).trans (le_max_right _ _))
  refine ⟨s, x, y, hr, hx, hy, h1, fun d => (h3 d).trans ?_⟩
  apply mul_le_mul_of_nonneg_right _ (le_trans zero_le_one (le_max_left _ _))
  norm_num

/-- Thirty qubits, with the tolerance of the package: the condition holds. -/
example {s : JState ℝ} (hr : TReach JR (1 / 2 ^ 42) s) {x y : PtrEdge} (hx : s.ValidV JR 30 x) (hy : s.ValidV JR 30 y)
    (nx : vnorm (s.vecJ JR 30 x) ≤ 1) (ny : vnorm (s.vecJ JR 30 y) ≤ 1) (d : Fin 30 → Fin 2) :
    mag ((s.add JR x y).1.vecJ JR 30 (s.add JR x y).2 d - (s.vecJ JR 30 x d + s.vecJ JR 30 y d)) ≤ 2000 / 2 ^ 42 := by
  have := C60_small JR_good (by norm_num) (JR_rounds (by norm_num)) hr (n := 30) (by norm_num) hx hy d
  refine this.trans ?_
  norm_num
  linarith

end Ex
end DD
