import Verif.Props.C61

/-!
# C68: products of matrices and vectors are accurate up to the tolerance

In a package with tolerance `τ`, `multiply` of a matrix and a vector takes shortcuts for numbers that are almost zero, one or equal, reuses
cached products, adds rows with `add` and shares nodes that are only almost the same. Its result is nevertheless accurate up to a multiple
of `τ`, after any history.
-/

namespace DD

open Pkg

variable {R : Type} [Field R] [LinearOrder R] [IsStrictOrderedRing R] [FloorRing R] [HasSqrt R] [LawfulSqrt R]
variable {J : JCfg R} {τ : R} {s : JState R}

/-- The product is a well-formed vector and leaves all other diagrams alone, whatever the tolerance. -/
theorem C68_keeps (hJ : J.Good) (hτ : 0 ≤ τ) (hR : J.Rounds τ) (hr : TReach J τ s) {n : Nat} {x y : PtrEdge} (hx : s.ValidM J n x) (hy : s.ValidV J n y) :
    let r := s.multiply J x y
    TReach J τ r.1 ∧ r.1.ValidV J n r.2 ∧
      (∀ l e', s.ValidV J l e' → r.1.ValidV J l e' ∧ r.1.vecJ J l e' = s.vecJ J l e') ∧
      ∀ l e', s.ValidM J l e' → r.1.ValidM J l e' ∧ r.1.matJ J l e' = s.matJ J l e' := by
  have hi := hr.inv hJ hR hτ
  obtain ⟨a1, a2, a3, -⟩ := multiply_acc hJ hτ hi hx hy
  refine ⟨hr.step (.multiply n x y hx hy), a3, fun l e' hv => ⟨a2.validV hv, ?_⟩, fun l e' hv => ⟨a2.validM hv, a2.matJ hJ hτ hi hv⟩⟩
  funext d
  rw [vecJ_eq, vecJ_eq, a2.cval hv.live, a2.namp hi a1 d hv.node]

/-- The error of an entry of the product. `K j` bounds the sums of two weights in a row or column of the nodes of the matrix at level `j`
(it is 1 for diagonal matrices and permutations, 2 for a Hadamard gate), `B` the norms of the nodes of the vector (1 if they are normalised),
`X` and `Y` the weights of the operands. The tolerance has to be small for the number of qubits. -/
theorem C68_multiply (hJ : J.Good) (hτ : 0 ≤ τ) (hR : J.Rounds τ) (hr : TReach J τ s) {n : Nat} (hn : 1000 * ((n : R) + 1) ^ 2 * (3 / 2) ^ n * τ ≤ 1)
    {x y : PtrEdge} (hx : s.ValidM J n x) (hy : s.ValidV J n y) {K : Nat → R} (hK : ∀ j, 1 ≤ K j) (hxK : s.RowCol J K n x.p)
    {B : R} (hB : 0 ≤ B) (hyB : s.NormLe J B n y.p) {X Y : R} (hX : 1 ≤ X) (hY : 1 ≤ Y)
    (hxX : mag (s.ct.cval J.C x.w) ≤ X) (hyY : mag (s.ct.cval J.C y.w) ≤ Y) (d : Fin n → Fin 2) :
    mag ((s.multiply J x y).1.vecJ J n (s.multiply J x y).2 d - (s.matJ J n x).mulVec (s.vecJ J n y) d) ≤
      41 * τ * ((n : R) + 1) ^ 2 * ((∏ j ∈ Finset.range n, K j) * (1 + B)) * (X * Y) := by
  obtain ⟨-, -, -, a⟩ := multiply_acc hJ hτ (hr.inv hJ hR hτ) hx hy
  exact a hn K B hK hB hxK hyB X Y hX hY hxX hyY d

/-- All diagrams have such bounds: `K` depends on the matrix only, and there is always a `B` that depends only on `n` and `τ`. -/
theorem C68_bounds (hJ : J.Good) (hτ : 0 ≤ τ) (hR : J.Rounds τ) (hr : TReach J τ s) {n : Nat} {x y : PtrEdge} (hy : s.ValidV J n y) :
    (∃ K : Nat → R, (∀ j, 1 ≤ K j) ∧ s.RowCol J K n x.p) ∧ s.NormLe J ((3 / 2 * (1 + 4 * τ)) ^ n) n y.p :=
  ⟨rowCol_exists s n x.p, normLe_exists hτ (hr.inv hJ hR hτ) n _ hy.node n (le_refl n)⟩

/-- With tolerance 0 the product is exact. -/
theorem C68_exact (hJ : J.Good) (hR : J.Rounds 0) (hr : TReach J 0 s) {n : Nat} {x y : PtrEdge} (hx : s.ValidM J n x) (hy : s.ValidV J n y)
    (d : Fin n → Fin 2) :
    (s.multiply J x y).1.vecJ J n (s.multiply J x y).2 d = (s.matJ J n x).mulVec (s.vecJ J n y) d := by
  obtain ⟨⟨K, hK, hxK⟩, hyB⟩ := C68_bounds hJ (le_refl 0) hR hr (x := x) hy
  have := C68_multiply hJ (le_refl 0) hR hr (by simp) hx hy hK hxK (by positivity) hyB (le_max_left 1 _) (le_max_left 1 _)
    (le_max_right _ _) (le_max_right _ _) d
  simp only [mul_zero, zero_mul] at this
  exact sub_eq_zero.1 (mag_eq_zero (le_antisymm this (mag_nonneg _)))

/-! ## Examples -/

namespace Ex

/-- A controlled gate that is neither diagonal nor unitary. -/
noncomputable def gateM : List (List (Cx ℝ)) := [[1, 0, 0, 0], [0, 1, 0, 0], [0, 0, ⟨3, 0⟩, ⟨0, 4⟩], [0, 0, ⟨0, 1⟩, 2]]

/-- A matrix and a vector in one package. -/
theorem matrix_vector {τ B : ℝ} (hτ : 0 ≤ τ) {n : Nat} (M : List (List (Cx ℝ))) (hM : M.length = 2 ^ n)
    (wM : (M.getD 0 []).length = 2 ^ n) (hB : 1 ≤ B) (bM : ∀ i j, i < 2 ^ n → j < 2 ^ n → mag ((M.getD i []).getD j 0) ≤ B)
    (v : List (Cx ℝ)) (hv : v.length = 2 ^ n) :
    ∃ s x y, TReach JR τ s ∧ s.ValidM JR n x ∧ s.ValidV JR n y ∧
      (∀ r c, mag (s.matJ JR n x r c - (M.getD (bitIdx r) []).getD (bitIdx c) 0) ≤
        9 * (1 + 10 * B) ^ n * (τ + HasSqrt.sqrt (n * τ))) ∧
      ∀ d, mag (s.vecJ JR n y d - v.getD (bitIdx d) 0) ≤ 2 * τ * (n * (1 + 3 * norm2 v) + 1) * (1 + 4 * τ) ^ n := by
  obtain ⟨s1, y, _, r1, v1, b1, n1, -⟩ := C59_build JR_good hτ (JR_rounds hτ) (jr_reach τ n) (le_refl n) v hv
  have hn : n ≤ (s1.tab .m).tab.nvars := by
    obtain ⟨_, g, -⟩ := makeState_acc JR_good hτ ((jr_reach τ n).inv JR_good (JR_rounds hτ) hτ) (xs := v) (le_of_eq hv) (by assumption)
    rw [g.nvars .m]
    exact le_refl n
  obtain ⟨s2, x, _, r2, v2, b2, -, -, k2⟩ := C61_build JR_good hτ (JR_rounds hτ) r1 hn M hM wM hB bM
  refine ⟨s2, x, y, r2, v2, (k2 n y v1).1, b2, fun d => ?_⟩
  rw [(k2 n y v1).2]
  exact b1 d

/-- With tolerance 0, a matrix that is neither diagonal nor unitary times a vector. -/
example : ∃ s x y, TReach JR 0 s ∧ s.ValidM JR 1 x ∧ s.ValidV JR 1 y ∧
    (s.multiply JR x y).1.vecJ JR 1 (s.multiply JR x y).2 ![0] = ⟨-7, 0⟩ ∧
    (s.multiply JR x y).1.vecJ JR 1 (s.multiply JR x y).2 ![1] = ⟨0, 11⟩ := by
  obtain ⟨B, hB, bM⟩ := entries_bounded (fun i j => (([[⟨3, 0⟩, ⟨0, 4⟩], [⟨0, 1⟩, ⟨2, 0⟩]] : List (List (Cx ℝ))).getD i []).getD j 0) (2 ^ 1)
  obtain ⟨s, x, y, hr, hx, hy, bx, hy'⟩ := matrix_vector (le_refl 0) (n := 1) [[⟨3, 0⟩, ⟨0, 4⟩], [⟨0, 1⟩, ⟨2, 0⟩]] rfl rfl hB bM
    [⟨3, 0⟩, ⟨0, 4⟩] rfl
  have h0 : HasSqrt.sqrt (((1 : Nat) : ℝ) * 0) = 0 := by
    show Real.sqrt _ = 0
    rw [mul_zero, Real.sqrt_zero]
  have ex : ∀ r c, s.matJ JR 1 x r c = ([[⟨3, 0⟩, ⟨0, 4⟩], [⟨0, 1⟩, ⟨2, 0⟩]].getD (bitIdx r) []).getD (bitIdx c) 0 := by
    intro r c
    have := bx r c
    rw [h0, add_zero, mul_zero] at this
    exact sub_eq_zero.1 (mag_eq_zero (le_antisymm this (mag_nonneg _)))
  have ey : ∀ d, s.vecJ JR 1 y d = [⟨3, 0⟩, ⟨0, 4⟩].getD (bitIdx d) 0 := by
    intro d
    have := hy' d
    rw [mul_zero, zero_mul, zero_mul] at this
    exact sub_eq_zero.1 (mag_eq_zero (le_antisymm this (mag_nonneg _)))
  have sum2 : ∀ f : (Fin 1 → Fin 2) → Cx ℝ, ∑ c, f c = f ![0] + f ![1] := by
    intro f
    rw [← (Equiv.funUnique (Fin 1) (Fin 2)).symm.sum_comp, Fin.sum_univ_two]
    congr 2 <;> (funext i; fin_cases i; rfl)
  refine ⟨s, x, y, hr, hx, hy, ?_, ?_⟩
  · rw [C68_exact JR_good (JR_rounds (le_refl 0)) hr hx hy]
    unfold Matrix.mulVec dotProduct
    rw [sum2]
    show s.matJ JR 1 x _ _ * _ + s.matJ JR 1 x _ _ * _ = _
    rw [ex, ex, ey, ey]
    ext <;> simp [bitIdx] <;> norm_num
  · rw [C68_exact JR_good (JR_rounds (le_refl 0)) hr hx hy]
    unfold Matrix.mulVec dotProduct
    rw [sum2]
    show s.matJ JR 1 x _ _ * _ + s.matJ JR 1 x _ _ * _ = _
    rw [ex, ex, ey, ey]
    ext <;> simp [bitIdx] <;> norm_num

/-- With a tolerance of 2⁻⁴², that of the package, all hypotheses are met by diagrams on two qubits. -/
example : ∃ s x y K, TReach JR (1 / 2 ^ 42) s ∧ s.ValidM JR 2 x ∧ s.ValidV JR 2 y ∧ (∀ j, 1 ≤ K j) ∧ s.RowCol JR K 2 x.p ∧
    s.NormLe JR 3 2 y.p ∧ ∀ d, mag ((s.multiply JR x y).1.vecJ JR 2 (s.multiply JR x y).2 d - (s.matJ JR 2 x).mulVec (s.vecJ JR 2 y) d) ≤
      1476 / 2 ^ 42 * (K 0 * K 1) * (max 1 (mag (s.ct.cval JR.C x.w)) * max 1 (mag (s.ct.cval JR.C y.w))) := by
  obtain ⟨B, hB, bM⟩ := entries_bounded (fun i j => (gateM.getD i []).getD j 0) (2 ^ 2)
  obtain ⟨s, x, y, hr, hx, hy, -⟩ := matrix_vector (τ := 1 / 2 ^ 42) (by norm_num) (n := 2) gateM rfl rfl hB bM
    [⟨0, 3 / 5⟩, 0, 0, ⟨4 / 5, 0⟩] rfl
  obtain ⟨⟨K, hK, hxK⟩, hyB⟩ := C68_bounds JR_good (by norm_num) (JR_rounds (by norm_num)) hr (x := x) hy
  have hyB' : s.NormLe JR 3 2 y.p := hyB.mono (by norm_num)
  refine ⟨s, x, y, K, hr, hx, hy, hK, hxK, hyB', fun d => ?_⟩
  refine (C68_multiply JR_good (by norm_num) (JR_rounds (by norm_num)) hr (by norm_num) hx hy hK hxK (by norm_num) hyB' (le_max_left 1 _) (le_max_left 1 _)
    (le_max_right _ _) (le_max_right _ _) d).trans (le_of_eq ?_)
  rw [Finset.prod_range_succ, Finset.prod_range_one]
  push_cast
  ring

/-- Twenty qubits: a permutation applied to a normalised vector. -/
example {s : JState ℝ} (hr : TReach JR (1 / 2 ^ 42) s) {x y : PtrEdge} (hx : s.ValidM JR 20 x) (hy : s.ValidV JR 20 y)
    (hxK : s.RowCol JR (fun _ => 1) 20 x.p) (hyB : s.NormLe JR (51 / 50) 20 y.p) (wx : mag (s.ct.cval JR.C x.w) ≤ 1)
    (wy : mag (s.ct.cval JR.C y.w) ≤ 1) (d : Fin 20 → Fin 2) :
    mag ((s.multiply JR x y).1.vecJ JR 20 (s.multiply JR x y).2 d - (s.matJ JR 20 x).mulVec (s.vecJ JR 20 y) d) ≤ 1 / 10 ^ 8 := by
  refine (C68_multiply JR_good (by norm_num) (JR_rounds (by norm_num)) hr (by norm_num) hx hy (fun _ => le_refl 1) hxK (by norm_num) hyB (le_refl 1) (le_refl 1)
    wx wy d).trans ?_
  simp
  norm_num

/-- The square roots that occur in the run. -/
local instance : HasSqrt ℚ := ⟨fun q => if q = 9 / 25 then 3 / 5 else if q = 16 / 25 then 4 / 5 else q⟩

/-- A run with rational numbers: a controlled gate applied to a state, with a tolerance. -/
def mulRun : Option (List (Cx ℚ)) := do
  let p ← jm.makeDDFromMatrix JQ [[1, 0, 0, 0], [0, 1, 0, 0], [0, 0, 0, 1], [0, 0, ⟨0, 1⟩, 0]]
  let q ← p.1.makeStateFromVector JQ [⟨0, 3 / 5⟩, 0, ⟨4 / 5, 0⟩, 0]
  let r := q.1.multiply JQ p.2 q.2
  return [r.1.vecJ JQ 2 r.2 ![0, 0], r.1.vecJ JQ 2 r.2 ![1, 0], r.1.vecJ JQ 2 r.2 ![0, 1], r.1.vecJ JQ 2 r.2 ![1, 1]]

example : mulRun = some [⟨0, 3 / 5⟩, 0, 0, ⟨0, 4 / 5⟩] := by decide +kernel

end Ex
end DD
