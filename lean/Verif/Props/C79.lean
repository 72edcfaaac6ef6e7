import Verif.Proofs.ApproxHeld
import Verif.Proofs.ApproxReadAcc
import Verif.Props.C75
import Verif.Props.C76
import Verif.Props.C77

/-!
# C79 Expectation values are accurate up to the tolerance

The specification is in ApproxSpec.lean; the expectation value of a matrix `M` with respect to a vector `v` is the real part of `⟨v| M |v⟩`.
-/

namespace DD

open Pkg UTable JState

variable {R : Type} [Field R] [LinearOrder R] [IsStrictOrderedRing R] [FloorRing R] {J : JCfg R} {τ : R} {s s' : JState R}
variable [HasSqrt R] [LawfulSqrt R]

/-- The smallness of the tolerance that inner products ask for. -/
theorem small_inner (hτ : 0 ≤ τ) {n : Nat} (hn : 2100 * ((n : R) + 1) ^ 2 * (3 / 2) ^ n * τ ≤ 1) :
    1000 * ((n : R) + 1) ^ 2 * (3 / 2) ^ n * τ ≤ 1 ∧ (3 / 2 * (1 + 4 * τ)) ^ n ≤ 51 / 50 * (3 / 2) ^ n ∧
    1000 * ((n : R) + 1) * (1 + (3 / 2 * (1 + 4 * τ)) ^ n) * τ ≤ 1 := by
  have n0 : (0 : R) ≤ n := Nat.cast_nonneg n
  have p1 : (1 : R) ≤ (3 / 2) ^ n := one_le_pow₀ (by norm_num)
  have h0 : 0 ≤ ((n : R) + 1) ^ 2 * (3 / 2) ^ n * τ := by positivity
  have h1 : 1000 * ((n : R) + 1) ^ 2 * (3 / 2) ^ n * τ ≤ 1 := by linarith
  have hz := smallM_small hτ h1
  have e0 : 1000 * ((n : R) + 1) * τ = 1000 * ((n : R) * τ) + 1000 * τ := by ring
  have hnτ := mul_nonneg n0 hτ
  have h2 : (1 + 4 * τ) ^ n ≤ 51 / 50 := by
    have h3 := bernoulli (x := 4 * τ) (by linarith) n
    have h4 : (n : R) * (4 * τ) ≤ 4 / 1000 := by
      have e : (n : R) * (4 * τ) = 4 * ((n : R) * τ) := by ring
      rw [e]
      linarith
    have h5 : 0 ≤ (1 + 4 * τ) ^ n := by positivity
    have h6 : (1 + 4 * τ) ^ n * (1 - 4 / 1000) ≤ 1 := le_trans (mul_le_mul_of_nonneg_left (by linarith) h5) h3
    linarith
  have h3 : (3 / 2 * (1 + 4 * τ)) ^ n ≤ 51 / 50 * (3 / 2) ^ n := by
    rw [mul_pow]
    have := mul_le_mul_of_nonneg_left h2 (by linarith : (0 : R) ≤ (3 / 2) ^ n)
    linarith
  refine ⟨h1, h3, ?_⟩
  have h4 : 1 + (3 / 2 * (1 + 4 * τ)) ^ n ≤ 101 / 50 * (3 / 2) ^ n := by linarith
  have a : 0 ≤ ((n : R) + 1) * τ := by positivity
  have h5 := mul_le_mul_of_nonneg_left h4 a
  have b : 0 ≤ ((n : R) + 1) * τ * (3 / 2) ^ n := by positivity
  have h6 : ((n : R) + 1) * τ * (3 / 2) ^ n ≤ ((n : R) + 1) * (((n : R) + 1) * τ * (3 / 2) ^ n) := le_mul_of_one_le_left b (by linarith)
  have e1 : ((n : R) + 1) * (((n : R) + 1) * τ * (3 / 2) ^ n) = ((n : R) + 1) ^ 2 * (3 / 2) ^ n * τ := by ring
  rw [e1] at h6
  linarith

/-- The error of the product of the matrix and the vector. -/
def prodErr (τ : R) (n : Nat) (K : Nat → R) (B X Y : R) : R := (3 / 2) ^ n * (41 * τ * ((n : R) + 1) ^ 2 * ((∏ j ∈ Finset.range n, K j) * (1 + B)) * (X * Y))

/-- **C79.** The error of an expectation value, where `K` bounds the sums of two weights in a row or column of the nodes of the matrix, `B` the
norms of the nodes of the vector, `X` and `Y` the weights of the operands (as in C68), `N` the norm of the product of the matrix and the
vector. Calls can continue after it. -/
theorem C79_expectation (hJ : J.Good) (hτ : 0 ≤ τ) (hR : J.Rounds τ) (hr : TReach J τ s) {n : Nat} (hn : 2100 * ((n : R) + 1) ^ 2 * (3 / 2) ^ n * τ ≤ 1)
    {x y : PtrEdge} (hx : s.ValidM J n x) (hy : s.ValidV J n y) (hl : s.lvlM x.p = s.lvlV y.p) {K : Nat → R} (hK : ∀ j, 1 ≤ K j)
    (hxK : s.RowCol J K n x.p) {B : R} (hB : 0 ≤ B) (hyB : s.NormLe J B n y.p) {X Y : R} (hX : 1 ≤ X) (hY : 1 ≤ Y)
    (hxX : mag (s.ct.cval J.C x.w) ≤ X) (hyY : mag (s.ct.cval J.C y.w) ≤ Y) {N : R} (hN : vnorm ((s.matJ J n x).mulVec (s.vecJ J n y)) ≤ N) :
    let E := prodErr τ n K B X Y
    let V := vnorm (s.vecJ J n y)
    ∃ s' r, s.expectationValue J x y = some (s', r) ∧ TReach J τ s' ∧ (∀ k, (s'.tab k).held = (s.tab k).held) ∧
      |r - (∑ d, (s.vecJ J n y d).conj * (s.matJ J n x).mulVec (s.vecJ J n y) d).re| ≤
        V * E + 11 * τ * (3 / 2) ^ n * (1 / 1000 + V + (N + E) + V * (N + E)) + 81 * τ * n * (3 / 2) ^ n * (V * (N + E)) := by
  intro E V
  obtain ⟨h1, h2, h3⟩ := small_inner hτ hn
  have hi := hr.inv hJ hR hτ
  obtain ⟨r1, v1, k1, -⟩ := C68_keeps hJ hτ hR hr hx hy
  obtain ⟨vy, ey⟩ := k1 n y hy
  have hm := C68_multiply hJ hτ hR hr h1 hx hy hK hxK hB hyB hX hY hxX hyY
  have hin := C76_any hJ hτ hR r1 vy v1 h3
  have ri := C76_keeps hJ hτ hR r1 vy v1
  have hgc := gc_spec hJ hτ (ri.1.inv hJ hR hτ) false
  rw [ey] at hin
  set m := s.multiply J x y with hm'
  set f := m.1.vecJ J n m.2 with hf
  set g := (s.matJ J n x).mulVec (s.vecJ J n y) with hg
  have n0 : (0 : R) ≤ n := Nat.cast_nonneg n
  have p1 : (1 : R) ≤ (3 / 2) ^ n := one_le_pow₀ (by norm_num)
  have k1 := kappa_one hK n
  have E1 : 0 ≤ 41 * τ * ((n : R) + 1) ^ 2 * ((∏ j ∈ Finset.range n, K j) * (1 + B)) * (X * Y) := by
    have : 0 ≤ ∏ j ∈ Finset.range n, K j := by
      have : (1 : R) ≤ ∏ j ∈ Finset.range n, K j := k1
      linarith
    have : 0 ≤ X := by linarith
    have : 0 ≤ Y := by linarith
    have : 0 ≤ 1 + B := by linarith
    positivity
  have dE : vnorm (fun d => f d - g d) ≤ E := vnorm_sup E1 hm
  have E0 : 0 ≤ E := (vnorm_nonneg _).trans dE
  have V0 : 0 ≤ V := vnorm_nonneg _
  have f1 : vnorm f ≤ N + E := by
    have := vnorm_near E1 hm
    have e : (3 / 2) ^ n * (41 * τ * ((n : R) + 1) ^ 2 * ((∏ j ∈ Finset.range n, K j) * (1 + B)) * (X * Y)) = E := rfl
    rw [e] at this
    linarith
  have N0 : 0 ≤ N + E := (vnorm_nonneg _).trans f1
  -- the difference of the two inner products
  have d1 : mag (∑ d, (s.vecJ J n y d).conj * f d - ∑ d, (s.vecJ J n y d).conj * g d) ≤ V * E := by
    rw [← Finset.sum_sub_distrib]
    have e : ∀ d, (s.vecJ J n y d).conj * f d - (s.vecJ J n y d).conj * g d = (s.vecJ J n y d).conj * (f d - g d) := fun d => by ring
    simp only [e]
    exact (inner_le (s.vecJ J n y) (fun d => f d - g d)).trans (mul_le_mul_of_nonneg_left dE V0)
  refine ⟨_, (m.1.innerProduct J y m.2).2.re, by
    show (if s.lvlM x.p ≠ s.lvlV y.p then none else _) = _
    rw [if_neg (not_not.2 hl)], (ri.1).step hgc.1, fun k => ?_, ?_⟩
  · rw [hgc.2 k, ri.2.1]
    exact congrFun (heldOf_multiply s x y) k
  · have h5 := abs_re_le ((m.1.innerProduct J y m.2).2 - ∑ d, (s.vecJ J n y d).conj * g d)
    have h6 : ((m.1.innerProduct J y m.2).2 - ∑ d, (s.vecJ J n y d).conj * g d).re =
      (m.1.innerProduct J y m.2).2.re - (∑ d, (s.vecJ J n y d).conj * g d).re := rfl
    rw [h6] at h5
    refine h5.trans ((mag_tri _ (∑ d, (s.vecJ J n y d).conj * f d) _).trans ?_)
    set b := (3 / 2 * (1 + 4 * τ)) ^ n with hb
    have c1 : 5 * τ * (1 + b) ≤ 11 * τ * (3 / 2) ^ n := by
      have := mul_le_mul_of_nonneg_left (by linarith : 1 + b ≤ 101 / 50 * (3 / 2) ^ n) hτ
      have := mul_nonneg hτ (by linarith : (0 : R) ≤ (3 / 2) ^ n)
      linarith
    have c2 : 40 * τ * n * (1 + b) ≤ 81 * τ * n * (3 / 2) ^ n := by
      have := mul_le_mul_of_nonneg_left (by linarith : 1 + b ≤ 101 / 50 * (3 / 2) ^ n) (mul_nonneg hτ n0)
      have := mul_nonneg (mul_nonneg hτ n0) (by linarith : (0 : R) ≤ (3 / 2) ^ n)
      linarith
    have f0 := vnorm_nonneg f
    have vf : V * vnorm f ≤ V * (N + E) := mul_le_mul_of_nonneg_left f1 V0
    have vf0 : 0 ≤ V * vnorm f := mul_nonneg V0 f0
    have q1 : 5 * τ * (1 + b) * (1 / 1000 + V + vnorm f + V * vnorm f) ≤ 11 * τ * (3 / 2) ^ n * (1 / 1000 + V + (N + E) + V * (N + E)) :=
      mul_le_mul c1 (by linarith) (by linarith) (by positivity)
    have q2 : 40 * τ * n * (1 + b) * (V * vnorm f) ≤ 81 * τ * n * (3 / 2) ^ n * (V * (N + E)) :=
      mul_le_mul c2 vf vf0 (by positivity)
    linarith

/-- The operands have to be diagrams over the same number of qubits. The zero matrix and the zero vector are edges to the terminal: with one of
them the function throws, although the expectation value is 0. -/
theorem C79_throws {x y : PtrEdge} (h : s.lvlM x.p ≠ s.lvlV y.p) : s.expectationValue J x y = none := if_pos h

/-- A unitary matrix has no row of small entries. -/
theorem unitary_row {n : Nat} {A : QMat R n} (hA : adj A * A = 1) (d : Fin n → Fin 2) : 1 ≤ ∑ c, mag (A d c) := by
  by_contra hn
  push Not at hn
  have h1 : A * adj A = 1 := mul_eq_one_comm.1 hA
  have h2 := congrArg Cx.re (congrFun (congrFun h1 d) d)
  have hs : ∀ (S : Finset (Fin n → Fin 2)) (f : (Fin n → Fin 2) → Cx R), (∑ i ∈ S, f i).re = ∑ i ∈ S, (f i).re := by
    intro S f
    classical
    induction S using Finset.induction_on with
    | empty => rfl
    | insert a S ha ih => rw [Finset.sum_insert ha, Finset.sum_insert ha, ← ih]; rfl
  rw [Matrix.mul_apply, hs, Matrix.one_apply_eq] at h2
  have h3 : ∀ c, (A d c * adj A c d).re ≤ mag (A d c) := by
    intro c
    have e : (A d c * adj A c d).re = mag (A d c) * mag (A d c) := by
      rw [mag_sq]
      simp [adj, Cx.conj, Cx.mag2]
    rw [e]
    have : mag (A d c) ≤ ∑ c, mag (A d c) := Finset.single_le_sum (f := fun c => mag (A d c)) (fun i _ => mag_nonneg _) (Finset.mem_univ c)
    exact mul_le_of_le_one_left (mag_nonneg _) (by linarith)
  have h4 := Finset.sum_le_sum fun c (_ : c ∈ Finset.univ) => h3 c
  rw [h2] at h4
  have : ((1 : Cx R)).re = 1 := rfl
  linarith

/-- The product of a matrix that is close to another one, and a vector. -/
theorem mulVec_near {n : Nat} {A M : QMat R n} {δ : R} (h : ∀ r, ∑ c, mag (M r c - A r c) ≤ δ) (y : (Fin n → Fin 2) → Cx R) :
    vnorm (fun d => M.mulVec y d - A.mulVec y d) ≤ (3 / 2) ^ n * (δ * vnorm y) := by
  have δ0 : 0 ≤ δ := le_trans (Finset.sum_nonneg fun _ _ => mag_nonneg _) (h fun _ => 0)
  refine vnorm_sup (mul_nonneg δ0 (vnorm_nonneg _)) fun d => ?_
  have e1 : M.mulVec y d - A.mulVec y d = ∑ c, (M d c - A d c) * y c := by
    unfold Matrix.mulVec dotProduct
    rw [← Finset.sum_sub_distrib]
    exact Finset.sum_congr rfl fun c _ => by ring
  rw [e1]
  refine (mag_sum _ _).trans ?_
  have h4 : ∑ c, mag ((M d c - A d c) * y c) ≤ ∑ c, mag (M d c - A d c) * vnorm y := by
    refine Finset.sum_le_sum fun c _ => ?_
    rw [mag_mul]
    exact mul_le_mul_of_nonneg_left (mag_le_vnorm _ c) (mag_nonneg _)
  rw [← Finset.sum_mul] at h4
  exact h4.trans (mul_le_mul_of_nonneg_right (h d) (vnorm_nonneg _))

omit [FloorRing R] [HasSqrt R] [LawfulSqrt R] in
/-- The sum of the errors of `C79_observable`. -/
theorem observable_sum (hτ : 0 ≤ τ) {n : Nat} {B V E : R} (hB : 0 ≤ B) (V0 : 0 ≤ V) (hV : V ≤ 101 / 100) (E0 : 0 ≤ E)
    (hE : E ≤ 140 * (τ * ((n : R) + 1) ^ 2 * (3 / 2) ^ n * (1 + B))) (hBn : 1000 * ((n : R) + 1) ^ 2 * (3 / 2) ^ n * (1 + B) * τ ≤ 1) :
    V * E + 11 * τ * (3 / 2) ^ n * (1 / 1000 + V + (107 / 100 + E) + V * (107 / 100 + E)) + 81 * τ * n * (3 / 2) ^ n * (V * (107 / 100 + E)) +
      V * ((3 / 2) ^ n * (121 * τ * ((n : R) + 1) * V)) ≤ 400 * τ * ((n : R) + 1) ^ 2 * (3 / 2) ^ n * (1 + B) := by
  have n0 : (0 : R) ≤ n := Nat.cast_nonneg n
  set θ := τ * ((n : R) + 1) ^ 2 * (3 / 2) ^ n * (1 + B) with hθ
  have p0 : (0 : R) ≤ (3 / 2) ^ n := by positivity
  have θ0 : 0 ≤ θ := by positivity
  have e0 : 1000 * ((n : R) + 1) ^ 2 * (3 / 2) ^ n * (1 + B) * τ = 1000 * θ := by rw [hθ]; ring
  rw [e0] at hBn
  have e1 : 400 * τ * ((n : R) + 1) ^ 2 * (3 / 2) ^ n * (1 + B) = 400 * θ := by rw [hθ]; ring
  rw [e1]
  set q := τ * (3 / 2) ^ n with hq
  have q0 : 0 ≤ q := by positivity
  have hE1 : 107 / 100 + E ≤ 121 / 100 := by linarith
  have t1 : V * E ≤ 101 / 100 * (140 * θ) := mul_le_mul hV hE E0 (by norm_num)
  have t2 : V * (107 / 100 + E) ≤ 101 / 100 * (121 / 100) := mul_le_mul hV hE1 (by linarith) (by norm_num)
  have t3 : V * V ≤ 101 / 100 * (101 / 100) := mul_le_mul hV hV V0 (by norm_num)
  have a2 : 11 * τ * (3 / 2) ^ n * (1 / 1000 + V + (107 / 100 + E) + V * (107 / 100 + E)) ≤ 38 * q := by
    have := mul_le_mul_of_nonneg_left (by linarith : 1 / 1000 + V + (107 / 100 + E) + V * (107 / 100 + E) ≤ 38 / 11) q0
    have e : 11 * τ * (3 / 2) ^ n * (1 / 1000 + V + (107 / 100 + E) + V * (107 / 100 + E)) = 11 * (q * (1 / 1000 + V + (107 / 100 + E) + V * (107 / 100 + E))) := by
      rw [hq]; ring
    rw [e]
    linarith
  have a3 : 81 * τ * n * (3 / 2) ^ n * (V * (107 / 100 + E)) ≤ 99 * (q * n) := by
    have := mul_le_mul_of_nonneg_left t2 (mul_nonneg q0 n0)
    have h0 := mul_nonneg q0 n0
    have e : 81 * τ * n * (3 / 2) ^ n * (V * (107 / 100 + E)) = 81 * (q * n * (V * (107 / 100 + E))) := by rw [hq]; ring
    rw [e]
    linarith
  have a4 : V * ((3 / 2) ^ n * (121 * τ * ((n : R) + 1) * V)) ≤ 124 * (q * (n + 1)) := by
    have h0 := mul_nonneg q0 (by linarith : 0 ≤ (n : R) + 1)
    have := mul_le_mul_of_nonneg_left t3 h0
    have e : V * ((3 / 2) ^ n * (121 * τ * ((n : R) + 1) * V)) = 121 * (q * (n + 1) * (V * V)) := by rw [hq]; ring
    rw [e]
    linarith
  have b : q * (n + 1) ≤ θ := by
    have e : θ = q * (n + 1) * ((n + 1) * (1 + B)) := by rw [hθ, hq]; ring
    rw [e]
    refine le_mul_of_one_le_right (mul_nonneg q0 (by linarith)) ?_
    have := mul_nonneg n0 hB
    linarith [mul_nonneg n0 hB, (by ring : ((n : R) + 1) * (1 + B) = 1 + n + B + n * B)]
  have e : q * (n + 1) = q * n + q := by ring
  have := mul_nonneg q0 n0
  linarith

/-- **C79.** An observable that is made by `makeGateDD` (for example a Pauli matrix on some qubit), in a state of norm about one: the error is
proportional to the tolerance. The entries of the matrix that is given to the package may be rounded: `g` is the gate that is given, `g0` the one
that is meant. -/
theorem C79_observable (hJ : J.Good) (hτ : 0 ≤ τ) (hR : J.Rounds τ) (hr : TReach J τ s) {n : Nat} (hnv : n ≤ (s.tab .m).tab.nvars)
    (hn : 2100 * ((n : R) + 1) ^ 2 * (3 / 2) ^ n * τ ≤ 1) {g g0 : CGate R n} (hU : IsUnitary (mat2 g0.U)) (hg0 : g.Near τ g0) {y : PtrEdge} (hy : s.ValidV J n y)
    {B : R} (hB : 0 ≤ B) (hyB : s.NormLe J B n y.p) (hy0 : 99 / 100 ≤ vnorm (s.vecJ J n y)) (hy1 : vnorm (s.vecJ J n y) ≤ 101 / 100)
    (hBn : 1000 * ((n : R) + 1) ^ 2 * (3 / 2) ^ n * (1 + B) * τ ≤ 1) :
    ∃ s1 e s2 r, s.makeGateDD J g.U n g.controls g.target = some (s1, e) ∧ s1.expectationValue J e y = some (s2, r) ∧ TReach J τ s2 ∧
      (∀ k, (s2.tab k).held = (s.tab k).held) ∧
      |r - (∑ d, (s.vecJ J n y d).conj * g0.mat.mulVec (s.vecJ J n y) d).re| ≤ 400 * τ * ((n : R) + 1) ^ 2 * (3 / 2) ^ n * (1 + B) := by
  obtain ⟨h1, -, -⟩ := small_inner hτ hn
  have hz := smallM_small hτ h1
  have n0 : (0 : R) ≤ n := Nat.cast_nonneg n
  have p1 : (1 : R) ≤ (3 / 2) ^ n := one_le_pow₀ (by norm_num)
  have hi := hr.inv hJ hR hτ
  have hg1 := C70_gate_unitary g0 (unitary_cols hU)
  obtain ⟨s1, e, hg, -⟩ := C74_gate hJ hτ hR hr hnv hz (near_ok hτ hz hU hg0) g.good
  obtain ⟨r1, gr, i1, v1, ⟨vy1, ey1⟩, b0, w1, ⟨K, hK, hKr, hKp⟩, -, -, -, -, -⟩ :=
    gate_step hJ hτ hR hr hz hy (near_ok hτ hz hU hg0) hg rfl rfl
  have b1 : ∀ r, ∑ c, mag (s1.matJ J n e r c - g0.mat r c) ≤ 121 * τ * ((n : R) + 1) := by
    intro r
    have h1 : ∀ c ∈ Finset.univ, mag (s1.matJ J n e r c - g0.mat r c) ≤ mag (s1.matJ J n e r c - g.mat r c) + mag (g.mat r c - g0.mat r c) :=
      fun c _ => mag_tri _ _ _
    have h2 := Finset.sum_le_sum h1
    rw [Finset.sum_add_distrib] at h2
    have h3 := mul_nonneg n0 hτ
    linarith [b0 r, near_rows hτ hg0 r]
  have τ1 : 1000 * τ ≤ 1 := by
    have : 1000 * ((n : R) + 1) * τ = 1000 * ((n : R) * τ) + 1000 * τ := by ring
    have := mul_nonneg n0 hτ
    linarith
  have δ1 : (3 / 2) ^ n * (121 * τ * ((n : R) + 1)) ≤ 58 / 1000 := by
    have a : 0 ≤ τ * ((n : R) + 1) * (3 / 2) ^ n := by positivity
    have b : τ * ((n : R) + 1) * (3 / 2) ^ n ≤ τ * ((n : R) + 1) * (3 / 2) ^ n * (n + 1) := le_mul_of_one_le_right a (by linarith)
    have e : 2100 * ((n : R) + 1) ^ 2 * (3 / 2) ^ n * τ = 2100 * (τ * ((n : R) + 1) * (3 / 2) ^ n * (n + 1)) := by ring
    have e2 : (3 / 2) ^ n * (121 * τ * ((n : R) + 1)) = 121 * (τ * ((n : R) + 1) * (3 / 2) ^ n) := by ring
    rw [e2]
    linarith
  have δ0 : 0 ≤ 121 * τ * ((n : R) + 1) := by positivity
  have δ2 : 121 * τ * ((n : R) + 1) ≤ 58 / 1000 := le_trans (le_mul_of_one_le_left δ0 p1) δ1
  -- neither operand is an edge to the terminal
  have npos : 0 < n := lt_of_le_of_lt (Nat.zero_le _) g.target.isLt
  have lx : s1.lvlM e.p = n := by
    cases hp : e.p with
    | some a =>
      have h3 := v1.2.2
      rw [hp] at h3
      exact h3.2
    | none =>
      exfalso
      have h2 := v1.2.2
      rw [hp] at h2
      have hw := h2.resolve_left (by omega)
      have h3 := b1 fun _ => 0
      have h4 := unitary_row hg1 fun _ => 0
      have h5 : ∀ c, mag (s1.matJ J n e (fun _ => 0) c - g0.mat (fun _ => 0) c) = mag (g0.mat (fun _ => 0) c) := by
        intro c
        rw [matJ_eq, hw, cval_zero, zero_mul, zero_sub, mag_neg]
      simp only [h5] at h3
      linarith
  have ly : s1.lvlV y.p = n := by
    cases hp : y.p with
    | some a => exact nodeOk_lvl (hp ▸ vy1.node)
    | none =>
      exfalso
      have hw := (vy1.none hp).resolve_left (by omega)
      have h3 : vnorm (s.vecJ J n y) ≤ 0 := by
        rw [← ey1]
        refine vnorm_le le_rfl (le_of_eq ?_)
        refine (Finset.sum_eq_zero fun d _ => ?_).trans (by ring)
        rw [vecJ_eq, hw, cval_zero, zero_mul]
        simp [Cx.mag2]
      linarith
  have hyB1 := gr.normLe hi i1 hy.node hyB
  have hw := state_weight_le hτ i1 hz vy1 (by rw [ey1]; linarith)
  have hnear := mulVec_near b1 (s.vecJ J n y)
  set V := vnorm (s.vecJ J n y) with hV
  have hN : vnorm ((s1.matJ J n e).mulVec (s1.vecJ J n y)) ≤ 107 / 100 := by
    rw [ey1]
    have h3 := vnorm_add (g0.mat.mulVec (s.vecJ J n y)) (fun d => (s1.matJ J n e).mulVec (s.vecJ J n y) d - g0.mat.mulVec (s.vecJ J n y) d)
    have e0 : (fun d => g0.mat.mulVec (s.vecJ J n y) d + ((s1.matJ J n e).mulVec (s.vecJ J n y) d - g0.mat.mulVec (s.vecJ J n y) d)) =
      (s1.matJ J n e).mulVec (s.vecJ J n y) := by funext d; ring
    rw [e0, vnorm_isometry hg1, ← hV] at h3
    have h4 : (3 / 2) ^ n * (121 * τ * ((n : R) + 1) * V) ≤ 58 / 1000 * (101 / 100) := by
      rw [← mul_assoc]
      exact mul_le_mul δ1 hy1 (by linarith) (by norm_num)
    linarith
  obtain ⟨s2, r, c1, c2, c3, c4⟩ := C79_expectation hJ hτ hR r1 hn v1 vy1 (lx.trans ly.symm) hK hKr hB hyB1 (X := 1 + 3 / 2 * τ) (Y := 8 / 5)
    (by linarith) (by norm_num) w1 hw hN
  rw [ey1, ← hV] at c4
  refine ⟨s1, e, s2, r, hg, c1, c2, fun k => (c3 k).trans (congrFun (heldOf_makeGateDD hg) k), ?_⟩
  have hE : prodErr τ n K B (1 + 3 / 2 * τ) (8 / 5) ≤ 140 * (τ * ((n : R) + 1) ^ 2 * (3 / 2) ^ n * (1 + B)) := by
    have a1 : (∏ j ∈ Finset.range n, K j) * ((1 + 3 / 2 * τ) * (8 / 5)) ≤ 53 / 25 * (803 / 500) :=
      mul_le_mul hKp (by linarith) (by linarith) (by norm_num)
    have a2 : 0 ≤ τ * ((n : R) + 1) ^ 2 * (3 / 2) ^ n * (1 + B) := by positivity
    have a3 := mul_le_mul_of_nonneg_left a1 a2
    have e1 : prodErr τ n K B (1 + 3 / 2 * τ) (8 / 5) =
        41 * (τ * ((n : R) + 1) ^ 2 * (3 / 2) ^ n * (1 + B) * ((∏ j ∈ Finset.range n, K j) * ((1 + 3 / 2 * τ) * (8 / 5)))) := by
      unfold prodErr; ring
    rw [e1]
    generalize τ * ((n : R) + 1) ^ 2 * (3 / 2) ^ n * (1 + B) = θ at a2 a3 ⊢
    linarith
  have E0 : 0 ≤ prodErr τ n K B (1 + 3 / 2 * τ) (8 / 5) := by
    have : (1 : R) ≤ ∏ j ∈ Finset.range n, K j := kappa_one hK n
    have : 0 ≤ ∏ j ∈ Finset.range n, K j := by linarith
    unfold prodErr
    positivity
  have hsum := observable_sum hτ hB (by linarith : 0 ≤ V) hy1 E0 hE hBn
  -- the difference of the two expectation values
  have d1 : |(∑ d, (s.vecJ J n y d).conj * (s1.matJ J n e).mulVec (s.vecJ J n y) d).re - (∑ d, (s.vecJ J n y d).conj * g0.mat.mulVec (s.vecJ J n y) d).re| ≤
      V * ((3 / 2) ^ n * (121 * τ * ((n : R) + 1) * V)) := by
    have h5 := abs_re_le (∑ d, (s.vecJ J n y d).conj * (s1.matJ J n e).mulVec (s.vecJ J n y) d - ∑ d, (s.vecJ J n y d).conj * g0.mat.mulVec (s.vecJ J n y) d)
    refine h5.trans ?_
    rw [← Finset.sum_sub_distrib]
    have e : ∀ d, (s.vecJ J n y d).conj * (s1.matJ J n e).mulVec (s.vecJ J n y) d - (s.vecJ J n y d).conj * g0.mat.mulVec (s.vecJ J n y) d =
      (s.vecJ J n y d).conj * ((s1.matJ J n e).mulVec (s.vecJ J n y) d - g0.mat.mulVec (s.vecJ J n y) d) := fun d => by ring
    simp only [e]
    exact (inner_le (s.vecJ J n y) _).trans (mul_le_mul_of_nonneg_left hnear (by linarith))
  have h6 := abs_sub_le r (∑ d, (s.vecJ J n y d).conj * (s1.matJ J n e).mulVec (s.vecJ J n y) d).re (∑ d, (s.vecJ J n y d).conj * g0.mat.mulVec (s.vecJ J n y) d).re
  linarith

/-- **C79.** The same without an assumption on the nodes of the state. -/
theorem C79_any (hJ : J.Good) (hτ : 0 ≤ τ) (hR : J.Rounds τ) (hr : TReach J τ s) {n : Nat} (hnv : n ≤ (s.tab .m).tab.nvars)
    (hn : 2100 * ((n : R) + 1) ^ 2 * (9 / 4) ^ n * τ ≤ 1) {g g0 : CGate R n} (hU : IsUnitary (mat2 g0.U)) (hg0 : g.Near τ g0) {y : PtrEdge} (hy : s.ValidV J n y)
    (hy0 : 99 / 100 ≤ vnorm (s.vecJ J n y)) (hy1 : vnorm (s.vecJ J n y) ≤ 101 / 100) :
    ∃ s1 e s2 r, s.makeGateDD J g.U n g.controls g.target = some (s1, e) ∧ s1.expectationValue J e y = some (s2, r) ∧ TReach J τ s2 ∧
      (∀ k, (s2.tab k).held = (s.tab k).held) ∧
      |r - (∑ d, (s.vecJ J n y d).conj * g0.mat.mulVec (s.vecJ J n y) d).re| ≤ 810 * τ * ((n : R) + 1) ^ 2 * (9 / 4) ^ n := by
  have hi := hr.inv hJ hR hτ
  have n0 : (0 : R) ≤ n := Nat.cast_nonneg n
  have p1 : (1 : R) ≤ (3 / 2) ^ n := one_le_pow₀ (by norm_num)
  have p2 : ((3 : R) / 2) ^ n * (3 / 2) ^ n = (9 / 4) ^ n := by rw [← mul_pow]; norm_num
  have a0 : 0 ≤ ((n : R) + 1) ^ 2 * (3 / 2) ^ n * τ := by positivity
  have hn1 : 2100 * ((n : R) + 1) ^ 2 * (3 / 2) ^ n * τ ≤ 1 := by
    have h1 := le_mul_of_one_le_right a0 p1
    have e : ((n : R) + 1) ^ 2 * (3 / 2) ^ n * τ * (3 / 2) ^ n = ((n : R) + 1) ^ 2 * ((3 / 2) ^ n * (3 / 2) ^ n) * τ := by ring
    rw [e, p2] at h1
    linarith
  obtain ⟨-, h2, -⟩ := small_inner hτ hn1
  have b1 : 1 + (3 / 2 * (1 + 4 * τ)) ^ n ≤ 101 / 50 * (3 / 2) ^ n := by linarith
  have b2 := mul_le_mul_of_nonneg_left b1 a0
  have e2 : ((n : R) + 1) ^ 2 * (3 / 2) ^ n * τ * (101 / 50 * (3 / 2) ^ n) = 101 / 50 * (((n : R) + 1) ^ 2 * ((3 / 2) ^ n * (3 / 2) ^ n) * τ) := by ring
  rw [e2, p2] at b2
  have c0 : 0 ≤ ((n : R) + 1) ^ 2 * (9 / 4) ^ n * τ := by positivity
  obtain ⟨s1, e, s2, r, c1, c2, c3, c4, c5⟩ := C79_observable hJ hτ hR hr hnv hn1 hU hg0 hy (B := (3 / 2 * (1 + 4 * τ)) ^ n) (by positivity)
    (normLe_exists hτ hi n _ hy.node n (le_refl n)) hy0 hy1 (by linarith)
  exact ⟨s1, e, s2, r, c1, c2, c3, c4, c5.trans (by linarith)⟩

namespace Ex

/-- The norm of a basis state. -/
theorem vnorm_delta {n : Nat} (q : Fin n → Fin 2) : vnorm (fun d => if d = q then (1 : Cx ℝ) else 0) = 1 := by
  have h := vnorm_sq (fun d : Fin n → Fin 2 => if d = q then (1 : Cx ℝ) else 0)
  have e : ∀ d : Fin n → Fin 2, (if d = q then (1 : Cx ℝ) else 0).mag2 = if d = q then 1 else 0 := by
    intro d
    split_ifs <;> simp [Cx.mag2]
  simp only [e, Finset.sum_ite_eq', Finset.mem_univ, if_true] at h
  have := vnorm_nonneg (fun d : Fin n → Fin 2 => if d = q then (1 : Cx ℝ) else 0)
  nlinarith

/-- With the tolerance of the package: the observable `H` on qubit 1 of 5, controlled by qubit 3, in the state |00000⟩. -/
example : ∃ s y s1 e s2 r, TReach JR (1 / 2 ^ 42) s ∧ s.ValidV JR 5 y ∧ (∀ d, mag (s.vecJ JR 5 y d - if d = fun _ => 0 then 1 else 0) ≤ 1 / 10 ^ 10) ∧
    s.makeGateDD JR hadU 5 [⟨3, false⟩] 1 = some (s1, e) ∧ s1.expectationValue JR e y = some (s2, r) ∧
    |r - (∑ d, (s.vecJ JR 5 y d).conj * (gateMat (fun a b => hadU (rc a b)) [⟨3, false⟩] (1 : Fin 5)).mulVec (s.vecJ JR 5 y) d).re| ≤ 1 / 10 ^ 6 := by
  have hτ : (0 : ℝ) ≤ 1 / 2 ^ 42 := by norm_num
  obtain ⟨s, y, -, r1, v1, k1, b1⟩ := C74_zero JR_good hτ (JR_rounds hτ) (JR_sq hτ) (jr_reach (1 / 2 ^ 42) 5) (n := 5) (le_refl 5) (by norm_num)
  have h1 := vnorm_near (by norm_num) b1
  have h2 := vnorm_near (f := fun d => if d = fun _ => 0 then 1 else 0) (g := s.vecJ JR 5 y) (e := 12 * (1 / 2 ^ 42) * ((5 : Nat) : ℝ)) (by norm_num)
    (fun d => (mag_sub_comm _ _).trans_le (b1 d))
  rw [vnorm_delta] at h1 h2
  norm_num at h1 h2
  obtain ⟨s1, e, s2, r, c1, c2, c3, c4, c5⟩ := C79_any JR_good hτ (JR_rounds hτ) r1 (n := 5) (by rw [k1.2.2]; exact le_refl 5) (by norm_num)
    (g := ⟨hadU, [⟨3, false⟩], 1, by constructor <;> decide⟩) (g0 := ⟨hadU, [⟨3, false⟩], 1, by constructor <;> decide⟩) hadU_unitary (.refl hτ _) v1 (by norm_num; linarith) (by norm_num; linarith)
  exact ⟨s, y, s1, e, s2, r, r1, v1, fun d => (b1 d).trans (by norm_num), c1, c2, c5.trans (by norm_num)⟩

/-- The square roots that occur in the run. -/
local instance : HasSqrt ℚ := ⟨fun q => if q = 9 / 25 then 3 / 5 else if q = 16 / 25 then 4 / 5 else q⟩

/-- A run with rational numbers and a tolerance: the observable `[3/5, 4/5; 4/5, -3/5]` on qubit 0, without and with a control on qubit 1, in the
state |01⟩ (qubit 0 is 1); an observable on one qubit only is rejected. -/
def expectRun : Option (List (Option ℚ)) := do
  let p ← jm.makeBasisState JQ 2 [true, false]
  let q ← p.1.makeGateDD JQ ![⟨3 / 5, 0⟩, ⟨4 / 5, 0⟩, ⟨4 / 5, 0⟩, ⟨-3 / 5, 0⟩] 2 [] 0
  let r ← q.1.makeGateDD JQ ![⟨3 / 5, 0⟩, ⟨4 / 5, 0⟩, ⟨4 / 5, 0⟩, ⟨-3 / 5, 0⟩] 2 [⟨1, false⟩] 0
  let t ← r.1.makeGateDD JQ ![⟨3 / 5, 0⟩, ⟨4 / 5, 0⟩, ⟨4 / 5, 0⟩, ⟨-3 / 5, 0⟩] 1 [] 0
  return [(t.1.expectationValue JQ q.2 p.2).map (·.2), (t.1.expectationValue JQ r.2 p.2).map (·.2), (t.1.expectationValue JQ t.2 p.2).map (·.2)]

example : expectRun = some [some (-3 / 5), some 1, none] := by decide +kernel

end Ex

end DD
