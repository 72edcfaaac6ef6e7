import Verif.Props.C17
import Verif.Props.C59
import Mathlib.Tactic.IntervalCases

/-!
# C61: matrices built with a tolerance are accurate up to the root of the tolerance

After any history, in a package with tolerance `τ`, the diagram built from a matrix of dimension `2 ^ n` with entries of absolute value at
most `B` (`1 ≤ B`) represents it with an error of at most `9 (1 + 10 B) ^ n (τ + √(n τ))` in each entry. An error bound proportional to `τ`
does not hold (`C61_not_linear`): the weights of a node are compared by their squared absolute values up to `τ`, so that the weight chosen for
division can be the smaller one by `√τ`, and vanish later.
-/

namespace DD

open Pkg

variable {R : Type} [Field R] [LinearOrder R] [IsStrictOrderedRing R] [FloorRing R] [HasSqrt R] [LawfulSqrt R]
variable {J : JCfg R} {τ : R} {s : JState R}

/-- Building a matrix succeeds, is accurate, and changes no other diagram. -/
theorem C61_build (hJ : J.Good) (hτ : 0 ≤ τ) (hR : J.Rounds τ) (hr : TReach J τ s) {n : Nat} (hn : n ≤ (s.tab .m).tab.nvars) (M : List (List (Cx R)))
    (hl : M.length = 2 ^ n) (hw : (M.getD 0 []).length = 2 ^ n) {B : R} (hB : 1 ≤ B)
    (hM : ∀ i j, i < 2 ^ n → j < 2 ^ n → mag ((M.getD i []).getD j 0) ≤ B) :
    ∃ s' e, s.makeDDFromMatrix J M = some (s', e) ∧ TReach J τ s' ∧ s'.ValidM J n e ∧
      (∀ r c : Fin n → Fin 2, mag (s'.matJ J n e r c - (M.getD (bitIdx r) []).getD (bitIdx c) 0) ≤
        9 * (1 + 10 * B) ^ n * (τ + HasSqrt.sqrt (n * τ))) ∧
      (s'.tab .m).tab.nvars = (s.tab .m).tab.nvars ∧
      (∀ l e', s.ValidM J l e' → s'.ValidM J l e' ∧ s'.matJ J l e' = s.matJ J l e') ∧
      ∀ l e', s.ValidV J l e' → s'.ValidV J l e' ∧ s'.vecJ J l e' = s.vecJ J l e' := by
  have hi := hr.inv hJ hR hτ
  obtain ⟨⟨s', e⟩, he⟩ := (makeMatrix_isSome (J := J) s M).2 (Or.inr ⟨⟨n, hl⟩, by rw [hw, hl]⟩)
  have hx : M.length ≤ 2 ^ (s.tab .m).tab.nvars := by rw [hl]; exact Nat.pow_le_pow_right (by omega) hn
  obtain ⟨a1, a2, a3⟩ := makeMatrix_acc hJ hτ hi hx he
  refine ⟨s', e, he, hr.step (.makeMatrix M e hx he), (a3 n hl).1, (a3 n hl).2 B hB hM, a2.nvars .m,
    fun l e' hv => ⟨a2.validM hv, a2.matJ hJ hτ hi hv⟩, fun l e' hv => ⟨a2.validV hv, ?_⟩⟩
  funext d
  rw [vecJ_eq, vecJ_eq, a2.cval hv.live, a2.namp hi a1 d hv.node]

/-- The matrices that are rejected. -/
theorem C61_reject (M : List (List (Cx R))) :
    s.makeDDFromMatrix J M = none ↔ M ≠ [] ∧ ((∀ n, M.length ≠ 2 ^ n) ∨ (M.getD 0 []).length ≠ M.length) := by
  have := makeMatrix_isSome (J := J) s M
  rw [← Option.not_isSome_iff_eq_none, Option.isSome_iff_exists, this, not_or, not_and_or, not_exists]

/-- With tolerance 0 nothing is lost. -/
theorem C61_exact (hJ : J.Good) (hR : J.Rounds 0) (hr : TReach J 0 s) {n : Nat} (hn : n ≤ (s.tab .m).tab.nvars) (M : List (List (Cx R)))
    (hl : M.length = 2 ^ n) (hw : (M.getD 0 []).length = 2 ^ n) :
    ∃ s' e, s.makeDDFromMatrix J M = some (s', e) ∧ s'.ValidM J n e ∧
      ∀ r c : Fin n → Fin 2, s'.matJ J n e r c = (M.getD (bitIdx r) []).getD (bitIdx c) 0 := by
  obtain ⟨B, hB, hM⟩ := entries_bounded (fun i j => (M.getD i []).getD j 0) (2 ^ n)
  obtain ⟨s', e, he, -, hv, hb, -⟩ := C61_build hJ (le_refl 0) hR hr hn M hl hw hB hM
  refine ⟨s', e, he, hv, fun r c => ?_⟩
  have h0 : HasSqrt.sqrt ((n : R) * 0) = 0 := by
    have := LawfulSqrt.mul_self ((n : R) * 0) (by rw [mul_zero])
    rw [mul_zero] at this ⊢
    exact mul_self_eq_zero.1 this
  have := hb r c
  rw [h0, add_zero, mul_zero] at this
  exact sub_eq_zero.1 (mag_eq_zero (le_antisymm this (mag_nonneg _)))

/-- Transposing changes no other diagram. -/
theorem C61_transpose (hJ : J.Good) (hτ : 0 ≤ τ) (hR : J.Rounds τ) (hr : TReach J τ s) {n : Nat} {x : PtrEdge} (hx : s.ValidM J n x) :
    TReach J τ (s.transpose J x).1 ∧
    (∀ l e', s.ValidM J l e' → (s.transpose J x).1.ValidM J l e' ∧ (s.transpose J x).1.matJ J l e' = s.matJ J l e') ∧
    ∀ l e', s.ValidV J l e' → (s.transpose J x).1.ValidV J l e' ∧ (s.transpose J x).1.vecJ J l e' = s.vecJ J l e' := by
  have hi := hr.inv hJ hR hτ
  obtain ⟨a1, a2⟩ := transpose_acc hJ hτ hi hx
  refine ⟨hr.step (.transpose n x hx), fun l e' hv => ⟨a2.validM hv, a2.matJ hJ hτ hi hv⟩, fun l e' hv => ⟨a2.validV hv, ?_⟩⟩
  funext d
  rw [vecJ_eq, vecJ_eq, a2.cval hv.live, a2.namp hi a1 d hv.node]

namespace Ex

/-- A matrix with a small entry in the same quadrant as a tiny one. -/
def lost : List (List (Cx ℚ)) :=
  [[⟨15 / 10 ^ 14, 0⟩, ⟨28 / 10 ^ 8, 0⟩, 0, 0], [0, 0, 0, 0], [0, 0, ⟨2, 0⟩, 0], [0, 0, 0, ⟨2, 0⟩]]

/-- A new package for two qubits with the default tolerance. -/
def jm : JState ℚ := JState.init JQ (1 / 10 ^ 13) 2 (fun _ => 1) (fun _ => ⟨0, fun _ => ⟨none, CNum.zero⟩, 0, false, false⟩)

end Ex

/-- The error is not proportional to the tolerance: with the default tolerance of 1/10^13, an entry of 2.8/10^7 of a matrix of dimension 4
with entries of absolute value at most 2 is lost. -/
theorem C61_not_linear : ∃ s' e, Ex.jm.makeDDFromMatrix Ex.JQ Ex.lost = some (s', e) ∧
    s'.matJ Ex.JQ 2 e ![0, 0] ![1, 0] = 0 ∧ (Ex.lost.getD (bitIdx ![0, 0]) []).getD (bitIdx ![1, 0]) 0 = ⟨28 / 10 ^ 8, 0⟩ ∧
    (28 / 10 ^ 8 : ℚ) = 2800000 * (1 / 10 ^ 13) := by
  have : ∃ p, Ex.jm.makeDDFromMatrix Ex.JQ Ex.lost = some p ∧ p.1.matJ Ex.JQ 2 p.2 ![0, 0] ![1, 0] = 0 := by
    have h : ((Ex.jm.makeDDFromMatrix Ex.JQ Ex.lost).map fun p => decide (p.1.matJ Ex.JQ 2 p.2 ![0, 0] ![1, 0] = 0)) = some true := by
      decide +kernel
    obtain ⟨p, h1, h2⟩ := Option.map_eq_some_iff.1 h
    exact ⟨p, h1, of_decide_eq_true h2⟩
  obtain ⟨p, h1, h2⟩ := this
  exact ⟨p.1, p.2, h1, h2, by decide +kernel, by norm_num⟩

/-! ## Examples -/

namespace Ex

/-- The same matrix is kept with tolerance 0. -/
example : ((JState.init JQ 0 2 (fun _ => 1) (fun _ => ⟨0, fun _ => ⟨none, CNum.zero⟩, 0, false, false⟩)).makeDDFromMatrix JQ lost).map
    (fun p => decide (p.1.matJ JQ 2 p.2 ![0, 0] ![1, 0] = ⟨28 / 10 ^ 8, 0⟩)) = some true := by decide +kernel

/-- A controlled gate on two qubits, in a package with a tolerance of 1/10^40; another one is built afterwards, and the first one is
transposed. -/
theorem two_matrices (M N : List (List (Cx ℝ))) (hM : M.length = 2 ^ 2) (hN : N.length = 2 ^ 2) (wM : (M.getD 0 []).length = 2 ^ 2)
    (wN : (N.getD 0 []).length = 2 ^ 2) (bM : ∀ i j, i < 2 ^ 2 → j < 2 ^ 2 → mag ((M.getD i []).getD j 0) ≤ 1)
    (bN : ∀ i j, i < 2 ^ 2 → j < 2 ^ 2 → mag ((N.getD i []).getD j 0) ≤ 1) :
    ∃ s x y, TReach JR (1 / 10 ^ 40) s ∧ s.ValidM JR 2 x ∧ s.ValidM JR 2 y ∧
    (∀ r c, mag (s.matJ JR 2 x r c - (M.getD (bitIdx r) []).getD (bitIdx c) 0) ≤ 1 / 10 ^ 16) ∧
    (∀ r c, mag (s.matJ JR 2 y r c - (N.getD (bitIdx r) []).getD (bitIdx c) 0) ≤ 1 / 10 ^ 16) := by
  have hs : HasSqrt.sqrt (((2 : Nat) : ℝ) * (1 / 10 ^ 40)) ≤ 2 / 10 ^ 20 := by
    show Real.sqrt _ ≤ _
    rw [Real.sqrt_le_left (by norm_num)]
    norm_num
  have hb : 9 * (1 + 10 * (1 : ℝ)) ^ 2 * (1 / 10 ^ 40 + HasSqrt.sqrt (((2 : Nat) : ℝ) * (1 / 10 ^ 40))) ≤ 1 / 10 ^ 16 := by
    linarith
  obtain ⟨s1, x, _, r1, v1, b1, n1, -⟩ := C61_build JR_good (by norm_num) (JR_rounds (by norm_num)) (jr_reach (1 / 10 ^ 40) 2) (n := 2) (le_refl 2) M hM wM
    (le_refl 1) bM
  obtain ⟨s2, y, _, r2, v2, b2, -, k2, -⟩ := C61_build JR_good (by norm_num) (JR_rounds (by norm_num)) r1 (n := 2) (by rw [n1]; exact le_refl 2) N hN wN
    (le_refl 1) bN
  obtain ⟨r3, k3, -⟩ := C61_transpose JR_good (by norm_num) (JR_rounds (by norm_num)) r2 (k2 2 x v1).1
  refine ⟨_, x, y, r3, (k3 2 x (k2 2 x v1).1).1, (k3 2 y v2).1, fun r c => ?_, fun r c => ?_⟩
  · rw [(k3 2 x (k2 2 x v1).1).2, (k2 2 x v1).2]
    exact (b1 r c).trans hb
  · rw [(k3 2 y v2).2]
    exact (b2 r c).trans hb

example : ∃ s' e, (jr 0 1).makeDDFromMatrix JR [[⟨3, 0⟩, ⟨0, 4⟩], [⟨0, 1⟩, 2]] = some (s', e) ∧ s'.ValidM JR 1 e ∧
    ∀ r c : Fin 1 → Fin 2, s'.matJ JR 1 e r c = ([[⟨3, 0⟩, ⟨0, 4⟩], [⟨0, 1⟩, 2]].getD (bitIdx r) []).getD (bitIdx c) 0 :=
  C61_exact JR_good (JR_rounds (le_refl 0)) (jr_reach 0 1) (le_refl 1) [[⟨3, 0⟩, ⟨0, 4⟩], [⟨0, 1⟩, 2]] rfl rfl

theorem entries_le (M : List (List (Cx ℝ))) (h : ∀ i j, i < 4 → j < 4 → (M.getD i []).getD j 0 = 0 ∨ (M.getD i []).getD j 0 = 1) (i j : Nat)
    (hi : i < 2 ^ 2) (hj : j < 2 ^ 2) : mag ((M.getD i []).getD j 0) ≤ 1 := by
  rcases h i j hi hj with h | h <;> rw [h]
  · rw [mag_zero]; norm_num
  · rw [mag_one]

/-- Two concrete matrices. -/
example : ∃ s x y, TReach JR (1 / 10 ^ 40) s ∧ s.ValidM JR 2 x ∧ s.ValidM JR 2 y ∧
    (∀ r c, mag (s.matJ JR 2 x r c -
      ([[1, 0, 0, 0], [0, 1, 0, 0], [0, 0, 0, 1], [0, 0, 1, 0]].getD (bitIdx r) []).getD (bitIdx c) 0) ≤ 1 / 10 ^ 16) ∧
    (∀ r c, mag (s.matJ JR 2 y r c -
      ([[0, 1, 0, 0], [0, 0, 1, 0], [0, 0, 0, 1], [1, 0, 0, 0]].getD (bitIdx r) []).getD (bitIdx c) 0) ≤ 1 / 10 ^ 16) :=
  two_matrices [[1, 0, 0, 0], [0, 1, 0, 0], [0, 0, 0, 1], [0, 0, 1, 0]] [[0, 1, 0, 0], [0, 0, 1, 0], [0, 0, 0, 1], [1, 0, 0, 0]]
    rfl rfl rfl rfl
    (entries_le _ (by intro i j hi hj; interval_cases i <;> interval_cases j <;> simp))
    (entries_le _ (by intro i j hi hj; interval_cases i <;> interval_cases j <;> simp))

example : (jr 0 2).makeDDFromMatrix JR [[1, 0, 0], [0, 1, 0]] = none := (C61_reject _).2 ⟨by simp, Or.inr (by simp)⟩

end Ex
end DD
