import Verif.Proofs.ApproxHistory
import Verif.Model.RealNum
import Verif.Props.C13
import Mathlib.Tactic.NormNum
import Mathlib.Data.Int.Log

/-!
# C59: states built from vectors are accurate up to the tolerance

In a package with tolerance `τ` numbers are stored and compared only up to `τ`. After any history, the diagram built from a vector
represents it up to a multiple of `τ` that grows linearly with the number of qubits and with the norm of the vector (for small `τ`), and
so do the amplitudes read back from it.
-/

namespace DD

open Pkg

variable {R : Type} [Field R] [LinearOrder R] [IsStrictOrderedRing R] [FloorRing R] [HasSqrt R] [LawfulSqrt R]
variable {J : JCfg R} {τ : R} {s : JState R}

/-- Building a state succeeds, is accurate, and changes no other diagram. -/
theorem C59_build (hJ : J.Good) (hτ : 0 ≤ τ) (hR : J.Rounds τ) (hr : TReach J τ s) {n : Nat} (hn : n ≤ (s.tab .v).tab.nvars) (xs : List (Cx R))
    (hl : xs.length = 2 ^ n) :
    ∃ s' e, s.makeStateFromVector J xs = some (s', e) ∧ TReach J τ s' ∧ s'.ValidV J n e ∧
      (∀ d : Fin n → Fin 2, mag (s'.vecJ J n e d - xs.getD (bitIdx d) 0) ≤
        2 * τ * (n * (1 + 3 * norm2 xs) + 1) * (1 + 4 * τ) ^ n) ∧
      (s'.tab .v).tab.nvars = (s.tab .v).tab.nvars ∧
      ∀ l e', s.ValidV J l e' → s'.ValidV J l e' ∧ s'.vecJ J l e' = s.vecJ J l e' := by
  have hi := hr.inv hJ hR hτ
  obtain ⟨⟨s', e⟩, he⟩ := (makeState_isSome (J := J) s xs).2 (Or.inr ⟨n, hl⟩)
  have hx : xs.length ≤ 2 ^ (s.tab .v).tab.nvars := by rw [hl]; exact Nat.pow_le_pow_right (by omega) hn
  obtain ⟨a1, a2, a3⟩ := makeState_acc hJ hτ hi hx he
  refine ⟨s', e, he, hr.step (.makeState xs e hx he), (a3 n hl).1, (a3 n hl).2.2, a2.nvars .v, fun l e' hv => ⟨a2.validV hv, ?_⟩⟩
  funext d
  rw [vecJ_eq, vecJ_eq, a2.cval hv.live, a2.namp hi a1 d hv.node]

/-- Lengths that are not powers of two are rejected; only these. -/
theorem C59_reject (xs : List (Cx R)) : s.makeStateFromVector J xs = none ↔ xs ≠ [] ∧ ∀ n, xs.length ≠ 2 ^ n := by
  have := makeState_isSome (J := J) s xs
  rw [← Option.not_isSome_iff_eq_none, Option.isSome_iff_exists, this]
  push Not
  rfl

/-- Reading the amplitudes of any diagram. -/
theorem C59_read (hJ : J.Good) (hτ : 0 ≤ τ) (hR : J.Rounds τ) (hr : TReach J τ s) {n : Nat} {e : PtrEdge} (he : s.ValidV J n e) (d : Fin n → Fin 2) :
    mag (s.getVector J n e d - s.vecJ J n e d) ≤ 2 * τ * (n + 1) * (1 + 4 * τ) ^ n * max 1 (mag (s.ct.cval J.C e.w)) := by
  have := readF_acc hJ hτ (hr.inv hJ hR hτ) n e 1 d (max 1 (mag (s.ct.cval J.C e.w))) 1 he (le_max_left _ _) (le_refl _) (le_max_right _ _)
    (by rw [mag_one])
  rw [one_mul, mul_one] at this
  refine this.trans ?_
  have h := pow_le_pow_left₀ (by have := kidW_one hτ; have := rho_one hτ; positivity) (kidW_rho' hτ) n
  exact mul_le_mul_of_nonneg_right (mul_le_mul_of_nonneg_left h (by positivity)) (le_trans zero_le_one (le_max_left _ _))

/-- Building a state and reading it back. -/
theorem C59_roundtrip (hJ : J.Good) (hτ : 0 ≤ τ) (hR : J.Rounds τ) (hr : TReach J τ s) {n : Nat} (hn : n ≤ (s.tab .v).tab.nvars) (xs : List (Cx R))
    (hl : xs.length = 2 ^ n) :
    ∃ s' e, s.makeStateFromVector J xs = some (s', e) ∧ ∀ d : Fin n → Fin 2,
      mag (s'.getVector J n e d - xs.getD (bitIdx d) 0) ≤
        2 * τ * (n * (1 + 3 * norm2 xs) + 1 + (n + 1) * (1 + norm2 xs + 2 * τ)) * (1 + 4 * τ) ^ n := by
  obtain ⟨s', e, he, hr', hv, hb, -⟩ := C59_build hJ hτ hR hr hn xs hl
  refine ⟨s', e, he, fun d => ?_⟩
  have hx : xs.length ≤ 2 ^ (s.tab .v).tab.nvars := by rw [hl]; exact Nat.pow_le_pow_right (by omega) hn
  have hw := ((makeState_acc hJ hτ (hr.inv hJ hR hτ) hx he).2.2 n hl).2.1
  have hN : 0 ≤ norm2 xs := LawfulSqrt.nonneg _
  have k1 := kidW_one hτ
  have r1 := rho_one hτ
  have p1 := one_le_pow₀ (n := n) r1
  have h1 := readF_acc hJ hτ (hr'.inv hJ hR hτ) n e 1 d (1 + rho τ ^ n * norm2 xs + 2 * τ) 1 hv (by nlinarith) (le_refl _) (by linarith)
    (by rw [mag_one])
  rw [one_mul, mul_one] at h1
  have q1 : (kidW τ * rho τ) ^ n ≤ (1 + 4 * τ) ^ n := pow_le_pow_left₀ (by positivity) (kidW_rho' hτ) n
  have q2 : (kidW τ * rho τ) ^ n * rho τ ^ n ≤ (1 + 4 * τ) ^ n := by
    rw [← mul_pow]
    exact pow_le_pow_left₀ (by positivity) (kidW_rho hτ) n
  have q3 : (kidW τ * rho τ) ^ n * (1 + rho τ ^ n * norm2 xs + 2 * τ) ≤ (1 + norm2 xs + 2 * τ) * (1 + 4 * τ) ^ n := by
    have e1 := mul_le_mul_of_nonneg_right q2 hN
    have e2 := mul_le_mul_of_nonneg_right q1 (by linarith : 0 ≤ 1 + 2 * τ)
    linarith
  have q4 := mul_le_mul_of_nonneg_left q3 (by positivity : 0 ≤ 2 * τ * ((n : R) + 1))
  refine (mag_tri _ _ _).trans ((add_le_add h1 (hb d)).trans (le_of_sub_nonneg ?_))
  linarith

/-- With tolerance 0 nothing is lost. -/
theorem C59_exact (hJ : J.Good) (hR : J.Rounds 0) (hr : TReach J 0 s) {n : Nat} (hn : n ≤ (s.tab .v).tab.nvars) (xs : List (Cx R))
    (hl : xs.length = 2 ^ n) :
    ∃ s' e, s.makeStateFromVector J xs = some (s', e) ∧ ∀ d : Fin n → Fin 2,
      s'.vecJ J n e d = xs.getD (bitIdx d) 0 ∧ s'.getVector J n e d = xs.getD (bitIdx d) 0 := by
  obtain ⟨s', e, he, hr', hv, hb, -⟩ := C59_build hJ (le_refl 0) hR hr hn xs hl
  have z : ∀ a b : Cx R, mag (a - b) ≤ 0 → a = b := fun a b h =>
    sub_eq_zero.1 (mag_eq_zero (le_antisymm h (mag_nonneg _)))
  refine ⟨s', e, he, fun d => ?_⟩
  have h1 := z _ _ (by simpa using hb d)
  have h2 := z _ _ (by simpa using C59_read hJ (le_refl 0) hR hr' hv d)
  exact ⟨h1, h2.trans h1⟩

/-! ## Examples -/

namespace Ex

/-- Parameters: tables with few buckets, constant hash functions. -/
noncomputable def JR : JCfg ℝ where
  C := ⟨2, 4, 2, 8, 10, 5, Real.sqrt (1 / 2)⟩
  U := UCfg.default
  H := fun _ _ => 0
  h := fun _ _ => 0

theorem JR_rounds {τ : ℝ} (hτ : 0 ≤ τ) : JR.Rounds τ :=
  ⟨0, 0, le_refl 0, by simpa using hτ, by norm_num, le_refl 0, le_refl 0, by simp, fun x => by simp [JR]⟩

theorem JR_good : JR.Good := ⟨⟨by decide, by decide, by decide, by decide⟩, UCfg.default_good⟩

/-- A new package for `n` qubits. -/
noncomputable def jr (τ : ℝ) (n : Nat) : JState ℝ := JState.init JR τ n (fun _ => 1)
  (fun _ => ⟨0, fun _ => ⟨none, CNum.zero⟩, 0, false, false⟩)

theorem jr_reach (τ : ℝ) (n : Nat) : TReach JR τ (jr τ n) := .init n _ (fun _ => by norm_num) _

/-- Two different states of two qubits in one package with the default tolerance. -/
theorem two_states : ∃ s x y, TReach JR (1 / 10 ^ 13) s ∧ s.ValidV JR 2 x ∧ s.ValidV JR 2 y ∧
    (∀ d, mag (s.vecJ JR 2 x d - [⟨0, 3 / 5⟩, 0, 0, ⟨4 / 5, 0⟩].getD (bitIdx d) 0) ≤ 1 / 10 ^ 11) ∧
    (∀ d, mag (s.vecJ JR 2 y d - [⟨4 / 5, 0⟩, 0, 0, ⟨0, 3 / 5⟩].getD (bitIdx d) 0) ≤ 1 / 10 ^ 11) := by
  have nm : ∀ xs : List (Cx ℝ), (xs.map Cx.mag2).sum = 1 → norm2 xs = 1 := by
    intro xs h
    unfold norm2
    rw [h]
    exact Real.sqrt_one
  obtain ⟨s1, x, _, r1, v1, b1, n1, -⟩ := C59_build JR_good (by norm_num) (JR_rounds (by norm_num)) (jr_reach (1 / 10 ^ 13) 2) (n := 2) (le_refl 2)
    [⟨0, 3 / 5⟩, 0, 0, ⟨4 / 5, 0⟩] rfl
  obtain ⟨s2, y, _, r2, v2, b2, -, k2⟩ := C59_build JR_good (by norm_num) (JR_rounds (by norm_num)) r1 (n := 2) (by rw [n1]; exact le_refl 2)
    [⟨4 / 5, 0⟩, 0, 0, ⟨0, 3 / 5⟩] rfl
  have c1 := nm [⟨0, 3 / 5⟩, 0, 0, ⟨4 / 5, 0⟩] (by simp [Cx.mag2]; norm_num)
  have c2 := nm [⟨4 / 5, 0⟩, 0, 0, ⟨0, 3 / 5⟩] (by simp [Cx.mag2]; norm_num)
  rw [c1] at b1
  rw [c2] at b2
  refine ⟨s2, x, y, r2, (k2 2 x v1).1, v2, fun d => ?_, fun d => (b2 d).trans (by norm_num)⟩
  rw [(k2 2 x v1).2]
  exact (b1 d).trans (by norm_num)

/-- With the default tolerance, all amplitudes of a normalised state of 20 qubits are represented with an error of at most 2/10^11. -/
example {s : JState ℝ} (hr : TReach JR (1 / 10 ^ 13) s) (hn : 20 ≤ (s.tab .v).tab.nvars) (xs : List (Cx ℝ)) (hl : xs.length = 2 ^ 20)
    (h1 : norm2 xs = 1) : ∃ s' e, s.makeStateFromVector JR xs = some (s', e) ∧ s'.ValidV JR 20 e ∧
      ∀ d, mag (s'.vecJ JR 20 e d - xs.getD (bitIdx d) 0) ≤ 2 / 10 ^ 11 := by
  obtain ⟨s', e, he, _, hv, hb, -⟩ := C59_build JR_good (by norm_num) (JR_rounds (by norm_num)) hr hn xs hl
  refine ⟨s', e, he, hv, fun d => (hb d).trans ?_⟩
  rw [h1]
  norm_num

example : ∃ s' e, (jr 0 1).makeStateFromVector JR [⟨3, 0⟩, ⟨0, 4⟩] = some (s', e) ∧ ∀ d : Fin 1 → Fin 2,
    s'.vecJ JR 1 e d = [⟨3, 0⟩, ⟨0, 4⟩].getD (bitIdx d) 0 ∧ s'.getVector JR 1 e d = [⟨3, 0⟩, ⟨0, 4⟩].getD (bitIdx d) 0 :=
  C59_exact JR_good (JR_rounds (le_refl 0)) (jr_reach 0 1) (le_refl 1) [⟨3, 0⟩, ⟨0, 4⟩] rfl

example : (jr 0 2).makeStateFromVector JR [1, 2, 3] = none := C59_reject _ |>.2 ⟨by simp, fun n h => by
  simp only [List.length_cons, List.length_nil, zero_add, Nat.reduceAdd] at h
  rcases n with _ | _ | n
  · simp at h
  · simp at h
  · rw [pow_succ, pow_succ] at h; omega⟩

/-- Rounding to the nearest number with 53 significant bits. -/
noncomputable def double (x : ℝ) : ℝ := round (x / 2 ^ (Int.log 2 |x| - 52)) * 2 ^ (Int.log 2 |x| - 52)

theorem double_err (x : ℝ) : |double x - x| ≤ 1 / 2 ^ 53 * |x| := by
  rcases eq_or_ne x 0 with rfl | hx
  · simp [double]
  have hp : (0 : ℝ) < 2 ^ (Int.log 2 |x| - 52) := zpow_pos (by norm_num) _
  have h1 := abs_sub_round (x / 2 ^ (Int.log 2 |x| - 52))
  have h2 : (2 : ℝ) ^ Int.log 2 |x| ≤ |x| := by exact_mod_cast Int.zpow_log_le_self (b := 2) (by norm_num) (abs_pos.2 hx)
  have h3 : double x - x = -((x / 2 ^ (Int.log 2 |x| - 52) - round (x / 2 ^ (Int.log 2 |x| - 52))) * 2 ^ (Int.log 2 |x| - 52)) := by
    unfold double
    field_simp
    ring
  rw [h3, abs_neg, abs_mul, abs_of_pos hp]
  refine (mul_le_mul_of_nonneg_right h1 hp.le).trans ?_
  rw [zpow_sub₀ (by norm_num)]
  norm_num
  linarith

/-- The package as it is: numbers are rounded to 53 bits. -/
noncomputable def JD : JCfg ℝ := { JR with fl := double }

theorem JD_good : JD.Good := ⟨JR_good.1, JR_good.2⟩

/-- With the tolerance of the package. -/
theorem JD_rounds : JD.Rounds (1 / 2 ^ 42) :=
  ⟨1 / 2 ^ 53, 0, by norm_num, by norm_num, by norm_num, le_refl 0, by norm_num, by norm_num, fun x => by
    simpa [JD] using double_err x⟩

/-- Numbers are changed by the rounding. -/
example : double (2 ^ 53 + 1) ≠ 2 ^ 53 + 1 := by
  have hl : Int.log 2 |(2 ^ 53 + 1 : ℝ)| = 53 := by
    rw [abs_of_pos (by positivity)]
    have : ((9007199254740993 : ℕ) : ℝ) = 2 ^ 53 + 1 := by norm_num
    rw [← this, Int.log_natCast]
    decide +kernel
  unfold double
  rw [hl]
  intro h
  have h2 : (2 : ℝ) ^ ((53 : ℤ) - 52) = 2 := by norm_num
  rw [h2] at h
  have h3 : round ((2 ^ 53 + 1 : ℝ) / 2) * 2 = (2 ^ 53 + 1 : ℤ) := by exact_mod_cast h
  omega

/-- A state built and read back with rounding. -/
example : ∃ s' e, (JState.init JD (1 / 2 ^ 42) 2 (fun _ => 1) (fun _ => ⟨0, fun _ => ⟨none, CNum.zero⟩, 0, false, false⟩)).makeStateFromVector
      JD [⟨0, 3 / 5⟩, 0, 0, ⟨4 / 5, 0⟩] = some (s', e) ∧
    ∀ d, mag (s'.getVector JD 2 e d - [⟨0, 3 / 5⟩, 0, 0, ⟨4 / 5, 0⟩].getD (bitIdx d) 0) ≤ 1 / 10 ^ 11 := by
  obtain ⟨s', e, he, hb⟩ := C59_roundtrip JD_good (by norm_num) JD_rounds (.init 2 (fun _ => 1) (fun _ => by norm_num) _) (n := 2) (le_refl 2)
    [⟨0, 3 / 5⟩, 0, 0, ⟨4 / 5, 0⟩] rfl
  refine ⟨s', e, he, fun d => (hb d).trans ?_⟩
  have : norm2 ([⟨0, 3 / 5⟩, 0, 0, ⟨4 / 5, 0⟩] : List (Cx ℝ)) = 1 := by
    have : (([⟨0, 3 / 5⟩, 0, 0, ⟨4 / 5, 0⟩] : List (Cx ℝ)).map Cx.mag2).sum = 1 := by simp [Cx.mag2]; norm_num
    unfold norm2
    rw [this]
    exact Real.sqrt_one
  rw [this]
  norm_num

end Ex
end DD
