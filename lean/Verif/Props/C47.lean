import Verif.Model.Fraction
import Mathlib.Algebra.Order.Archimedean.Basic
import Mathlib.Tactic.FieldSimp
import Mathlib.Tactic.Linarith
import Mathlib.Tactic.Ring
import Mathlib.Tactic.LinearCombination
import Mathlib.Tactic.Positivity
import Mathlib.Tactic.Zify
import Mathlib.Tactic.NormNum
import Mathlib.Data.Nat.GCD.Basic
import Mathlib.Data.Rat.Cast.Order
import Mathlib.Algebra.Order.Ring.Rat

/-!
# C47: the search for fractions
-/

namespace DD

variable {R : Type} [Field R] [LinearOrder R]

/-- Neighbouring fractions. -/
structure Neighbours (lo hi : Nat × Nat) : Prop where
  det : hi.1 * lo.2 = lo.1 * hi.2 + 1
  pos : 1 ≤ lo.2

theorem coprime_of {a b c d : Nat} (h : a * d = b * c + 1) : Nat.Coprime a c ∧ Nat.Coprime b d := by
  constructor
  · rw [Nat.Coprime, ← Nat.dvd_one, ← Nat.dvd_add_right (a := Nat.gcd a c) (b := b * c)]
    · rw [← h]; exact Dvd.dvd.mul_right (Nat.gcd_dvd_left a c) d
    · exact Dvd.dvd.mul_left (Nat.gcd_dvd_right a c) b
  · rw [Nat.Coprime, ← Nat.dvd_one, ← Nat.dvd_add_right (a := Nat.gcd b d) (b := b * c)]
    · rw [← h]; exact Dvd.dvd.mul_left (Nat.gcd_dvd_right b d) a
    · exact Dvd.dvd.mul_right (Nat.gcd_dvd_left b d) c

theorem Neighbours.left {lo hi : Nat × Nat} (h : Neighbours lo hi) : Neighbours (lo.1 + hi.1, lo.2 + hi.2) hi :=
  ⟨by have := h.det; dsimp only; rw [Nat.mul_add, this, Nat.add_mul]; ring, by have := h.pos; dsimp only; omega⟩

theorem Neighbours.right {lo hi : Nat × Nat} (h : Neighbours lo hi) : Neighbours lo (lo.1 + hi.1, lo.2 + hi.2) :=
  ⟨by have := h.det; dsimp only; rw [Nat.add_mul, this, Nat.mul_add]; ring, h.pos⟩

/-- A fraction strictly between two neighbours has at least the numerator and denominator of their mediant. -/
theorem Neighbours.between {lo hi : Nat × Nat} (h : Neighbours lo hi) {p q : Nat} (h1 : lo.1 * q < p * lo.2) (h2 : p * hi.2 < hi.1 * q) :
    lo.1 + hi.1 ≤ p ∧ lo.2 + hi.2 ≤ q := by
  obtain ⟨c, hc⟩ := Nat.exists_eq_add_of_lt h1
  obtain ⟨d, hd⟩ := Nat.exists_eq_add_of_lt h2
  have e := h.det
  zify at *
  constructor
  · have : (p : Int) = lo.1 * (d + 1) + hi.1 * (c + 1) := by linear_combination (hi.1 : Int) * hc + (lo.1 : Int) * hd - (p : Int) * e
    have a1 : (0 : Int) ≤ lo.1 * d := by positivity
    have a2 : (0 : Int) ≤ hi.1 * c := by positivity
    linarith
  · have : (q : Int) = lo.2 * (d + 1) + hi.2 * (c + 1) := by linear_combination (hi.2 : Int) * hc + (lo.2 : Int) * hd - (q : Int) * e
    have a1 : (0 : Int) ≤ lo.2 * d := by positivity
    have a2 : (0 : Int) ≤ hi.2 * c := by positivity
    linarith

theorem step_cases (x : R) (maxDen : Nat) (tol : R) (lo hi : Nat × Nat) :
    (|x - ((lo.1 + hi.1 : Nat) : R) / ((lo.2 + hi.2 : Nat) : R)| ≤ tol ∧
      ((lo.2 + hi.2 ≤ maxDen ∧ fractionStep x maxDen tol lo hi = .inl (lo.1 + hi.1, lo.2 + hi.2)) ∨
       (maxDen < lo.2 + hi.2 ∧ lo.2 < hi.2 ∧ fractionStep x maxDen tol lo hi = .inl hi) ∨
       (maxDen < lo.2 + hi.2 ∧ hi.2 ≤ lo.2 ∧ fractionStep x maxDen tol lo hi = .inl lo))) ∨
    (tol < |x - ((lo.1 + hi.1 : Nat) : R) / ((lo.2 + hi.2 : Nat) : R)| ∧
      ((((lo.1 + hi.1 : Nat) : R) / ((lo.2 + hi.2 : Nat) : R) < x ∧
        fractionStep x maxDen tol lo hi = .inr ((lo.1 + hi.1, lo.2 + hi.2), hi)) ∨
       (x ≤ ((lo.1 + hi.1 : Nat) : R) / ((lo.2 + hi.2 : Nat) : R) ∧
        fractionStep x maxDen tol lo hi = .inr (lo, (lo.1 + hi.1, lo.2 + hi.2))))) := by
  unfold fractionStep
  dsimp only
  by_cases h1 : |x - ((lo.1 + hi.1 : Nat) : R) / ((lo.2 + hi.2 : Nat) : R)| ≤ tol
  · left
    refine ⟨h1, ?_⟩
    rw [if_pos h1]
    by_cases h2 : lo.2 + hi.2 ≤ maxDen
    · left; exact ⟨h2, if_pos h2⟩
    · right
      rw [if_neg h2]
      by_cases h3 : hi.2 > lo.2
      · left; exact ⟨by omega, h3, if_pos h3⟩
      · right; exact ⟨by omega, by omega, if_neg h3⟩
  · right
    refine ⟨not_le.1 h1, ?_⟩
    rw [if_neg h1]
    by_cases h2 : x > ((lo.1 + hi.1 : Nat) : R) / ((lo.2 + hi.2 : Nat) : R)
    · left; exact ⟨h2, if_pos h2⟩
    · right; exact ⟨not_lt.1 h2, if_neg h2⟩

/-- `getLowestFraction` has at most one result. -/
theorem FractionLoop.unique {x : R} {maxDen : Nat} {tol : R} {lo hi r r' : Nat × Nat} (h : FractionLoop x maxDen tol lo hi r)
    (h' : FractionLoop x maxDen tol lo hi r') : r = r' := by
  induction h with
  | exitLow h1 h2 =>
    cases h' with
    | exitLow _ _ => rfl
    | exitHigh _ h4 => exact absurd h2 h4
    | found h3 _ => exact absurd h3 h1
    | next h3 _ _ => exact absurd h3 h1
  | exitHigh h1 h2 =>
    cases h' with
    | exitLow _ h4 => exact absurd h4 h2
    | exitHigh _ _ => rfl
    | found h3 _ => exact absurd h3 h1
    | next h3 _ _ => exact absurd h3 h1
  | found h1 h2 =>
    cases h' with
    | exitLow h3 _ => exact absurd h1 h3
    | exitHigh h3 _ => exact absurd h1 h3
    | found _ h4 => rw [h2] at h4; cases h4; rfl
    | next _ h4 _ => rw [h2] at h4; cases h4
  | next h1 h2 _ ih =>
    cases h' with
    | exitLow h3 _ => exact absurd h1 h3
    | exitHigh h3 _ => exact absurd h1 h3
    | found _ h4 => rw [h2] at h4; cases h4
    | next _ h4 h5 => rw [h2] at h4; cases h4; exact ih h5

theorem loop_exit (x : R) (maxDen : Nat) (tol : R) {lo hi : Nat × Nat} (h : ¬ (lo.2 ≤ maxDen ∧ hi.2 ≤ maxDen)) :
    ∃ r, FractionLoop x maxDen tol lo hi r := by
  by_cases h1 : lo.2 > maxDen
  · exact ⟨_, .exitLow h h1⟩
  · exact ⟨_, .exitHigh h h1⟩

/-- The search ends once the upper bound is finite. -/
theorem loop_ends (x : R) (maxDen : Nat) (tol : R) : ∀ (m : Nat) (lo hi : Nat × Nat), 1 ≤ lo.2 → 1 ≤ hi.2 → 2 * maxDen + 2 ≤ m + (lo.2 + hi.2) →
    ∃ r, FractionLoop x maxDen tol lo hi r := by
  intro m
  induction m with
  | zero =>
    intro lo hi _ _ h
    exact loop_exit x maxDen tol (by omega)
  | succ m ih =>
    intro lo hi h1 h2 h3
    by_cases hc : lo.2 ≤ maxDen ∧ hi.2 ≤ maxDen
    · rcases step_cases x maxDen tol lo hi with ⟨_, h | h | h⟩ | ⟨_, h | h⟩
      · exact ⟨_, .found hc h.2⟩
      · exact ⟨_, .found hc h.2.2⟩
      · exact ⟨_, .found hc h.2.2⟩
      · obtain ⟨r, hr⟩ := ih (lo.1 + hi.1, lo.2 + hi.2) hi (by dsimp only; omega) h2 (by dsimp only; omega)
        exact ⟨r, .next hc h.2 hr⟩
      · obtain ⟨r, hr⟩ := ih lo (lo.1 + hi.1, lo.2 + hi.2) h1 (by dsimp only; omega) (by dsimp only; omega)
        exact ⟨r, .next hc h.2 hr⟩
    · exact loop_exit x maxDen tol hc

variable [IsStrictOrderedRing R]

/-- The search for the upper bound ends. -/
theorem loop_start (x : R) (maxDen : Nat) (tol : R) (N : Nat) (hN : x ≤ N) : ∀ (m k : Nat), N ≤ k + m →
    ∃ r, FractionLoop x maxDen tol (k, 1) (1, 0) r := by
  intro m
  induction m with
  | zero =>
    intro k hk
    by_cases hc : (k, 1).2 ≤ maxDen ∧ (1, 0).2 ≤ maxDen
    · rcases step_cases x maxDen tol (k, 1) (1, 0) with ⟨_, h | h | h⟩ | ⟨_, h | h⟩
      · exact ⟨_, .found hc h.2⟩
      · exact ⟨_, .found hc h.2.2⟩
      · exact ⟨_, .found hc h.2.2⟩
      · exfalso
        have h1 := h.1
        dsimp only at h1
        rw [show (1 + 0 : Nat) = 1 from rfl, Nat.cast_one, div_one] at h1
        have : ((k + 1 : Nat) : R) < (N : R) := lt_of_lt_of_le h1 hN
        rw [Nat.cast_lt] at this
        omega
      · obtain ⟨r, hr⟩ := loop_ends x maxDen tol (2 * maxDen + 2) (k, 1) (k + 1, 1) le_rfl le_rfl (by omega)
        exact ⟨r, .next hc h.2 hr⟩
    · exact loop_exit x maxDen tol hc
  | succ m ih =>
    intro k hk
    by_cases hc : (k, 1).2 ≤ maxDen ∧ (1, 0).2 ≤ maxDen
    · rcases step_cases x maxDen tol (k, 1) (1, 0) with ⟨_, h | h | h⟩ | ⟨_, h | h⟩
      · exact ⟨_, .found hc h.2⟩
      · exact ⟨_, .found hc h.2.2⟩
      · exact ⟨_, .found hc h.2.2⟩
      · obtain ⟨r, hr⟩ := ih (k + 1) (by omega)
        exact ⟨r, .next hc h.2 hr⟩
      · obtain ⟨r, hr⟩ := loop_ends x maxDen tol (2 * maxDen + 2) (k, 1) (k + 1, 1) le_rfl le_rfl (by omega)
        exact ⟨r, .next hc h.2 hr⟩
    · exact loop_exit x maxDen tol hc

/-- `getLowestFraction` ends, with exactly one result. -/
theorem C47_terminates [Archimedean R] (x : R) (maxDen : Nat) (tol : R) : ∃! r, LowestFraction x maxDen tol r := by
  obtain ⟨N, hN⟩ := exists_nat_ge x
  obtain ⟨r, hr⟩ := loop_start x maxDen tol N hN N 0 (by omega)
  exact ⟨r, hr, fun r' hr' => hr'.unique hr⟩

omit [IsStrictOrderedRing R] in
/-- The result is in lowest terms, and its denominator is between 1 and `maxDen`. -/
theorem C47_lowest {x : R} {maxDen : Nat} (hm : 1 ≤ maxDen) {tol : R} {r : Nat × Nat} (h : LowestFraction x maxDen tol r) :
    Nat.Coprime r.1 r.2 ∧ 1 ≤ r.2 ∧ r.2 ≤ maxDen := by
  have key : ∀ {lo hi r : Nat × Nat}, FractionLoop x maxDen tol lo hi r → Neighbours lo hi → (lo.2 ≤ maxDen ∨ hi.2 ≤ maxDen) →
      Nat.Coprime r.1 r.2 ∧ 1 ≤ r.2 ∧ r.2 ≤ maxDen := by
    intro lo hi r h
    induction h with
    | @exitLow lo hi h1 h2 =>
      intro hn hb
      refine ⟨(coprime_of hn.det).1, ?_, by omega⟩
      by_contra h0
      have h0 : hi.2 = 0 := by omega
      have := hn.det
      rw [h0, Nat.mul_zero, Nat.zero_add] at this
      have := Nat.eq_one_of_mul_eq_one_left this
      omega
    | @exitHigh lo hi h1 h2 =>
      intro hn hb
      exact ⟨(coprime_of hn.det).2, hn.pos, by omega⟩
    | @found lo hi r h1 h2 =>
      intro hn hb
      rcases step_cases x maxDen tol lo hi with ⟨_, h | h | h⟩ | ⟨_, h | h⟩
      · rw [h2] at h; cases h.2
        exact ⟨(coprime_of hn.right.det).1, by have := hn.pos; dsimp only; omega, h.1⟩
      · have h3 := h.2.2
        rw [h2] at h3; cases h3
        exact ⟨(coprime_of hn.det).1, by omega, h1.2⟩
      · have h3 := h.2.2
        rw [h2] at h3; cases h3
        exact ⟨(coprime_of hn.det).2, hn.pos, h1.1⟩
      · have h3 := h.2; rw [h2] at h3; cases h3
      · have h3 := h.2; rw [h2] at h3; cases h3
    | @next lo hi lo' hi' r h1 h2 _ ih =>
      intro hn hb
      rcases step_cases x maxDen tol lo hi with ⟨_, h | h | h⟩ | ⟨_, h | h⟩
      · have h3 := h.2; rw [h2] at h3; cases h3
      · have h3 := h.2.2; rw [h2] at h3; cases h3
      · have h3 := h.2.2; rw [h2] at h3; cases h3
      · have h3 := h.2; rw [h2] at h3; cases h3
        exact ih hn.left (Or.inr h1.2)
      · have h3 := h.2; rw [h2] at h3; cases h3
        exact ih hn.right (Or.inl h1.1)
  exact key h ⟨rfl, le_rfl⟩ (Or.inl hm)

/-- If any fraction with denominator at most `maxDen` is within the tolerance (and zero is not), the result is
within the tolerance, and no fraction within the tolerance has a smaller denominator (or a smaller numerator). -/
theorem C47_best {x : R} {maxDen : Nat} {tol : R} (hx : tol < x) {r : Nat × Nat} (h : LowestFraction x maxDen tol r)
    {p q : Nat} (hq : 1 ≤ q) (hqm : q ≤ maxDen) (hpq : |x - (p : R) / (q : R)| ≤ tol) :
    |x - (r.1 : R) / (r.2 : R)| ≤ tol ∧
      ∀ {p q : Nat}, 1 ≤ q → |x - (p : R) / (q : R)| ≤ tol → r.2 ≤ q ∧ r.1 ≤ p := by
  -- everything within the tolerance is strictly between the bounds
  have btw : ∀ {lo hi : Nat × Nat}, Neighbours lo hi → (lo.1 : R) < (x - tol) * lo.2 → (x + tol) * hi.2 < hi.1 → ∀ {p q : Nat}, 1 ≤ q →
      |x - (p : R) / (q : R)| ≤ tol → lo.1 + hi.1 ≤ p ∧ lo.2 + hi.2 ≤ q := by
    intro lo hi hn h1 h2 p q hq hpq
    have hq0 : (0 : R) < q := by exact_mod_cast hq
    rw [abs_le] at hpq
    have a1 : (x - tol) * q ≤ p := by
      rw [← le_div_iff₀ hq0]; linarith [hpq.2]
    have a2 : (p : R) ≤ (x + tol) * q := by
      rw [← div_le_iff₀ hq0]; linarith [hpq.1]
    have l0 : (0 : R) < lo.2 := by exact_mod_cast hn.pos
    refine hn.between ?_ ?_
    · have : (lo.1 : R) * q < p * lo.2 := by nlinarith
      exact_mod_cast this
    · have h0 : (0 : R) ≤ hi.2 := Nat.cast_nonneg _
      have : (p : R) * hi.2 < hi.1 * q := by nlinarith
      exact_mod_cast this
  have key : ∀ {lo hi r : Nat × Nat}, FractionLoop x maxDen tol lo hi r → Neighbours lo hi → (lo.1 : R) < (x - tol) * lo.2 →
      (x + tol) * hi.2 < hi.1 → |x - (r.1 : R) / (r.2 : R)| ≤ tol ∧
      ∀ {p q : Nat}, 1 ≤ q → |x - (p : R) / (q : R)| ≤ tol → r.2 ≤ q ∧ r.1 ≤ p := by
    intro lo hi r h
    induction h with
    | @exitLow lo hi h1 h2 =>
      intro hn b1 b2
      have := (btw hn b1 b2 hq hpq).2
      omega
    | @exitHigh lo hi h1 h2 =>
      intro hn b1 b2
      have := (btw hn b1 b2 hq hpq).2
      omega
    | @found lo hi r h1 h2 =>
      intro hn b1 b2
      have hb := (btw hn b1 b2 hq hpq).2
      rcases step_cases x maxDen tol lo hi with ⟨ht, h | h | h⟩ | ⟨_, h | h⟩
      · rw [h2] at h; cases h.2
        exact ⟨ht, fun hq hpq => (btw hn b1 b2 hq hpq).symm⟩
      · omega
      · omega
      · have h3 := h.2; rw [h2] at h3; cases h3
      · have h3 := h.2; rw [h2] at h3; cases h3
    | @next lo hi lo' hi' r h1 h2 _ ih =>
      intro hn b1 b2
      have hd0 : (0 : R) < ((lo.2 + hi.2 : Nat) : R) := by
        have := hn.pos
        exact_mod_cast (by omega : 0 < lo.2 + hi.2)
      rcases step_cases x maxDen tol lo hi with ⟨_, h | h | h⟩ | ⟨ht, h | h⟩
      · have h3 := h.2; rw [h2] at h3; cases h3
      · have h3 := h.2.2; rw [h2] at h3; cases h3
      · have h3 := h.2.2; rw [h2] at h3; cases h3
      · have h3 := h.2; rw [h2] at h3; cases h3
        refine ih hn.left ?_ b2
        rw [abs_of_pos (by linarith [h.1])] at ht
        dsimp only
        rw [← div_lt_iff₀ hd0]; linarith
      · have h3 := h.2; rw [h2] at h3; cases h3
        refine ih hn.right b1 ?_
        rw [abs_of_nonpos (by linarith [h.1])] at ht
        dsimp only
        rw [← lt_div_iff₀ hd0]; linarith
  exact key h ⟨rfl, le_rfl⟩ (by simpa using hx) (by simp)

end DD

namespace DD.Ex

/-- The hypotheses are met: 0.2 with denominators up to 1024 and tolerance 1/10^10. -/
example : LowestFraction (1 / 5 : ℚ) 1024 (1 / 10 ^ 10) (1, 5) := by
  refine .next (by decide) (lo' := (0, 1)) (hi' := (1, 1)) ?_ (.next (by decide) (lo' := (0, 1)) (hi' := (1, 2)) ?_
    (.next (by decide) (lo' := (0, 1)) (hi' := (1, 3)) ?_ (.next (by decide) (lo' := (0, 1)) (hi' := (1, 4)) ?_ (.found (by decide) ?_)))) <;> decide +kernel

/-- Without the hypothesis that zero is not within the tolerance, the result may be out of tolerance although 0/1 is
within it: x = 1/5, maxDen = 2, tol = 1/4 yields 1/2. -/
theorem C47_zero_false : LowestFraction (1 / 5 : ℚ) 2 (1 / 4) (1, 2) ∧ |(1 / 5 : ℚ) - (0 : Nat) / (1 : Nat)| ≤ 1 / 4 ∧
    ¬ |(1 / 5 : ℚ) - (1 : Nat) / (2 : Nat)| ≤ 1 / 4 := by
  refine ⟨.next (by decide) (lo' := (0, 1)) (hi' := (1, 1)) ?_ (.next (by decide) (lo' := (0, 1)) (hi' := (1, 2)) ?_ (.found (by decide) ?_)), ?_, ?_⟩ <;>
    decide +kernel

end DD.Ex
