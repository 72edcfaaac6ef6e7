import Verif.Model.Polar
import Verif.Props.C55
import Mathlib.Analysis.SpecialFunctions.Complex.Arg
import Mathlib.Analysis.SpecialFunctions.Trigonometric.Bounds
import Mathlib.Analysis.Complex.Trigonometric

/-!
# C69: labels, colours and widths of drawn edges
-/

namespace DD

open Complex

/-- Specification: `√2/2` as a real number. -/
noncomputable def halfSqrt2 : ℝ := Real.sqrt 2 / 2

/-- Specification: the complex number written by the text `ℯ(±iπ x)`. -/
noncomputable def PhaseTok.value : PhaseTok ℝ → ℂ
  | .frac neg num den f =>
    let x : ℝ := (if neg then -1 else 1) * ((num : ℝ) / (den : ℝ)) * (match f with
      | .one => 1
      | .sqrt2 => halfSqrt2
      | .pi => Real.pi)
    Complex.exp ((Real.pi * x : ℝ) * Complex.I)
  | .decimal neg x => Complex.exp ((Real.pi * ((if neg then -1 else 1) * x) : ℝ) * Complex.I)

/-- Specification: the complex number written by a printed real or imaginary number. -/
noncomputable def Tok.valueC (t : Tok ℝ) : ℂ := ⟨(t.value halfSqrt2 Real.pi).re, (t.value halfSqrt2 Real.pi).im⟩

/-- Specification: the complex number written by a label. -/
noncomputable def Label.value : Label ℝ → ℂ
  | .zero => 0
  | .one => 1
  | .i => Complex.I
  | .minusI => -Complex.I
  | .minusOne => -1
  | .phase p => p.value
  | .neg m => - m.valueC
  | .pos m => m.valueC
  | .polar m p => m.valueC * p.value

/-- The label that is drawn at an edge with weight `z`. -/
def LabelOf (T : ℝ) (z : ℂ) (l : Label ℝ) : Prop := PolarLabel halfSqrt2 Real.pi T ‖z‖ (Complex.arg z) l

theorem halfSqrt2_pos : 0 < halfSqrt2 := by unfold halfSqrt2; positivity

theorem halfSqrt2_le : halfSqrt2 ≤ 1 := by
  unfold halfSqrt2
  have : Real.sqrt 2 ≤ 2 := by rw [Real.sqrt_le_left (by norm_num)]; norm_num
  linarith

theorem slack_pi : slack halfSqrt2 Real.pi = Real.pi := by
  unfold slack
  have := Real.pi_gt_three
  have h := halfSqrt2_le
  rw [max_eq_right (by linarith : halfSqrt2 ≤ Real.pi), max_eq_right (by linarith)]

theorem exp_sub_le (a b : ℝ) : ‖Complex.exp (a * Complex.I) - Complex.exp (b * Complex.I)‖ ≤ |a - b| := by
  have e : Complex.exp (a * Complex.I) - Complex.exp (b * Complex.I) =
      Complex.exp (b * Complex.I) * (Complex.exp (Complex.I * ((a - b : ℝ) : ℂ)) - 1) := by
    rw [mul_sub, ← Complex.exp_add, mul_one]
    congr 2
    push_cast
    ring
  rw [e, norm_mul, Complex.norm_exp_ofReal_mul_I, one_mul]
  exact Real.norm_exp_I_mul_ofReal_sub_one_le

theorem closer.accurate {T x : ℝ} {f : Nat × Nat} (h : closer T x f) : accurate T x f := le_of_lt h

/-- The printed phase is accurate up to a multiple of the tolerance. -/
theorem C69_phase {T r : ℝ} {p : PhaseTok ℝ} (h : PrintPhase halfSqrt2 Real.pi T r p) (hT : 0 ≤ T) :
    ‖p.value - Complex.exp (r * Complex.I)‖ ≤ Real.pi * (Real.pi * T) := by
  have hp := Real.pi_pos
  have key : ∀ x : ℝ, |x - r / Real.pi| ≤ Real.pi * T →
      ‖Complex.exp ((Real.pi * x : ℝ) * Complex.I) - Complex.exp (r * Complex.I)‖ ≤ Real.pi * (Real.pi * T) := by
    intro x hx
    refine (exp_sub_le _ _).trans ?_
    have e : Real.pi * x - r = Real.pi * (x - r / Real.pi) := by field_simp
    rw [e, abs_mul, abs_of_pos hp]
    exact mul_le_mul_of_nonneg_left hx hp.le
  have hk := slack_pi
  have h1 : (1 : ℝ) ≤ slack halfSqrt2 Real.pi := slack_one _ _
  have h2 : halfSqrt2 ≤ slack halfSqrt2 Real.pi := (le_max_left _ _).trans (le_max_right _ _)
  have h3 : Real.pi ≤ slack halfSqrt2 Real.pi := (le_max_right _ _).trans (le_max_right _ _)
  cases h with
  | frac a b =>
    refine key _ ?_
    have := frac_close (num := r / Real.pi) one_pos h1 (by rw [div_one]; exact b.accurate)
    rwa [hk] at this
  | sqrt a b c d =>
    refine key _ ?_
    have := frac_close (num := r / Real.pi) halfSqrt2_pos h2 d.accurate
    rwa [hk] at this
  | pi a b c d e f =>
    refine key _ ?_
    have := frac_close (num := r / Real.pi) hp h3 f.accurate
    rwa [hk] at this
  | decimal =>
    refine key _ ?_
    rw [sign_abs, sub_self, abs_zero]
    positivity

/-- The printed magnitude is accurate. -/
theorem C69_mag {T m : ℝ} {t : Tok ℝ} (h : PrintFormatted halfSqrt2 Real.pi T m false t) (hT : 0 ≤ T) :
    ‖t.valueC - (m : ℂ)‖ ≤ Real.pi * T := by
  obtain ⟨x, hx, hd⟩ := C55_printFormatted halfSqrt2_pos Real.pi_pos hT h
  rw [slack_pi] at hd
  have : t.valueC - (m : ℂ) = ((x - m : ℝ) : ℂ) := by
    unfold Tok.valueC
    rw [hx]
    apply Complex.ext <;> simp
  rw [this, Complex.norm_real]
  exact hd

theorem polar_close {z : ℂ} {m u : ℂ} {a b : ℝ} (hm : ‖m - (‖z‖ : ℂ)‖ ≤ a)
    (hu : ‖u - Complex.exp (Complex.arg z * Complex.I)‖ ≤ b) (hn : ‖u‖ = 1) : ‖m * u - z‖ ≤ a + ‖z‖ * b := by
  have e : m * u - z = (m - (‖z‖ : ℂ)) * u + (‖z‖ : ℂ) * (u - Complex.exp (Complex.arg z * Complex.I)) := by
    linear_combination Complex.norm_mul_exp_arg_mul_I z
  rw [e]
  refine (norm_add_le _ _).trans ?_
  rw [norm_mul, norm_mul, hn, mul_one, Complex.norm_real, Real.norm_eq_abs, abs_of_nonneg (norm_nonneg z)]
  exact add_le_add hm (mul_le_mul_of_nonneg_left hu (norm_nonneg z))

theorem phase_norm (p : PhaseTok ℝ) : ‖p.value‖ = 1 := by
  cases p <;> exact Complex.norm_exp_ofReal_mul_I _

/-- **C69.** The label of an edge denotes its weight: the number written differs from the weight by at most
`π T + π² T |weight|`, where `T` is the tolerance. -/
theorem C69_label {T : ℝ} {z : ℂ} {l : Label ℝ} (h : LabelOf T z l) (hT : 0 ≤ T) :
    ‖l.value - z‖ ≤ Real.pi * T + ‖z‖ * (Real.pi * (Real.pi * T)) := by
  have hp := Real.pi_gt_three
  have hz := norm_nonneg z
  have hpi : T ≤ Real.pi * T := by nlinarith
  have hpi2 : T ≤ Real.pi * (Real.pi * T) := by nlinarith
  -- a unit with argument close to that of the weight
  have unit : ∀ φ : ℝ, ∀ u : ℂ, Complex.exp (φ * Complex.I) = u → |Complex.arg z - φ| < T →
      ‖u - Complex.exp (Complex.arg z * Complex.I)‖ ≤ Real.pi * (Real.pi * T) := by
    intro φ u hu hd
    rw [← hu]
    refine (exp_sub_le _ _).trans ?_
    rw [abs_sub_comm]
    exact hd.le.trans hpi2
  have e0 : Complex.exp (((0 : ℝ) : ℂ) * Complex.I) = 1 := by simp
  have ei : Complex.exp (((Real.pi / 2 : ℝ) : ℂ) * Complex.I) = Complex.I := by
    push_cast; exact Complex.exp_pi_div_two_mul_I
  have eni : Complex.exp (((-(Real.pi / 2) : ℝ) : ℂ) * Complex.I) = -Complex.I := by
    push_cast; rw [← Complex.exp_neg_pi_div_two_mul_I]; congr 1; ring
  have epi : Complex.exp (((Real.pi : ℝ) : ℂ) * Complex.I) = -1 := Complex.exp_pi_mul_I
  have enpi : Complex.exp (((-Real.pi : ℝ) : ℂ) * Complex.I) = -1 := by
    push_cast; rw [neg_mul, Complex.exp_neg, Complex.exp_pi_mul_I]; norm_num
  have minus : |(|Complex.arg z| - Real.pi)| < T → ‖(-1 : ℂ) - Complex.exp (Complex.arg z * Complex.I)‖ ≤ Real.pi * (Real.pi * T) := by
    intro hd
    rcases le_total 0 (Complex.arg z) with hs | hs
    · rw [abs_of_nonneg hs] at hd
      exact unit _ _ epi hd
    · rw [abs_of_nonpos hs] at hd
      refine unit _ _ enpi ?_
      rw [← abs_neg]
      convert hd using 2
      ring
  have one_close : |‖z‖ - 1| < T → ‖(1 : ℂ) - (‖z‖ : ℂ)‖ ≤ Real.pi * T := by
    intro hd
    have : (1 : ℂ) - (‖z‖ : ℂ) = ((1 - ‖z‖ : ℝ) : ℂ) := by push_cast; rfl
    rw [this, Complex.norm_real, Real.norm_eq_abs, abs_sub_comm]
    exact hd.le.trans hpi
  have fin : ∀ u : ℂ, |‖z‖ - 1| < T → ‖u - Complex.exp (Complex.arg z * Complex.I)‖ ≤ Real.pi * (Real.pi * T) → ‖u‖ = 1 →
      ‖u - z‖ ≤ Real.pi * T + ‖z‖ * (Real.pi * (Real.pi * T)) := by
    intro u h1 h2 h3
    have := polar_close (z := z) (one_close h1) h2 h3
    rwa [one_mul] at this
  cases h with
  | zero h1 =>
    rw [abs_of_nonneg hz] at h1
    show ‖(0 : ℂ) - z‖ ≤ _
    rw [zero_sub, norm_neg]
    have : 0 ≤ ‖z‖ * (Real.pi * (Real.pi * T)) := by positivity
    linarith
  | one h1 h2 h3 => exact fin _ h2 (unit 0 1 e0 (by rwa [sub_zero])) norm_one
  | i h1 h2 h3 h4 => exact fin _ h2 (unit _ _ ei h4) Complex.norm_I
  | minusI h1 h2 h3 h4 h5 => exact fin _ h2 (unit _ _ eni (by rwa [sub_neg_eq_add])) ((norm_neg _).trans Complex.norm_I)
  | minusOne h1 h2 h3 h4 h5 h6 => exact fin _ h2 (minus h6) ((norm_neg _).trans norm_one)
  | phase h1 h2 h3 h4 h5 h6 h7 => exact fin _ h2 (C69_phase h7 hT) (phase_norm _)
  | neg h1 h2 h3 h4 =>
    have := polar_close (z := z) (C69_mag h4 hT) (minus h3) (by simp)
    rwa [mul_neg, mul_one] at this
  | pos h1 h2 h3 h4 h5 =>
    have := polar_close (z := z) (C69_mag h5 hT) (unit 0 1 e0 (by rwa [sub_zero])) (by simp)
    rwa [mul_one] at this
  | polar h1 h2 h3 h4 h5 h6 => exact polar_close (C69_mag h5 hT) (C69_phase h6 hT) (phase_norm _)

/-- `printPhaseFormatted` always prints exactly one thing. -/
theorem printPhase_total {R : Type} [Field R] [LinearOrder R] [IsStrictOrderedRing R] [Archimedean R] (s2 pi T r : R) :
    ∃! t, PrintPhase s2 pi T r t := by
  obtain ⟨f, hf, uf⟩ := C47_terminates |r / pi| 1024 T
  obtain ⟨g, hg, ug⟩ := C47_terminates (|r / pi| / s2) 1024 T
  obtain ⟨k, hk, uk⟩ := C47_terminates (|r / pi| / pi) 1024 T
  have cf : ∀ {f' : Nat × Nat}, LowestFraction |r / pi| 1024 T f' → f' = f := fun h => uf _ h
  have cg : ∀ {f' : Nat × Nat}, LowestFraction (|r / pi| / s2) 1024 T f' → f' = g := fun h => ug _ h
  have ck : ∀ {f' : Nat × Nat}, LowestFraction (|r / pi| / pi) 1024 T f' → f' = k := fun h => uk _ h
  by_cases h1 : closer T |r / pi| f
  · refine ⟨_, .frac hf h1, ?_⟩
    intro t ht
    cases ht with
    | frac a b => rw [cf a]
    | sqrt a b _ _ => rw [cf a] at b; contradiction
    | pi a b _ _ => rw [cf a] at b; contradiction
    | decimal a b _ _ => rw [cf a] at b; contradiction
  by_cases h2 : closer T (|r / pi| / s2) g
  · refine ⟨_, .sqrt hf h1 hg h2, ?_⟩
    intro t ht
    cases ht with
    | frac a b => rw [cf a] at b; contradiction
    | sqrt a b c d => rw [cg c]
    | pi a b c d => rw [cg c] at d; contradiction
    | decimal a b c d => rw [cg c] at d; contradiction
  by_cases h3 : closer T (|r / pi| / pi) k
  · refine ⟨_, .pi hf h1 hg h2 hk h3, ?_⟩
    intro t ht
    cases ht with
    | frac a b => rw [cf a] at b; contradiction
    | sqrt a b c d => rw [cg c] at d; contradiction
    | pi a b c d e f => rw [ck e]
    | decimal a b c d e f => rw [ck e] at f; contradiction
  · refine ⟨_, .decimal hf h1 hg h2 hk h3, ?_⟩
    intro t ht
    cases ht with
    | frac a b => rw [cf a] at b; contradiction
    | sqrt a b c d => rw [cg c] at d; contradiction
    | pi a b c d e f => rw [ck e] at f; contradiction
    | decimal a b c d e f => rfl

/-- Every weight has exactly one label. -/
theorem C69_total (T : ℝ) (z : ℂ) : ∃! l, LabelOf T z l := by
  unfold LabelOf
  generalize ‖z‖ = m
  generalize Complex.arg z = φ
  obtain ⟨t, ht, ut⟩ := printFormatted_total halfSqrt2 Real.pi T m false
  obtain ⟨p, hp, up⟩ := printPhase_total halfSqrt2 Real.pi T φ
  have uniq : ∀ l l', PolarLabel halfSqrt2 Real.pi T m φ l → PolarLabel halfSqrt2 Real.pi T m φ l' → l' = l := by
    intro l l' h h'
    cases h with
    | phase _ _ _ _ _ _ a =>
      rw [up _ a]
      cases h' with
      | phase _ _ _ _ _ _ b => rw [up _ b]
      | _ => contradiction
    | neg _ _ _ a =>
      rw [ut _ a]
      cases h' with
      | neg _ _ _ b => rw [ut _ b]
      | _ => contradiction
    | pos _ _ _ _ a =>
      rw [ut _ a]
      cases h' with
      | pos _ _ _ _ b => rw [ut _ b]
      | _ => contradiction
    | polar _ _ _ _ a a' =>
      rw [ut _ a, up _ a']
      cases h' with
      | polar _ _ _ _ b b' => rw [ut _ b, up _ b']
      | _ => contradiction
    | _ => cases h' <;> first | rfl | contradiction
  have ex : ∃ l, PolarLabel halfSqrt2 Real.pi T m φ l := by
    by_cases h1 : |m| < T
    · exact ⟨_, .zero h1⟩
    by_cases h2 : |m - 1| < T
    · by_cases h3 : |φ| < T
      · exact ⟨_, .one h1 h2 h3⟩
      by_cases h4 : |φ - Real.pi / 2| < T
      · exact ⟨_, .i h1 h2 h3 h4⟩
      by_cases h5 : |φ + Real.pi / 2| < T
      · exact ⟨_, .minusI h1 h2 h3 h4 h5⟩
      by_cases h6 : |(|φ| - Real.pi)| < T
      · exact ⟨_, .minusOne h1 h2 h3 h4 h5 h6⟩
      · exact ⟨_, .phase h1 h2 h3 h4 h5 h6 hp⟩
    by_cases h3 : |(|φ| - Real.pi)| < T
    · exact ⟨_, .neg h1 h2 h3 ht⟩
    by_cases h4 : |φ| < T
    · exact ⟨_, .pos h1 h2 h3 h4 ht⟩
    · exact ⟨_, .polar h1 h2 h3 h4 ht hp⟩
  obtain ⟨l, hl⟩ := ex
  exact ⟨l, hl, fun l' h' => uniq l l' hl h'⟩

/-- **C69.** Two edges with the same label have almost the same weight. -/
theorem C69_same_label {T : ℝ} {z w : ℂ} {l : Label ℝ} (hz : LabelOf T z l) (hw : LabelOf T w l) (hT : 0 ≤ T) :
    ‖z - w‖ ≤ 2 * (Real.pi * T) + (‖z‖ + ‖w‖) * (Real.pi * (Real.pi * T)) := by
  have a := C69_label hz hT
  have b := C69_label hw hT
  have e : z - w = (l.value - w) - (l.value - z) := by ring
  rw [e]
  refine (norm_sub_le _ _).trans ?_
  linarith

/-- **C69.** The hue of a drawn edge is a number between 0 and 1 that determines the argument of the weight. -/
theorem C69_hue (z : ℂ) :
    0 ≤ hue Real.pi (Complex.arg z) ∧ hue Real.pi (Complex.arg z) < 1 ∧
      z = ‖z‖ * Complex.exp ((2 * Real.pi * hue Real.pi (Complex.arg z) : ℝ) * Complex.I) := by
  have hp := Real.pi_pos
  have h1 := Complex.neg_pi_lt_arg z
  have h2 := Complex.arg_le_pi z
  unfold hue
  dsimp only
  split_ifs with h
  · refine ⟨?_, by linarith, ?_⟩
    · have : -1 ≤ Complex.arg z / (2 * Real.pi) := by rw [le_div_iff₀ (by positivity)]; linarith
      linarith
    · conv_lhs => rw [← Complex.norm_mul_exp_arg_mul_I z]
      congr 1
      have : ((2 * Real.pi * (Complex.arg z / (2 * Real.pi) + 1) : ℝ) : ℂ) * Complex.I = Complex.arg z * Complex.I + 2 * Real.pi * Complex.I := by
        rw [mul_add, mul_div_cancel₀ _ (by positivity)]
        push_cast
        ring
      rw [this, Complex.exp_add, Complex.exp_two_pi_mul_I, mul_one]
  · refine ⟨not_lt.1 h, ?_, ?_⟩
    · rw [div_lt_one (by positivity)]; linarith
    · conv_lhs => rw [← Complex.norm_mul_exp_arg_mul_I z]
      rw [mul_div_cancel₀ _ (by positivity)]

/-- **C69.** No edge is drawn with width less than 0.3, and from magnitude 0.1 on the width determines the magnitude. -/
theorem C69_thickness (z : ℂ) : 3 / 10 ≤ thickness ‖z‖ ∧ (1 / 10 ≤ ‖z‖ → ‖z‖ = thickness ‖z‖ / 3) ∧
    ∀ w : ℂ, ‖z‖ ≤ ‖w‖ → thickness ‖z‖ ≤ thickness ‖w‖ := by
  unfold thickness
  refine ⟨?_, ?_, ?_⟩
  · have := le_max_right ‖z‖ (1 / 10); linarith
  · intro h; rw [max_eq_left h]; ring
  · intro w h
    have := max_le_max_right (1 / 10) h
    linarith

/-! ### Concrete cases -/

theorem fraction_two {T : ℝ} (h0 : 0 ≤ T) (h1 : T < 1) : LowestFraction (2 : ℝ) 1024 T (2, 1) := by
  have a : ¬ (1 : ℝ) ≤ T := not_le.2 h1
  refine .next (by norm_num) (lo' := (1, 1)) (hi' := (1, 0)) ?_ (.found (by norm_num) ?_)
  · unfold fractionStep; norm_num [a]
  · unfold fractionStep; norm_num [h0]

theorem fraction_half {T : ℝ} (h0 : 0 ≤ T) (h1 : T < 1 / 2) : LowestFraction (1 / 2 : ℝ) 1024 T (1, 2) := by
  have a : ¬ |(1 / 2 : ℝ) - 1| ≤ T := by rw [not_le]; norm_num; linarith
  refine .next (by norm_num) (lo' := (0, 1)) (hi' := (1, 1)) ?_ (.found (by norm_num) ?_)
  · unfold fractionStep; norm_num at a ⊢; exact fun h => absurd h (not_le.2 a)
  · unfold fractionStep; norm_num [h0]

/-- The weight `2i` is labelled `2 ℯ(iπ/2)`. -/
example {T : ℝ} (h0 : 0 < T) (h1 : T < 1 / 2) :
    LabelOf T (2 * Complex.I) (.polar (.frac false 2 1 .one false) (.frac false 1 2 .one)) := by
  have hp := Real.pi_gt_three
  have hm : ‖(2 * Complex.I : ℂ)‖ = 2 := by simp
  have ha : Complex.arg (2 * Complex.I) = Real.pi / 2 := by
    have := Complex.arg_real_mul Complex.I (r := 2) two_pos
    push_cast at this
    rw [this, Complex.arg_I]
  unfold LabelOf
  rw [hm, ha]
  have hr : |Real.pi / 2 / Real.pi| = (1 / 2 : ℝ) := by
    rw [div_div, mul_comm, ← div_div, div_self Real.pi_ne_zero]; norm_num
  have hn : (decide ((2 : ℝ) < 0)) = false := by norm_num
  have hq : (decide (Real.pi / 2 / Real.pi < 0)) = false := decide_eq_false (not_lt.2 (by positivity))
  refine .polar ?_ ?_ ?_ ?_ ?_ ?_
  · rw [not_lt]; norm_num; linarith
  · rw [not_lt]; norm_num; linarith
  · rw [not_lt, abs_of_pos (a := Real.pi / 2) (by positivity), abs_sub_comm, abs_of_pos (by linarith)]; linarith
  · rw [not_lt, abs_of_pos (by positivity)]; linarith
  · have := PrintFormatted.frac (s2 := halfSqrt2) (pi := Real.pi) (T := T) (num := (2 : ℝ)) (imag := false) (f := (2, 1))
      (by rw [not_le]; norm_num; linarith) (by norm_num; exact fraction_two h0.le (by linarith)) (by unfold accurate; norm_num; exact h0.le)
    rwa [hn] at this
  · have := PrintPhase.frac (s2 := halfSqrt2) (pi := Real.pi) (T := T) (r := Real.pi / 2) (f := (1, 2))
      (by rw [hr]; exact fraction_half h0.le h1) (by rw [hr]; unfold closer; norm_num; exact h0)
    rwa [hq] at this

/-- The weight `-1` is labelled `-1`. -/
example {T : ℝ} (h0 : 0 < T) (h1 : T < 1 / 2) : LabelOf T (-1) .minusOne := by
  have hp := Real.pi_gt_three
  unfold LabelOf
  rw [Complex.arg_neg_one, norm_neg, norm_one]
  refine .minusOne ?_ ?_ ?_ ?_ ?_ ?_
  · rw [not_lt]; norm_num; linarith
  · simpa using h0
  · rw [not_lt, abs_of_pos (by positivity)]; linarith
  · rw [not_lt, abs_of_pos (by linarith)]; linarith
  · rw [not_lt, abs_of_pos (by linarith)]; linarith
  · rw [abs_of_pos Real.pi_pos, sub_self, abs_zero]; exact h0

end DD
