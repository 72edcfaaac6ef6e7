import Verif.Model.Print
import Verif.Props.C47
import Mathlib.Data.Real.Basic
import Mathlib.Analysis.Real.Pi.Bounds

/-!
# C55: printed numbers
-/

namespace DD

variable {R : Type} [Field R] [LinearOrder R]

/-- Specification: the number written by a piece of text. -/
def Tok.value (s2 pi : R) : Tok R → Cx R
  | .zero _ _ => 0
  | .frac neg num den f imag =>
    let x : R := (if neg then -1 else 1) * ((num : R) / (den : R)) * (match f with
      | .one => 1
      | .sqrt2 => s2
      | .pi => pi)
    if imag then ⟨0, x⟩ else ⟨x, 0⟩
  | .decimal x imag => if imag then ⟨0, x⟩ else ⟨x, 0⟩
  | .timesOnePlusI => ⟨1, 1⟩
  | .timesOneMinusI => ⟨1, -1⟩

/-- Specification: the number written by a text: `x(1+i)` is a product, other juxtapositions are sums. -/
def textValue (s2 pi : R) : List (Tok R) → Cx R
  | [] => 0
  | [t] => t.value s2 pi
  | [t, .timesOnePlusI] => t.value s2 pi * ⟨1, 1⟩
  | [t, .timesOneMinusI] => t.value s2 pi * ⟨1, -1⟩
  | t :: ts => t.value s2 pi + textValue s2 pi ts

/-- Specification of the accuracy: the factor by which rounding may exceed the tolerance. -/
def slack (s2 pi : R) : R := max 1 (max s2 pi)

variable [IsStrictOrderedRing R]

theorem sign_abs (num : R) : (if (decide (num < 0)) = true then (-1 : R) else 1) * |num| = num := by
  by_cases h : num < 0
  · rw [if_pos (by simpa using h), abs_of_neg h]; ring
  · rw [if_neg (by simpa using h), abs_of_nonneg (not_lt.1 h)]; ring

theorem frac_close {s2 pi T num c : R} (hc : 0 < c) (hck : c ≤ slack s2 pi) {f : Nat × Nat} (h : accurate T (|num| / c) f) :
    |(if (decide (num < 0)) = true then (-1 : R) else 1) * ((f.1 : R) / (f.2 : R)) * c - num| ≤ slack s2 pi * T := by
  have hT : 0 ≤ T := le_trans (abs_nonneg _) h
  set s : R := if (decide (num < 0)) = true then (-1 : R) else 1 with hs
  have h1 : |s| = 1 := by
    rw [hs]; split_ifs <;> simp
  have e : s * ((f.1 : R) / (f.2 : R)) * c - num = s * c * ((f.1 : R) / (f.2 : R) - |num| / c) := by
    conv_lhs => rw [← sign_abs num]
    rw [← hs]
    field_simp
  rw [e, abs_mul, abs_mul, h1, one_mul, abs_of_pos hc, abs_sub_comm]
  exact mul_le_mul hck h (abs_nonneg _) (le_trans hc.le hck)

theorem slack_one (s2 pi : R) : (1 : R) ≤ slack s2 pi := le_max_left _ _

/-- `printFormatted(x, imag)` writes a number that differs from `x` (as real or imaginary number) by at most the tolerance times
the factor `√2/2` or `π` if present. -/
theorem C55_printFormatted {s2 pi T num : R} (hs : 0 < s2) (hp : 0 < pi) (hT : 0 ≤ T) {imag : Bool} {t : Tok R}
    (h : PrintFormatted s2 pi T num imag t) :
    ∃ x, t.value s2 pi = (if imag then ⟨0, x⟩ else ⟨x, 0⟩ : Cx R) ∧ |x - num| ≤ slack s2 pi * T := by
  have hk := slack_one s2 pi
  cases h with
  | zero h1 =>
    refine ⟨0, by unfold Tok.value; split_ifs <;> rfl, ?_⟩
    rw [zero_sub, abs_neg]
    nlinarith
  | frac h1 h2 h3 =>
    refine ⟨_, rfl, ?_⟩
    exact frac_close one_pos hk (by rwa [div_one])
  | sqrt h1 h2 h3 h4 h5 =>
    exact ⟨_, rfl, frac_close hs ((le_max_left _ _).trans (le_max_right _ _)) h5⟩
  | pi h1 h2 h3 h4 h5 h6 h7 =>
    exact ⟨_, rfl, frac_close hp ((le_max_right _ _).trans (le_max_right _ _)) h7⟩
  | decimal h1 h2 h3 h4 h5 h6 h7 =>
    refine ⟨num, rfl, ?_⟩
    rw [sub_self, abs_zero]
    nlinarith

/-- `printFormatted` always prints exactly one thing. -/
theorem printFormatted_total [Archimedean R] (s2 pi T num : R) (imag : Bool) : ∃! t, PrintFormatted s2 pi T num imag t := by
  obtain ⟨f, hf, uf⟩ := C47_terminates |num| 1024 T
  obtain ⟨g, hg, ug⟩ := C47_terminates (|num| / s2) 1024 T
  obtain ⟨k, hk, uk⟩ := C47_terminates (|num| / pi) 1024 T
  by_cases h0 : |num| ≤ T
  · refine ⟨_, .zero h0, ?_⟩
    intro t ht
    cases ht <;> first | rfl | contradiction
  by_cases h1 : accurate T |num| f
  · refine ⟨_, .frac h0 hf h1, ?_⟩
    intro t ht
    cases ht with
    | zero h => contradiction
    | frac _ h2 _ => rw [uf _ h2]
    | sqrt _ h2 h3 _ _ => rw [uf _ h2] at h3; contradiction
    | pi _ h2 h3 _ _ => rw [uf _ h2] at h3; contradiction
    | decimal _ h2 h3 _ _ => rw [uf _ h2] at h3; contradiction
  by_cases h2 : accurate T (|num| / s2) g
  · refine ⟨_, .sqrt h0 hf h1 hg h2, ?_⟩
    intro t ht
    cases ht with
    | zero h => contradiction
    | frac _ h3 h4 => rw [uf _ h3] at h4; contradiction
    | sqrt _ _ _ h3 _ => rw [ug _ h3]
    | pi _ _ _ h3 h4 _ _ => rw [ug _ h3] at h4; contradiction
    | decimal _ _ _ h3 h4 _ _ => rw [ug _ h3] at h4; contradiction
  by_cases h3 : accurate T (|num| / pi) k
  · refine ⟨_, .pi h0 hf h1 hg h2 hk h3, ?_⟩
    intro t ht
    cases ht with
    | zero h => contradiction
    | frac _ h3 h4 => rw [uf _ h3] at h4; contradiction
    | sqrt _ _ _ h3 h4 => rw [ug _ h3] at h4; contradiction
    | pi _ _ _ _ _ h5 _ => rw [uk _ h5]
    | decimal _ _ _ _ _ h5 h6 => rw [uk _ h5] at h6; contradiction
  · refine ⟨_, .decimal h0 hf h1 hg h2 hk h3, ?_⟩
    intro t ht
    cases ht with
    | zero h => contradiction
    | frac _ h3 h4 => rw [uf _ h3] at h4; contradiction
    | sqrt _ _ _ h3 h4 => rw [ug _ h3] at h4; contradiction
    | pi _ _ _ _ _ h5 h6 => rw [uk _ h5] at h6; contradiction
    | decimal _ _ _ _ _ _ _ => rfl

/-- `toString` always yields exactly one text. -/
theorem C55_total [Archimedean R] (s2 pi T real imag : R) (formatted : Bool) : ∃! ts, ToString s2 pi T real imag formatted ts := by
  have hr : ∃! a, PrintReal s2 pi T real formatted a := by
    obtain ⟨t, ht, ut⟩ := printFormatted_total s2 pi T real false
    by_cases h0 : |real| ≤ T
    · refine ⟨_, .small h0, ?_⟩
      intro a ha
      cases ha <;> first | rfl | contradiction
    cases formatted with
    | true =>
      refine ⟨_, .formatted h0 rfl ht, ?_⟩
      intro a ha
      cases ha with
      | small h => contradiction
      | formatted _ _ h => rw [ut _ h]
      | plain _ h => cases h
    | false =>
      refine ⟨_, .plain h0 rfl, ?_⟩
      intro a ha
      cases ha with
      | small h => contradiction
      | formatted _ h _ => cases h
      | plain _ _ => rfl
  have hi : ∃! a, PrintImag s2 pi T real imag formatted a := by
    obtain ⟨t, ht, ut⟩ := printFormatted_total s2 pi T imag true
    by_cases h0 : |imag| ≤ T
    · refine ⟨_, .small h0, ?_⟩
      intro a ha
      cases ha <;> first | rfl | contradiction
    cases formatted with
    | true =>
      by_cases h1 : |real - imag| ≤ T
      · refine ⟨_, .plus h0 rfl h1, ?_⟩
        intro a ha
        cases ha <;> first | rfl | contradiction
      by_cases h2 : |real + imag| ≤ T
      · refine ⟨_, .minus h0 rfl h1 h2, ?_⟩
        intro a ha
        cases ha <;> first | rfl | contradiction
      · refine ⟨_, .formatted h0 rfl h1 h2 ht, ?_⟩
        intro a ha
        cases ha with
        | small h => contradiction
        | plus _ _ h => contradiction
        | minus _ _ _ h => contradiction
        | formatted _ _ _ _ h => rw [ut _ h]
        | plain _ h => cases h
    | false =>
      refine ⟨_, .plain h0 rfl, ?_⟩
      intro a ha
      cases ha <;> first | rfl | contradiction
  obtain ⟨a, ha, ua⟩ := hr
  obtain ⟨b, hb, ub⟩ := hi
  refine ⟨_, ⟨a, b, ha, hb, rfl⟩, ?_⟩
  rintro ts ⟨a', b', h1, h2, rfl⟩
  rw [ua _ h1, ub _ h2]

/-- The text denotes the number up to the tolerance (times a constant), provided that not both: the real part is treated as zero
and the imaginary part is treated as equal to plus or minus the real part. Missing for the full property: this case, see
`C55_tiny_false`. -/
theorem C55_accurate_partial {s2 pi T real imag : R} (hs : 0 < s2) (hp : 0 < pi) (hT : 0 ≤ T) {formatted : Bool} {ts : List (Tok R)}
    (h : ToString s2 pi T real imag formatted ts)
    (hc : T < |real| ∨ |imag| ≤ T ∨ formatted = false ∨ (T < |real - imag| ∧ T < |real + imag|)) :
    |(textValue s2 pi ts).re - real| ≤ slack s2 pi * T ∧ |(textValue s2 pi ts).im - imag| ≤ (slack s2 pi + 1) * T := by
  have hk := slack_one s2 pi
  have hk0 : T ≤ slack s2 pi * T := by nlinarith
  have hk1 : slack s2 pi * T ≤ (slack s2 pi + 1) * T := by nlinarith
  have z1 : ∀ {x : R}, |x| ≤ T → |0 - x| ≤ slack s2 pi * T := fun h => by rw [zero_sub, abs_neg]; exact h.trans hk0
  have z2 : ∀ {x : R}, |x - x| ≤ slack s2 pi * T := by intro x; rw [sub_self, abs_zero]; nlinarith
  obtain ⟨a, b, ha, hb, rfl⟩ := h
  -- the real part
  have hA : (a = [] ∧ |real| ≤ T) ∨ ∃ t x, a = [t] ∧ t.value s2 pi = ⟨x, 0⟩ ∧ |x - real| ≤ slack s2 pi * T := by
    cases ha with
    | small h => exact Or.inl ⟨rfl, h⟩
    | formatted _ _ h =>
      obtain ⟨x, h1, h2⟩ := C55_printFormatted hs hp hT h
      exact Or.inr ⟨_, x, rfl, h1, h2⟩
    | plain _ _ => exact Or.inr ⟨_, real, rfl, rfl, z2⟩
  -- the imaginary part
  have hB : (b = [] ∧ |imag| ≤ T) ∨ (b = [.timesOnePlusI] ∧ formatted = true ∧ ¬ |imag| ≤ T ∧ |real - imag| ≤ T) ∨
      (b = [.timesOneMinusI] ∧ formatted = true ∧ ¬ |imag| ≤ T ∧ |real + imag| ≤ T) ∨
      ∃ t x, b = [t] ∧ t ≠ .timesOnePlusI ∧ t ≠ .timesOneMinusI ∧ t.value s2 pi = ⟨0, x⟩ ∧ |x - imag| ≤ slack s2 pi * T := by
    cases hb with
    | small h => exact Or.inl ⟨rfl, h⟩
    | plus h1 h2 h3 => exact Or.inr (Or.inl ⟨rfl, h2, h1, h3⟩)
    | minus h1 h2 _ h3 => exact Or.inr (Or.inr (Or.inl ⟨rfl, h2, h1, h3⟩))
    | formatted _ _ _ _ h =>
      obtain ⟨x, h1, h2⟩ := C55_printFormatted hs hp hT h
      refine Or.inr (Or.inr (Or.inr ⟨_, x, rfl, ?_, ?_, h1, h2⟩)) <;> rintro rfl <;> cases h
    | plain _ _ => exact Or.inr (Or.inr (Or.inr ⟨_, imag, rfl, by simp, by simp, rfl, z2⟩))
  rcases hA with ⟨rfl, h0⟩ | ⟨t, x, rfl, hx, hxr⟩
  · rcases hB with ⟨rfl, h1⟩ | ⟨rfl, h1, h2, h3⟩ | ⟨rfl, h1, h2, h3⟩ | ⟨u, y, rfl, _, _, hy, hyi⟩
    · exact ⟨z1 h0, (z1 h1).trans hk1⟩
    · exfalso
      rcases hc with h | h | h | h
      · exact absurd h0 (not_le.2 h)
      · exact h2 h
      · rw [h1] at h; cases h
      · exact absurd h3 (not_le.2 h.1)
    · exfalso
      rcases hc with h | h | h | h
      · exact absurd h0 (not_le.2 h)
      · exact h2 h
      · rw [h1] at h; cases h
      · exact absurd h3 (not_le.2 h.2)
    · have : textValue s2 pi [u] = u.value s2 pi := by rw [textValue]
      rw [List.nil_append, this, hy]
      exact ⟨z1 h0, hyi.trans hk1⟩
  · rcases hB with ⟨rfl, h1⟩ | ⟨rfl, h1, h2, h3⟩ | ⟨rfl, h1, h2, h3⟩ | ⟨u, y, rfl, n1, n2, hy, hyi⟩
    · have : textValue s2 pi [t] = t.value s2 pi := by rw [textValue]
      rw [List.append_nil, this, hx]
      exact ⟨hxr, (z1 h1).trans hk1⟩
    · have : textValue s2 pi ([t] ++ [.timesOnePlusI]) = ⟨x, x⟩ := by
        rw [List.singleton_append, textValue, hx]
        ext <;> simp
      rw [this]
      refine ⟨hxr, ?_⟩
      have := abs_add_le (x - real) (real - imag)
      rw [sub_add_sub_cancel] at this
      dsimp only
      nlinarith
    · have : textValue s2 pi ([t] ++ [.timesOneMinusI]) = ⟨x, -x⟩ := by
        rw [List.singleton_append, textValue, hx]
        ext <;> simp
      rw [this]
      refine ⟨hxr, ?_⟩
      have := abs_add_le (x - real) (real + imag)
      rw [show x - real + (real + imag) = -(-x - imag) by ring, abs_neg] at this
      dsimp only
      nlinarith
    · have : textValue s2 pi ([t] ++ [u]) = ⟨x, y⟩ := by
        rw [List.singleton_append, textValue, hx]
        · rw [textValue, hy]
          ext <;> simp
        all_goals first
          | (intro h; exact n1 (by simpa using h))
          | (intro h; exact n2 (by simpa using h))
          | simp
      rw [this]
      exact ⟨hxr, hyi.trans hk1⟩

/-- What is missing: a number with tiny real part and slightly larger imaginary part (or its negative) is printed as `(1+i)` or `(1-i)`. -/
theorem C55_tiny_false {s2 pi T real imag : R} (h0 : |real| ≤ T) (h1 : T < |imag|) (h2 : |real - imag| ≤ T) {ts : List (Tok R)}
    (h : ToString s2 pi T real imag true ts) : textValue s2 pi ts = ⟨1, 1⟩ := by
  obtain ⟨a, b, ha, hb, rfl⟩ := h
  cases ha with
  | small _ =>
    cases hb with
    | small h => exact absurd h (not_le.2 h1)
    | plus _ _ _ => rfl
    | minus _ _ h _ => exact absurd h2 h
    | formatted _ _ h _ _ => exact absurd h2 h
    | plain _ h => cases h
  | formatted h _ _ => exact absurd h0 h
  | plain h _ => exact absurd h0 h

end DD

namespace DD.Ex

/-- The hypotheses of the accuracy theorem are met by every real number with large enough parts; `toString` terminates. -/
example : ∃ ts, ToString (Real.sqrt 2 / 2) Real.pi (1 / 10 ^ 13) (1 / 3) (1 / 7) true ts ∧
    |(textValue (Real.sqrt 2 / 2) Real.pi ts).re - 1 / 3| ≤ slack (Real.sqrt 2 / 2) Real.pi * (1 / 10 ^ 13) := by
  obtain ⟨ts, h, _⟩ := C55_total (Real.sqrt 2 / 2) Real.pi (1 / 10 ^ 13) (1 / 3) (1 / 7) true
  refine ⟨ts, h, (C55_accurate_partial (by positivity) Real.pi_pos (by positivity) h (Or.inl ?_)).1⟩
  rw [abs_of_pos (by positivity)]
  norm_num

/-- The corner case exists: real part 3/4 of the tolerance, imaginary part 5/4 of the tolerance. -/
example (T : ℝ) (hT : 0 < T) : |3 / 4 * T| ≤ T ∧ T < |5 / 4 * T| ∧ |3 / 4 * T - 5 / 4 * T| ≤ T := by
  rw [abs_of_pos (by positivity), abs_of_pos (by positivity), abs_le]
  refine ⟨by linarith, by linarith, by linarith, by linarith⟩

end DD.Ex
