import Verif.Model.Text

/-! # What the text format should preserve -/

namespace DD

/-- `y` is what becomes of the component `x` of a weight when it is written with `p` digits and read again: numbers up to the tolerance `T` become 0,
others a number `d` with at most `p` decimal digits that differs from `x` by at most half a unit of the last digit - and is `x` itself if `x`
has no more digits -, rounded to the type `fp`. -/
def CompRead (fl : ℝ → ℝ) (T : ℝ) (p : Nat) (x y : ℝ) : Prop :=
  (|x| ≤ T → y = 0) ∧
  (T < |x| → ∃ d : ℝ, y = fl d ∧ (∃ k e : ℤ, |k| < 10 ^ p ∧ d = k * 10 ^ e) ∧ |d - x| ≤ 1 / 2 * 10 ^ (1 - (p : ℤ)) * |x| ∧
    ((∃ k e : ℤ, |k| < 10 ^ p ∧ x = k * 10 ^ e) → d = x))

/-- The same for a weight. -/
def WeightRead (fl : ℝ → ℝ) (T : ℝ) (p : Nat) (w w' : Cx ℝ) : Prop := CompRead fl T p w.re w'.re ∧ CompRead fl T p w.im w'.im

/-- The same for an edge: edges whose weight is zero up to the tolerance are left out; the others have the same target. -/
def EdgeRead (fl : ℝ → ℝ) (T : ℝ) : Option (Int × Cx ℝ) → Option (Int × Cx ℝ) → Prop
  | none, y => y = none
  | some (z, w), y => (|w.re| ≤ T ∧ |w.im| ≤ T → y = none) ∧ (¬ (|w.re| ≤ T ∧ |w.im| ≤ T) → ∃ w', y = some (z, w') ∧ WeightRead fl T 16 w w')

/-- The same for a record: the same node and the same qubit. -/
def RecRead {n : Nat} (fl : ℝ → ℝ) (T : ℝ) (r r' : Rec ℝ n) : Prop :=
  r'.idx = r.idx ∧ r'.v = r.v ∧ ∀ i, EdgeRead fl T (r.e i) (r'.e i)

/-- A number that the text format preserves: zero, or a number above the tolerance with at most `p` decimal digits that the type `fp` can represent. -/
def Plain (fl : ℝ → ℝ) (T : ℝ) (p : Nat) (x : ℝ) : Prop := x = 0 ∨ T < |x| ∧ (∃ k e : ℤ, |k| < 10 ^ p ∧ x = k * 10 ^ e) ∧ fl x = x

/-- The same for a weight. -/
def PlainW (fl : ℝ → ℝ) (T : ℝ) (p : Nat) (w : Cx ℝ) : Prop := Plain fl T p w.re ∧ Plain fl T p w.im

/-- Numbers in the range of the type `int`, and qubits in the range of the type `Qubit`. -/
def Rec.InRange {n : Nat} (r : Rec ℝ n) : Prop :=
  0 ≤ r.idx ∧ r.idx < 2 ^ 31 ∧ r.v < 128 ∧ ∀ i z w, r.e i = some (z, w) → -1 ≤ z ∧ z < 2 ^ 31

end DD
