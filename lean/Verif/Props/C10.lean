import Verif.Model.Ptr
import Mathlib.Tactic.Linarith
import Mathlib.Tactic.FieldSimp
import Mathlib.Tactic.Ring
import Mathlib.Data.Fin.VecNotation

/-!
# C10: arithmetic helpers are accurate up to the tolerance

"mul and div with their shortcuts for operands close to one (or close to each other) return a value whose distance from
the exact product/quotient is bounded in terms of the tolerance and the operands, and are exact for tolerance 0; results
are correct also when the result slot aliases an operand."

`m` is the memory before the call, the result of the model function the memory after it; `r` and `i` are the slots of the
result. The exact results are computed in `Cx R` from the operands' values before the call. The slots of the result may be
the slots of the operands, in the same role (`r ≠ a.i.loc` excludes only operands that use the real slot of the result as
their imaginary part, see `C10_crossed_false`).
-/

namespace DD

variable {α R : Type} [DecidableEq α] [Field R] [LinearOrder R] [IsStrictOrderedRing R]
variable {E : NumEnv α R} {m : α → R} {r i : α} {a b : CNum α}

/-- The complex number in the slots `r`, `i`. -/
def slot (m : α → R) (r i : α) : Cx R := ⟨m r, m i⟩

omit [LinearOrder R] [IsStrictOrderedRing R] in
theorem TPtr.val_update {p : TPtr α} {x : R} (h : r ≠ p.loc) : p.val (Function.update m r x) = p.val m := by
  unfold TPtr.val
  rw [Function.update_of_ne (fun e => h e.symm)]

omit [LinearOrder R] [IsStrictOrderedRing R] in
theorem slot_write2 (hri : r ≠ i) (f g : (α → R) → R) :
    slot (write2 m r i f g) r i = ⟨f m, g (Function.update m r (f m))⟩ := by
  unfold slot write2
  simp [hri]

/-- `add` and `sub` are exact, also if the result is one of the operands. -/
theorem C10_add_sub (hri : r ≠ i) (ha : r ≠ a.i.loc) (hb : r ≠ b.i.loc) :
    slot (addTo m r i a b) r i = a.val m + b.val m ∧ slot (subTo m r i a b) r i = a.val m - b.val m := by
  unfold addTo subTo
  rw [slot_write2 hri, slot_write2 hri]
  simp only [TPtr.val_update ha, TPtr.val_update hb]
  refine ⟨?_, ?_⟩
  · ext <;> rfl
  · ext
    · exact (Cx.sub_re (a.val m) (b.val m)).symm
    · exact (Cx.sub_im (a.val m) (b.val m)).symm

omit [IsStrictOrderedRing R] in
/-- No operation writes anywhere but to the two slots of the result. -/
theorem C10_frame {l : α} (h1 : l ≠ r) (h2 : l ≠ i) :
    addTo m r i a b l = m l ∧ subTo m r i a b l = m l ∧ mulTo E m r i a b l = m l ∧ divTo E m r i a b l = m l := by
  have key : ∀ f g, write2 m r i f g l = m l := by
    intro f g
    unfold write2
    rw [Function.update_of_ne h2, Function.update_of_ne h1]
  refine ⟨key _ _, key _ _, ?_, ?_⟩
  · unfold mulTo setVal
    split
    · exact key _ _
    split
    · exact key _ _
    split
    · exact key _ _
    · exact key _ _
  · unfold divTo setVal
    split
    · exact key _ _
    split
    · exact key _ _
    · exact key _ _

theorem NumEnv.eqV_le (hT : 0 ≤ E.tol) {x y : R} (h : E.eqV x y = true) : |x - y| ≤ E.tol := by
  unfold NumEnv.eqV at h
  rcases (by simpa using h : x = y ∨ |x - y| ≤ E.tol) with rfl | h
  · simpa using hT
  · exact h

theorem NumEnv.zeroC_le (hT : 0 ≤ E.tol) (hz : m E.zero = 0) (h : E.zeroC m a = true) :
    |(a.val m).re| ≤ E.tol ∧ |(a.val m).im| ≤ E.tol := by
  unfold NumEnv.zeroC at h
  have key : ∀ p : TPtr α, E.zeroP m p = true → |p.val m| ≤ E.tol := by
    intro p hp
    unfold NumEnv.zeroP at hp
    rcases (by simpa using hp : p = ⟨false, E.zero⟩ ∨ |p.val m| ≤ E.tol) with rfl | h
    · simp [TPtr.val, hz, hT]
    · exact h
  rw [Bool.and_eq_true] at h
  exact ⟨key _ h.1, key _ h.2⟩

theorem NumEnv.oneC_le (hT : 0 ≤ E.tol) (hz : m E.zero = 0) (ho : m E.one = 1) (h : E.oneC m a = true) :
    |(a.val m).re - 1| ≤ E.tol ∧ |(a.val m).im| ≤ E.tol := by
  unfold NumEnv.oneC at h
  rw [Bool.and_eq_true] at h
  refine ⟨?_, ?_⟩
  · have h1 := h.1
    unfold NumEnv.oneP at h1
    rw [Bool.or_eq_true, decide_eq_true_eq] at h1
    rcases h1 with h1 | h1
    · have : (a.val m).re = 1 := by
        show a.r.val m = 1
        rw [h1]; simp [TPtr.val, ho]
      rw [this]; simpa using hT
    · exact NumEnv.eqV_le hT h1
  · have h2 := h.2
    unfold NumEnv.zeroP at h2
    rcases (by simpa using h2 : a.i = ⟨false, E.zero⟩ ∨ |a.i.val m| ≤ E.tol) with h2 | h2
    · have : (a.val m).im = 0 := by
        show a.i.val m = 0
        rw [h2]; simp [TPtr.val, hz]
      rw [this]; simpa using hT
    · exact h2

theorem NumEnv.eqC_le (hT : 0 ≤ E.tol) (h : E.eqC m a b = true) :
    |(a.val m).re - (b.val m).re| ≤ E.tol ∧ |(a.val m).im - (b.val m).im| ≤ E.tol := by
  have key : ∀ p q : TPtr α, E.eqP m p q = true → |p.val m - q.val m| ≤ E.tol := by
    intro p q h
    unfold NumEnv.eqP at h
    rw [Bool.or_eq_true, decide_eq_true_eq] at h
    rcases h with rfl | h
    · simpa using hT
    · exact NumEnv.eqV_le hT h
  unfold NumEnv.eqC at h
  rw [Bool.and_eq_true] at h
  exact ⟨key _ _ h.1, key _ _ h.2⟩

omit [LinearOrder R] [IsStrictOrderedRing R] in
theorem slot_setVal (hri : r ≠ i) (ha : r ≠ a.i.loc) : slot (setVal m r i a) r i = a.val m := by
  unfold setVal
  rw [slot_write2 hri, TPtr.val_update ha]
  rfl

/-- `|x y - u v| ≤ T (|y| + |v|)` if `|x| ≤ T` and `|u| ≤ T`. -/
theorem prod_bound {T x u y v : R} (hx : |x| ≤ T) (hu : |u| ≤ T) :
    |x * y - u * v| ≤ T * (|y| + |v|) ∧ |x * y + u * v| ≤ T * (|y| + |v|) := by
  have h1 : |x * y| ≤ T * |y| := by rw [abs_mul]; exact mul_le_mul_of_nonneg_right hx (abs_nonneg _)
  have h2 : |u * v| ≤ T * |v| := by rw [abs_mul]; exact mul_le_mul_of_nonneg_right hu (abs_nonneg _)
  refine ⟨?_, ?_⟩
  · have := abs_sub (x * y) (u * v); rw [mul_add]; linarith
  · have := abs_add_le (x * y) (u * v); rw [mul_add]; linarith

/-- `mul` writes the product up to an error of at most the tolerance times the sum of the operands' components, in each
component. The operands may be the result. -/
theorem C10_mul (hT : 0 ≤ E.tol) (hz : m E.zero = 0) (ho : m E.one = 1)
    (hri : r ≠ i) (ha : r ≠ a.i.loc) (hb : r ≠ b.i.loc) :
    let x := a.val m
    let y := b.val m
    let w := slot (mulTo E m r i a b) r i
    |w.re - (x * y).re| ≤ E.tol * (|x.re| + |x.im| + (|y.re| + |y.im|)) ∧
    |w.im - (x * y).im| ≤ E.tol * (|x.re| + |x.im| + (|y.re| + |y.im|)) := by
  intro x y w
  have hx0 : 0 ≤ E.tol * (|x.re| + |x.im|) := mul_nonneg hT (by positivity)
  have hy0 : 0 ≤ E.tol * (|y.re| + |y.im|) := mul_nonneg hT (by positivity)
  have hre : (x * y).re = x.re * y.re - x.im * y.im := rfl
  have him : (x * y).im = x.re * y.im + x.im * y.re := rfl
  have hw : w = slot (mulTo E m r i a b) r i := rfl
  unfold mulTo at hw
  rw [mul_add]
  by_cases h1 : E.oneC m a = true
  · rw [if_pos h1, slot_setVal hri hb] at hw
    obtain ⟨e1, e2⟩ := NumEnv.oneC_le hT hz ho h1
    have b1 := (prod_bound (y := y.re) (v := y.im) e1 e2).1
    have b2 := (prod_bound (y := y.im) (v := y.re) e1 e2).2
    rw [hw, hre, him]
    refine ⟨?_, ?_⟩
    · rw [abs_sub_comm, show x.re * y.re - x.im * y.im - (b.val m).re = (x.re - 1) * y.re - x.im * y.im by
        show _ - y.re = _; ring]
      exact b1.trans (by linarith)
    · rw [abs_sub_comm, show x.re * y.im + x.im * y.re - (b.val m).im = (x.re - 1) * y.im + x.im * y.re by
        show _ - y.im = _; ring]
      exact b2.trans (by rw [add_comm |y.im|]; linarith)
  rw [if_neg h1] at hw
  by_cases h2 : E.oneC m b = true
  · rw [if_pos h2, slot_setVal hri ha] at hw
    obtain ⟨e1, e2⟩ := NumEnv.oneC_le hT hz ho h2
    have b1 := (prod_bound (y := x.re) (v := x.im) e1 e2).1
    have b2 := (prod_bound (y := x.im) (v := x.re) e1 e2).2
    rw [hw, hre, him]
    refine ⟨?_, ?_⟩
    · rw [abs_sub_comm, show x.re * y.re - x.im * y.im - (a.val m).re = (y.re - 1) * x.re - y.im * x.im by
        show _ - x.re = _; ring]
      exact b1.trans (by linarith)
    · rw [abs_sub_comm, show x.re * y.im + x.im * y.re - (a.val m).im = (y.re - 1) * x.im + y.im * x.re by
        show _ - x.im = _; ring]
      exact b2.trans (by rw [add_comm |x.im|]; linarith)
  rw [if_neg h2] at hw
  by_cases h3 : (E.zeroC m a || E.zeroC m b) = true
  · rw [if_pos h3, slot_write2 hri] at hw
    rw [hw, hre, him]
    rw [zero_sub, zero_sub, abs_neg, abs_neg]
    rw [Bool.or_eq_true] at h3
    rcases h3 with h3 | h3
    · obtain ⟨e1, e2⟩ := NumEnv.zeroC_le hT hz h3
      have b1 := (prod_bound (y := y.re) (v := y.im) e1 e2).1
      have b2 := (prod_bound (y := y.im) (v := y.re) e1 e2).2
      exact ⟨b1.trans (by linarith), b2.trans (by rw [add_comm |y.im|]; linarith)⟩
    · obtain ⟨e1, e2⟩ := NumEnv.zeroC_le hT hz h3
      have b1 := (prod_bound (y := x.re) (v := x.im) e1 e2).1
      have b2 := (prod_bound (y := x.im) (v := x.re) e1 e2).2
      rw [show x.re * y.re - x.im * y.im = y.re * x.re - y.im * x.im by ring,
        show x.re * y.im + x.im * y.re = y.re * x.im + y.im * x.re by ring]
      exact ⟨b1.trans (by linarith), b2.trans (by rw [add_comm |x.im|]; linarith)⟩
  · rw [if_neg h3] at hw
    rw [slot_write2 hri] at hw
    have e1 : w.re - (x * y).re = 0 := by rw [hw, hre]; exact sub_self _
    have e2 : w.im - (x * y).im = 0 := by rw [hw, him]; exact sub_self _
    rw [e1, e2, abs_zero]
    exact ⟨by linarith, by linarith⟩

/-- `div` writes the quotient `q` up to an error, in each component, of at most the tolerance times
`(|b.re| + |b.im|) / |b|^2 + |q.re| + |q.im|`, for a non-zero divisor. -/
theorem C10_div (hT : 0 ≤ E.tol) (hz : m E.zero = 0) (ho : m E.one = 1)
    (hri : r ≠ i) (ha : r ≠ a.i.loc) (hb0 : b.val m ≠ 0) :
    let x := a.val m
    let y := b.val m
    let q := x / y
    let w := slot (divTo E m r i a b) r i
    |w.re - q.re| ≤ E.tol * ((|y.re| + |y.im|) / (y.re * y.re + y.im * y.im) + (|q.re| + |q.im|)) ∧
    |w.im - q.im| ≤ E.tol * ((|y.re| + |y.im|) / (y.re * y.re + y.im * y.im) + (|q.re| + |q.im|)) := by
  intro x y q w
  have hpos : 0 < y.re * y.re + y.im * y.im := by
    rcases (mul_self_nonneg y.re).lt_or_eq with h | h
    · have := mul_self_nonneg y.im; linarith
    · rcases (mul_self_nonneg y.im).lt_or_eq with h' | h'
      · linarith
      · exfalso
        apply hb0
        have e1 : y.re = 0 := mul_self_eq_zero.1 h.symm
        have e2 : y.im = 0 := mul_self_eq_zero.1 h'.symm
        exact Cx.ext e1 e2
  set n := y.re * y.re + y.im * y.im with hn
  have hq : q * y = x := by rw [show q = x / y from rfl, div_mul_cancel₀ _ hb0]
  have hqre : q.re * y.re - q.im * y.im = x.re := congrArg Cx.re hq
  have hqim : q.re * y.im + q.im * y.re = x.im := congrArg Cx.im hq
  have hq0 : 0 ≤ E.tol * (|q.re| + |q.im|) := mul_nonneg hT (by positivity)
  have hy0 : 0 ≤ E.tol * ((|y.re| + |y.im|) / n) := mul_nonneg hT (div_nonneg (by positivity) hpos.le)
  have qre : q.re = (x.re * y.re + x.im * y.im) / n := by
    rw [eq_div_iff hpos.ne', hn, ← hqre, ← hqim]; ring
  have qim : q.im = (x.im * y.re - x.re * y.im) / n := by
    rw [eq_div_iff hpos.ne', hn, ← hqre, ← hqim]; ring
  have hw : w = slot (divTo E m r i a b) r i := rfl
  unfold divTo at hw
  rw [mul_add]
  by_cases h1 : E.eqC m a b = true
  · rw [if_pos h1, slot_write2 hri] at hw
    obtain ⟨e1, e2⟩ := NumEnv.eqC_le hT h1
    have e1' : |x.re - y.re| ≤ E.tol := e1
    have e2' : |x.im - y.im| ≤ E.tol := e2
    have b1 := (prod_bound (y := y.re) (v := y.im) e1' e2').2
    have b2 := (prod_bound (y := y.im) (v := y.re) e1' e2').1
    have wre : w.re = 1 := by rw [hw]
    have wim : w.im = 0 := by rw [hw]
    rw [wre, wim]
    have c1 : 1 - q.re = -(((x.re - y.re) * y.re + (x.im - y.im) * y.im) / n) := by
      rw [qre, eq_neg_iff_add_eq_zero, sub_add, ← sub_div, sub_eq_zero, eq_comm, div_eq_one_iff_eq hpos.ne', hn]; ring
    have c2 : 0 - q.im = ((x.re - y.re) * y.im - (x.im - y.im) * y.re) / n := by
      rw [qim, zero_sub, ← neg_div]; congr 1; ring
    rw [c1, c2, abs_neg, abs_div, abs_div, abs_of_pos hpos]
    have d1 := div_le_div_of_nonneg_right b1 hpos.le
    have d2 := div_le_div_of_nonneg_right b2 hpos.le
    rw [mul_div_assoc] at d1 d2
    rw [add_comm |y.im|] at d2
    exact ⟨d1.trans (by linarith), d2.trans (by linarith)⟩
  rw [if_neg h1] at hw
  by_cases h2 : E.oneC m b = true
  · rw [if_pos h2, slot_setVal hri ha] at hw
    obtain ⟨e1, e2⟩ := NumEnv.oneC_le hT hz ho h2
    have b1 := (prod_bound (y := q.re) (v := q.im) e1 e2).1
    have b2 := (prod_bound (y := q.im) (v := q.re) e1 e2).2
    have wre : w.re = x.re := by rw [hw]
    have wim : w.im = x.im := by rw [hw]
    rw [wre, wim]
    refine ⟨?_, ?_⟩
    · rw [← hqre, show q.re * y.re - q.im * y.im - q.re = (y.re - 1) * q.re - y.im * q.im by ring]
      exact b1.trans (by linarith)
    · rw [← hqim, show q.re * y.im + q.im * y.re - q.im = (y.re - 1) * q.im + y.im * q.re by ring]
      exact b2.trans (by rw [add_comm |q.im|]; linarith)
  · rw [if_neg h2, slot_write2 hri] at hw
    have e1 : w.re - q.re = 0 := by rw [hw, qre]; exact sub_self _
    have e2 : w.im - q.im = 0 := by rw [hw, qim]; exact sub_self _
    rw [e1, e2, abs_zero]
    exact ⟨by linarith, by linarith⟩

/-- With tolerance 0 product and quotient are exact. -/
theorem C10_exact (hT : E.tol = 0) (hz : m E.zero = 0) (ho : m E.one = 1)
    (hri : r ≠ i) (ha : r ≠ a.i.loc) (hb : r ≠ b.i.loc) :
    slot (mulTo E m r i a b) r i = a.val m * b.val m ∧
    (b.val m ≠ 0 → slot (divTo E m r i a b) r i = a.val m / b.val m) := by
  have z : ∀ x y c : R, |x - y| ≤ E.tol * c → x = y := by
    intro x y c h
    rw [hT, zero_mul] at h
    exact sub_eq_zero.1 (abs_nonpos_iff.1 h)
  refine ⟨?_, fun h0 => ?_⟩
  · have := C10_mul hT.ge hz ho hri ha hb
    exact Cx.ext (z _ _ _ this.1) (z _ _ _ this.2)
  · have := C10_div hT.ge hz ho hri ha h0
    exact Cx.ext (z _ _ _ this.1) (z _ _ _ this.2)

/-- The restriction on the aliasing is needed: `add` with an operand whose imaginary part is the result's real slot. -/
theorem C10_crossed_false : ∃ (m : Bool → ℚ) (a b : CNum Bool),
    slot (addTo m true false a b) true false ≠ a.val m + b.val m :=
  ⟨fun x => if x then 1 else 2, ⟨⟨false, false⟩, ⟨false, true⟩⟩, ⟨⟨false, false⟩, ⟨false, false⟩⟩, by decide +kernel⟩

/-- Division by zero: the shortcut for equal operands returns 1 for 0/0, and for any two numbers within the tolerance. -/
theorem C10_div_equal (h : E.eqC m a b = true) (hri : r ≠ i) : slot (divTo E m r i a b) r i = 1 := by
  unfold divTo
  rw [if_pos h, slot_write2 hri]
  rfl

namespace Ex

/-- Slots 0 and 1 hold the static numbers, `a` lives in the slots 2 and 3, `b` in 4 and 5; `a` is multiplied by the
conjugate of `b` in place: (1/2 + 3/4 i)(1/3 + i/5). -/
example : let E : NumEnv (Fin 6) ℚ := ⟨0, 1, 1 / 100⟩
    let m : Fin 6 → ℚ := ![0, 1, 1 / 2, 3 / 4, 1 / 3, -1 / 5]
    let a : CNum (Fin 6) := ⟨⟨false, 2⟩, ⟨false, 3⟩⟩
    let b : CNum (Fin 6) := ⟨⟨false, 4⟩, ⟨true, 5⟩⟩
    0 ≤ E.tol ∧ m E.zero = 0 ∧ m E.one = 1 ∧ a.r.loc ≠ a.i.loc ∧ a.r.loc ≠ b.i.loc ∧ b.val m ≠ 0 ∧
      slot (mulTo E m 2 3 a b) 2 3 = ⟨1 / 60, 7 / 20⟩ := by
  decide +kernel

/-- A shortcut at work: 1.005 times 1/2 is stored as 1/2. -/
example : let E : NumEnv (Fin 6) ℚ := ⟨0, 1, 1 / 100⟩
    let m : Fin 6 → ℚ := ![0, 1, 1005 / 1000, 1 / 200, 1 / 2, 0]
    slot (mulTo E m 2 3 ⟨⟨false, 2⟩, ⟨false, 3⟩⟩ ⟨⟨false, 4⟩, ⟨false, 5⟩⟩) 2 3 = ⟨1 / 2, 0⟩ := by
  decide +kernel

end Ex
end DD
