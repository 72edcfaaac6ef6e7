import Verif.Proofs.RealEx
import Verif.Proofs.Derived

/-!
# C26: inner product, fidelity, expectation value
-/

namespace DD

variable {R : Type} [Field R] [LinearOrder R] [IsStrictOrderedRing R] [HasSqrt R] [LawfulSqrt R] {P : PCfg R}
  {h : PHist R}


theorem C26_inner (hC : P.C.Good) (hr : PReach P h) {l : Nat} {x y : PEdge R} (hx : Valid (h.pkg.ut .v) l x)
    (hy : Valid (h.pkg.ut .v) l y) :
    let r := Pkg.innerProduct P h.pkg x y
    r.2 = inner (vec (h.pkg.ut .v) l x) (vec (h.pkg.ut .v) l y) ∧ Unchanged h.pkg r.1 := by
  have o := innerProduct_spec (hr.inv hC).wf hx hy
  exact ⟨o.val, fun k l e hv => by rw [o.ut]; exact ⟨hv, rfl⟩⟩

theorem C26_fidelity (hC : P.C.Good) (hr : PReach P h) {l : Nat} {x y : PEdge R} (hx : Valid (h.pkg.ut .v) l x)
    (hy : Valid (h.pkg.ut .v) l y) :
    let r := Pkg.fidelity P h.pkg x y
    r.2 = (inner (vec (h.pkg.ut .v) l x) (vec (h.pkg.ut .v) l y)).mag2 ∧ Unchanged h.pkg r.1 := by
  have o := C26_inner hC hr hx hy
  refine ⟨?_, o.2⟩
  show Cx.mag2 (Pkg.innerProduct P h.pkg x y).2 = _
  rw [o.1]

/-- The expectation value is the real part of `⟨x|A x⟩`. The call ends with a garbage collection: the package it leaves
is a reachable one, and the diagrams references to are held keep their meaning. -/
theorem C26_expectation (hC : P.C.Good) (hr : PReach P h) (g : GcEnv) {l : Nat} {A x : PEdge R}
    (hA : Valid (h.pkg.ut .m) l A) (hx : Valid (h.pkg.ut .v) l x) (hA0 : A.w ≠ 0) (hx0 : x.w ≠ 0) :
    ∃ r, Pkg.expectationValue P g h.pkg A x = some r ∧
      r.2 = (inner (vec (h.pkg.ut .v) l x) ((mat (h.pkg.ut .m) l A).mulVec (vec (h.pkg.ut .v) l x))).re ∧
      PReach P { h with pkg := r.1 } ∧
      ∀ k l e, Valid (h.pkg.ut k) l e → e ∈ h.held k →
        Valid (r.1.ut k) l e ∧ amp (r.1.ut k) l e = amp (h.pkg.ut k) l e := by
  unfold Pkg.expectationValue
  have hl : h.pkg.lv .m A = h.pkg.lv .v x := by
    unfold Pkg.lv; rw [hA.lvl hA0, hx.lvl hx0]
  rw [if_neg (by rw [hl]; simp)]
  refine ⟨_, rfl, ?_, ?_, ?_⟩
  · have o := multiply_spec (k := .v) hC.growth (hr.inv hC).wf hA hx
    have hx' := (o.ext.unchanged (hr.inv hC).wf) .v l x hx
    have i := innerProduct_spec o.wf hx'.1 o.valid
    dsimp only
    rw [i.val]
    congr 1
    unfold inner
    refine Finset.sum_congr rfl (fun j _ => ?_)
    rw [hx'.2]
    congr 1
    exact congrFun o.vec_eq j
  all_goals
    have s1 := PStep.multiply (P := P) (h := h) .v l A x hA hx
    have r1 := hr.step s1
    have o := multiply_spec (k := .v) hC.growth (hr.inv hC).wf hA hx
    have hx' := (o.ext.unchanged (hr.inv hC).wf) .v l x hx
    have s2 := PStep.innerProduct (P := P) (h := { h with pkg := (Pkg.multiply P .v h.pkg A x).1 }) l x
      (Pkg.multiply P .v h.pkg A x).2 hx'.1 o.valid
    have r2 := r1.step s2
    have s3 := PStep.garbageCollect (P := P) (h := { h with pkg := (Pkg.innerProduct P (Pkg.multiply P .v h.pkg A x).1 x
      (Pkg.multiply P .v h.pkg A x).2).1 }) { g with force := false }
  · exact r2.step s3
  · intro k l e hv he
    have q1 := s1.value hC (hr.inv hC) hv he he
    have q2 := s2.value hC (r1.inv hC) q1.1 he he
    have q3 := s3.value hC (r2.inv hC) q2.1 he he
    exact ⟨q3.1, funext fun d => (q3.2 d).trans ((q2.2 d).trans (q1.2 d))⟩

omit [LawfulSqrt R] in
/-- Operands over different numbers of qubits are rejected. -/
theorem C26_expectation_reject (g : GcEnv) {l l' : Nat} {A x : PEdge R} (hA : Valid (h.pkg.ut .m) l A)
    (hx : Valid (h.pkg.ut .v) l' x) (hA0 : A.w ≠ 0) (hx0 : x.w ≠ 0) (hl : l ≠ l') :
    Pkg.expectationValue P g h.pkg A x = none := by
  unfold Pkg.expectationValue
  rw [if_pos]
  unfold Pkg.lv; rw [hA.lvl hA0, hx.lvl hx0]; exact hl

omit [HasSqrt R] [LawfulSqrt R] in
/-- For a Hermitian operator nothing is lost by taking the real part. -/
theorem C26_real {l : Nat} (M : QMat R l) (x : (Fin l → Fin 2) → Cx R) (hM : adj M = M) :
    (inner x (M.mulVec x)).im = 0 := by
  have h1 : (inner x (M.mulVec x)).conj = inner x (M.mulVec x) := by
    have conj_sum : ∀ {ι : Type} (s : Finset ι) (f : ι → Cx R), (∑ i ∈ s, f i).conj = ∑ i ∈ s, (f i).conj := by
      intro ι s f
      classical
      induction s using Finset.induction_on with
      | empty => simp
      | insert a s ha ih => rw [Finset.sum_insert ha, Finset.sum_insert ha, Cx.conj_add, ih]
    unfold inner Matrix.mulVec dotProduct
    rw [conj_sum]
    simp only [Cx.conj_mul, Cx.conj_conj, conj_sum, Finset.mul_sum]
    rw [Finset.sum_comm]
    refine Finset.sum_congr rfl (fun i _ => Finset.sum_congr rfl (fun j _ => ?_))
    have : (M j i).conj = M i j := congrFun (congrFun hM i) j
    rw [this]; ring
  have := congrArg Cx.im h1
  simp only [Cx.conj_im] at this
  linarith

/-- `fidelityOfMeasurementOutcomes` sums `|x_i| * sqrt(p_i)` over the outcomes. -/
theorem C26_outcomes (hC : P.C.Good) (hr : PReach P h) {l : Nat} {x : PEdge R} (hx : Valid (h.pkg.ut .v) l x)
    (probs : Nat → Option R) :
    Pkg.fidelityOfMeasurementOutcomes h.pkg x probs =
      ∑ d, HasSqrt.sqrt (vec (h.pkg.ut .v) l x d).mag2 * rootProb probs (bitIdx d) := by
  unfold Pkg.fidelityOfMeasurementOutcomes
  by_cases hw : x.w = 0
  · rw [if_pos hw]
    refine (Finset.sum_eq_zero (fun d _ => ?_)).symm
    unfold vec
    rw [amp_w_zero hw, Cx.mag2_zero, sqrt_zero', zero_mul]
  · rw [if_neg hw]
    have hl : h.pkg.lv .v x = l := by unfold Pkg.lv; exact hx.lvl hw
    rw [hl]
    have := fidOutF_spec ((hr.inv hC).wf.tab .v).child probs l x 0 hx
    rw [Nat.zero_mul] at this
    rw [this]
    refine Finset.sum_congr rfl (fun d _ => ?_)
    rw [Nat.zero_add]; rfl

end DD

namespace DD.Ex

/-- The hypotheses are met. -/
example : ∃ (h : PHist ℝ) (x y A : PEdge ℝ), PReach (PR ℝ) h ∧ Valid (h.pkg.ut .v) 3 x ∧ Valid (h.pkg.ut .v) 3 y ∧
    Valid (h.pkg.ut .m) 3 A ∧ A.w ≠ 0 ∧ x.w ≠ 0 ∧ y.w ≠ 0 := by
  obtain ⟨h, x, y, A, B, hr, hn, vx, vy, vA, vB, hx, hA, ax, ay, aA, aB, wx, wy, wA, wB⟩ := setup (R := ℝ)
  exact ⟨h, x, y, A, hr, vx, vy, vA, wA, wx, wy⟩

end DD.Ex
