import Verif.Proofs.RealEx

/-!
# C19: vector normalisation

Creating a vector node preserves the represented vector, and every stored vector node has unit norm with the weight of
larger magnitude (the first one on ties) real and positive.
-/

namespace DD

variable {R : Type} [Field R] [LinearOrder R] [IsStrictOrderedRing R] [HasSqrt R] [LawfulSqrt R] {P : PCfg R}
  {h : PHist R}

/-- The new diagram represents the two given vectors stacked (the bit of the new qubit selects one of them), and no other
diagram changes. -/
theorem C19_value (hC : P.C.Good) (hr : PReach P h) {v : Nat} (hv : v < (h.pkg.ut .v).nvars) (es : Fin 2 → PEdge R)
    (hes : ∀ i, Valid (h.pkg.ut .v) v (es i)) (cached : Bool) :
    let r := Pkg.makeDDNode P .v h.pkg v es cached
    Valid (r.1.ut .v) (v + 1) r.2 ∧
      (∀ d b, vec (r.1.ut .v) (v + 1) r.2 (Fin.snoc (α := fun _ => Fin 2) d b) = vec (h.pkg.ut .v) v (es b) d) ∧
      Unchanged h.pkg r.1 := by
  have o := makeDDNode_spec hC.growth (k := .v) cached (hr.inv hC).wf hv noX hes
  refine ⟨o.valid, fun d b => ?_, o.ext.unchanged (hr.inv hC).wf⟩
  have := o.val (Fin.snoc (α := fun _ => Fin 2) d b)
  rw [Fin.snoc_last, Fin.init_snoc] at this
  exact this

/-- The normal form of the weights of the stored nodes. -/
theorem C19_normal (hC : P.C.Good) (hr : PReach P h) {a : Nat} (ha : a ∈ (h.pkg.ut .v).all) :
    let w := fun i => (((h.pkg.ut .v).mem a).e i).w
    (w 0).mag2 + (w 1).mag2 = 1 ∧
      (((w 1).mag2 ≤ (w 0).mag2 ∧ (w 0).im = 0 ∧ 0 < (w 0).re) ∨
       ((w 0).mag2 < (w 1).mag2 ∧ (w 1).im = 0 ∧ 0 < (w 1).re)) := by
  have hn : IsNormV (fun i => (((h.pkg.ut .v).mem a).e i).w) := ((hr.inv hC).wf.tab .v).norm a ha
  intro w
  rcases hn with ⟨h0, h1⟩ | ⟨h0, h1⟩ | ⟨_, _, h2, h3⟩
  · refine ⟨by show (w 0).mag2 + (w 1).mag2 = 1; rw [show w 0 = 0 from h0, show w 1 = 1 from h1]; simp, Or.inr ?_⟩
    rw [show w 0 = 0 from h0, show w 1 = 1 from h1]; simp
  · refine ⟨by show (w 0).mag2 + (w 1).mag2 = 1; rw [show w 0 = 1 from h0, show w 1 = 0 from h1]; simp, Or.inl ?_⟩
    rw [show w 0 = 1 from h0, show w 1 = 0 from h1]; simp
  · exact ⟨h2, h3⟩

/-- Hence the squared norm of a diagram is the squared magnitude of the weight of its root edge; in particular every
sub-diagram below a node, read with weight one, is a unit vector. -/
theorem C19_norm (hC : P.C.Good) (hr : PReach P h) {l : Nat} {e : PEdge R} (he : Valid (h.pkg.ut .v) l e) :
    ∑ d, (vec (h.pkg.ut .v) l e d).mag2 = e.w.mag2 := by
  have hd := (hr.inv hC).wf.tab .v
  induction l generalizing e with
  | zero => rw [sum_zero]; rfl
  | succ l ih =>
    by_cases hw : e.w = 0
    · rw [hw, Finset.sum_eq_zero]
      · simp
      · intro d _; unfold vec; rw [amp_w_zero hw]; simp
    · obtain ⟨a, hp, ha, hl⟩ := he.exists_node hw
      have hch := fun i => ih (hd.childAt ha hl i)
      rw [sum_snoc]
      have hn := (C19_normal hC hr ha).1
      have : ∀ i : Fin 2, ∑ d : Fin l → Fin 2, (vec (h.pkg.ut .v) (l + 1) e (Fin.snoc (α := fun _ => Fin 2) d i)).mag2 =
          e.w.mag2 * (((h.pkg.ut .v).mem a).e i).w.mag2 := by
        intro i
        rw [← hch i, Finset.mul_sum]
        refine Finset.sum_congr rfl fun d _ => ?_
        unfold vec
        rw [amp_snoc hp, Cx.mag2_mul]
      rw [Fin.sum_univ_two, this 0, this 1, ← mul_add, hn, mul_one]

end DD

namespace DD.Ex

/-- The hypotheses are met: the two states of `setup` (both of weight one) are put below a new top qubit. -/
example : ∃ (h : PHist ℝ) (es : Fin 2 → PEdge ℝ), PReach (PR ℝ) h ∧ 3 < (h.pkg.ut .v).nvars ∧
    (∀ i, Valid (h.pkg.ut .v) 3 (es i)) ∧ (∀ i, (es i).w ≠ 0) ∧ ∃ a, a ∈ (h.pkg.ut .v).all := by
  obtain ⟨h, x, y, A, B, hr, hn, vx, vy, _, _, _, _, _, _, _, _, wx, wy, _⟩ := setup (R := ℝ)
  obtain ⟨a, _, ha, _⟩ := vx.exists_node wx
  refine ⟨h, ![x, y], hr, by rw [hn]; omega, ?_, ?_, a, ha⟩
  · intro i; fin_cases i <;> assumption
  · intro i; fin_cases i <;> assumption

end DD.Ex
