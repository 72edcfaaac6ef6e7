import Verif.Proofs.RealEx

/-!
# C20: matrix normalisation

Creating a matrix node preserves the represented matrix; in every stored matrix node no weight is larger than one in
magnitude and the first one of maximal magnitude is exactly one.
-/

namespace DD

variable {R : Type} [Field R] [LinearOrder R] [IsStrictOrderedRing R] [HasSqrt R] [LawfulSqrt R] {P : PCfg R}
  {h : PHist R}

/-- The new diagram represents the block matrix of the four given matrices. -/
theorem C20_value (hC : P.C.Good) (hr : PReach P h) {v : Nat} (hv : v < (h.pkg.ut .m).nvars) (es : Fin 4 → PEdge R)
    (hes : ∀ i, Valid (h.pkg.ut .m) v (es i)) (cached : Bool) :
    let r := Pkg.makeDDNode P .m h.pkg v es cached
    Valid (r.1.ut .m) (v + 1) r.2 ∧
      (∀ d b d' b', mat (r.1.ut .m) (v + 1) r.2 (Fin.snoc (α := fun _ => Fin 2) d b) (Fin.snoc (α := fun _ => Fin 2) d' b') =
        mat (h.pkg.ut .m) v (es (rc b b')) d d') ∧
      Unchanged h.pkg r.1 := by
  have o := makeDDNode_spec hC.growth (k := .m) cached (hr.inv hC).wf hv noX hes
  refine ⟨o.valid, fun d b d' b' => ?_, o.ext.unchanged (hr.inv hC).wf⟩
  have := o.val (fun i => rc (Fin.snoc (α := fun _ => Fin 2) d b i) (Fin.snoc (α := fun _ => Fin 2) d' b' i))
  have h2 : Fin.init (fun i => rc (Fin.snoc (α := fun _ => Fin 2) d b i) (Fin.snoc (α := fun _ => Fin 2) d' b' i)) =
      fun i => rc (d i) (d' i) := by
    funext i; simp only [Fin.init, Fin.snoc_castSucc]
  rw [h2] at this
  simp only [Fin.snoc_last] at this
  exact this

/-- The normal form of the weights of the stored nodes. -/
theorem C20_normal (hC : P.C.Good) (hr : PReach P h) {a : Nat} (ha : a ∈ (h.pkg.ut .m).all) :
    let w := fun i => (((h.pkg.ut .m).mem a).e i).w
    (∀ i, (w i).mag2 ≤ 1) ∧ ∃ j, w j = 1 ∧ ∀ i < j, (w i).mag2 < 1 := by
  have hn : IsNormM (fun i => (((h.pkg.ut .m).mem a).e i).w) := ((hr.inv hC).wf.tab .m).norm a ha
  obtain ⟨j, h1, h2, h3⟩ := hn
  exact ⟨h2, j, h1, h3⟩

end DD

namespace DD.Ex

/-- The hypotheses are met: a node with two different matrices and zero blocks. -/
example : ∃ (h : PHist ℝ) (es : Fin 4 → PEdge ℝ), PReach (PR ℝ) h ∧ 3 < (h.pkg.ut .m).nvars ∧
    (∀ i, Valid (h.pkg.ut .m) 3 (es i)) ∧ (es 0).w ≠ 0 ∧ (es 2).w ≠ 0 ∧ ∃ a, a ∈ (h.pkg.ut .m).all := by
  obtain ⟨h, x, y, A, B, hr, hn, _, _, vA, vB, _, _, _, _, _, _, _, _, wA, wB⟩ := setup (R := ℝ)
  obtain ⟨a, _, ha, _⟩ := vA.exists_node wA
  refine ⟨h, ![A, zeroE, B, zeroE], hr, by rw [hn]; omega, ?_, wA, wB, a, ha⟩
  intro i
  fin_cases i
  · exact vA
  · exact valid_zeroE _ _
  · exact vB
  · exact valid_zeroE _ _

end DD.Ex
