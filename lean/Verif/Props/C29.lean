import Verif.Proofs.RealEx

/-!
# C29: vector import and export
-/

namespace DD

variable {R : Type} [Field R] [LinearOrder R] [IsStrictOrderedRing R] [HasSqrt R] [LawfulSqrt R] {P : PCfg R}
  {h : PHist R}

theorem getVector_import (hC : P.C.Good) (hr : PReach P h) {l : Nat} {xs : List (Cx R)} (hl : xs.length = 2 ^ (l + 1))
    (hn : l + 1 ≤ (h.pkg.ut .v).nvars) (hx : ∃ x ∈ xs, x ≠ 0) :
    ∃ r, Pkg.makeStateFromVector P h.pkg xs = some r ∧ Valid (r.1.ut .v) (l + 1) r.2 ∧ Pkg.getVector (r.1.ut .v) r.2 = some xs ∧
      Unchanged h.pkg r.1 := by
  obtain ⟨r, e1, o⟩ := makeStateFromVector_spec hC.growth (hr.inv hC).wf hl hn
  refine ⟨r, e1, o.valid, ?_, o.ext.unchanged (hr.inv hC).wf⟩
  have hval : ∀ i (hi : i < xs.length), amp (r.1.ut .v) (l + 1) r.2 (bitsOf (l + 1) i) = xs[i] := by
    intro i hi
    have h1 : amp (r.1.ut .v) (l + 1) r.2 (bitsOf (l + 1) i) = xs.getD (bitIdx (bitsOf (l + 1) i)) 0 := o.val _
    rw [h1, bitIdx_bitsOf (by omega), List.getD_eq_getElem?_getD, List.getElem?_eq_getElem hi]; rfl
  have hw : r.2.w ≠ 0 := by
    intro hw
    obtain ⟨x, hx, hx0⟩ := hx
    obtain ⟨i, hi, rfl⟩ := List.getElem_of_mem hx
    exact hx0 ((hval i hi).symm.trans (amp_w_zero hw _))
  rw [getVector_spec (o.wf.tab .v).child o.valid hw]
  congr 1
  refine List.ext_getElem (by simp [hl]) (fun i h1 h2 => ?_)
  rw [List.getElem_map, List.getElem_range]
  exact hval i h2

/-- `getVector(makeStateFromVector(v)) = v` for vectors of length at least two other than zero. Missing for the full
property: length one and zero vectors, for which `getVector` is undefined (`C29_undefined`). -/
theorem C29_roundtrip_partial (hC : P.C.Good) (hr : PReach P h) {l : Nat} {xs : List (Cx R)} (hl : xs.length = 2 ^ (l + 1))
    (hn : l + 1 ≤ (h.pkg.ut .v).nvars) (hx : ∃ x ∈ xs, x ≠ 0) :
    ∃ r, Pkg.makeStateFromVector P h.pkg xs = some r ∧ Valid (r.1.ut .v) (l + 1) r.2 ∧ Pkg.getVector (r.1.ut .v) r.2 = some xs ∧
      Unchanged h.pkg r.1 := getVector_import hC hr hl hn hx

/-- Element by element the round trip holds for all vectors. -/
theorem C29_elements (hC : P.C.Good) (hr : PReach P h) {l : Nat} {xs : List (Cx R)} (hl : xs.length = 2 ^ l)
    (hn : l ≤ (h.pkg.ut .v).nvars) :
    ∃ r, Pkg.makeStateFromVector P h.pkg xs = some r ∧ Valid (r.1.ut .v) l r.2 ∧
      ∀ i (hi : i < xs.length), Pkg.valueV (r.1.ut .v) r.2 i = xs[i] := by
  obtain ⟨r, e1, o⟩ := makeStateFromVector_spec hC.growth (hr.inv hC).wf hl hn
  refine ⟨r, e1, o.valid, fun i hi => ?_⟩
  rw [valueV_spec (o.wf.tab .v).child o.valid, show amp (r.1.ut .v) l r.2 (bitsOf l i) = _ from o.val _]
  rw [bitIdx_bitsOf (by omega), List.getD_eq_getElem?_getD, List.getElem?_eq_getElem hi]; rfl

/-- What is missing: exporting the diagram of a zero vector or of a vector of length one is undefined behaviour (a shift
by a negative number of places). -/
theorem C29_undefined (hC : P.C.Good) (hr : PReach P h) {l : Nat} {xs : List (Cx R)} (hl : xs.length = 2 ^ l)
    (hn : l ≤ (h.pkg.ut .v).nvars) (hx : l = 0 ∨ ∀ x ∈ xs, x = 0) :
    ∃ r, Pkg.makeStateFromVector P h.pkg xs = some r ∧ Pkg.getVector (r.1.ut .v) r.2 = none := by
  obtain ⟨r, e1, o⟩ := makeStateFromVector_spec hC.growth (hr.inv hC).wf hl hn
  refine ⟨r, e1, ?_⟩
  have hp : r.2.p = none := by
    rcases hx with rfl | hx
    · exact o.valid.term
    · refine o.valid.p_none ((o.wf.tab .v).w_zero o.valid (fun d => ?_))
      rw [o.val d]
      rw [List.getD_eq_getElem?_getD, List.getElem?_eq_getElem (by rw [hl]; exact bitIdx_lt d)]
      exact hx _ (List.getElem_mem _)
  unfold Pkg.getVector
  rw [hp]

omit [LawfulSqrt R] in
/-- Other lengths are rejected; the empty vector yields the terminal. -/
theorem C29_reject {xs : List (Cx R)} :
    (xs ≠ [] → (∀ l, xs.length ≠ 2 ^ l) → Pkg.makeStateFromVector P h.pkg xs = none) ∧
    Pkg.makeStateFromVector P h.pkg [] = some (h.pkg, oneE) := by
  refine ⟨fun hne hl => ?_, by unfold Pkg.makeStateFromVector; rw [if_pos rfl]⟩
  unfold Pkg.makeStateFromVector
  rw [if_neg hne, if_pos]
  intro he
  rw [Nat.and_sub_one_eq_zero_iff_isPowerOfTwo (by intro h0; exact hne (List.length_eq_zero_iff.1 h0))] at he
  obtain ⟨l, hl'⟩ := he
  exact hl l hl'

end DD

namespace DD.Ex

/-- The hypotheses are met. -/
example : ∃ h : PHist ℝ, PReach (PR ℝ) h ∧ ([0, ⟨3, 1⟩, 0, ⟨0, -2⟩] : List (Cx ℝ)).length = 2 ^ (1 + 1) ∧
    1 + 1 ≤ (h.pkg.ut .v).nvars ∧ ∃ x ∈ ([0, ⟨3, 1⟩, 0, ⟨0, -2⟩] : List (Cx ℝ)), x ≠ 0 := by
  obtain ⟨h, x, y, A, B, hr, hn, vx, vy, vA, vB, hx, hA, ax, ay, aA, aB, wx, wy, wA, wB⟩ := setup (R := ℝ)
  refine ⟨h, hr, rfl, by rw [hn]; omega, ⟨3, 1⟩, by simp, ?_⟩
  intro h0
  have := congrArg Cx.re h0
  simp at this

end DD.Ex
