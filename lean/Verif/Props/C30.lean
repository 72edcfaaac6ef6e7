import Verif.Proofs.RealEx

/-!
# C30: matrix import and export
-/

namespace DD

variable {R : Type} [Field R] [LinearOrder R] [IsStrictOrderedRing R] [HasSqrt R] [LawfulSqrt R] {P : PCfg R}
  {h : PHist R}

theorem import_entry {l : Nat} {M : List (List (Cx R))} (hl : M.length = 2 ^ l) (hrow : ∀ row ∈ M, row.length = M.length)
    {i j : Nat} (hi : i < M.length) (hj : j < M.length) :
    (M.getD (bitIdx (bitsOf l i)) []).getD (bitIdx (bitsOf l j)) 0 = M[i][j]'(by rw [hrow _ (List.getElem_mem _)]; exact hj) := by
  rw [bitIdx_bitsOf (by omega), bitIdx_bitsOf (by omega)]
  have h1 : M.getD i [] = M[i] := by rw [List.getD_eq_getElem?_getD, List.getElem?_eq_getElem hi]; rfl
  rw [h1, List.getD_eq_getElem?_getD, List.getElem?_eq_getElem (by rw [hrow _ (List.getElem_mem _)]; exact hj)]; rfl

theorem import_mat {s s' : Pkg R} {l : Nat} {M : List (List (Cx R))} {e : PEdge R}
    (o : OpSpec P ∅ s .m l (fun d => (M.getD (bitIdx (rowD d)) []).getD (bitIdx (colD d)) 0) (s', e))
    (hl : M.length = 2 ^ l) (hrow : ∀ row ∈ M, row.length = M.length) {i j : Nat} (hi : i < M.length) (hj : j < M.length) :
    mat (s'.ut .m) l e (bitsOf l i) (bitsOf l j) = M[i][j]'(by rw [hrow _ (List.getElem_mem _)]; exact hj) := by
  rw [← import_entry hl hrow hi hj]
  have h1 := o.val (fun q => rc (bitsOf l i q) (bitsOf l j q))
  have e1 : rowD (fun q => rc (bitsOf l i q) (bitsOf l j q)) = bitsOf l i := by
    funext q; exact hi2_rc _ _
  have e2 : colD (fun q => rc (bitsOf l i q) (bitsOf l j q)) = bitsOf l j := by
    funext q; exact lo2_rc _ _
  dsimp only at h1
  rw [e1, e2] at h1
  exact h1

/-- `getMatrix(makeDDFromMatrix(M)) = M` for matrices of dimension at least two other than zero. Missing for the full
property: dimension one and zero matrices, for which `getMatrix` is undefined (`C30_undefined`). -/
theorem C30_roundtrip_partial (hC : P.C.Good) (hr : PReach P h) {l : Nat} {M : List (List (Cx R))}
    (hl : M.length = 2 ^ (l + 1)) (hrow : ∀ row ∈ M, row.length = M.length) (hn : l + 1 ≤ (h.pkg.ut .m).nvars)
    (hx : ∃ row ∈ M, ∃ x ∈ row, x ≠ 0) :
    ∃ r, Pkg.makeDDFromMatrix P h.pkg M = some r ∧ Valid (r.1.ut .m) (l + 1) r.2 ∧ Pkg.getMatrix (r.1.ut .m) r.2 = some M ∧
      Unchanged h.pkg r.1 := by
  obtain ⟨r, e1, o⟩ := makeDDFromMatrix_spec hC.growth (hr.inv hC).wf hl hrow hn
  refine ⟨r, e1, o.valid, ?_, o.ext.unchanged (hr.inv hC).wf⟩
  have hw : r.2.w ≠ 0 := by
    intro hw
    obtain ⟨row, hm, x, hx, hx0⟩ := hx
    obtain ⟨i, hi, rfl⟩ := List.getElem_of_mem hm
    obtain ⟨j, hj, rfl⟩ := List.getElem_of_mem hx
    exact hx0 ((import_mat o hl hrow hi (by rw [← hrow _ hm]; exact hj)).symm.trans (amp_w_zero hw _))
  rw [getMatrix_spec (o.wf.tab .m).child o.valid hw]
  congr 1
  refine List.ext_getElem (by simp [hl]) (fun i h1 h2 => ?_)
  rw [List.getElem_map, List.getElem_range]
  have hri : M[i].length = M.length := hrow _ (List.getElem_mem _)
  refine List.ext_getElem (by simp [hl, hri]) (fun j h3 h4 => ?_)
  rw [List.getElem_map, List.getElem_range]
  exact import_mat o hl hrow h2 (by omega)

/-- Element by element the round trip holds for all matrices. -/
theorem C30_elements (hC : P.C.Good) (hr : PReach P h) {l : Nat} {M : List (List (Cx R))} (hl : M.length = 2 ^ l)
    (hrow : ∀ row ∈ M, row.length = M.length) (hn : l ≤ (h.pkg.ut .m).nvars) :
    ∃ r, Pkg.makeDDFromMatrix P h.pkg M = some r ∧ Valid (r.1.ut .m) l r.2 ∧
      ∀ i j (hi : i < M.length) (hj : j < M.length),
        Pkg.valueM (r.1.ut .m) r.2 i j = M[i][j]'(by rw [hrow _ (List.getElem_mem _)]; exact hj) := by
  obtain ⟨r, e1, o⟩ := makeDDFromMatrix_spec hC.growth (hr.inv hC).wf hl hrow hn
  refine ⟨r, e1, o.valid, fun i j hi hj => ?_⟩
  rw [valueM_spec (o.wf.tab .m).child o.valid]
  exact import_mat o hl hrow hi hj

/-- What is missing: exporting the diagram of a zero matrix or of a matrix of dimension one is undefined behaviour. -/
theorem C30_undefined (hC : P.C.Good) (hr : PReach P h) {l : Nat} {M : List (List (Cx R))} (hl : M.length = 2 ^ l)
    (hrow : ∀ row ∈ M, row.length = M.length) (hn : l ≤ (h.pkg.ut .m).nvars) (hx : l = 0 ∨ ∀ row ∈ M, ∀ x ∈ row, x = 0) :
    ∃ r, Pkg.makeDDFromMatrix P h.pkg M = some r ∧ Pkg.getMatrix (r.1.ut .m) r.2 = none := by
  obtain ⟨r, e1, o⟩ := makeDDFromMatrix_spec hC.growth (hr.inv hC).wf hl hrow hn
  refine ⟨r, e1, ?_⟩
  have hp : r.2.p = none := by
    rcases hx with rfl | hx
    · exact o.valid.term
    · refine o.valid.p_none ((o.wf.tab .m).w_zero o.valid (fun d => ?_))
      rw [o.val d]
      have := import_entry (l := l) hl hrow (i := bitIdx (rowD d)) (j := bitIdx (colD d)) (by rw [hl]; exact bitIdx_lt _)
        (by rw [hl]; exact bitIdx_lt _)
      rw [bitsOf_bitIdx, bitsOf_bitIdx] at this
      rw [this]
      exact hx _ (List.getElem_mem _) _ (List.getElem_mem _)
  unfold Pkg.getMatrix
  rw [hp]

omit [LawfulSqrt R] in
/-- Other dimensions are rejected, and so are matrices whose first row does not have that length; the empty matrix yields
the terminal. -/
theorem C30_reject {M : List (List (Cx R))} :
    (M ≠ [] → (∀ l, M.length ≠ 2 ^ l) → Pkg.makeDDFromMatrix P h.pkg M = none) ∧
    (∀ row rest, M = row :: rest → row.length ≠ M.length → Pkg.makeDDFromMatrix P h.pkg M = none) ∧
    Pkg.makeDDFromMatrix P h.pkg [] = some (h.pkg, oneE) := by
  refine ⟨fun hne hl => ?_, ?_, by unfold Pkg.makeDDFromMatrix; rw [if_pos rfl]⟩
  · unfold Pkg.makeDDFromMatrix
    rw [if_neg hne, if_pos]
    intro he
    rw [Nat.and_sub_one_eq_zero_iff_isPowerOfTwo (by intro h0; exact hne (List.length_eq_zero_iff.1 h0))] at he
    obtain ⟨l, hl'⟩ := he
    exact hl l hl'
  · rintro row rest rfl hne
    unfold Pkg.makeDDFromMatrix
    rw [if_neg (by simp)]
    have h2 : (row :: rest).length ≠ ((row :: rest).getD 0 []).length := fun h2 => hne h2.symm
    rw [if_pos h2]
    split_ifs <;> rfl

end DD

namespace DD.Ex

/-- The hypotheses are met. -/
example : ∃ h : PHist ℝ, PReach (PR ℝ) h ∧ ([[0, ⟨3, 1⟩], [0, ⟨0, -2⟩]] : List (List (Cx ℝ))).length = 2 ^ (0 + 1) ∧
    (∀ row ∈ ([[0, ⟨3, 1⟩], [0, ⟨0, -2⟩]] : List (List (Cx ℝ))), row.length = 2) ∧ 0 + 1 ≤ (h.pkg.ut .m).nvars ∧
    ∃ row ∈ ([[0, ⟨3, 1⟩], [0, ⟨0, -2⟩]] : List (List (Cx ℝ))), ∃ x ∈ row, x ≠ 0 := by
  obtain ⟨h, x, y, A, B, hr, hn, vx, vy, vA, vB, hx, hA, ax, ay, aA, aB, wx, wy, wA, wB⟩ := setup (R := ℝ)
  refine ⟨h, hr, rfl, by simp, by rw [hn]; omega, [0, ⟨3, 1⟩], by simp, ⟨3, 1⟩, by simp, ?_⟩
  intro h0
  have := congrArg Cx.re h0
  simp at this

end DD.Ex
