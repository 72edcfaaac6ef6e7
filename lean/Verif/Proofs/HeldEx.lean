import Verif.Proofs.RealEx
import Verif.Proofs.Measure

/-!
# Examples: packages that hold a given vector or matrix
-/

namespace DD.Ex

variable {R : Type} [Field R] [LinearOrder R] [IsStrictOrderedRing R] [HasSqrt R] [LawfulSqrt R]

theorem start : ∃ h : PHist R, PReach (PR R) h ∧ ∀ k, (h.pkg.ut k).nvars = 6 := by
  let h0 : PHist R := ⟨Pkg.init (PR R) 6 1 1 ⟨0, fun _ => zeroE, 0, false, false⟩ ⟨0, fun _ => zeroE, 0, false, false⟩, fun _ => []⟩
  exact ⟨h0, ⟨h0, .init 6 1 1 _ _ (by decide) (by decide) (by decide), .refl⟩, by intro k; cases k <;> rfl⟩

/-- A reachable package in which a reference to the given matrix is held. -/
theorem matrix_held (l : Nat) (hl : 0 < l ∧ l ≤ 6) (M : List (List (Cx R))) (hM : M.length = 2 ^ l) (hrow : ∀ row ∈ M, row.length = M.length) :
    ∃ (h : PHist R) (e : PEdge R), PReach (PR R) h ∧ e ∈ h.held .m ∧ Valid (h.pkg.ut .m) l e ∧
      mat (h.pkg.ut .m) l e = fun a b => (M.getD (bitIdx a) []).getD (bitIdx b) 0 := by
  have hC := PR_good R
  obtain ⟨h, hr, hn⟩ := start (R := R)
  obtain ⟨r, e1, o⟩ := makeDDFromMatrix_spec (l := l) hC.growth (hr.inv hC).wf (M := M) hM hrow (by rw [hn]; omega)
  have r1 := hr.step (.makeDDFromMatrix M r (by rw [hn, hM]; exact Nat.pow_le_pow_right (by decide) hl.2) hrow e1)
  have r2 := r1.step (.incRef .m l r.2 o.valid)
  have u := r1.inc_unchanged hC o.valid
  refine ⟨_, r.2, r2, by simp, (u _ _ _ o.valid).1, ?_⟩
  rw [show mat ((Pkg.incRef (PR R) .m r.1 r.2).ut .m) l r.2 = mat (r.1.ut .m) l r.2 from u.mat o.valid]
  rw [o.mat_eq]
  funext a b
  have e1 : rowD (fun i => rc (a i) (b i)) = a := funext fun i => hi2_rc _ _
  have e2 : colD (fun i => rc (a i) (b i)) = b := funext fun i => lo2_rc _ _
  rw [e1, e2]

/-- A reachable package in which a reference to the given vector is held. -/
theorem vector_held (l : Nat) (hl : 0 < l ∧ l ≤ 6) (V : List (Cx R)) (hV : V.length = 2 ^ l) :
    ∃ (h : PHist R) (e : PEdge R), PReach (PR R) h ∧ e ∈ h.held .v ∧ Valid (h.pkg.ut .v) l e ∧
      vec (h.pkg.ut .v) l e = fun a => V.getD (bitIdx a) 0 := by
  have hC := PR_good R
  obtain ⟨h, hr, hn⟩ := start (R := R)
  obtain ⟨r, e1, o⟩ := makeStateFromVector_spec (l := l) hC.growth (hr.inv hC).wf (xs := V) hV (by rw [hn]; omega)
  have r1 := hr.step (.makeStateFromVector V r (by rw [hn, hV]; exact Nat.pow_le_pow_right (by decide) hl.2) e1)
  have r2 := r1.step (.incRef .v l r.2 o.valid)
  have u := r1.inc_unchanged hC o.valid
  refine ⟨_, r.2, r2, by simp, (u _ _ _ o.valid).1, ?_⟩
  rw [show vec ((Pkg.incRef (PR R) .v r.1 r.2).ut .v) l r.2 = vec (r.1.ut .v) l r.2 from u.vec o.valid]
  exact o.vec_eq

end DD.Ex
