import Verif.Model.Output
import Verif.Props.C34
import Verif.Props.C38

/-!
# C72: initial matrices
-/

namespace DD

variable {R : Type} [Field R] [LinearOrder R] [IsStrictOrderedRing R] [HasSqrt R] [LawfulSqrt R] {P : PCfg R} {h : PHist R}

open Classical in
/-- `createInitialMatrix(n, ancillary)` does not throw, for any mask of any length. It returns the projector to the basis states in which all
ancillas are 0; the caller holds one more reference, the one to the result; all other diagrams stay as they are. -/
theorem C72_initial (hC : P.C.Good) (hr : PReach P h) {n : Nat} (hn : n ≤ (h.pkg.ut .m).nvars) (ancillary : List Bool) :
    ∃ r, Pkg.createInitialMatrix P h.pkg n ancillary = some r ∧ Valid (r.1.ut .m) n r.2 ∧
      (∀ a b, mat (r.1.ut .m) n r.2 a b = if a = b ∧ ∀ i : Fin n, ancillary.getD i false = true → a i = 0 then 1 else 0) ∧
      Unchanged h.pkg r.1 ∧
      ∃ h' : PHist R, PReach P h' ∧ h'.pkg = r.1 ∧ (h'.held .m).Perm (r.2 :: h.held .m) ∧ ∀ k, k ≠ .m → h'.held k = h.held k := by
  obtain ⟨v1, m1, u1⟩ := C34_identity_partial hC hr hn
  have r1 := hr.step (PStep.makeIdent n hn)
  have r2 := r1.step (PStep.incRef .m n _ v1)
  have u2 := r1.inc_unchanged hC v1
  have v2 := u2 .m n _ v1
  have m2 : mat ((((Pkg.makeIdent P h.pkg n).1.incRef P .m (Pkg.makeIdent P h.pkg n).2)).ut .m) n (Pkg.makeIdent P h.pkg n).2 = 1 := by
    rw [← m1]
    funext a b
    exact congrFun v2.2 _
  obtain ⟨r, ⟨c1, c2, c3, h', c4, c5, c6, c7⟩, hm⟩ := C38_flat_partial (c := 1) hC r2 (e := (Pkg.makeIdent P h.pkg n).2)
    (by simp) v2.1 (fun a b => by
      show mat _ n _ a b = 0 ∨ mat _ n _ a b = 1
      dsimp only
      rw [m2, Matrix.one_apply]
      by_cases hab : a = b
      · rw [if_pos hab]; exact .inr rfl
      · rw [if_neg hab]; exact .inl rfl) ancillary true
  refine ⟨r, c1, c2, fun a b => ?_, fun k l e hv => ?_, h', c4, c5, ?_, fun k hk => ?_⟩
  · rw [hm]
    dsimp only
    rw [m2]
    unfold ancMat
    rw [Matrix.one_apply]
    by_cases hab : a = b
    · subst hab
      by_cases hR : Raised ancillary a
      · rw [if_pos (by simpa using hR), if_neg]
        rintro ⟨-, h0⟩
        obtain ⟨i, h1, h2⟩ := hR
        rw [h0 i h1] at h2
        exact absurd h2 (by decide)
      · rw [if_neg (by simpa using hR), if_pos rfl, if_pos]
        refine ⟨rfl, fun i hi => ?_⟩
        by_contra h0
        exact hR ⟨i, hi, by omega⟩
    · rw [if_neg hab, ite_self, if_neg (fun h => hab h.1)]
  · have a1 := u1 k l e hv
    have a2 := u2 k l e a1.1
    have a3 := c3 k l e a2.1
    exact ⟨a3.1, a3.2.trans (a2.2.trans a1.2)⟩
  · refine c6.trans ?_
    dsimp only
    rw [Function.update_self, List.erase_cons_head]
  · rw [c7 k hk]
    dsimp only
    rw [Function.update_of_ne hk]

/-- Without ancillas this is the identity. -/
theorem C72_identity (hC : P.C.Good) (hr : PReach P h) {n : Nat} (hn : n ≤ (h.pkg.ut .m).nvars) {ancillary : List Bool}
    (ha : ∀ i < n, ancillary.getD i false = false) :
    ∃ r, Pkg.createInitialMatrix P h.pkg n ancillary = some r ∧ mat (r.1.ut .m) n r.2 = 1 := by
  obtain ⟨r, c1, -, m, -⟩ := C72_initial hC hr hn ancillary
  refine ⟨r, c1, ?_⟩
  funext a b
  rw [m, Matrix.one_apply]
  by_cases hab : a = b
  · rw [if_pos hab, if_pos ⟨hab, fun i hi => by rw [ha i i.isLt] at hi; cases hi⟩]
  · rw [if_neg hab, if_neg fun h => hab h.1]

namespace Ex

/-- Three qubits, the one in the middle is an ancilla, in a package that already holds diagrams. -/
example : ∃ h : PHist ℝ, PReach (PR ℝ) h ∧ (∃ x ∈ h.held .m, x.w ≠ 0) ∧
    ∃ r, Pkg.createInitialMatrix (PR ℝ) h.pkg 3 [false, true, false] = some r ∧
      mat (r.1.ut .m) 3 r.2 ![1, 0, 1] ![1, 0, 1] = 1 ∧ mat (r.1.ut .m) 3 r.2 ![1, 1, 1] ![1, 1, 1] = 0 := by
  obtain ⟨h, x, y, A, B, hr, hn, vx, vy, vA, vB, hx, hA, ax, ay, aA, aB, wx, wy, wA, wB⟩ := setup (R := ℝ)
  obtain ⟨r, c1, -, m, -⟩ := C72_initial (PR_good ℝ) hr (n := 3) (by rw [hn]; omega) [false, true, false]
  refine ⟨h, hr, ⟨A, hA, wA⟩, r, c1, ?_, ?_⟩
  · rw [m, if_pos]
    exact ⟨rfl, fun i hi => by fin_cases i <;> simp_all⟩
  · rw [m, if_neg]
    rintro ⟨-, h⟩
    have := h 1 (by simp)
    simp at this

end Ex
end DD
