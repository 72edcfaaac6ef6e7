import Verif.Model.Output
import Verif.Proofs.RealEx
import Verif.Proofs.Read

/-!
# C73: printed vectors and matrices
-/

namespace DD

variable {R : Type} [Field R] [LinearOrder R] [IsStrictOrderedRing R] [HasSqrt R] [LawfulSqrt R] {P : PCfg R} {h : PHist R}

theorem dim64_eq {v : Nat} (hv : v < 63) : Pkg.dim64 v = some (2 ^ (v + 1)) := by
  unfold Pkg.dim64
  rw [if_pos (by omega), Nat.shiftLeft_eq, ← Nat.pow_succ', Nat.mod_eq_of_lt (Nat.pow_lt_pow_right (by omega) (by omega))]

/-- `printVector` of a vector of up to 63 qubits other than zero: one line for each index in ascending order. Line `i` shows the bits of `i`,
that of the topmost qubit first, and the amplitude of the basis state in which each qubit `q` has the value of bit `q` of `i`. -/
theorem C73_vector (hC : P.C.Good) (hr : PReach P h) {l : Nat} (h0 : 0 < l) (h64 : l < 64) {e : PEdge R} (hv : Valid (h.pkg.ut .v) l e)
    (hw : e.w ≠ 0) :
    ∃ lines, Pkg.printVector (h.pkg.ut .v) e = some lines ∧ lines.length = 2 ^ l ∧
      ∀ i (hi : i < lines.length), lines[i].1.length = l ∧
        (∀ q (hq : q < lines[i].1.length), lines[i].1[q] = i.testBit (l - 1 - q)) ∧
        lines[i].2 = vec (h.pkg.ut .v) l e (fun q => if i.testBit q then 1 else 0) := by
  obtain ⟨m, rfl⟩ : ∃ m, l = m + 1 := ⟨l - 1, by omega⟩
  obtain ⟨a, hp, -, -⟩ := hv.exists_node hw
  obtain ⟨v1, v2, v3⟩ := (valid_some hp).1 hv
  have v2 : ((h.pkg.ut .v).mem a).v = m := by omega
  unfold Pkg.printVector
  rw [hp]
  dsimp only
  rw [v2, dim64_eq (by omega)]
  refine ⟨_, rfl, by simp, fun i hi => ?_⟩
  simp only [List.getElem_map, List.getElem_range]
  refine ⟨by simp, fun q hq => ?_, ?_⟩
  · simp only [List.getElem_map, List.getElem_reverse, List.getElem_range, List.length_range]
  · rw [valueV_spec ((hr.inv hC).wf.tab .v).child hv]
    rfl

/-- `printMatrix` of a matrix of up to 63 qubits other than zero: the entries, row by row. -/
theorem C73_matrix (hC : P.C.Good) (hr : PReach P h) {l : Nat} (h0 : 0 < l) (h64 : l < 64) {e : PEdge R} (hv : Valid (h.pkg.ut .m) l e)
    (hw : e.w ≠ 0) :
    ∃ rows, Pkg.printMatrix (h.pkg.ut .m) e = some rows ∧ rows.length = 2 ^ l ∧
      ∀ i (hi : i < rows.length), rows[i].length = 2 ^ l ∧ ∀ j (hj : j < rows[i].length),
        rows[i][j] = mat (h.pkg.ut .m) l e (fun q => if i.testBit q then 1 else 0) (fun q => if j.testBit q then 1 else 0) := by
  obtain ⟨m, rfl⟩ : ∃ m, l = m + 1 := ⟨l - 1, by omega⟩
  obtain ⟨a, hp, -, -⟩ := hv.exists_node hw
  obtain ⟨v1, v2, v3⟩ := (valid_some hp).1 hv
  have v2 : ((h.pkg.ut .m).mem a).v = m := by omega
  unfold Pkg.printMatrix
  rw [hp]
  dsimp only
  rw [v2, dim64_eq (by omega)]
  refine ⟨_, rfl, by simp, fun i hi => ?_⟩
  simp only [List.getElem_map, List.getElem_range]
  refine ⟨by simp, fun j hj => ?_⟩
  rw [valueM_spec ((hr.inv hC).wf.tab .m).child hv]
  rfl

omit [LinearOrder R] [IsStrictOrderedRing R] [HasSqrt R] [LawfulSqrt R] in
/-- What is excluded: for 64 qubits nothing is printed because the number of lines wraps around to 0; for more, for scalars and for the zero
vector the call is undefined behaviour (a shift by too many or a negative number of places). -/
theorem C73_excluded [DecidableEq R] {t : UTable (Cx R) 2} {e : PEdge R} :
    (e.p = none → Pkg.printVector t e = none) ∧
    ∀ a, e.p = some a → ((t.mem a).v = 63 → Pkg.printVector t e = some []) ∧ (63 < (t.mem a).v → Pkg.printVector t e = none) := by
  refine ⟨fun h => by unfold Pkg.printVector; rw [h], fun a h => ⟨fun hv => ?_, fun hv => ?_⟩⟩
  · unfold Pkg.printVector
    rw [h]
    dsimp only
    rw [hv]
    rfl
  · unfold Pkg.printVector Pkg.dim64
    rw [h]
    dsimp only
    rw [if_neg (by omega)]
    rfl

namespace Ex

/-- The hypotheses are met. -/
example : ∃ (h : PHist ℝ) (x A : PEdge ℝ), PReach (PR ℝ) h ∧ Valid (h.pkg.ut .v) 3 x ∧ x.w ≠ 0 ∧ Valid (h.pkg.ut .m) 3 A ∧ A.w ≠ 0 := by
  obtain ⟨h, x, y, A, B, hr, hn, vx, vy, vA, vB, hx, hA, ax, ay, aA, aB, wx, wy, wA, wB⟩ := setup (R := ℝ)
  exact ⟨h, x, A, hr, vx, wx, vA, wA⟩

end Ex
end DD
