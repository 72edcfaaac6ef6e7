import Verif.Props.C88

/-!
# C89: two-qubit gates that do not start at qubit 0
-/

namespace DD

open UTable

variable {R : Type} [Field R] [LinearOrder R] [IsStrictOrderedRing R] [HasSqrt R] [LawfulSqrt R] {P : PCfg R}

/-- The diagram of a two-qubit gate over the qubits `start .. n + start - 1` has the entries of the gate on its two targets
and of the identity on all other qubits of the range, whatever the digits of qubits outside the range, and all other
diagrams keep their values. Missing for the full property: `n + start = 128`, for which it is false (`C89_128_false`). -/
theorem C89_gate_partial (hC : P.C.Good) {s : Pkg R} (hs : StartReach P s) (U : Fin 4 → Fin 4 → Cx R) {n t0 t1 start : Nat}
    (ht : t0 ≠ t1) (h0 : start ≤ t0) (h1 : start ≤ t1) (h2 : t0 < n + start) (h3 : t1 < n + start)
    (hn : n + start ≤ (s.ut .m).nvars) (h128 : n + start < 128) :
    ∃ r, Pkg.makeTwoQubitGateDDS P s U n t0 t1 start = some r ∧
      (∀ a b : Nat → Fin 2, Pkg.valueByPath (r.1.ut .m) r.2 (fun q => rc (a q) (b q)) = twoEntryAt U n start t0 t1 a b) ∧
      SameByPath s r.1 := by
  have hsw := hs.swf hC
  obtain ⟨r, e1, _, e2, e3⟩ := makeTwoQubitGateDDS_swf hC.growth hsw U ht h0 h1 h2 h3 hn
  refine ⟨r, e1, fun a b => ?_, e2.same hsw⟩
  rw [e3, upperLines_eq h128 (by omega)]
  unfold twoEntryAt
  by_cases hall : ∀ i < n, start + i ≠ t0 → start + i ≠ t1 → a (start + i) = b (start + i)
  · rw [if_pos hall, if_pos]
    intro q q1 q2 q3 q4
    have := hall (q - start) (by omega)
    rw [Nat.add_sub_cancel' q2] at this
    exact this q3 q4
  · rw [if_neg hall, if_neg]
    intro hc
    exact hall fun i hi q3 q4 => hc _ (by omega) (by omega) q3 q4

/-- If the last qubit of the range is the last qubit of a package of default size, the lines above the larger target are
missing: unless the gate is zero or one of the targets is the last qubit, some entry is wrong. -/
theorem C89_128_false (hC : P.C.Good) {s : Pkg R} (hs : StartReach P s) {U : Fin 4 → Fin 4 → Cx R}
    (hU : ∃ i j, U i j ≠ 0) {n t0 t1 start : Nat} (ht : t0 ≠ t1) (h0 : start ≤ t0) (h1 : start ≤ t1) (h2 : t0 < 127)
    (h3 : t1 < 127) (hn : n + start = 128) (hv : 128 ≤ (s.ut .m).nvars) :
    ∃ r, Pkg.makeTwoQubitGateDDS P s U n t0 t1 start = some r ∧ ∃ a b : Nat → Fin 2,
      Pkg.valueByPath (r.1.ut .m) r.2 (fun q => rc (a q) (b q)) ≠ twoEntryAt U n start t0 t1 a b := by
  obtain ⟨r, e1, _, _, e3⟩ := makeTwoQubitGateDDS_swf hC.growth (hs.swf hC) U ht h0 h1 (by omega : t0 < n + start) (by omega)
    (by omega)
  obtain ⟨i, j, hij⟩ := hU
  have hup : Pkg.upperLines (n + start) (max t0 t1) = 0 := by
    unfold Pkg.upperLines
    have : Pkg.toQubit (n + start) = -128 := by rw [hn]; decide
    rw [this]; omega
  have hp : ∀ i : Fin 4, pair (Pkg.hi2 i) (Pkg.lo2 i) = i := by decide
  refine ⟨r, e1, fun q => if q = t0 then Pkg.hi2 i else if q = t1 then Pkg.lo2 i else 0,
    fun q => if q = t0 then Pkg.hi2 j else if q = t1 then Pkg.lo2 j else if q = 127 then 1 else 0, ?_⟩
  rw [e3, hup, if_pos]
  · have h0' : twoEntryAt U n start t0 t1 (fun q => if q = t0 then Pkg.hi2 i else if q = t1 then Pkg.lo2 i else 0)
        (fun q => if q = t0 then Pkg.hi2 j else if q = t1 then Pkg.lo2 j else if q = 127 then 1 else 0) = 0 := by
      refine if_neg fun hc => ?_
      have := hc (127 - start) (by omega) (by omega) (by omega)
      rw [Nat.add_sub_cancel' (by omega)] at this
      simp only [if_neg (show 127 ≠ t0 by omega), if_neg (show 127 ≠ t1 by omega), if_true] at this
      exact absurd this (by decide)
    rw [h0']
    simp only [if_true, if_neg (Ne.symm ht), hp]
    exact hij
  · intro q q1 _ q3 q4
    simp only [if_neg q3, if_neg q4, if_neg (show q ≠ 127 by omega)]

omit [LawfulSqrt R] in
/-- A range that does not fit the package is rejected. -/
theorem C89_error (s : Pkg R) (U : Fin 4 → Fin 4 → Cx R) {n start : Nat} (t0 t1 : Nat) :
    Pkg.makeTwoQubitGateDDS P s U n t0 t1 start = none ↔ n + start > (s.ut .m).nvars := by
  unfold Pkg.makeTwoQubitGateDDS
  by_cases hn : n + start > (s.ut .m).nvars
  · rw [if_pos hn]; exact ⟨fun _ => hn, fun _ => rfl⟩
  · rw [if_neg hn]; exact ⟨fun h => absurd h (by simp), fun h => absurd h hn⟩

omit [LawfulSqrt R] in
/-- With `start = 0` this is the gate of C32. -/
theorem C89_default (s : Pkg R) (U : Fin 4 → Fin 4 → Cx R) (n : Nat) {t0 t1 : Nat} (ht : t0 ≠ t1) :
    Pkg.makeTwoQubitGateDDS P s U n t0 t1 0 = Pkg.makeTwoQubitGateDD P s U n t0 t1 := by
  have hlo : max 0 (min t0 t1) = min t0 t1 := by omega
  have hhi : max (min t0 t1 + 1) (max t0 t1) = max t0 t1 := by omega
  unfold Pkg.makeTwoQubitGateDDS Pkg.makeTwoQubitGateDD
  simp only [hlo, hhi, Nat.add_zero, Nat.sub_zero]

omit [LawfulSqrt R] in
/-- Equal targets are not rejected: the gate is built on the given qubit and the next one. -/
theorem C89_equal_false (s : Pkg R) (U : Fin 4 → Fin 4 → Cx R) (n : Nat) {t start : Nat} (hs : start ≤ t) :
    Pkg.makeTwoQubitGateDDS P s U n t t start = Pkg.makeTwoQubitGateDDS P s U n t (t + 1) start := by
  unfold Pkg.makeTwoQubitGateDDS
  have h1 : max start (min t t) = t := by omega
  have h2 : max start (min t (t + 1)) = t := by omega
  have h3 : max (t + 1) (max t t) = t + 1 := by omega
  have h4 : max (t + 1) (max t (t + 1)) = t + 1 := by omega
  simp only [h1, h2, h3, h4, gt_iff_lt, lt_irrefl, show ¬ t + 1 < t by omega, if_false]

omit [LawfulSqrt R] in
/-- A target below the range is not rejected: the gate is built on the first qubit of the range instead, and if the
other target is that qubit or also below, on the second qubit of the range instead of the other target. -/
theorem C89_below_false (s : Pkg R) (U : Fin 4 → Fin 4 → Cx R) (n : Nat) {t0 t1 start : Nat} (h0 : t0 < t1) (hs : t0 < start) :
    Pkg.makeTwoQubitGateDDS P s U n t0 t1 start = Pkg.makeTwoQubitGateDDS P s U n start (max (start + 1) t1) start ∧
    Pkg.makeTwoQubitGateDDS P s U n t1 t0 start = Pkg.makeTwoQubitGateDDS P s U n (max (start + 1) t1) start start := by
  have h1 : max start (min t0 t1) = start := by omega
  have h2 : max start (min start (max (start + 1) t1)) = start := by omega
  have h3 : max (start + 1) (max t0 t1) = max (start + 1) t1 := by omega
  have h4 : max (start + 1) (max start (max (start + 1) t1)) = max (start + 1) t1 := by omega
  have h1' : max start (min t1 t0) = start := by omega
  have h2' : max start (min (max (start + 1) t1) start) = start := by omega
  have h3' : max (start + 1) (max t1 t0) = max (start + 1) t1 := by omega
  have h4' : max (start + 1) (max (max (start + 1) t1) start) = max (start + 1) t1 := by omega
  unfold Pkg.makeTwoQubitGateDDS
  constructor
  · simp only [h1, h2, h3, h4, gt_iff_lt, show ¬ t1 < t0 by omega, show ¬ max (start + 1) t1 < start by omega, if_false]
  · simp only [h1', h2', h3', h4', gt_iff_lt, h0, show start < max (start + 1) t1 by omega, if_true]

end DD

namespace DD.Ex

/-- The hypotheses of `C89_gate_partial` are met after a two-qubit gate has been built above qubit 1. -/
example : ∃ s : Pkg ℝ, StartReach (PR ℝ) s ∧ 4 + 2 ≤ (s.ut .m).nvars ∧ 4 + 2 < 128 := by
  obtain ⟨h, x, y, A, B, hr, hn, vx, vy, vA, vB, hx, hA, ax, ay, aA, aB, wx, wy, wA, wB⟩ := setup (R := ℝ)
  have hC := PR_good ℝ
  have hsw := (hr.inv hC).wf.swf
  obtain ⟨r, e1, _, e3, _⟩ := makeTwoQubitGateDDS_swf hC.growth hsw (fun i j => if i = j then 1 else 0)
    (n := 3) (t0 := 4) (t1 := 2) (start := 2) (by omega) (by omega) (by omega) (by omega) (by omega) (by rw [hn]; omega)
  refine ⟨r.1, .two (.base hr) (by omega) (by omega) (by omega) (by omega) (by omega) e1, ?_, by omega⟩
  rw [(e3 .m).2, hn]

/-- The hypotheses of `C89_128_false` are met by a new package of default size. -/
example : ∃ s : Pkg ℝ, StartReach (PR ℝ) s ∧ 128 ≤ (s.ut .m).nvars ∧
    ∃ i j : Fin 4, (fun i j => if i = j then 1 else 0 : Fin 4 → Fin 4 → Cx ℝ) i j ≠ 0 := by
  let h0 : PHist ℝ := ⟨Pkg.init (PR ℝ) 128 1 1 ⟨0, fun _ => zeroE, 0, false, false⟩ ⟨0, fun _ => zeroE, 0, false, false⟩, fun _ => []⟩
  have r0 : PReach (PR ℝ) h0 := ⟨h0, .init 128 1 1 _ _ (by decide) (by decide) (by decide), .refl⟩
  exact ⟨h0.pkg, .base r0, le_refl 128, 0, 0, by simp⟩

end DD.Ex
