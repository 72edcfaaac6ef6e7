import Verif.Props.C79
import Verif.Props.C78

/-!
# C80 Entries and traces of matrices are accurate up to the tolerance

The specification is in ApproxSpec.lean.
-/

namespace DD

open Pkg UTable JState

variable {R : Type} [Field R] [LinearOrder R] [IsStrictOrderedRing R] [FloorRing R] {J : JCfg R} {τ : R} {s s' : JState R}
variable [HasSqrt R] [LawfulSqrt R]

/-- **C80.** `getMatrix` and `getValueByPath`: the error of an entry, where `K` bounds the sums of two weights in a row or column of the nodes,
`W` the weight of the diagram. -/
theorem C80_entries (hJ : J.Good) (hτ : 0 ≤ τ) (hτ1 : τ < 1) (hR : J.Rounds τ) (hr : TReach J τ s) {n : Nat} {x : PtrEdge} (hx : s.ValidM J n x)
    {K : Nat → R} (hK : ∀ j, 1 ≤ K j) (hxK : s.RowCol J K n x.p) {W : R} (hW : 1 ≤ W) (hw : mag (s.ct.cval J.C x.w) ≤ W) (r c : Fin n → Fin 2) :
    mag (s.getMatrix J n x r c - s.matJ J n x r c) ≤ 2 * τ * ((n : R) + 1) * (∏ j ∈ Finset.range n, K j) * (1 + τ / 25) ^ n * W := by
  have h := readMF_acc hJ hτ hτ1 (hr.inv hJ hR hτ) hK n x ⟨1, 0⟩ r c W 1 (validM_kn hx) hxK hW le_rfl hw (le_of_eq mag_one)
  have e1 : (⟨1, 0⟩ : Cx R) = 1 := rfl
  rw [e1, one_mul] at h
  refine h.trans ?_
  have n0 : (0 : R) ≤ n := Nat.cast_nonneg n
  have k1 : (1 : R) ≤ kappa K n := kappa_one hK n
  have p1 : rho τ ^ n ≤ (1 + τ / 25) ^ n := pow_le_pow_left₀ (by have := rho_one hτ; linarith) (rho_le τ) n
  have a : 0 ≤ 2 * τ * ((n : R) + 1) * kappa K n * W := by
    have : 0 ≤ kappa K n := by linarith
    positivity
  have := mul_le_mul_of_nonneg_left p1 a
  have e2 : ∏ j ∈ Finset.range n, K j = kappa K n := rfl
  rw [e2]
  linarith

/-- The full trace only looks up numbers. -/
theorem traceF_reach : ∀ (l : Nat) (s : JState R) (a : PtrEdge), TReach J τ s → TReach J τ (JState.traceF J l s a).1 := by
  intro l
  induction l with
  | zero =>
    intro s a h
    unfold JState.traceF
    split_ifs
    · exact h
    · cases a.p <;> exact h
  | succ l ih =>
    intro s a h
    unfold JState.traceF
    split_ifs
    · exact h
    · cases a.p with
      | none => exact h
      | some b => exact lookupC_reach (ih _ _ (ih _ _ h)) _

/-- **C80.** `trace`: no node is created, and the result is the sum of the diagonal up to the tolerance. -/
theorem C80_trace (hJ : J.Good) (hτ : 0 ≤ τ) (hR : J.Rounds τ) (hr : TReach J τ s) {n : Nat} (hn : 1000 * ((n : R) + 1) * τ ≤ 1) {x : PtrEdge}
    (hx : s.ValidM J n x) {K : Nat → R} (hK : ∀ j, 1 ≤ K j) (hxK : s.RowCol J K n x.p) {W : R} (hW : 1 ≤ W) (hw : mag (s.ct.cval J.C x.w) ≤ W) :
    TReach J τ (s.trace J x).1 ∧ (s.trace J x).1.tab = s.tab ∧ s.Keeps J (s.trace J x).1 ∧
    mag ((s.trace J x).2 - ∑ d, s.matJ J n x d d) ≤ 4 * τ * ((n : R) + 1) * 2 ^ n * (∏ j ∈ Finset.range n, K j) * W := by
  have hi := hr.inv hJ hR hτ
  have n0 : (0 : R) ≤ n := Nat.cast_nonneg n
  have key : (s.lvlM x.p = n ∨ (x.p = none ∧ x.w = CNum.zero)) := by
    have h3 := hx.2.2
    cases hp : x.p with
    | none =>
      rw [hp] at h3
      rcases h3 with h3 | h3
      · left; subst h3; rfl
      · exact Or.inr ⟨rfl, h3⟩
    | some a =>
      rw [hp] at h3
      exact Or.inl h3.2
  have es : ∑ d, s.matJ J n x d d = s.ct.cval J.C x.w * s.trN J n x.p := by
    unfold JState.trN
    rw [Finset.mul_sum]
    exact Finset.sum_congr rfl fun d _ => matJ_eq ..
  rcases key with hl | ⟨hp, hz⟩
  · have h := traceF_acc hJ hτ hK n s x W hn hi (validM_kn hx) hxK hW hw
    have et : s.trace J x = ((JState.traceF J n s x).1, (JState.traceF J n s x).1.ct.cval J.C (JState.traceF J n s x).2) := by
      unfold JState.trace
      rw [hl]
    rw [et, es]
    refine ⟨traceF_reach n s x hr, h.tab, h.grow.keeps hJ hτ hi h.inv, h.err.trans (le_of_eq ?_)⟩
    have e2 : ∏ j ∈ Finset.range n, K j = kappa K n := rfl
    rw [e2]
    ring
  · have ez : s.ct.zeroV (s.ct.cval J.C x.w) = true := by
      rw [hz, cval_zero]
      exact zeroV_zero (by rw [hi.tol hJ hτ]; exact hτ)
    have et : s.trace J x = (s, 0) := by
      unfold JState.trace JState.traceF
      rw [if_pos ez]
      dsimp only
      rw [cval_zero]
    rw [et, es, hz, cval_zero, zero_mul, sub_zero, mag_zero]
    have k1 : (1 : R) ≤ ∏ j ∈ Finset.range n, K j := kappa_one hK n
    have k0 : 0 ≤ ∏ j ∈ Finset.range n, K j := by linarith
    exact ⟨hr, rfl, (Grow.refl s).keeps hJ hτ hi hi, by positivity⟩

/-- **C80.** A gate that is built by `makeGateDD`: its entries and its trace. -/
theorem C80_gate (hJ : J.Good) (hτ : 0 ≤ τ) (hR : J.Rounds τ) (hr : TReach J τ s) {n : Nat} (hnv : n ≤ (s.tab .m).tab.nvars)
    (hz : 1000 * ((n : R) + 1) * τ ≤ 1) {g : CGate R n} (hU : GateOk τ g.U) :
    ∃ s1 e, s.makeGateDD J g.U n g.controls g.target = some (s1, e) ∧ TReach J τ s1 ∧
      (∀ r c, mag (s1.getMatrix J n e r c - g.mat r c) ≤ 125 * τ * ((n : R) + 1)) ∧
      TReach J τ (s1.trace J e).1 ∧ (∀ k, ((s1.trace J e).1.tab k).held = (s.tab k).held) ∧
      mag ((s1.trace J e).2 - ∑ d, g.mat d d) ≤ 130 * τ * ((n : R) + 1) * 2 ^ n := by
  have n0 : (0 : R) ≤ n := Nat.cast_nonneg n
  have e0 : 1000 * ((n : R) + 1) * τ = 1000 * ((n : R) * τ) + 1000 * τ := by ring
  have hnτ := mul_nonneg n0 hτ
  obtain ⟨s1, e, hg, r1, v1, -, b1, w1, K, hK, hKr, hKp⟩ := C74_gate hJ hτ hR hr hnv hz hU g.good
  have m0 : 0 ≤ τ * ((n : R) + 1) := by positivity
  have ent : ∀ r c, mag (s1.matJ J n e r c - g.mat r c) ≤ 120 * τ * ((n : R) + 1) := fun r c =>
    (Finset.single_le_sum (f := fun c => mag (s1.matJ J n e r c - g.mat r c)) (fun _ _ => mag_nonneg _) (Finset.mem_univ c)).trans (b1 r)
  have hX : (1 : R) ≤ 1 + 3 / 2 * τ := by linarith
  obtain ⟨t1, t2, -, t4⟩ := C80_trace hJ hτ hR r1 hz v1 hK hKr hX w1
  have k1 : (1 : R) ≤ ∏ j ∈ Finset.range n, K j := kappa_one hK n
  refine ⟨s1, e, hg, r1, fun r c => ?_, t1, fun k => by rw [t2]; exact congrFun (heldOf_makeGateDD hg) k, ?_⟩
  · have h1 := C80_entries hJ hτ (lt_one_of_small hτ hz) hR r1 v1 hK hKr hX w1 r c
    refine (mag_tri _ (s1.matJ J n e r c) _).trans ?_
    have h2 : (1 + τ / 25) ^ n ≤ 1001 / 1000 := by
      have h3 := bernoulli (x := τ / 25) (by linarith) n
      have h4 : (n : R) * (τ / 25) ≤ 1 / 25000 := by
        have e : (n : R) * (τ / 25) = ((n : R) * τ) / 25 := by ring
        rw [e]
        linarith
      have h5 : 0 ≤ (1 + τ / 25) ^ n := by positivity
      have h6 : (1 + τ / 25) ^ n * (1 - 1 / 25000) ≤ 1 := le_trans (mul_le_mul_of_nonneg_left (by linarith) h5) h3
      linarith
    have h3 : (∏ j ∈ Finset.range n, K j) * (1 + τ / 25) ^ n * (1 + 3 / 2 * τ) ≤ 53 / 25 * (1001 / 1000) * (1002 / 1000) :=
      mul_le_mul (mul_le_mul hKp h2 (by positivity) (by norm_num)) (by linarith) (by linarith) (by norm_num)
    have h4 := mul_le_mul_of_nonneg_left h3 m0
    have h5 := ent r c
    have e1 : 2 * τ * ((n : R) + 1) * (∏ j ∈ Finset.range n, K j) * (1 + τ / 25) ^ n * (1 + 3 / 2 * τ) =
      2 * (τ * ((n : R) + 1) * ((∏ j ∈ Finset.range n, K j) * (1 + τ / 25) ^ n * (1 + 3 / 2 * τ))) := by ring
    rw [e1] at h1
    linarith
  · refine (mag_tri _ (∑ d, s1.matJ J n e d d) _).trans ?_
    have p0 : (0 : R) ≤ 2 ^ n := by positivity
    have h5 : mag (∑ d, s1.matJ J n e d d - ∑ d, g.mat d d) ≤ 2 ^ n * (120 * τ * ((n : R) + 1)) := by
      rw [← Finset.sum_sub_distrib]
      refine (mag_sum _ _).trans ((Finset.sum_le_sum fun d _ => ent d d).trans (le_of_eq ?_))
      rw [Finset.sum_const, Finset.card_univ, Fintype.card_fun, Fintype.card_fin, Fintype.card_fin, nsmul_eq_mul]
      push_cast
      rfl
    have h3 : (∏ j ∈ Finset.range n, K j) * (1 + 3 / 2 * τ) ≤ 53 / 25 * (1002 / 1000) :=
      mul_le_mul hKp (by linarith) (by linarith) (by norm_num)
    have h4 := mul_le_mul_of_nonneg_left h3 (mul_nonneg m0 p0)
    have e1 : 4 * τ * ((n : R) + 1) * 2 ^ n * (∏ j ∈ Finset.range n, K j) * (1 + 3 / 2 * τ) =
      4 * (τ * ((n : R) + 1) * 2 ^ n * ((∏ j ∈ Finset.range n, K j) * (1 + 3 / 2 * τ))) := by ring
    rw [e1] at t4
    have := mul_nonneg m0 p0
    linarith

/-- **C80.** With tolerance 0 entries and traces are exact. -/
theorem C80_exact (hJ : J.Good) (hR : J.Rounds 0) (hr : TReach J 0 s) {n : Nat} {x : PtrEdge} (hx : s.ValidM J n x) :
    s.getMatrix J n x = s.matJ J n x ∧ (s.trace J x).2 = ∑ d, s.matJ J n x d d := by
  have hi := hr.inv hJ hR (le_refl 0)
  obtain ⟨K, hK, hxK⟩ : ∃ K : Nat → R, (∀ j, 1 ≤ K j) ∧ s.RowCol J K n x.p := by
    obtain ⟨K, hK⟩ := rowCol_exists (J := J) (s := s) n x.p
    exact ⟨K, hK⟩
  have hw : mag (s.ct.cval J.C x.w) ≤ 1 + mag (s.ct.cval J.C x.w) := by linarith
  have hW : 1 ≤ 1 + mag (s.ct.cval J.C x.w) := by linarith [mag_nonneg (s.ct.cval J.C x.w)]
  constructor
  · funext r c
    have h := C80_entries hJ (le_refl 0) one_pos hR hr hx hK hxK hW hw r c
    rw [mul_zero, zero_mul, zero_mul, zero_mul, zero_mul] at h
    exact sub_eq_zero.1 (mag_eq_zero (le_antisymm h (mag_nonneg _)))
  · have h := (C80_trace hJ (le_refl 0) hR hr (by rw [mul_zero]; exact zero_le_one) hx hK hxK hW hw).2.2.2
    rw [mul_zero, zero_mul, zero_mul, zero_mul, zero_mul] at h
    exact sub_eq_zero.1 (mag_eq_zero (le_antisymm h (mag_nonneg _)))

/-- **C80.** With tolerance 0 a matrix that is imported is exported unchanged, and its trace is that of the matrix. -/
theorem C80_round_trip (hJ : J.Good) (hR : J.Rounds 0) (hr : TReach J 0 s) {n : Nat} (hn : n ≤ (s.tab .m).tab.nvars) (M : List (List (Cx R)))
    (hl : M.length = 2 ^ n) (hw : (M.getD 0 []).length = 2 ^ n) :
    ∃ s' e, s.makeDDFromMatrix J M = some (s', e) ∧ (∀ r c : Fin n → Fin 2, s'.getMatrix J n e r c = (M.getD (bitIdx r) []).getD (bitIdx c) 0) ∧
      (s'.trace J e).2 = ∑ d : Fin n → Fin 2, (M.getD (bitIdx d) []).getD (bitIdx d) 0 := by
  obtain ⟨B, hB, hM⟩ := entries_bounded (fun i j => (M.getD i []).getD j 0) (2 ^ n)
  obtain ⟨s', e, he, r1, hv, -⟩ := C61_build hJ (le_refl 0) hR hr hn M hl hw hB hM
  obtain ⟨s2, e2, he2, -, hb⟩ := C61_exact hJ hR hr hn M hl hw
  rw [he] at he2
  cases he2
  obtain ⟨h1, h2⟩ := C80_exact hJ hR r1 hv
  refine ⟨s', e, he, fun r c => by rw [h1]; exact hb r c, ?_⟩
  rw [h2]
  exact Finset.sum_congr rfl fun d _ => hb d d

namespace Ex

/-- With the tolerance of the package: a controlled Hadamard gate on ten qubits. -/
example : ∃ s e, (jr (1 / 2 ^ 42) 10).makeGateDD JR hadU 10 [⟨0, true⟩, ⟨7, false⟩] 4 = some (s, e) ∧
    (∀ r c, mag (s.getMatrix JR 10 e r c - gateMat (fun a b => hadU (rc a b)) [⟨0, true⟩, ⟨7, false⟩] (4 : Fin 10) r c) ≤ 1 / 10 ^ 9) ∧
    mag ((s.trace JR e).2 - ∑ d, gateMat (fun a b => hadU (rc a b)) [⟨0, true⟩, ⟨7, false⟩] (4 : Fin 10) d d) ≤ 1 / 10 ^ 6 := by
  have hτ : (0 : ℝ) ≤ 1 / 2 ^ 42 := by norm_num
  obtain ⟨s, e, h1, -, h2, -, -, h3⟩ := C80_gate JR_good hτ (JR_rounds hτ) (jr_reach (1 / 2 ^ 42) 10) (n := 10) (le_refl 10) (by norm_num)
    (g := ⟨hadU, [⟨0, true⟩, ⟨7, false⟩], 4, by constructor <;> decide⟩) (C74_unitary (by norm_num) hadU_unitary)
  exact ⟨s, e, h1, fun r c => (h2 r c).trans (by norm_num), h3.trans (by norm_num)⟩

/-- A matrix that is imported and exported, with tolerance 0. -/
example : ∃ s e, (jr 0 1).makeDDFromMatrix JR [[⟨1, 2⟩, ⟨0, 3⟩], [⟨5, 0⟩, ⟨7, -1⟩]] = some (s, e) ∧
    s.getMatrix JR 1 e ![0] ![1] = ⟨0, 3⟩ ∧ (s.trace JR e).2 = ⟨8, 1⟩ := by
  obtain ⟨s, e, h1, h2, h3⟩ := C80_round_trip JR_good (JR_rounds (le_refl 0)) (jr_reach 0 1) (n := 1) (le_refl 1)
    [[⟨1, 2⟩, ⟨0, 3⟩], [⟨5, 0⟩, ⟨7, -1⟩]] rfl rfl
  have sum2 : ∀ f : (Fin 1 → Fin 2) → Cx ℝ, ∑ c, f c = f ![0] + f ![1] := by
    intro f
    rw [← (Equiv.funUnique (Fin 1) (Fin 2)).symm.sum_comp, Fin.sum_univ_two]
    congr 2 <;> (funext i; fin_cases i; rfl)
  refine ⟨s, e, h1, (h2 _ _).trans (by simp [bitIdx]), h3.trans ?_⟩
  rw [sum2]
  ext <;> simp [bitIdx] <;> norm_num

/-- The square roots that occur in the run. -/
local instance : HasSqrt ℚ := ⟨fun q => if q = 9 / 25 then 3 / 5 else if q = 16 / 25 then 4 / 5 else q⟩

/-- A run with rational numbers and a tolerance: entries and traces of a gate with and without a control. -/
def readRun : Option (List (Cx ℚ)) := do
  let q ← jm.makeGateDD JQ ![⟨3 / 5, 0⟩, ⟨0, 4 / 5⟩, ⟨0, 4 / 5⟩, ⟨3 / 5, 0⟩] 2 [] 1
  let r ← q.1.makeGateDD JQ ![⟨3 / 5, 0⟩, ⟨0, 4 / 5⟩, ⟨0, 4 / 5⟩, ⟨3 / 5, 0⟩] 2 [⟨1, false⟩] 0
  return [r.1.getMatrix JQ 2 q.2 ![1, 0] ![1, 1], r.1.getMatrix JQ 2 q.2 ![1, 0] ![0, 1], r.1.getMatrix JQ 2 r.2 ![0, 0] ![0, 0],
    r.1.getMatrix JQ 2 r.2 ![1, 1] ![0, 1], r.1.getMatrix JQ 2 r.2 ![1, 0] ![0, 0], (r.1.trace JQ q.2).2, (r.1.trace JQ r.2).2]

example : readRun = some [⟨0, 4 / 5⟩, 0, 1, ⟨0, 4 / 5⟩, 0, ⟨12 / 5, 0⟩, ⟨16 / 5, 0⟩] := by decide +kernel

end Ex

end DD
