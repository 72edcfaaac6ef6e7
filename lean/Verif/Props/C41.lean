import Verif.Props.C39
import Verif.Props.C23
import Verif.Props.C31

/-!
# C41: measuring one qubit and collapsing the state
-/

namespace DD

variable {R : Type} [Field R] [LinearOrder R] [IsStrictOrderedRing R] [HasSqrt R] [LawfulSqrt R] {P : PCfg R}
  {h : PHist R}

theorem outProb_nonneg {l : Nat} (x : (Fin l → Fin 2) → Cx R) (q : Fin l) (b : Fin 2) : 0 ≤ outProb x q b := by
  unfold outProb
  apply Finset.sum_nonneg
  intro d _
  split_ifs
  · exact Cx.mag2_nonneg _
  · exact le_rfl

omit [LinearOrder R] [IsStrictOrderedRing R] [HasSqrt R] [LawfulSqrt R] in
theorem project_eq {l : Nat} (x : (Fin l → Fin 2) → Cx R) (q : Fin l) (b : Fin 2) (U : Fin 4 → Cx R)
    (hU : ∀ r c, U (rc r c) = if r = b ∧ c = b then 1 else 0) :
    (gateMat (fun r c => U (rc r c)) [] q).mulVec x = project x q b := by
  funext d
  unfold Matrix.mulVec dotProduct project
  rw [Finset.sum_eq_single d]
  · unfold gateMat
    dsimp only
    rw [if_pos (fun _ _ => rfl), if_pos (by intro q hq; simp at hq), hU]
    simp
  · intro c _ hc
    unfold gateMat
    dsimp only
    split_ifs with h1 h2 h3
    · rw [hU, if_neg, zero_mul]
      rintro ⟨h3, h4⟩
      apply hc
      funext i
      by_cases hi : i = q
      · rw [hi, h3, h4]
      · exact (h1 i hi).symm
    · exfalso; apply h2; intro q hq; simp at hq
    · exfalso; apply h2; intro q hq; simp at hq
    · rw [zero_mul]
  · intro h; exact absurd (Finset.mem_univ _) h

/-- Measuring qubit `q` of a state the caller holds. If the probabilities add up to one within the tolerance, the outcome `b`
is 0 exactly if the random number is below the (relative) probability of 0, it has positive probability, the caller's
reference to the state is replaced by one to the projection of the state onto the outcome, divided by the square root of the
probability, and nothing else changes. Otherwise there is an exception. -/
theorem C41_collapse (hC : P.C.Good) (hr : PReach P h) {l : Nat} {x : PEdge R} (hx : Valid (h.pkg.ut .v) l x) (hw : x.w ≠ 0)
    (hheld : x ∈ h.held .v) (q : Fin l) (assumeNorm : Bool) {eps draw : R} (hdr : 0 ≤ draw ∧ draw < 1) :
    let p := outProb (vec (h.pkg.ut .v) l x) q
    (|p 0 + p 1 - 1| ≤ eps → ∃ N, ∃ (b : Fin 2) (h' : PHist R) (e : PEdge R), ∀ fuel, N ≤ fuel →
      h.pkg.measureOneCollapsing P x q assumeNorm eps draw fuel = some (h'.pkg, e, if b = 1 then '1' else '0') ∧
      (b = 0 ↔ draw < p 0 / (p 0 + p 1)) ∧ 0 < p b ∧ PReach P h' ∧
      h'.held = Function.update h.held .v ((e :: h.held .v).erase x) ∧
      Valid (h'.pkg.ut .v) l e ∧
      vec (h'.pkg.ut .v) l e = (fun d => ⟨HasSqrt.sqrt (1 / p b), 0⟩ * project (vec (h.pkg.ut .v) l x) q b d) ∧
      Unchanged h.pkg h'.pkg) ∧
    (eps < |p 0 + p 1 - 1| → ∃ N, ∀ fuel, N ≤ fuel → h.pkg.measureOneCollapsing P x q assumeNorm eps draw fuel = none) := by
  intro p
  have hi := hr.inv hC
  obtain ⟨N, hN⟩ := C39_probabilities hC hr hx hw q assumeNorm
  have hlv : h.pkg.lv .v x = l := hx.lvl hw
  refine ⟨fun heps => ?_, fun heps => ⟨N, fun fuel hf => ?_⟩⟩
  swap
  · unfold Pkg.measureOneCollapsing
    rw [hN fuel hf]
    dsimp only
    rw [if_pos heps]
  have hp0 : 0 ≤ p 0 := outProb_nonneg _ _ _
  have hp1 : 0 ≤ p 1 := outProb_nonneg _ _ _
  have hsum : 0 < p 0 + p 1 := by
    show 0 < outProb _ _ _ + outProb _ _ _
    rw [C39_sum]
    have hd := hi.wf.tab .v
    have : ∑ d', (vec (h.pkg.ut .v) l x d').mag2 = x.w.mag2 := by
      have := hd.mass_eq (q := l) (b := 0) le_rfl hx
      rw [← this]
      unfold mass
      refine Finset.sum_congr rfl fun d _ => ?_
      rw [if_pos (fun h => absurd h (lt_irrefl _))]
      rfl
    rw [this]
    exact Cx.mag2_pos hw
  -- the outcome
  obtain ⟨b, hb⟩ : ∃ b : Fin 2, b = 0 ↔ draw < p 0 / (p 0 + p 1) := by
    by_cases hlt : draw < p 0 / (p 0 + p 1)
    · exact ⟨0, by simp [hlt]⟩
    · exact ⟨1, by simp [hlt]⟩
  have hpb : 0 < p b := by
    have h2 : b = 0 ∨ b = 1 := by omega
    rcases h2 with h2 | h2
    · have h3 := hb.1 h2
      rw [h2]
      rcases hp0.lt_or_eq with h4 | h4
      · exact h4
      · rw [← h4, zero_div] at h3
        exact absurd h3 (not_lt.2 hdr.1)
    · have h3 : ¬ draw < p 0 / (p 0 + p 1) := fun h => by rw [hb.2 h] at h2; exact absurd h2 (by decide)
      rw [h2]
      rcases hp1.lt_or_eq with h4 | h4
      · exact h4
      · rw [← h4, add_zero] at h3
        rw [← h4, add_zero] at hsum
        rw [div_self hsum.ne'] at h3
        exact absurd hdr.2 h3
  -- the projection
  let U : Fin 4 → Cx R := if decide (draw < p 0 / (p 0 + p 1)) then ![1, 0, 0, 0] else ![0, 0, 0, 1]
  have hU : ∀ r c, U (rc r c) = if r = b ∧ c = b then 1 else 0 := by
    have h2 : b = 0 ∨ b = 1 := by omega
    rcases h2 with h2 | h2
    · have h3 := hb.1 h2
      simp only [U, decide_eq_true h3, if_true]
      intro r c
      rw [h2]
      fin_cases r <;> fin_cases c <;> simp [rc]
    · have h3 : ¬ draw < p 0 / (p 0 + p 1) := fun h => by rw [hb.2 h] at h2; exact absurd h2 (by decide)
      simp only [U, decide_eq_false h3]
      intro r c
      rw [h2]
      fin_cases r <;> fin_cases c <;> simp [rc]
  have hgc : GoodControls [] (q : Nat) l := ⟨by simp, by simp, by simp⟩
  obtain ⟨g, g1, g2, g3, g4⟩ := C31_gate hC hr (n := l) (by rw [hr.nvars_eq hC .m .v]; exact valid_nvars (hi.wf.tab .v).uwf hx hw) U hgc
  have r1 := hr.step (PStep.makeGateDD U l [] q g q.isLt hgc g1)
  have hx1 := g4 .v l x hx
  obtain ⟨m1, m2, m3⟩ := C23_vector hC r1 g2 hx1.1
  have r2 := r1.step (PStep.multiply .v l g.2 x g2 hx1.1)
  dsimp only at r2 m1 m2 m3
  rw [g3, project_eq _ q b U hU] at m2
  generalize hm : Pkg.multiply P .v g.1 g.2 x = m at r2 m1 m2 m3
  have u2 : Unchanged h.pkg m.1 := fun k l e hv => by
    obtain ⟨v1, v2⟩ := g4 k l e hv
    obtain ⟨v3, v4⟩ := m3 k l e v1
    exact ⟨v3, v4.trans v2⟩
  have hsq : HasSqrt.sqrt (1 / p b) ≠ 0 := (sqrt_pos (by positivity)).ne'
  have hf0 : (⟨HasSqrt.sqrt (1 / p b), 0⟩ : Cx R) ≠ 0 := by
    intro h; exact hsq (congrArg Cx.re h)
  let e : PEdge R := ⟨m.2.p, m.2.w * ⟨HasSqrt.sqrt (1 / p b), 0⟩⟩
  have he : Valid (m.1.ut .v) l e ∧ vec (m.1.ut .v) l e = fun d => ⟨HasSqrt.sqrt (1 / p b), 0⟩ * vec (m.1.ut .v) l m.2 d := by
    constructor
    · show Valid _ l ⟨m.2.p, m.2.w * _⟩
      rw [mul_comm]
      exact Valid.scale m1 hf0
    · funext d
      show amp _ l ⟨m.2.p, m.2.w * _⟩ d = _
      rw [mul_comm, amp_smul]
      rfl
  have r3 := r2.step (PStep.incRef (P := P) .v l e he.1)
  have u3 := r2.inc_unchanged hC he.1
  dsimp only at r3 u3
  have hx3 : x ∈ (Function.update h.held .v (e :: h.held .v)) .v := by
    simp [hheld]
  obtain ⟨s4, d4, u4⟩ := r3.dec_unchanged hC (k := .v) (e := x) hx3
  have r4 := r3.step (PStep.decRef (P := P) .v x s4 hx3 d4)
  refine ⟨N, b, _, e, fun fuel hf => ⟨?_, hb, hpb, r4, ?_, ?_, ?_, ?_⟩⟩
  · unfold Pkg.measureOneCollapsing
    rw [hN fuel hf]
    dsimp only
    rw [if_neg (not_lt.2 heps), hlv, show (if decide (draw < _ / _) = true then ![1, 0, 0, 0] else ![0, 0, 0, 1]) = U from rfl, g1]
    dsimp only
    have hpe : (if decide (draw < p 0 / (p 0 + p 1)) = true then p 0 else p 1) = p b := by
      by_cases h3 : draw < p 0 / (p 0 + p 1)
      · rw [if_pos (decide_eq_true h3), hb.2 h3]
      · have h4 : b = 1 := by
          have : b ≠ 0 := fun h => h3 (hb.1 h)
          omega
        rw [if_neg (by simpa using h3), h4]
    have hce : (if decide (draw < p 0 / (p 0 + p 1)) = true then '0' else '1') = if b = 1 then '1' else '0' := by
      by_cases h3 : draw < p 0 / (p 0 + p 1)
      · rw [if_pos (decide_eq_true h3), hb.2 h3]; rfl
      · have h4 : b = 1 := by
          have : b ≠ 0 := fun h => h3 (hb.1 h)
          omega
        rw [if_neg (by simpa using h3), h4]; rfl
    show (match Pkg.decRef P .v (Pkg.incRef P .v (Pkg.multiply P .v g.1 g.2 x).1 ⟨(Pkg.multiply P .v g.1 g.2 x).2.p,
      (Pkg.multiply P .v g.1 g.2 x).2.w * ⟨HasSqrt.sqrt (1 / (if decide (draw < p 0 / (p 0 + p 1)) = true then p 0 else p 1)), 0⟩⟩) x with
      | none => none
      | some s2 => some (s2, _, if decide (draw < p 0 / (p 0 + p 1)) = true then '0' else '1')) = _
    rw [hpe, hce, hm]
    show (match Pkg.decRef P .v (Pkg.incRef P .v m.1 e) x with
      | none => none
      | some s2 => some (s2, e, _)) = _
    rw [d4]
  · dsimp only
    rw [Function.update_idem, Function.update_self]
  · exact (u4 _ _ _ (u3 _ _ _ he.1).1).1
  · have e1 := (u4 _ _ _ (u3 _ _ _ he.1).1).2
    have e2 := (u3 _ _ _ he.1).2
    have hxv : vec (g.1.ut .v) l x = vec (h.pkg.ut .v) l x := hx1.2
    show amp (s4.ut .v) l e = _
    rw [e1, e2]
    refine he.2.trans ?_
    rw [m2, hxv]
  · intro k l e hv
    obtain ⟨v1, v2⟩ := u2 k l e hv
    obtain ⟨v3, v4⟩ := u3 k l e v1
    obtain ⟨v5, v6⟩ := u4 k l e v3
    exact ⟨v5, v6.trans (v4.trans v2)⟩

/-- Measuring the same qubit again yields the same outcome with certainty: the collapsed vector of C41_collapse has norm one
and only amplitudes with the measured bit. -/
theorem C41_repeat {l : Nat} (x : (Fin l → Fin 2) → Cx R) (q : Fin l) (b : Fin 2) (hp : 0 < outProb x q b) :
    let y := fun d => (⟨HasSqrt.sqrt (1 / outProb x q b), 0⟩ : Cx R) * project x q b d
    outProb y q b = 1 ∧ (∀ b', b' ≠ b → outProb y q b' = 0) ∧ ∑ d, (y d).mag2 = 1 := by
  intro y
  have h1 : outProb y q b = 1 := by
    have hs := LawfulSqrt.mul_self (1 / outProb x q b) (by positivity)
    have hm : (⟨HasSqrt.sqrt (1 / outProb x q b), 0⟩ : Cx R).mag2 = 1 / outProb x q b := by
      unfold Cx.mag2; simp only [mul_zero, add_zero]; exact hs
    have : outProb y q b = (1 / outProb x q b) * outProb x q b := by
      conv_rhs => arg 2; rw [outProb]
      rw [Finset.mul_sum]
      conv_lhs => rw [outProb]
      refine Finset.sum_congr rfl fun d _ => ?_
      by_cases hd : d q = b
      · rw [if_pos hd, if_pos hd]
        show (_ * project x q b d).mag2 = _
        rw [Cx.mag2_mul, hm]
        unfold project
        rw [if_pos hd]
      · rw [if_neg hd, if_neg hd, mul_zero]
    rw [this]
    field_simp
  have h2 : ∀ b', b' ≠ b → outProb y q b' = 0 := by
    intro b' hb
    unfold outProb
    apply Finset.sum_eq_zero
    intro d _
    split_ifs with hd
    · show (_ * project x q b d).mag2 = 0
      unfold project
      rw [if_neg (by rw [hd]; exact hb)]
      simp
    · rfl
  refine ⟨h1, h2, ?_⟩
  rw [← C39_sum y q]
  have : b = 0 ∨ b = 1 := by omega
  rcases this with hb | hb
  · rw [← hb, h1, h2 1 (by rw [hb]; decide), add_zero]
  · rw [← hb, h1, h2 0 (by rw [hb]; decide), zero_add]

end DD

namespace DD.Ex

/-- The hypotheses are met by a held state of three qubits of norm one. -/
example : ∃ (h : PHist ℝ) (x : PEdge ℝ), PReach (PR ℝ) h ∧ Valid (h.pkg.ut .v) 3 x ∧ x.w ≠ 0 ∧ x ∈ h.held .v ∧
    |outProb (vec (h.pkg.ut .v) 3 x) 0 0 + outProb (vec (h.pkg.ut .v) 3 x) 0 1 - 1| ≤ 1 / 1000 := by
  obtain ⟨h, x, y, A, B, hr, hn, vx, vy, vA, vB, hx, hA, ax, ay, aA, aB, wx, wy, wA, wB⟩ := setup (R := ℝ)
  refine ⟨h, x, hr, vx, wx, hx, ?_⟩
  rw [C39_sum, ax]
  have hs : (Pkg.sqrt12 : ℝ) * Pkg.sqrt12 = 1 / 2 := sqrt12_sq
  have hm : ∀ (b : Basis), ∑ i : Fin 2, (basisAmp b i : Cx ℝ).mag2 = 1 := by
    intro b
    rw [Fin.sum_univ_two]
    cases b <;> simp [basisAmp, Cx.mag2, hs] <;> norm_num
  have : ∑ d : Fin 3 → Fin 2, (basisAmp Basis.plus (d 0) * basisAmp Basis.one (d 1) * basisAmp Basis.left (d 2) : Cx ℝ).mag2 = 1 := by
    simp only [Cx.mag2_mul]
    have h1 := Finset.prod_univ_sum (fun _ : Fin 3 => (Finset.univ : Finset (Fin 2)))
      (fun i j => (basisAmp ((![.plus, .one, .left] : Fin 3 → Basis) i) j : Cx ℝ).mag2)
    rw [Fintype.piFinset_univ] at h1
    simp only [Fin.prod_univ_three] at h1
    exact h1.symm.trans (by simp only [hm]; norm_num)
  rw [this]
  norm_num

end DD.Ex
