import Verif.Proofs.Measure

/-!
# C39: measurement probabilities of one qubit
-/

namespace DD

variable {R : Type} [Field R] [LinearOrder R] [IsStrictOrderedRing R] [HasSqrt R] [LawfulSqrt R] {P : PCfg R}
  {h : PHist R}

/-- For every state of every reachable package, every qubit of the state and both settings of the flag, the function
returns (after finitely many steps) the sums of the squared magnitudes of the amplitudes with that bit 0 and 1. -/
theorem C39_probabilities (hC : P.C.Good) (hr : PReach P h) {l : Nat} {x : PEdge R} (hx : Valid (h.pkg.ut .v) l x)
    (hw : x.w ≠ 0) (q : Fin l) (assumeNorm : Bool) :
    ∃ N, ∀ fuel, N ≤ fuel → h.pkg.determineMeasurementProbabilities x q assumeNorm fuel =
      some (outProb (vec (h.pkg.ut .v) l x) q 0, outProb (vec (h.pkg.ut .v) l x) q 1) :=
  determine_spec ((hr.inv hC).wf.tab .v) hx hw q assumeNorm

omit [LinearOrder R] [IsStrictOrderedRing R] [HasSqrt R] [LawfulSqrt R] in
/-- The two probabilities add up to the squared norm of the state. -/
theorem C39_sum {l : Nat} (x : (Fin l → Fin 2) → Cx R) (q : Fin l) : outProb x q 0 + outProb x q 1 = ∑ d, (x d).mag2 := by
  unfold outProb
  rw [← Finset.sum_add_distrib]
  refine Finset.sum_congr rfl fun d _ => ?_
  have : d q = 0 ∨ d q = 1 := by omega
  rcases this with h | h <;> simp [h]

/-- An index that is not a qubit of the state is not detected: the function never returns a result. -/
theorem C39_index_above (hC : P.C.Good) (hr : PReach P h) {l : Nat} {x : PEdge R} (hx : Valid (h.pkg.ut .v) l x) (q : Nat)
    (hq : l ≤ q) (assumeNorm : Bool) (fuel : Nat) :
    h.pkg.determineMeasurementProbabilities x q assumeNorm fuel = none := by
  have hd := ((hr.inv hC).wf.tab .v).child
  have edge : ∀ (b : Bfs R) (pr : R) (e : PEdge R), (∀ a, some a ∈ b.queue → a ∈ (h.pkg.ut .v).all ∧ ((h.pkg.ut .v).mem a).v < q) →
      (∀ a, e.p = some a → a ∈ (h.pkg.ut .v).all ∧ ((h.pkg.ut .v).mem a).v < q) →
      ∀ a, some a ∈ (Pkg.bfsEdge pr b e).queue → a ∈ (h.pkg.ut .v).all ∧ ((h.pkg.ut .v).mem a).v < q := by
    intro b pr e hb he a
    unfold Pkg.bfsEdge
    dsimp only
    split_ifs
    · exact hb a
    · exact hb a
    · intro hm
      rcases List.mem_append.1 hm with hm | hm
      · exact hb a hm
      · exact he a (List.mem_singleton.1 hm).symm
  have loop : ∀ (fuel : Nat) (b : Bfs R), (∀ a, some a ∈ b.queue → a ∈ (h.pkg.ut .v).all ∧ ((h.pkg.ut .v).mem a).v < q) →
      Pkg.bfsLoop (h.pkg.ut .v) q fuel b = none := by
    intro fuel
    induction fuel with
    | zero => intro b _; rfl
    | succ f ih =>
      intro b hb
      unfold Pkg.bfsLoop
      cases hqq : b.queue with
      | nil => rfl
      | cons p qs =>
        have htl : ∀ a, some a ∈ qs → a ∈ (h.pkg.ut .v).all ∧ ((h.pkg.ut .v).mem a).v < q :=
          fun a ha => hb a (by rw [hqq]; exact List.mem_cons_of_mem _ ha)
        cases p with
        | none => exact ih _ htl
        | some a =>
          obtain ⟨h1, h2⟩ := hb a (by rw [hqq]; exact List.mem_cons_self)
          dsimp only
          rw [if_neg (by omega)]
          have hch : ∀ i a', (((h.pkg.ut .v).mem a).e i).p = some a' → a' ∈ (h.pkg.ut .v).all ∧ ((h.pkg.ut .v).mem a').v < q := by
            intro i a' hp
            have := hd a h1 i
            rw [valid_some hp] at this
            exact ⟨this.1, by omega⟩
          exact ih _ (edge _ _ _ (edge _ _ _ htl (hch 0)) (hch 1))
  unfold Pkg.determineMeasurementProbabilities
  dsimp only
  rw [loop]
  intro a ha
  have hp := (List.mem_singleton.1 ha).symm
  rw [valid_some hp] at hx
  exact ⟨hx.1, by omega⟩

end DD

namespace DD.Ex

/-- The hypotheses are met by a held state of three qubits; the probabilities of its qubit 1 are 0 and 1. -/
example : ∃ (h : PHist ℝ) (x : PEdge ℝ), PReach (PR ℝ) h ∧ Valid (h.pkg.ut .v) 3 x ∧ x.w ≠ 0 ∧ x ∈ h.held .v ∧
    outProb (vec (h.pkg.ut .v) 3 x) 1 0 = 0 ∧ outProb (vec (h.pkg.ut .v) 3 x) 0 1 ≠ 0 := by
  obtain ⟨h, x, y, A, B, hr, hn, vx, vy, vA, vB, hx, hA, ax, ay, aA, aB, wx, wy, wA, wB⟩ := setup (R := ℝ)
  refine ⟨h, x, hr, vx, wx, hx, ?_, ?_⟩
  · rw [ax]
    unfold outProb
    apply Finset.sum_eq_zero
    intro d _
    split_ifs with h0
    · dsimp only; rw [h0]; simp [basisAmp]
    · rfl
  · rw [ax]
    unfold outProb
    apply ne_of_gt
    apply Finset.sum_pos'
    · intro d _; split_ifs
      · exact Cx.mag2_nonneg _
      · exact le_rfl
    · refine ⟨fun _ => 1, Finset.mem_univ _, ?_⟩
      rw [if_pos rfl]
      rw [Cx.mag2_mul, Cx.mag2_mul]
      have hs : (Pkg.sqrt12 : ℝ) ≠ 0 := sqrt12_pos.ne'
      simp [basisAmp, Cx.mag2, hs]

end DD.Ex
