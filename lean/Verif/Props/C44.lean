import Verif.Proofs.Copy
import Verif.Proofs.Codec
import Verif.Proofs.RealEx

/-!
# C44: serialization of vectors
-/

namespace DD

variable {R : Type} [Field R] [LinearOrder R] [IsStrictOrderedRing R] [HasSqrt R] [LawfulSqrt R] {P P' : PCfg R} {h h' : PHist R}

/-- Rebuilding a diagram from its records, for both kinds. -/
theorem deserialize_spec (hC' : P'.C.Good) (hr' : PReach P' h') {k : Kind} {H : (Fin (ar k) → PEdge R) → Nat} {ts : UTable (Cx R) (ar k)} (hts : DDWF H ts)
    {l : Nat} {x : PEdge R} (hx : Valid ts l x) (hn : l ≤ (h'.pkg.ut k).nvars) (binary : Bool) {a : Nat} (hp : x.p = some a)
    {N : List Nat} (hN : Topo ts l (N ++ [a])) :
    ∃ r, Pkg.deserialize P' k h'.pkg x.w (records binary ts (N ++ [a])) = some r ∧ PWF P' r.1 ∅ ∧ PExt h'.pkg r.1 ∧ Built P' h'.pkg r.1 ∧ Valid (r.1.ut k) l r.2 ∧
      ∀ d, amp (r.1.ut k) l r.2 d = amp ts l x d := by
  obtain ⟨v1, v2, v3⟩ := (valid_some hp).1 hx
  obtain ⟨s', nodes, e, e1, w1, x1, u1, _, i2, _⟩ := deserializeLoop_spec hC'.growth hts binary (hr'.inv hC').wf hn hN
  obtain ⟨b, rfl, hv, ha⟩ := i2 N a rfl
  rw [v2] at hv ha
  refine ⟨(s', ⟨some b, x.w * 1⟩), ?_, w1, x1, u1, ?_, ?_⟩
  · unfold Pkg.deserialize
    rw [e1]
  · have := (valid_some (e := ⟨some b, 1⟩) rfl).1 hv
    exact (valid_some rfl).2 ⟨this.1, this.2.1, by simpa using v3⟩
  · intro d
    rw [amp_smul, ha, amp_eq_smul _ _ x, hp]

theorem deserialize_nil (k : Kind) (s : Pkg R) (w : Cx R) : Pkg.deserialize P' k s w [] = some (s, zeroE) := by
  unfold Pkg.deserialize Pkg.deserializeLoop
  simp [zeroE]

/-- `serialize` always ends with exactly one result, and `deserialize` yields the represented vector, in whatever package
with enough qubits, and leaves the existing diagrams of that package unchanged. -/
theorem C44_roundtrip (hC : P.C.Good) (hr : PReach P h) {l : Nat} {x : PEdge R} (hx : Valid (h.pkg.ut .v) l x)
    (h0 : x.p ≠ none ∨ x.w = 0) (binary : Bool) :
    ∃ recs, SerializesV binary (h.pkg.ut .v) x recs ∧ (∀ recs', SerializesV binary (h.pkg.ut .v) x recs' → recs' = recs) ∧
      ∀ {P' : PCfg R} {h' : PHist R}, P'.C.Good → PReach P' h' → l ≤ (h'.pkg.ut .v).nvars →
        ∃ r, Pkg.deserialize P' .v h'.pkg x.w recs = some r ∧ Valid (r.1.ut .v) l r.2 ∧
          vec (r.1.ut .v) l r.2 = vec (h.pkg.ut .v) l x ∧ Unchanged h'.pkg r.1 := by
  have hd := (hr.inv hC).wf.tab .v
  cases hp : x.p with
  | none =>
    refine ⟨[], .terminal hp, ?_, ?_⟩
    · intro recs' hs
      cases hs with
      | terminal _ => rfl
      | node hne _ => exact absurd hp hne
    · intro P' h' hC' hr' hn
      have hw : x.w = 0 := h0.resolve_left (fun h => h hp)
      refine ⟨_, deserialize_nil .v h'.pkg x.w, valid_zeroE _ _, ?_, (PExt.refl _).unchanged (hr'.inv hC').wf⟩
      funext d
      show amp _ _ _ _ = amp _ _ _ _
      rw [amp_w_zero hw, amp_w_zero rfl]
  | some a =>
    obtain ⟨N, hrun, hN⟩ := Trav.runs (n := 1) hd.child (Trav.allFresh_v _) hx hp trivial (Or.inl rfl)
    refine ⟨_, .node (by rw [hp]; simp) hrun, ?_, ?_⟩
    · intro recs' hs
      cases hs with
      | terminal h1 => rw [hp] at h1; cases h1
      | node _ h1 => rw [h1.unique hrun]
    · intro P' h' hC' hr' hn
      obtain ⟨r, e1, w1, x1, _, v1, a1⟩ := deserialize_spec hC' hr' hd hx hn binary hp hN
      exact ⟨r, e1, v1, funext a1, x1.unchanged (hr'.inv hC').wf⟩

/-- Within the same package, the very same edge is returned. -/
theorem C44_same (hC : P.C.Good) (hr : PReach P h) {l : Nat} {x : PEdge R} (hx : Valid (h.pkg.ut .v) l x) (hn : l ≤ (h.pkg.ut .v).nvars)
    (h0 : x.p ≠ none ∨ x.w = 0) {binary : Bool} {recs : List (Rec R 2)} (hs : SerializesV binary (h.pkg.ut .v) x recs) :
    ∃ s', Pkg.deserialize P .v h.pkg x.w recs = some (s', x) := by
  have hd := (hr.inv hC).wf.tab .v
  cases hs with
  | terminal hp =>
    have hw : x.w = 0 := h0.resolve_left (fun h => h hp)
    refine ⟨h.pkg, ?_⟩
    rw [deserialize_nil]
    cases x with
    | mk p w => cases hp; cases hw; rfl
  | node hp hrun =>
    obtain ⟨a, hp⟩ := Option.ne_none_iff_exists'.1 hp
    obtain ⟨N, hrun', hN⟩ := Trav.runs (n := 1) hd.child (Trav.allFresh_v _) hx hp trivial (Or.inl rfl)
    rw [hrun.unique hrun']
    obtain ⟨r, e1, w1, x1, _, v1, a1⟩ := deserialize_spec hC hr hd hx hn binary hp hN
    obtain ⟨u1, u2⟩ := x1.unchanged (hr.inv hC).wf .v l x hx
    have : r.2 = x := (w1.tab .v).canonical v1 u1 (fun d => by rw [a1, u2])
    exact ⟨r.1, by rw [e1, ← this]⟩

omit [IsStrictOrderedRing R] [HasSqrt R] [LawfulSqrt R] in
/-- The binary stream contains the records: reading it gives them back. -/
theorem C44_binary {t : UTable (Cx R) 2} {x : PEdge R} {recs : List (Rec R 2)} (hs : SerializesV true t x recs) :
    readAll 2 (writeAll x.w recs) = some (x.w, recs) := by
  refine readAll_writeAll _ ?_
  cases hs with
  | terminal _ => simp
  | node _ _ => exact records_full _ _

/-- A number (a diagram without qubits) does not survive: it is read as zero. -/
theorem C44_terminal {t : UTable (Cx R) 2} {x : PEdge R} (hp : x.p = none) {binary : Bool} {recs : List (Rec R 2)}
    (hs : SerializesV binary t x recs) (s : Pkg R) : Pkg.deserialize P .v s x.w recs = some (s, zeroE) := by
  cases hs with
  | terminal _ => exact deserialize_nil .v s x.w
  | node h1 _ => exact absurd hp h1

end DD

namespace DD.Ex

/-- The hypotheses are met by a state of three qubits; the result is the same edge. -/
example : ∃ (h : PHist ℝ) (x : PEdge ℝ) (recs : List (Rec ℝ 2)) (s : Pkg ℝ), PReach (PR ℝ) h ∧ Valid (h.pkg.ut .v) 3 x ∧ x.w ≠ 0 ∧
    SerializesV true (h.pkg.ut .v) x recs ∧ Pkg.deserialize (PR ℝ) .v h.pkg x.w recs = some (s, x) := by
  obtain ⟨h, x, y, A, B, hr, hn, vx, vy, vA, vB, hx, hA, ax, ay, aA, aB, wx, wy, wA, wB⟩ := setup (R := ℝ)
  have hC := PR_good ℝ
  obtain ⟨a, hp, _⟩ := vx.exists_node wx
  have h0 : x.p ≠ none ∨ x.w = 0 := Or.inl (by rw [hp]; simp)
  obtain ⟨recs, hs, _⟩ := C44_roundtrip hC hr vx h0 true
  obtain ⟨s, e⟩ := C44_same hC hr vx (by rw [hn]; omega) h0 hs
  exact ⟨h, x, recs, s, hr, vx, wx, hs, e⟩

end DD.Ex
