import Verif.Props.C44

/-!
# C43: serialization of matrices
-/

namespace DD

variable {R : Type} [Field R] [LinearOrder R] [IsStrictOrderedRing R] [HasSqrt R] [LawfulSqrt R] {P P' : PCfg R} {h h' : PHist R}

omit [HasSqrt R] [LawfulSqrt R] in
/-- The order in which `serializeMatrix` writes the nodes. -/
theorem serializeM_order {H : (Fin 4 → PEdge R) → Nat} {t : UTable (Cx R) 4} (hd : DDWF (k := .m) H t) {l : Nat} {x : PEdge R} (hx : Valid t l x) (binary : Bool)
    {a : Nat} (hp : x.p = some a) : ∃ N, serializeM binary t x = records binary t (N ++ [a]) ∧ Topo t l (N ++ [a]) := by
  obtain ⟨v1, v2, v3⟩ := (valid_some hp).1 hx
  obtain ⟨l, rfl⟩ : ∃ l', l = l' + 1 := ⟨_, v2.symm⟩
  obtain ⟨N, vis, e1, h1, _⟩ := serializeMatrixF_spec hd.child (m := l + 1) l x a ([], []) hx hp (by omega) (by simp) ⟨.nil, by simp, by simp⟩
  refine ⟨N, ?_, h1⟩
  unfold serializeM
  rw [hx.lvl v3, e1]

/-- `deserialize` of a serialized matrix yields the represented matrix, in whatever package
with enough qubits, and leaves the existing diagrams of that package unchanged. -/
theorem C43_roundtrip (hC : P.C.Good) (hr : PReach P h) {l : Nat} {x : PEdge R} (hx : Valid (h.pkg.ut .m) l x)
    (h0 : x.p ≠ none ∨ x.w = 0) (binary : Bool) (hC' : P'.C.Good) (hr' : PReach P' h') (hn : l ≤ (h'.pkg.ut .m).nvars) :
    ∃ r, Pkg.deserialize P' .m h'.pkg x.w (serializeM binary (h.pkg.ut .m) x) = some r ∧ Valid (r.1.ut .m) l r.2 ∧
      mat (r.1.ut .m) l r.2 = mat (h.pkg.ut .m) l x ∧ Unchanged h'.pkg r.1 := by
  have hd := (hr.inv hC).wf.tab .m
  cases hp : x.p with
  | none =>
    have hw : x.w = 0 := h0.resolve_left (fun h => h hp)
    have : serializeM binary (h.pkg.ut .m) x = [] := by
      unfold serializeM
      have : (h.pkg.ut .m).lvl x = 0 := by simp [UTable.lvl, hp]
      rw [this]; rfl
    rw [this]
    refine ⟨_, deserialize_nil .m h'.pkg x.w, valid_zeroE _ _, ?_, (PExt.refl _).unchanged (hr'.inv hC').wf⟩
    rw [mat_ext_amp]
    intro d
    rw [amp_w_zero hw, amp_w_zero rfl]
  | some a =>
    obtain ⟨N, e0, hN⟩ := serializeM_order hd hx binary hp
    rw [e0]
    obtain ⟨r, e1, w1, x1, _, v1, a1⟩ := deserialize_spec hC' hr' hd hx hn binary hp hN
    exact ⟨r, e1, v1, mat_ext_amp.2 a1, x1.unchanged (hr'.inv hC').wf⟩

/-- Within the same package, the very same edge is returned. -/
theorem C43_same (hC : P.C.Good) (hr : PReach P h) {l : Nat} {x : PEdge R} (hx : Valid (h.pkg.ut .m) l x) (hn : l ≤ (h.pkg.ut .m).nvars)
    (h0 : x.p ≠ none ∨ x.w = 0) (binary : Bool) :
    ∃ s', Pkg.deserialize P .m h.pkg x.w (serializeM binary (h.pkg.ut .m) x) = some (s', x) := by
  have hd := (hr.inv hC).wf.tab .m
  cases hp : x.p with
  | none =>
    have hw : x.w = 0 := h0.resolve_left (fun h => h hp)
    have : serializeM binary (h.pkg.ut .m) x = [] := by
      unfold serializeM
      have : (h.pkg.ut .m).lvl x = 0 := by simp [UTable.lvl, hp]
      rw [this]; rfl
    rw [this]
    refine ⟨h.pkg, ?_⟩
    rw [deserialize_nil]
    cases x with
    | mk p w => cases hp; cases hw; rfl
  | some a =>
    obtain ⟨N, e0, hN⟩ := serializeM_order hd hx binary hp
    rw [e0]
    obtain ⟨r, e1, w1, x1, _, v1, a1⟩ := deserialize_spec hC hr hd hx hn binary hp hN
    obtain ⟨u1, u2⟩ := x1.unchanged (hr.inv hC).wf .m l x hx
    have : r.2 = x := (w1.tab .m).canonical v1 u1 (fun d => by rw [a1, u2])
    exact ⟨r.1, by rw [e1, ← this]⟩

omit [IsStrictOrderedRing R] [HasSqrt R] [LawfulSqrt R] in
/-- The binary stream contains the records: reading it gives them back. -/
theorem C43_binary (t : UTable (Cx R) 4) (x : PEdge R) :
    readAll 4 (writeAll x.w (serializeM true t x)) = some (x.w, serializeM true t x) :=
  readAll_writeAll _ (records_full _ _)

end DD

namespace DD.Ex

/-- The hypotheses are met by a gate with controls on three qubits. -/
example : ∃ (h : PHist ℝ) (A : PEdge ℝ) (s : Pkg ℝ), PReach (PR ℝ) h ∧ Valid (h.pkg.ut .m) 3 A ∧ A.w ≠ 0 ∧
    Pkg.deserialize (PR ℝ) .m h.pkg A.w (serializeM false (h.pkg.ut .m) A) = some (s, A) := by
  obtain ⟨h, x, y, A, B, hr, hn, vx, vy, vA, vB, hx, hA, ax, ay, aA, aB, wx, wy, wA, wB⟩ := setup (R := ℝ)
  have hC := PR_good ℝ
  obtain ⟨a, hp, _⟩ := vA.exists_node wA
  obtain ⟨s, e⟩ := C43_same hC hr vA (by rw [hn]; omega) (Or.inl (by rw [hp]; simp)) false
  exact ⟨h, A, s, hr, vA, wA, e⟩

end DD.Ex
