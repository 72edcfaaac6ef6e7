import Verif.Proofs.RealEx

/-!
# C34: identity matrices
-/

namespace DD

variable {R : Type} [Field R] [LinearOrder R] [IsStrictOrderedRing R] [HasSqrt R] [LawfulSqrt R] {P : PCfg R}
  {h : PHist R}

/-- `makeIdent(n)` is the identity on `n` qubits, whatever happened before. Missing for the full property: ranges of qubits
that do not begin at 0, for which it is false (`C34_range_false`). -/
theorem C34_identity_partial (hC : P.C.Good) (hr : PReach P h) {n : Nat} (hn : n ≤ (h.pkg.ut .m).nvars) :
    let r := Pkg.makeIdent P h.pkg n
    Valid (r.1.ut .m) n r.2 ∧ mat (r.1.ut .m) n r.2 = 1 ∧ Unchanged h.pkg r.1 := by
  have o := makeIdent_spec hC.growth (hr.inv hC).wf hn
  exact ⟨o.valid, mat_one_iff.2 o.val, o.ext.unchanged (hr.inv hC).wf⟩

/-- Calling `makeIdent(n)` twice yields the same edge. -/
theorem C34_same (hC : P.C.Good) (hr : PReach P h) {n : Nat} (hn : n ≤ (h.pkg.ut .m).nvars) :
    let r := Pkg.makeIdent P h.pkg n
    (Pkg.makeIdent P r.1 n).2 = r.2 := by
  have o := makeIdent_spec hC.growth (hr.inv hC).wf hn
  have o2 := makeIdent_spec hC.growth o.wf (n := n) (by rw [(o.ext .m).nvars]; exact hn)
  have hu := o2.ext.unchanged o.wf .m n _ o.valid
  have := (o2.wf.tab .m).canonical o2.valid hu.1 (fun d => by rw [o2.val d, hu.2, o.val d])
  exact this

omit [IsStrictOrderedRing R] [HasSqrt R] [LawfulSqrt R] in
theorem checkSpecial_keeps {tr : Pkg R → PEdge R → Pkg R × PEdge R} (htr : ∀ s e, e.p = none → (tr s e).1 = s) (s : Pkg R) (a : Nat)
    (ha : (((s.ut .m).mem a).e 1).p = none) (b : Nat) :
    (((Pkg.checkSpecial tr s a).ut .m).mem b).v = ((s.ut .m).mem b).v ∧
      (((Pkg.checkSpecial tr s a).ut .m).mem b).e = ((s.ut .m).mem b).e := by
  unfold Pkg.checkSpecial
  dsimp only
  split_ifs
  · exact ⟨rfl, rfl⟩
  · rw [htr _ _ ha]; exact ⟨rfl, rfl⟩
  · rw [htr _ _ ha]
    by_cases hb : b = a
    · subst hb; simp [Pkg.setUt, UTable.setMem]
    · simp [Pkg.setUt, UTable.setMem, hb]

/-- The edge kept for the identity on `m` qubits is used for requests of the form `makeIdent(lo, m)` with `lo > 0`: the
result is the identity on the qubits from 0 on. -/
theorem C34_range_after (hC : P.C.Good) (hr : PReach P h) {lo m : Nat} {e : PEdge R} (hlo : 0 < lo) (hm : lo ≤ m + 1)
    (hn : m + 2 ≤ (h.pkg.ut .m).nvars) (hid : h.pkg.idTab m = some e) :
    let r := Pkg.makeIdentR P h.pkg lo (m + 2)
    Valid (r.1.ut .m) (m + 2) r.2 ∧ mat (r.1.ut .m) (m + 2) r.2 = 1 ∧ Children (r.1.ut .m) := by
  have hw := (hr.inv hC).wf
  unfold Pkg.makeIdentR
  dsimp only
  rw [if_neg (by omega), if_neg (by omega), if_pos (by omega)]
  simp only [Nat.add_sub_cancel, hid]
  have he := idRel_iff.1 (hw.idTab m e hid)
  have h1 := diag_spec hC.growth false hw (v := m + 1) (by omega) (e0 := e) (e3 := e) he he
  generalize Pkg.makeDDNode P .m h.pkg (m + 1) ![e, zeroE, zeroE, e] false = r at h1
  exact ⟨h1.valid, mat_one_iff.2 (h1.hasVal.congr (fun d => idD_step d)).2, (h1.wf.tab .m).child⟩

/-- If no edge is kept for the identity on `m + 1` qubits, `makeIdent(m + 1, m + 1)` is a node whose successors are
terminal. -/
theorem C34_range_before (hC : P.C.Good) (hr : PReach P h) {m : Nat} (hn : m + 2 ≤ (h.pkg.ut .m).nvars)
    (hid : h.pkg.idTab m = none) :
    let r := Pkg.makeIdentR P h.pkg (m + 1) (m + 2)
    ∃ a, r.2 = ⟨some a, 1⟩ ∧ ((r.1.ut .m).mem a).v = m + 1 ∧ ((r.1.ut .m).mem a).e = ![oneE, zeroE, zeroE, oneE] := by
  have hw := ((hr.inv hC).wf.tab .m).uwf
  unfold Pkg.makeIdentR
  dsimp only
  rw [if_neg (by omega), if_neg (by omega), if_pos (by omega)]
  simp only [Nat.add_sub_cancel, hid]
  rw [if_neg (by omega), Nat.sub_self]
  have hnorm : Pkg.norm (R := R) .m false ![oneE, zeroE, zeroE, oneE] = some (1, ![oneE, zeroE, zeroE, oneE]) := by
    have h1 : Pkg.argMaxM (R := R) ![oneE, zeroE, zeroE, oneE] = some 0 := by
      have hf : List.finRange 4 = [0, 1, 2, 3] := by decide
      unfold Pkg.argMaxM
      rw [hf]
      simp [oneE, zeroE]
    show Pkg.normM _ = _
    unfold Pkg.normM
    rw [h1]
    simp only [Option.some.injEq, Prod.mk.injEq]
    refine ⟨rfl, ?_⟩
    funext i
    fin_cases i <;> simp [oneE, zeroE]
  have hg := UTable.getNode_spec (C := P.C) hC.growth hw
  have hL : ∀ r : Pkg R × PEdge R, Pkg.identLoop P 0 (m + 1 + 1) r.1 r.2 = r := fun r => rfl
  rw [hL]
  unfold Pkg.makeDDNode Pkg.makeNodeWith
  rw [hnorm]
  dsimp only
  generalize (h.pkg.ut .m).getNode P.C = g at hg
  obtain ⟨g1, g2, g3, g4, _, g6, _, _, _, g10⟩ := hg
  let nd : Node (Cx R) 4 := { v := m + 1, e := ![oneE, zeroE, zeroE, oneE], ref := (g.1.mem g.2).ref, ident := false, symm := false }
  have hs := UTable.lookup_spec (UTable.UWF.setMem g1 g2.2.1 (nd := nd) g10) (a := g.2) g2
    (by simp only [UTable.setMem, Function.update_self, nd]; rw [g6]; omega)
  have hnd : (g.1.setMem g.2 nd).mem g.2 = nd := by simp [UTable.setMem]
  change ∃ a, (⟨some ((g.1.setMem g.2 nd).lookup (P.uH .m) g.2).2, 1⟩ : PEdge R) = ⟨some a, 1⟩ ∧
    (((if ((g.1.setMem g.2 nd).lookup (P.uH .m) g.2).2 = g.2 ∧ Kind.m = Kind.m then
    Pkg.checkSpecial (Pkg.transposeF P (m + 1)) (h.pkg.setUt .m ((g.1.setMem g.2 nd).lookup (P.uH .m) g.2).1)
      ((g.1.setMem g.2 nd).lookup (P.uH .m) g.2).2 else
      h.pkg.setUt .m ((g.1.setMem g.2 nd).lookup (P.uH .m) g.2).1).ut .m).mem a).v = m + 1 ∧
    (((if ((g.1.setMem g.2 nd).lookup (P.uH .m) g.2).2 = g.2 ∧ Kind.m = Kind.m then
    Pkg.checkSpecial (Pkg.transposeF P (m + 1)) (h.pkg.setUt .m ((g.1.setMem g.2 nd).lookup (P.uH .m) g.2).1)
      ((g.1.setMem g.2 nd).lookup (P.uH .m) g.2).2 else
      h.pkg.setUt .m ((g.1.setMem g.2 nd).lookup (P.uH .m) g.2).1).ut .m).mem a).e = _
  rw [hnd] at hs
  generalize (g.1.setMem g.2 nd).lookup (P.uH .m) g.2 = q at hs
  obtain ⟨_, s2, _, _, _, s6, s7, _⟩ := hs
  rw [← s2] at s6 s7
  have hmem : ((h.pkg.setUt .m q.1).ut .m) = q.1 := by simp [Pkg.setUt]
  refine ⟨q.2, rfl, ?_⟩
  split_ifs
  · have hk := checkSpecial_keeps (tr := Pkg.transposeF P (m + 1)) (fun s e he => by unfold Pkg.transposeF; rw [he])
      (h.pkg.setUt .m q.1) q.2 (by rw [hmem, s6]; rfl) q.2
    rw [hk.1, hk.2, hmem]
    exact ⟨s7, s6⟩
  · rw [hmem]; exact ⟨s7, s6⟩

omit [IsStrictOrderedRing R] [LawfulSqrt R] in
theorem init_idTab (nq nbV nbM : Nat) (cV : Node (Cx R) 2) (cM : Node (Cx R) 4) (m : Nat) :
    (Pkg.init P nq nbV nbM cV cM).idTab m = none := rfl

/-- The result of `makeIdent(lo, m)` for `lo > 0` depends on the calls made before: in a new package `makeIdent(1, 1)` is
a diagram whose entry (0, 1) is 1, after a call of `makeIdent(1)` it is a diagram whose entry (0, 1) is 0. -/
theorem C34_range_false (hC : P.C.Good) : ∃ h h' : PHist R, PReach P h ∧ PReach P h' ∧ PStep P h h' ∧
    (let r := Pkg.makeIdentR P h.pkg 1 2; Pkg.valueM (r.1.ut .m) r.2 0 1 = 1) ∧
    (let r := Pkg.makeIdentR P h'.pkg 1 2; Pkg.valueM (r.1.ut .m) r.2 0 1 = 0) := by
  let h0 : PHist R := ⟨Pkg.init P 2 1 1 ⟨0, fun _ => zeroE, 0, false, false⟩ ⟨0, fun _ => zeroE, 0, false, false⟩, fun _ => []⟩
  have r0 : PReach P h0 := ⟨h0, .init 2 1 1 _ _ (by decide) (by decide) (by decide), .refl⟩
  have st : PStep P h0 { h0 with pkg := (Pkg.makeIdent P h0.pkg 1).1 } := .makeIdent 1 (by show 1 ≤ 2; omega)
  have r1 := r0.step st
  have o := makeIdent_spec hC.growth (r0.inv hC).wf (n := 1) (by show 1 ≤ 2; omega)
  refine ⟨h0, _, r0, r1, st, ?_, ?_⟩
  · obtain ⟨a, e1, e2, e3⟩ := C34_range_before hC r0 (m := 0) le_rfl rfl
    dsimp only at e1 e2 e3 ⊢
    rw [e1]
    simp [Pkg.valueM, UTable.lvl, e2, e3, Pkg.valueMF, oneE, show Nat.testBit 1 1 = false by decide]
  · have hid : ∃ e, (Pkg.makeIdent P h0.pkg 1).1.idTab 0 = some e := by
      refine ⟨(Pkg.makeIdent P h0.pkg 1).2, ?_⟩
      unfold Pkg.makeIdent Pkg.makeIdentR
      simp [h0, init_idTab]
    obtain ⟨e, he⟩ := hid
    obtain ⟨v, m, c⟩ := C34_range_after hC r1 (lo := 1) (m := 0) (by omega) (by omega)
      (by rw [show ({ h0 with pkg := (Pkg.makeIdent P h0.pkg 1).1 } : PHist R).pkg = (Pkg.makeIdentR P h0.pkg 0 1).1 from rfl, (o.ext .m).nvars]; exact le_rfl) he
    dsimp only
    rw [valueM_spec c v, m]
    exact Matrix.one_apply_ne (fun hc => by have := congrFun hc 0; simp [bitsOf] at this)

end DD

namespace DD.Ex

/-- The hypotheses are met. -/
example : ∃ h : PHist ℝ, PReach (PR ℝ) h ∧ 4 ≤ (h.pkg.ut .m).nvars ∧ ∃ x ∈ h.held .m, x.w ≠ 0 := by
  obtain ⟨h, x, y, A, B, hr, hn, vx, vy, vA, vB, hx, hA, ax, ay, aA, aB, wx, wy, wA, wB⟩ := setup (R := ℝ)
  exact ⟨h, hr, by rw [hn]; omega, A, hA, wA⟩

end DD.Ex
