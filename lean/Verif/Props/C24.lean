import Verif.Proofs.RealEx
import Verif.Model.Derived

/-!
# C24: Kronecker product

For vectors `kronecker(x, y)` is the Kronecker product. For matrices this is false (`C24_matrix_false`): if a sub-diagram of
the left operand is a multiple of the identity, its factor is lost. The theorem for matrices therefore excludes such
operands (`C24_matrix_partial`); it covers in particular identities as left operands (`C24_extend_top`).
-/

namespace DD

variable {R : Type} [Field R] [LinearOrder R] [IsStrictOrderedRing R] [HasSqrt R] [LawfulSqrt R] {P : PCfg R}
  {h : PHist R}

theorem C24_vector (hC : P.C.Good) (hr : PReach P h) {lx ly : Nat} {x y : PEdge R} (hx : Valid (h.pkg.ut .v) lx x)
    (hy : Valid (h.pkg.ut .v) ly y) (hn : ly + lx ≤ (h.pkg.ut .v).nvars) :
    let r := Pkg.kronecker P .v h.pkg x y
    Valid (r.1.ut .v) (ly + lx) r.2 ∧
      vec (r.1.ut .v) (ly + lx) r.2 = kronVec (vec (h.pkg.ut .v) lx x) (vec (h.pkg.ut .v) ly y) ∧
      Unchanged h.pkg r.1 := by
  have o := kronecker_spec (k := .v) hC.growth (hr.inv hC).wf hx hy hn
  exact ⟨o.valid, o.vec_eq, o.ext.unchanged (hr.inv hC).wf⟩

/-- No edge of the diagram leads to an identity with a weight other than one. -/
def PlainIdent (t : UTable (Cx R) 4) : (l : Nat) → PEdge R → Prop
  | 0, _ => True
  | l + 1, e =>
    match e.p with
    | none => True
    | some a => (mat t (l + 1) ⟨some a, 1⟩ = 1 → e.w = 1) ∧ ∀ i, PlainIdent t l ((t.mem a).e i)

omit [HasSqrt R] [LawfulSqrt R] in
theorem PlainIdent.kampM {t : UTable (Cx R) 4} : ∀ {l : Nat} {e : PEdge R}, PlainIdent t l e → ∀ d, kampM t l e d = amp t l e d := by
  intro l
  induction l with
  | zero => intro e _ d; rfl
  | succ l ih =>
    intro e he d
    unfold PlainIdent at he
    rw [DD.kampM]
    cases hp : e.p with
    | none => rw [amp_none hp]
    | some a =>
      simp only [hp] at he
      dsimp only
      split_ifs with h1
      · have hw := he.1 h1
        have : e = ⟨some a, 1⟩ := by cases e; simp_all
        rw [← this]
      · rw [amp_some hp, ih (he.2 _)]

/-- Missing for the full property: left operands with a scaled identity as a sub-diagram, for which it is false. -/
theorem C24_matrix_partial (hC : P.C.Good) (hr : PReach P h) {lx ly : Nat} {x y : PEdge R} (hx : Valid (h.pkg.ut .m) lx x)
    (hy : Valid (h.pkg.ut .m) ly y) (hn : ly + lx ≤ (h.pkg.ut .m).nvars) (hp : PlainIdent (h.pkg.ut .m) lx x) :
    let r := Pkg.kronecker P .m h.pkg x y
    Valid (r.1.ut .m) (ly + lx) r.2 ∧
      mat (r.1.ut .m) (ly + lx) r.2 = kronMat (mat (h.pkg.ut .m) lx x) (mat (h.pkg.ut .m) ly y) ∧
      Unchanged h.pkg r.1 := by
  have o := kronecker_spec (k := .m) hC.growth (hr.inv hC).wf hx hy hn
  refine ⟨o.valid, ?_, o.ext.unchanged (hr.inv hC).wf⟩
  rw [o.mat_eq]
  funext r c
  show kampM (h.pkg.ut .m) lx x _ * _ = _
  rw [hp.kampM]
  rfl

theorem kron_top (hC : P.C.Good) {s : Pkg R} (hw : PWF P s ∅) {lx ly : Nat} {x y : PEdge R} (hx : Valid (s.ut .m) lx x)
    (hy : Valid (s.ut .m) ly y) (hn : ly + lx ≤ (s.ut .m).nvars) (h1 : mat (s.ut .m) lx x = 1) :
    mat ((Pkg.kronecker P .m s x y).1.ut .m) (ly + lx) (Pkg.kronecker P .m s x y).2 = kronMat 1 (mat (s.ut .m) ly y) := by
  have hd := hw.tab .m
  have hxw : x.w = 1 := hd.ident_weight hx (by rw [h1, one_smul])
  have o := kronecker_spec (k := .m) hC.growth hw hx hy hn
  rw [o.mat_eq]
  have hk : ∀ d, kampM (s.ut .m) lx x d = amp (s.ut .m) lx x d := by
    intro d
    cases lx with
    | zero => rfl
    | succ lx =>
      rw [DD.kampM]
      cases hp : x.p with
      | none => rw [amp_none hp]
      | some a =>
        have : x = ⟨some a, 1⟩ := by cases x; simp_all
        subst this
        dsimp only
        rw [if_pos h1]
  funext r c
  show kampM (s.ut .m) lx x _ * _ = _
  rw [hk, ← h1]
  rfl

/-- Identities as left operands, as in `extend(e, h)`. -/
theorem C24_extend_top (hC : P.C.Good) (hr : PReach P h) {lx ly : Nat} {x y : PEdge R} (hx : Valid (h.pkg.ut .m) lx x)
    (hy : Valid (h.pkg.ut .m) ly y) (hn : ly + lx ≤ (h.pkg.ut .m).nvars) (h1 : mat (h.pkg.ut .m) lx x = 1) :
    let r := Pkg.kronecker P .m h.pkg x y
    Valid (r.1.ut .m) (ly + lx) r.2 ∧
      mat (r.1.ut .m) (ly + lx) r.2 = kronMat 1 (mat (h.pkg.ut .m) ly y) ∧
      Unchanged h.pkg r.1 := by
  have o := kronecker_spec (k := .m) hC.growth (hr.inv hC).wf hx hy hn
  exact ⟨o.valid, kron_top hC (hr.inv hC).wf hx hy hn h1, o.ext.unchanged (hr.inv hC).wf⟩

omit [HasSqrt R] [LawfulSqrt R] in
/-- Adding no qubits. -/
theorem kron_nil_right {l : Nat} (t : UTable (Cx R) 4) (e : PEdge R) :
    mat t (0 + l) e = kronMat (mat t l e) (1 : QMat R 0) := by
  have key : ∀ m (hm : m = l) (r c : Fin m → Fin 2), mat t m e r c =
      mat t l e (fun i => r (Fin.cast hm.symm i)) (fun i => c (Fin.cast hm.symm i)) := by
    intro m hm; subst hm; intros; rfl
  funext r c
  rw [key _ (Nat.zero_add l)]
  unfold kronMat
  rw [show (fun i => r (Fin.castAdd l i) : Fin 0 → Fin 2) = fun i => c (Fin.castAdd l i) from Subsingleton.elim _ _,
    Matrix.one_apply_eq, mul_one]
  congr 1 <;> funext i <;> congr 1 <;> ext <;> simp

omit [HasSqrt R] [LawfulSqrt R] in
theorem kron_nil_left {l : Nat} (A : QMat R l) : A = kronMat (1 : QMat R 0) A := by
  funext r c
  unfold kronMat
  have h1 : ∀ a b : Fin 0 → Fin 2, (1 : QMat R 0) a b = 1 := fun a b => by
    rw [Subsingleton.elim a b, Matrix.one_apply_eq]
  rw [h1, one_mul]
  rfl

/-- `extend(e, up, low)` adds `up` qubits above and `low` qubits below, on which the result acts as the identity. Scaled identities
inside `e` are excluded if qubits are added below, as this is a Kronecker product with `e` on the left. -/
theorem C24_extend_partial (hC : P.C.Good) (hr : PReach P h) {l up low : Nat} {e : PEdge R} (he : Valid (h.pkg.ut .m) l e)
    (hn : low + l + up ≤ (h.pkg.ut .m).nvars) (hp : 0 < low → PlainIdent (h.pkg.ut .m) l e) :
    let r := Pkg.extend P h.pkg e up low
    Valid (r.1.ut .m) (low + l + up) r.2 ∧
      mat (r.1.ut .m) (low + l + up) r.2 = kronMat (1 : QMat R up) (kronMat (mat (h.pkg.ut .m) l e) (1 : QMat R low)) ∧
      Unchanged h.pkg r.1 := by
  intro r
  have hw := (hr.inv hC).wf
  -- the qubits below
  have hf : ∃ f : Pkg R × PEdge R, f = (if 0 < low then
        Pkg.kronecker P .m (Pkg.makeIdent P h.pkg low).1 e (Pkg.makeIdent P h.pkg low).2 else (h.pkg, e)) ∧
      PWF P f.1 ∅ ∧ PExt h.pkg f.1 ∧ Valid (f.1.ut .m) (low + l) f.2 ∧
      mat (f.1.ut .m) (low + l) f.2 = kronMat (mat (h.pkg.ut .m) l e) (1 : QMat R low) := by
    refine ⟨_, rfl, ?_⟩
    by_cases h0 : 0 < low
    · rw [if_pos h0]
      have oi := makeIdent_spec hC.growth hw (n := low) (by omega)
      have hv : Valid ((Pkg.makeIdent P h.pkg low).1.ut .m) l e := he.mono (oi.ext.le .m)
      have o := kronecker_spec (k := .m) hC.growth oi.wf hv oi.valid (by rw [(oi.ext .m).nvars]; omega)
      refine ⟨o.wf, oi.ext.trans o.ext, o.valid, ?_⟩
      refine (o.mat_eq).trans ?_
      funext r c
      show kampM _ l e _ * _ = _
      rw [kampM_mono (oi.ext.le .m) (hw.tab .m).child he, (hp h0).kampM]
      unfold kronMat
      rw [← mat_one_iff.2 oi.val]
      rfl
    · have h0' : low = 0 := by omega
      subst h0'
      rw [if_neg h0]
      refine ⟨hw, PExt.refl _, by rw [Nat.zero_add]; exact he, kron_nil_right _ _⟩
  obtain ⟨f, ef, wf, xf, vf, mf⟩ := hf
  have hr' : r = if 0 < up then Pkg.kronecker P .m (Pkg.makeIdent P f.1 up).1 (Pkg.makeIdent P f.1 up).2 f.2 else f := by
    rw [ef]; rfl
  rw [hr', ← mf]
  by_cases h0 : 0 < up
  · rw [if_pos h0]
    have hnv : low + l + up ≤ (f.1.ut .m).nvars := by rw [(xf .m).nvars]; exact hn
    have oi := makeIdent_spec hC.growth wf (n := up) (by omega)
    have hv : Valid ((Pkg.makeIdent P f.1 up).1.ut .m) (low + l) f.2 := vf.mono (oi.ext.le .m)
    have hnv' : low + l + up ≤ ((Pkg.makeIdent P f.1 up).1.ut .m).nvars := by
      rw [show ((Pkg.makeIdent P f.1 up).1.ut .m).nvars = _ from (oi.ext .m).nvars]; exact hnv
    have o := kronecker_spec (k := .m) hC.growth oi.wf oi.valid hv hnv'
    refine ⟨o.valid, ?_, ((xf.trans oi.ext).trans o.ext).unchanged hw⟩
    refine (kron_top hC oi.wf oi.valid hv hnv' (mat_one_iff.2 oi.val)).trans ?_
    rw [mat_mono (oi.ext.le .m) (wf.tab .m).child vf]
  · have h0' : up = 0 := by omega
    subst h0'
    rw [if_neg h0]
    exact ⟨vf, kron_nil_left _, xf.unchanged hw⟩

/-- Pauli Z. -/
def Zg : Fin 4 → Cx R := ![1, 0, 0, -1]

omit [HasSqrt R] [LawfulSqrt R] in
theorem gate_Z (r c : Fin 2 → Fin 2) :
    (gateMat (fun a b => Zg (rc a b)) [] 1 : QMat R 2) r c = if r = c then (if c 1 = 0 then 1 else -1) else 0 := by
  unfold gateMat
  have hc : CtrlOK [] c := by simp [CtrlOK]
  rw [if_pos hc]
  have h1 : (∀ i : Fin 2, i ≠ 1 → r i = c i) ↔ r 0 = c 0 := by
    constructor
    · intro h; exact h 0 (by decide)
    · intro h i hi; fin_cases i
      · exact h
      · exact absurd rfl hi
  have h2 : r = c ↔ r 0 = c 0 ∧ r 1 = c 1 := by
    rw [funext_iff, Fin.forall_fin_two]
  rw [if_congr h1 rfl rfl, if_congr h2 rfl rfl]
  by_cases h0 : r 0 = c 0
  · rw [if_pos h0]
    have hv : ∀ a b : Fin 2, (Zg (rc a b) : Cx R) = if a = b then (if b = 0 then 1 else -1) else 0 := by
      intro a b; fin_cases a <;> fin_cases b <;> rfl
    beta_reduce
    rw [hv]
    exact if_congr (by simp [h0]) rfl rfl
  · rw [if_neg h0, if_neg (fun h => h0 h.1)]

/-- The full property is false: for `Z ⊗ I` (a Pauli gate on the upper one of two qubits), the Kronecker product with any
matrix other than zero is wrong, in every reachable package. -/
theorem C24_matrix_false (hC : P.C.Good) (hr : PReach P h) {ly : Nat} {x y : PEdge R} (hx : Valid (h.pkg.ut .m) 2 x)
    (hy : Valid (h.pkg.ut .m) ly y) (hn : ly + 2 ≤ (h.pkg.ut .m).nvars)
    (hz : mat (h.pkg.ut .m) 2 x = gateMat (fun a b => Zg (rc a b)) [] 1) (hw : y.w ≠ 0) :
    let r := Pkg.kronecker P .m h.pkg x y
    mat (r.1.ut .m) (ly + 2) r.2 ≠ kronMat (mat (h.pkg.ut .m) 2 x) (mat (h.pkg.ut .m) ly y) := by
  intro r he
  have hd := (hr.inv hC).wf.tab .m
  have o := kronecker_spec (k := .m) hC.growth (hr.inv hC).wf hx hy hn
  obtain ⟨dy, hdy⟩ := hd.exists_ne hy hw
  rw [show mat (r.1.ut .m) (ly + 2) r.2 = _ from o.mat_eq] at he
  have hxw : x.w ≠ 0 := by
    intro h0
    have : mat (h.pkg.ut .m) 2 x 0 0 = 0 := amp_w_zero h0 _
    rw [hz, gate_Z] at this
    simp at this
  obtain ⟨a, hp, ha, hl⟩ := hx.exists_node hxw
  have hch := hd.childAt ha hl
  -- the diagonal blocks are multiples of the identity
  have blk : ∀ b : Fin 2, mat (h.pkg.ut .m) 1 (((h.pkg.ut .m).mem a).e (rc b b)) = (x.w⁻¹ * if b = 0 then 1 else -1) • 1 := by
    intro b
    funext r c
    have h1 : mat (h.pkg.ut .m) 2 x (Fin.snoc (α := fun _ => Fin 2) r b) (Fin.snoc (α := fun _ => Fin 2) c b) =
        x.w * mat (h.pkg.ut .m) 1 (((h.pkg.ut .m).mem a).e (rc b b)) r c := by
      unfold mat
      rw [amp_some hp]
      congr 1
    rw [hz, gate_Z] at h1
    have e2 : (Fin.snoc (α := fun _ => Fin 2) r b : Fin 2 → Fin 2) = Fin.snoc (α := fun _ => Fin 2) c b ↔ r = c := by
      constructor
      · intro h
        have := congrArg (Fin.init (α := fun _ => Fin 2)) h
        rwa [Fin.init_snoc, Fin.init_snoc] at this
      · intro h; rw [h]
    have e3 : (Fin.snoc (α := fun _ => Fin 2) c b : Fin 2 → Fin 2) 1 = b := Fin.snoc_last (α := fun _ => Fin 2) b c
    rw [e3, if_congr e2 rfl rfl] at h1
    rw [Matrix.smul_apply, Matrix.one_apply, smul_eq_mul]
    by_cases hrc : r = c
    · rw [if_pos hrc] at h1 ⊢
      field_simp
      rw [mul_comm]; exact h1.symm
    · rw [if_neg hrc] at h1 ⊢
      rw [mul_zero]
      exact (mul_eq_zero.1 h1.symm).resolve_left hxw
  have key : ∀ b : Fin 2, kampM (h.pkg.ut .m) 2 x (fun i => if i = 0 then 0 else rc b b) = x.w := by
    intro b
    rw [DD.kampM, hp]
    dsimp only
    rw [if_neg]
    · have hs : (x.w⁻¹ * if b = 0 then (1 : Cx R) else -1) ≠ 0 := by
        refine mul_ne_zero (inv_ne_zero hxw) ?_
        split_ifs
        · exact one_ne_zero
        · exact neg_ne_zero.2 one_ne_zero
      have hcw : (((h.pkg.ut .m).mem a).e (rc b b)).w ≠ 0 := by
        intro h0
        have : mat (h.pkg.ut .m) 1 (((h.pkg.ut .m).mem a).e (rc b b)) 0 0 = 0 := amp_w_zero h0 _
        rw [blk b, Matrix.smul_apply, Matrix.one_apply_eq, smul_eq_mul, mul_one] at this
        exact hs this
      obtain ⟨a', hp', _, _⟩ := (hch (rc b b)).exists_node hcw
      have hwt := hd.ident_weight (hch (rc b b)) (blk b)
      have e4 : (if (Fin.last 1) = 0 then (0 : Fin 4) else rc b b) = rc b b := by
        rw [if_neg (by decide)]
      rw [e4, DD.kampM, hp']
      dsimp only
      have e5 : mat (h.pkg.ut .m) 1 ⟨some a', 1⟩ = 1 := by
        have h3 := blk b
        funext r c
        have h4 := congrFun (congrFun h3 r) c
        unfold mat at h4 ⊢
        rw [amp_eq_smul, hp', hwt, Matrix.smul_apply, smul_eq_mul] at h4
        exact mul_left_cancel₀ hs h4
      rw [if_pos e5]
      have e6 := congrFun (congrFun e5 0) 0
      rw [Matrix.one_apply_eq] at e6
      unfold mat at e6
      have e7 : (Fin.init (α := fun _ => Fin 4) (fun i : Fin 2 => if i = 0 then (0 : Fin 4) else rc b b)) = fun i => rc ((0 : Fin 1 → Fin 2) i) ((0 : Fin 1 → Fin 2) i) := by
        funext i
        fin_cases i
        rfl
      rw [e7]
      rw [e6, mul_one]
    · intro h1
      have h2 : mat (h.pkg.ut .m) 2 x = x.w • 1 := by
        rw [← h1]
        funext r c
        unfold mat
        rw [amp_eq_smul, hp]; rfl
      rw [hz] at h2
      have h3 := congrFun (congrFun h2 0) 0
      have h4 := congrFun (congrFun h2 1) 1
      rw [gate_Z, Matrix.smul_apply, Matrix.one_apply_eq, smul_eq_mul, mul_one] at h3 h4
      simp at h3 h4
      rw [← h3] at h4
      have := congrArg Cx.re h4
      simp at this
      linarith
  have main : ∀ b : Fin 2, x.w = if b = 0 then 1 else -1 := by
    intro b
    have h1 := congrFun (congrFun he (Fin.append (fun i => ![0, 0, 1, 1] (dy i)) (fun i => if i = 0 then 0 else b)))
      (Fin.append (fun i => ![0, 1, 0, 1] (dy i)) (fun i => if i = 0 then 0 else b))
    unfold kronMat at h1
    simp only [Fin.append_left, Fin.append_right] at h1
    have e1 : (highD (fun i => rc (Fin.append (fun i => ![0, 0, 1, 1] (dy i)) (fun i => if i = 0 then 0 else b) i)
        (Fin.append (fun i => ![0, 1, 0, 1] (dy i)) (fun i => if i = 0 then 0 else b) i)) : Fin 2 → Fin 4) =
        fun i => if i = 0 then 0 else rc b b := by
      funext i
      unfold highD
      beta_reduce
      rw [Fin.append_right, Fin.append_right]
      split_ifs <;> rfl
    have e2 : (lowD (a := 2) (fun i => rc (Fin.append (fun i => ![0, 0, 1, 1] (dy i)) (fun i => if i = 0 then 0 else b) i)
        (Fin.append (fun i => ![0, 1, 0, 1] (dy i)) (fun i => if i = 0 then 0 else b) i)) : Fin ly → Fin 4) = dy := by
      funext i
      unfold lowD
      beta_reduce
      rw [Fin.append_left, Fin.append_left]
      exact congrFun (rc_surj dy) i
    rw [e1, e2, show kamp (k := .m) (h.pkg.ut .m) 2 x (fun i => if i = 0 then 0 else rc b b) = _ from key b, hz, gate_Z,
      if_pos rfl, if_neg (show (1 : Fin 2) ≠ 0 by decide)] at h1
    have e3 : mat (h.pkg.ut .m) ly y (fun i => ![0, 0, 1, 1] (dy i)) (fun i => ![0, 1, 0, 1] (dy i)) = amp (h.pkg.ut .m) ly y dy := by
      unfold mat; rw [rc_surj]
    rw [e3] at h1
    exact mul_right_cancel₀ hdy h1
  have h0 := main 0
  have h1 := main 1
  rw [h0] at h1
  have := congrArg Cx.re h1
  simp at this
  linarith

namespace Ex

/-- The hypotheses of `C24_vector` are met. -/
example : ∃ (h : PHist ℝ) (x y : PEdge ℝ), PReach (PR ℝ) h ∧ Valid (h.pkg.ut .v) 3 x ∧ Valid (h.pkg.ut .v) 3 y ∧
    3 + 3 ≤ (h.pkg.ut .v).nvars ∧ x.w ≠ 0 ∧ y.w ≠ 0 ∧ (PR ℝ).C.Good := by
  obtain ⟨h, x, y, A, B, hr, hn, vx, vy, vA, vB, hx, hA, ax, ay, aA, aB, wx, wy, wA, wB⟩ := setup (R := ℝ)
  exact ⟨h, x, y, hr, vx, vy, by rw [hn], wx, wy, PR_good ℝ⟩

/-- The hypotheses of `C24_matrix_false` are met, so the package returns a wrong product. -/
example : ∃ (h : PHist ℝ) (x y : PEdge ℝ), PReach (PR ℝ) h ∧ Valid (h.pkg.ut .m) 2 x ∧ Valid (h.pkg.ut .m) 3 y ∧
    (let r := Pkg.kronecker (PR ℝ) .m h.pkg x y
     mat (r.1.ut .m) (3 + 2) r.2 ≠ kronMat (mat (h.pkg.ut .m) 2 x) (mat (h.pkg.ut .m) 3 y)) := by
  obtain ⟨h, x, y, A, B, hr, hn, vx, vy, vA, vB, hx, hA, ax, ay, aA, aB, wx, wy, wA, wB⟩ := setup (R := ℝ)
  obtain ⟨h', z, hr', hn', hu, vz, az⟩ := gate_step hr hn 2 (by omega) Zg [] 1 ⟨by simp, by simp, by simp⟩
  exact ⟨h', z, A, hr', vz, (hu _ _ _ vA).1, C24_matrix_false (PR_good ℝ) hr' vz (hu _ _ _ vA).1 (by rw [hn']; omega) az wA⟩

/-- The hypotheses of `C24_matrix_partial` are met by a gate without symmetries. -/
theorem plain_gate : ∃ (h : PHist ℝ) (x y : PEdge ℝ), PReach (PR ℝ) h ∧ Valid (h.pkg.ut .m) 1 x ∧ Valid (h.pkg.ut .m) 3 y ∧
    3 + 1 ≤ (h.pkg.ut .m).nvars ∧ PlainIdent (h.pkg.ut .m) 1 x ∧ x.w ≠ 0 ∧ y.w ≠ 0 ∧ (h.pkg.ut .m).nvars = 6 := by
  obtain ⟨h, x, y, A, B, hr, hn, vx, vy, vA, vB, hx, hA, ax, ay, aA, aB, wx, wy, wA, wB⟩ := setup (R := ℝ)
  obtain ⟨h', z, hr', hn', hu, vz, az⟩ := gate_step hr hn 1 (by omega) U0 [] 0 ⟨by simp, by simp, by simp⟩
  have h01 : mat (h'.pkg.ut .m) 1 z (fun _ => 0) (fun _ => 1) = ⟨2, 1⟩ := by
    rw [az]; unfold gateMat; rw [if_pos]
    · rw [if_pos (by simp [CtrlOK])]; rfl
    · intro i hi; exact absurd (Subsingleton.elim i 0) hi
  have hzw : z.w ≠ 0 := by
    intro h0
    have : mat (h'.pkg.ut .m) 1 z (fun _ => 0) (fun _ => 1) = 0 := amp_w_zero h0 _
    rw [h01] at this
    have := congrArg Cx.im this
    simp at this
  refine ⟨h', z, A, hr', vz, (hu _ _ _ vA).1, by rw [hn']; omega, ?_, hzw, wA, hn' _⟩
  obtain ⟨a, hp, _, _⟩ := vz.exists_node hzw
  unfold PlainIdent
  rw [hp]
  refine ⟨fun h1 => ?_, fun i => trivial⟩
  exfalso
  have h2 := congrFun (congrFun h1 (fun _ => 0)) (fun _ => 1)
  unfold mat at h01 h2
  rw [amp_eq_smul, hp, h2, Matrix.one_apply_ne (by intro h; have := congrFun h 0; simp at this), mul_zero] at h01
  have := congrArg Cx.im h01
  simp at this

/-- The hypotheses of `C24_extend_partial` are met with qubits added above and below. -/
example : ∃ (h : PHist ℝ) (x : PEdge ℝ), PReach (PR ℝ) h ∧ Valid (h.pkg.ut .m) 1 x ∧
    2 + 1 + 3 ≤ (h.pkg.ut .m).nvars ∧ PlainIdent (h.pkg.ut .m) 1 x ∧ x.w ≠ 0 := by
  obtain ⟨h, x, y, hr, vx, _, _, hp, wx, _, hn⟩ := plain_gate
  exact ⟨h, x, hr, vx, by rw [hn], hp, wx⟩

end Ex

end DD
