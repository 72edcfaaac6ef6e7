import Verif.Model.ApproxCircuit
import Verif.Props.C70
import Verif.Props.C74

/-!
# C75: circuits are simulated accurately up to the tolerance

Running a circuit of unitary gates on a state, in a package with tolerance `τ`, rounded arithmetic, shared nodes that are only almost the
same, caches, reference counts and garbage collection, yields the matrix of the circuit times the state up to an error that is proportional to `τ` and
to the number of gates.
-/

namespace DD

open Pkg UTable

variable {R : Type} [Field R] [LinearOrder R] [IsStrictOrderedRing R] [FloorRing R] [HasSqrt R] [LawfulSqrt R]
variable {J : JCfg R} {τ : R} {s s' : JState R}

/-- No step changes what stays. -/
theorem TStep.agree (hJ : J.Good) (hτ : 0 ≤ τ) (h : TInv J τ s) (hs : TStep J τ s s') : Agree J s s' := by
  have sm : ∀ {α : Type} {a b : α}, some a = some b → a = b := fun e => Option.some.inj e
  cases hs with
  | makeState xs e hx he => exact (makeState_acc hJ hτ h hx he).2.1.rel
  | add l x y hx hy => exact (add_acc hJ hτ h hx hy).2.1.rel
  | makeMatrix M e hx he => exact (makeMatrix_acc hJ hτ h hx he).2.1.rel
  | transpose l x hx => exact (transpose_acc hJ hτ h hx).2.rel
  | multiply l x y hx hy => exact (multiply_acc hJ hτ h hx hy).2.1.rel
  | makeIdent n hn hz => exact (makeIdent_acc hJ hτ h hz hn).2.1.rel
  | makeGate U n controls target e hc hU hz he =>
    have hn : n ≤ (s.tab .m).tab.nvars := by
      by_contra hn
      rw [C74_gate_reject (by omega)] at he
      cases he
    obtain ⟨r, e1, -, a1, -⟩ := makeGate_acc hJ hτ h hc.sorted target.isLt hc.target hz hn hU.1 hU.2
    rw [e1] at he
    have := sm he
    subst this
    exact a1.rel
  | makeTwoQubitGate U n target0 target1 K e ht hK hU hz he =>
    have hn : n ≤ (s.tab .m).tab.nvars := by
      by_contra hn
      unfold JState.makeTwoQubitGateDD at he
      rw [if_pos (by omega)] at he
      cases he
    obtain ⟨r, e1, -, a1, -⟩ := makeTwo_acc hJ hτ h (fun e => ht (Fin.ext e)) target0.isLt target1.isLt hz hn hK hU
    rw [e1] at he
    have := sm he
    subst this
    exact a1.rel
  | makeBasisStates n state e hsq hz he =>
    unfold JState.makeBasisStates at he
    split_ifs at he with h1 h2
    have := (basisLoop_acc hJ hτ hsq h (fun i => state.getD i .zero) n (by omega) hz).2.1
    rw [sm he] at this
    exact this.rel
  | makeBasisState n state e hsq hz he =>
    unfold JState.makeBasisState at he
    split_ifs at he with h1
    have := (basisLoop_acc hJ hτ hsq h (fun i => if state.getD i false then .one else .zero) n (by omega) hz).2.1
    rw [sm he] at this
    exact this.rel
  | makeZeroState n e hsq hz he =>
    unfold JState.makeZeroState at he
    split_ifs at he with h1
    have := (basisLoop_acc hJ hτ hsq h (fun _ => .zero) n (by omega) hz).2.1
    rw [sm he] at this
    exact this.rel
  | innerProduct l x y hx hy => exact (innerProduct_acc hJ hτ h hx hy).grow.rel
  | makeNode l es hl hes hz hs =>
    obtain ⟨_, _, u⟩ := makeU_acc hJ hτ hz h hl hes le_rfl hs
    exact u.grow.rel
  | other hst hn hm hc ht hp hid hin =>
    obtain ⟨pin, hi⟩ := h.reach.inv hJ (zero_tol hτ)
    exact hst.agree hJ (zero_tol hτ) hi

/-- A vector to which a reference is held after a step has kept its value. -/
theorem held_value (hJ : J.Good) (hτ : 0 ≤ τ) (h : TInv J τ s) (h' : TInv J τ s') (ha : Agree J s s') {n : Nat} {x : PtrEdge}
    (hv : s.ValidV J n x) (hx : x ∈ (s'.tab .v).held) : s'.ValidV J n x ∧ s'.vecJ J n x = s.vecJ J n x := by
  obtain ⟨pin, hi⟩ := h'.reach.inv hJ (zero_tol hτ)
  have hl := hi.held .v x hx
  have hn : s'.NodeOk n x.p := ha.nodeOk hv.node (fun a e => ((hi.tab .v).inv hJ.U).held x hx a e)
  refine ⟨.intro hl hn hv.none, ?_⟩
  funext d
  rw [vecJ_eq, vecJ_eq, ha.cval hv.live hl, namp_agree h.valid h'.valid ha n x.p d hv.node hn]

theorem keepsRef_value (hJ : J.Good) (hτ : 0 ≤ τ) (hR : J.Rounds τ) (hr : TReach J τ s) {n : Nat} {x : PtrEdge}
    (hv : s.ValidV J n x) (hx : x ∈ (s.tab .v).held) (hs : Relation.ReflTransGen (KeepsRef J τ x) s s') :
    TReach J τ s' ∧ x ∈ (s'.tab .v).held ∧ s'.ValidV J n x ∧ s'.vecJ J n x = s.vecJ J n x := by
  induction hs with
  | refl => exact ⟨hr, hx, hv, rfl⟩
  | tail _ hb ih =>
    obtain ⟨i1, i2, i3, i4⟩ := ih
    have h0 := i1.inv hJ hR hτ
    have r1 := i1.step hb.1
    obtain ⟨v1, v2⟩ := held_value hJ hτ h0 (r1.inv hJ hR hτ) (hb.1.agree hJ hτ h0) i3 hb.2.2
    exact ⟨r1, hb.2.2, v1, v2.trans i4⟩

/-- Taking a reference. -/
theorem holdV_spec (hJ : J.Good) (hτ : 0 ≤ τ) (h : TInv J τ s) {l : Nat} {e : PtrEdge} (he : s.ValidV J l e) :
    TStep J τ s (s.holdV J e) ∧ ∀ k, ((s.holdV J e).tab k).tab.nvars = (s.tab k).tab.nvars := by
  have hk : ∀ x ∈ ptrRefs .v e, s.Known J x := by
    rw [known_ptr]
    refine ⟨he.live, fun b hb => ?_⟩
    have := he.node
    rw [hb] at this
    exact this.1
  obtain ⟨pin, hi⟩ := h.reach.inv hJ (zero_tol hτ)
  have sp : IncSpec J.U (s.tab .v).tab e ((s.tab .v).tab.incRef J.U e).1 ((s.tab .v).tab.incRef J.U e).2 := by
    apply incRefF_spec J.U _ _ _ ((hi.tab .v).inv hJ.U).closed
    intro b hb
    exact ⟨(known_ptr.1 hk).2 b hb, by simp [UTable.lvl, hb]⟩
  refine ⟨.other (.incRef .v e hk) (fun a ha => ?_) (fun a ha => Or.inl ha) (fun i k h => h) (fun i k h => h) (fun i k h => h) (fun i k h => h) (fun i k h => h),
    fun k => ?_⟩
  · have ha : a ∈ ((s.tab .v).tab.incRef J.U e).1.all := ha
    rwa [sp.shape.all] at ha
  · cases k with
    | v => exact sp.shape.nvars
    | m => rfl
    | d => rfl

omit [IsStrictOrderedRing R] [HasSqrt R] [LawfulSqrt R] in
theorem holdV_held (s : JState R) (e : PtrEdge) : e ∈ ((s.holdV J e).tab .v).held := by
  unfold JState.holdV
  simp

/-- Unitary matrices preserve the norm. -/
theorem vnorm_isometry {n : Nat} {M : QMat R n} (hM : adj M * M = 1) (x : (Fin n → Fin 2) → Cx R) : vnorm (M.mulVec x) = vnorm x := by
  have h := C70_isometry hM x x
  have e : ∀ y : (Fin n → Fin 2) → Cx R, (inner y y).re = ∑ d, (y d).mag2 := by
    intro y
    have hs : ∀ (S : Finset (Fin n → Fin 2)) (f : (Fin n → Fin 2) → Cx R), (∑ i ∈ S, f i).re = ∑ i ∈ S, (f i).re := by
      intro S f
      classical
      induction S using Finset.induction_on with
      | empty => rfl
      | insert a S ha ih => rw [Finset.sum_insert ha, Finset.sum_insert ha, ← ih]; rfl
    unfold inner
    rw [hs]
    refine Finset.sum_congr rfl fun d _ => ?_
    simp [Cx.conj, Cx.mag2]
  unfold vnorm
  rw [← e, ← e, h]

theorem unitary_cols {U : Fin 4 → Cx R} (hU : IsUnitary (mat2 U)) (a b : Fin 2) :
    ∑ i : Fin 2, (U (rc i a)).conj * U (rc i b) = if a = b then 1 else 0 := by
  have h := congrFun (congrFun hU.1 a) b
  rw [Matrix.mul_apply] at h
  rw [Matrix.one_apply] at h
  rw [← h]
  refine Finset.sum_congr rfl fun i _ => ?_
  have e : ∀ i a, U (rc i a) = mat2 U i a := by
    simp only [Fin.forall_fin_two]
    exact ⟨⟨rfl, rfl⟩, rfl, rfl⟩
  rw [e, e]
  rfl

omit [FloorRing R] [HasSqrt R] [LawfulSqrt R] in
theorem smallM_small (hτ : 0 ≤ τ) {n : Nat} (hn : 1000 * ((n : R) + 1) ^ 2 * (3 / 2) ^ n * τ ≤ 1) : 1000 * ((n : R) + 1) * τ ≤ 1 := by
  refine le_trans (mul_le_mul_of_nonneg_right ?_ hτ) hn
  have h1 : (1 : R) ≤ (3 / 2) ^ n := one_le_pow₀ (by norm_num)
  have h0 : (0 : R) ≤ n := Nat.cast_nonneg n
  have h2 : (n : R) + 1 ≤ ((n : R) + 1) ^ 2 := by nlinarith
  have h3 : ((n : R) + 1) ^ 2 * 1 ≤ ((n : R) + 1) ^ 2 * (3 / 2) ^ n := mul_le_mul_of_nonneg_left h1 (by positivity)
  linarith

/-- The error of one gate. -/
def gateErr (τ : R) (n : Nat) (B : R) : R := 320 * τ * ((n : R) + 1) ^ 2 * (3 / 2) ^ n * (1 + B)

/-- What one gate yields. -/
structure Gated (J : JCfg R) (τ : R) (n : Nat) (g : CGate R n) (s s2 s' : JState R) (x e y : PtrEdge) : Prop where
  reach2 : TReach J τ s2
  grow : Grow J s s2
  inv2 : TInv J τ s2
  mat : s2.ValidM J n e
  keep : s2.ValidV J n x ∧ s2.vecJ J n x = s.vecJ J n x
  err : ∀ r, ∑ c, mag (s2.matJ J n e r c - g.mat r c) ≤ 120 * τ * ((n : R) + 1)
  wt : mag (s2.ct.cval J.C e.w) ≤ 1 + 3 / 2 * τ
  rows : ∃ K : Nat → R, (∀ j, 1 ≤ K j) ∧ s2.RowCol J K n e.p ∧ ∏ j ∈ Finset.range n, K j ≤ 53 / 25
  reach : TReach J τ s'
  held : y ∈ (s'.tab .v).held
  valid : s'.ValidV J n y
  nvars : ∀ k, (s'.tab k).tab.nvars = (s.tab k).tab.nvars
  val : s'.vecJ J n y = (s2.multiply J e x).1.vecJ J n y

theorem gate_step (hJ : J.Good) (hτ : 0 ≤ τ) (hR : J.Rounds τ) (hr : TReach J τ s) {n : Nat}
    (hz : 1000 * ((n : R) + 1) * τ ≤ 1) {x : PtrEdge} (hx : s.ValidV J n x) {g : CGate R n} (hU : GateOk τ g.U) {s2 : JState R} {e : PtrEdge}
    (hg : s.makeGateDD J g.U n g.controls g.target = some (s2, e)) {y : PtrEdge} (hy : (s2.multiply J e x).2 = y)
    (hs : (s2.multiply J e x).1.holdV J y = s') : Gated J τ n g s s2 s' x e y := by
  have hnv : n ≤ (s.tab .m).tab.nvars := by
    by_contra hn
    rw [C74_gate_reject (by omega)] at hg
    cases hg
  have hi := hr.inv hJ hR hτ
  obtain ⟨s2', e', g1, r2, v2, k2, b2, w2, K⟩ := C74_gate hJ hτ hR hr hnv hz hU g.good
  rw [hg] at g1
  have g1 := Option.some.inj g1
  obtain ⟨rfl, rfl⟩ : s2 = s2' ∧ e = e' := ⟨congrArg Prod.fst g1, congrArg Prod.snd g1⟩
  have i2 := r2.inv hJ hR hτ
  have gr : Grow J s s2 := by
    obtain ⟨r, e1, -, a1, -⟩ := makeGate_acc hJ hτ hi g.good.sorted g.target.isLt g.good.target hz hnv hU.1 hU.2
    rw [hg] at e1
    have e1 := Option.some.inj e1
    rw [← e1] at a1
    exact a1
  have vx2 := (k2.1 n x hx).1
  obtain ⟨m1, m2, m3, -⟩ := multiply_acc hJ hτ i2 v2 vx2
  have r3 := r2.step (.multiply n e x v2 vx2)
  rw [hy] at m3
  obtain ⟨st, nv⟩ := holdV_spec (τ := τ) hJ hτ m1 m3
  rw [hs] at st nv
  have r4 := r3.step st
  have hh : y ∈ (s'.tab .v).held := by rw [← hs]; exact holdV_held _ _
  obtain ⟨v4, e4⟩ := held_value hJ hτ m1 (r4.inv hJ hR hτ) (st.agree hJ hτ m1) m3 hh
  exact ⟨r2, gr, i2, v2, k2.1 n x hx, b2, w2, K, r4, hh, v4, fun k => (nv k).trans ((m2.nvars k).trans (k2.2.2 k)), e4⟩

/-- The weight of a state is not much larger than its norm. -/
theorem state_weight_le (hτ : 0 ≤ τ) (h : TInv J τ s) {n : Nat} (hz : 1000 * ((n : R) + 1) * τ ≤ 1) {x : PtrEdge} (hx : s.ValidV J n x)
    (hv : vnorm (s.vecJ J n x) ≤ 3 / 2) : mag (s.ct.cval J.C x.w) ≤ 8 / 5 := by
  have e0 : 1000 * ((n : R) + 1) * τ = 1000 * ((n : R) * τ) + 1000 * τ := by ring
  have hnτ := mul_nonneg (Nat.cast_nonneg (α := R) n) hτ
  have h1 := weight_norm hτ (by linarith) h (e := ⟨x.p, s.ct.cval J.C x.w⟩) hx.node
  have e1 : s.evec J n ⟨x.p, s.ct.cval J.C x.w⟩ = s.vecJ J n x := by
    funext d
    rw [vecJ_eq]
    rfl
  rw [e1] at h1
  have h2 : (1 + 12 * τ) ^ n ≤ 51 / 50 := by
    have h3 := bernoulli (x := 12 * τ) (by linarith) n
    have h4 : (n : R) * (12 * τ) ≤ 12 / 1000 := by
      have e : (n : R) * (12 * τ) = 12 * ((n : R) * τ) := by ring
      rw [e]
      linarith
    have h5 : 0 ≤ (1 + 12 * τ) ^ n := by positivity
    have h6 : (1 + 12 * τ) ^ n * (1 - 12 / 1000) ≤ 1 := le_trans (mul_le_mul_of_nonneg_left (by linarith) h5) h3
    linarith
  have h7 := mul_le_mul h2 hv (vnorm_nonneg _) (by norm_num)
  exact (le_trans h1 h7).trans (by norm_num)

omit [FloorRing R] in
theorem CGate.Near.refl (hτ : 0 ≤ τ) {n : Nat} (g : CGate R n) : g.Near τ g := ⟨rfl, rfl, .refl hτ _⟩

omit [FloorRing R] in
theorem NearCirc.refl (hτ : 0 ≤ τ) {n : Nat} (gs : List (CGate R n)) : NearCirc τ gs gs := by
  induction gs with
  | nil => exact .nil
  | cons g gs ih => exact .cons (.refl hτ g) ih

theorem near_ok (hτ : 0 ≤ τ) {n : Nat} (hz : 1000 * ((n : R) + 1) * τ ≤ 1) {g g0 : CGate R n} (hU : IsUnitary (mat2 g0.U)) (h : g.Near τ g0) :
    GateOk τ g.U :=
  C74_rounded hτ (lt_one_of_small hτ hz).le hU h.2.2

/-- The rows of the matrices of two gates with almost the same entries. -/
theorem near_rows (hτ : 0 ≤ τ) {n : Nat} {g g0 : CGate R n} (h : g.Near τ g0) (r : Fin n → Fin 2) :
    ∑ c, mag (g.mat r c - g0.mat r c) ≤ τ / 10 := by
  classical
  obtain ⟨U, cs, t, hg⟩ := g
  obtain ⟨V, cs0, t0, hg0⟩ := g0
  obtain ⟨h1, h2, h3⟩ := h
  dsimp only at h1 h2 h3
  subst h1 h2
  have key : ∀ c, mag (CGate.mat ⟨U, cs, t, hg⟩ r c - CGate.mat ⟨V, cs, t, hg0⟩ r c) ≤
      ∑ b : Fin 2, if c = Function.update r t b then τ / 20 else 0 := by
    intro c
    have p0 : ∀ b ∈ (Finset.univ : Finset (Fin 2)), (0 : R) ≤ if c = Function.update r t b then τ / 20 else 0 := by
      intro b _; split_ifs <;> linarith
    unfold CGate.mat gateMat
    dsimp only
    split_ifs with a1 a2
    · refine le_trans (h3 _) (le_trans (le_of_eq ?_) (Finset.single_le_sum p0 (Finset.mem_univ (c t))))
      rw [if_pos]
      funext i
      by_cases hi : i = t
      · subst hi; simp
      · rw [Function.update_of_ne hi]; exact (a1 i hi).symm
    · rw [sub_self, mag_zero]; exact Finset.sum_nonneg p0
    · rw [sub_self, mag_zero]; exact Finset.sum_nonneg p0
    · rw [sub_self, mag_zero]; exact Finset.sum_nonneg p0
  refine (Finset.sum_le_sum fun c _ => key c).trans (le_of_eq ?_)
  rw [Finset.sum_comm]
  simp only [Finset.sum_ite_eq', Finset.mem_univ, if_true]
  simp
  ring

/-- The error of one gate. -/
theorem gate_err (hJ : J.Good) (hτ : 0 ≤ τ) (hR : J.Rounds τ) (hr : TReach J τ s) {n : Nat}
    (hn : 1000 * ((n : R) + 1) ^ 2 * (3 / 2) ^ n * τ ≤ 1) {B : R} (hB : 0 ≤ B) {x : PtrEdge} (hx : s.ValidV J n x)
    (hxB : s.NormLe J B n x.p) (hv : vnorm (s.vecJ J n x) ≤ 3 / 2) {g : CGate R n} {s2 : JState R} {e y : PtrEdge}
    (hy : (s2.multiply J e x).2 = y) (h : Gated J τ n g s s2 s' x e y) {g0 : CGate R n} (hg0 : g.Near τ g0) :
    vnorm (fun d => s'.vecJ J n y d - g0.mat.mulVec (s.vecJ J n x) d) ≤ gateErr τ n B := by
  have hz := smallM_small hτ hn
  obtain ⟨r2, gr, i2, v2, ⟨vx2, ex2⟩, b2, w2, ⟨K, hK, hKr, hKp⟩, -, -, -, -, e4⟩ := h
  have hi := hr.inv hJ hR hτ
  have hxB2 := gr.normLe hi i2 hx.node hxB
  have n0 : (0 : R) ≤ n := Nat.cast_nonneg n
  have hτ1 : 1000 * τ ≤ 1 := by
    have : 1000 * ((n : R) + 1) * τ = 1000 * ((n : R) * τ) + 1000 * τ := by ring
    have := mul_nonneg n0 hτ
    linarith
  have hw := state_weight_le hτ i2 hz vx2 (by rw [ex2]; exact hv)
  have hm := C68_multiply hJ hτ hR r2 hn v2 vx2 hK hKr hB hxB2 (X := 1 + 3 / 2 * τ) (Y := 8 / 5) (by linarith) (by norm_num) w2 hw
  rw [hy] at hm
  set M := ((n : R) + 1) ^ 2 with hM
  have M1 : (n : R) + 1 ≤ M := by rw [hM]; nlinarith
  have M0 : 0 ≤ M := by linarith
  have b3 : ∀ r, ∑ c, mag (s2.matJ J n e r c - g0.mat r c) ≤ 120 * τ * ((n : R) + 1) + τ / 10 := by
    intro r
    have h1 : ∀ c ∈ Finset.univ, mag (s2.matJ J n e r c - g0.mat r c) ≤ mag (s2.matJ J n e r c - g.mat r c) + mag (g.mat r c - g0.mat r c) :=
      fun c _ => mag_tri _ _ _
    have h2 := Finset.sum_le_sum h1
    rw [Finset.sum_add_distrib] at h2
    linarith [b2 r, near_rows hτ hg0 r]
  have key : ∀ d, mag (s'.vecJ J n y d - g0.mat.mulVec (s.vecJ J n x) d) ≤ 320 * τ * M * (1 + B) := by
    intro d
    rw [e4]
    have h1 := hm d
    have h2 : 41 * τ * M * ((∏ j ∈ Finset.range n, K j) * (1 + B)) * ((1 + 3 / 2 * τ) * (8 / 5)) ≤ 698 / 5 * τ * M * (1 + B) := by
      have a1 : (∏ j ∈ Finset.range n, K j) * ((1 + 3 / 2 * τ) * (8 / 5)) ≤ 53 / 25 * (803 / 500) :=
        mul_le_mul hKp (by linarith) (by linarith) (by norm_num)
      have a2 : 0 ≤ τ * M * (1 + B) := by positivity
      have a3 := mul_le_mul_of_nonneg_left a1 a2
      have e1 : 41 * τ * M * ((∏ j ∈ Finset.range n, K j) * (1 + B)) * ((1 + 3 / 2 * τ) * (8 / 5)) =
          41 * (τ * M * (1 + B) * ((∏ j ∈ Finset.range n, K j) * ((1 + 3 / 2 * τ) * (8 / 5)))) := by ring
      rw [e1]
      linarith
    have h3 : mag ((s2.matJ J n e).mulVec (s2.vecJ J n x) d - g0.mat.mulVec (s.vecJ J n x) d) ≤ 901 / 5 * τ * M * (1 + B) := by
      rw [ex2]
      have e1 : (s2.matJ J n e).mulVec (s.vecJ J n x) d - g0.mat.mulVec (s.vecJ J n x) d =
          ∑ c, (s2.matJ J n e d c - g0.mat d c) * s.vecJ J n x c := by
        unfold Matrix.mulVec dotProduct
        rw [← Finset.sum_sub_distrib]
        exact Finset.sum_congr rfl fun c _ => by ring
      rw [e1]
      refine (mag_sum _ _).trans ?_
      have h4 : ∑ c, mag ((s2.matJ J n e d c - g0.mat d c) * s.vecJ J n x c) ≤ ∑ c, mag (s2.matJ J n e d c - g0.mat d c) * (3 / 2) := by
        refine Finset.sum_le_sum fun c _ => ?_
        rw [mag_mul]
        exact mul_le_mul_of_nonneg_left ((mag_le_vnorm _ c).trans hv) (mag_nonneg _)
      rw [← Finset.sum_mul] at h4
      have h5 := mul_le_mul_of_nonneg_right (b3 d) (by norm_num : (0 : R) ≤ 3 / 2)
      have h6 : τ * ((n : R) + 1) ≤ τ * M := mul_le_mul_of_nonneg_left M1 hτ
      have h7 : 0 ≤ τ * M * B := by positivity
      have h8 : τ * 1 ≤ τ * ((n : R) + 1) := mul_le_mul_of_nonneg_left (by linarith) hτ
      refine h4.trans (h5.trans ?_)
      linarith
    refine (mag_tri _ ((s2.matJ J n e).mulVec (s2.vecJ J n x) d) _).trans ?_
    have h4 : 0 ≤ τ * M * (1 + B) := by positivity
    linarith
  refine (vnorm_sup (by positivity) key).trans (le_of_eq ?_)
  unfold gateErr
  rw [hM]
  ring

/-- **C75.** A circuit of unitary gates is simulated with an error, in the Euclidean norm, of at most `320 τ (n + 1)² (3/2)ⁿ (1 + B)` for each
gate, where `B` bounds the norms of the nodes of the states (1 if they are normalised); the tolerance has to be small enough for the number
of qubits and the number of gates. The matrices of the gates that are given to the package may be rounded: `gs` is the circuit that is given,
`gs0` the one that is meant. -/
theorem C75_simulation (hJ : J.Good) (hτ : 0 ≤ τ) (hR : J.Rounds τ) {n : Nat} (hn : 1000 * ((n : R) + 1) ^ 2 * (3 / 2) ^ n * τ ≤ 1)
    {B : R} (hB : 0 ≤ B) {x x' : PtrEdge} {gs gs0 : List (CGate R n)} (hU : ∀ g ∈ gs0, IsUnitary (mat2 g.U))
    (hgs : NearCirc τ gs gs0) (hrun : SimRuns J τ (fun s x => s.NormLe J B n x.p) s x gs s' x') (hr : TReach J τ s) (hx : s.ValidV J n x) (hh : x ∈ (s.tab .v).held)
    (hv : vnorm (s.vecJ J n x) + gs.length * gateErr τ n B ≤ 3 / 2) :
    TReach J τ s' ∧ s'.ValidV J n x' ∧ x' ∈ (s'.tab .v).held ∧
    vnorm (fun d => s'.vecJ J n x' d - (circuitMat gs0).mulVec (s.vecJ J n x) d) ≤ gs.length * gateErr τ n B := by
  have E0 : 0 ≤ gateErr τ n B := by unfold gateErr; positivity
  induction hrun generalizing gs0 with
  | done hk =>
    cases hgs
    obtain ⟨a1, a2, a3, a4⟩ := keepsRef_value hJ hτ hR hr hx hh hk
    refine ⟨a1, a3, a2, ?_⟩
    rw [circuitMat, Matrix.one_mulVec, a4]
    refine vnorm_le (by simp) ?_
    simp [Cx.mag2]
  | @gate s s1 s2 s' x e x' g gs hk hq hg _ ih =>
    cases hgs with | @cons _ g0 _ gs0 hn1 hgs
    obtain ⟨a1, a2, a3, a4⟩ := keepsRef_value hJ hτ hR hr hx hh hk
    rw [List.length_cons] at hv ⊢
    push_cast at hv ⊢
    have hv1 : vnorm (s1.vecJ J n x) ≤ 3 / 2 := by
      rw [a4]
      have : 0 ≤ ((gs.length : R) + 1) * gateErr τ n B := by positivity
      linarith
    have hs := gate_step hJ hτ hR a1 (smallM_small hτ hn) a3 (near_ok hτ (smallM_small hτ hn) (hU g0 List.mem_cons_self) hn1) hg rfl rfl
    have b4 := gate_err hJ hτ hR a1 hn hB a3 hq hv1 rfl hs hn1
    have b1 := hs.reach
    have b2 := hs.held
    have b3 := hs.valid
    have hg1 := C70_gate_unitary g0 (unitary_cols (hU g0 List.mem_cons_self))
    have hv2 : vnorm (((s2.multiply J e x).1.holdV J (s2.multiply J e x).2).vecJ J n (s2.multiply J e x).2) ≤
        vnorm (s.vecJ J n x) + gateErr τ n B := by
      rw [a4] at b4
      set f := ((s2.multiply J e x).1.holdV J (s2.multiply J e x).2).vecJ J n (s2.multiply J e x).2
      have h1 := vnorm_add (g0.mat.mulVec (s.vecJ J n x)) (fun d => f d - g0.mat.mulVec (s.vecJ J n x) d)
      have e0 : (fun d => g0.mat.mulVec (s.vecJ J n x) d + (f d - g0.mat.mulVec (s.vecJ J n x) d)) = f := by funext d; ring
      rw [e0, vnorm_isometry hg1] at h1
      linarith
    obtain ⟨c1, c2, c3, c4⟩ := ih (fun g hg => hU g (List.mem_cons_of_mem _ hg)) hgs b1 b3 b2 (by linarith)
    refine ⟨c1, c2, c3, ?_⟩
    rw [a4] at b4
    set f := ((s2.multiply J e x).1.holdV J (s2.multiply J e x).2).vecJ J n (s2.multiply J e x).2
    have hgs := C70_circuit_unitary gs0 (fun g hg => unitary_cols (hU g (List.mem_cons_of_mem _ hg)))
    have h1 := vnorm_add (fun d => s'.vecJ J n x' d - (circuitMat gs0).mulVec f d)
      ((circuitMat gs0).mulVec (fun d => f d - g0.mat.mulVec (s.vecJ J n x) d))
    rw [vnorm_isometry hgs] at h1
    have e0 : (fun d => s'.vecJ J n x' d - (circuitMat gs0).mulVec f d + (circuitMat gs0).mulVec (fun d => f d - g0.mat.mulVec (s.vecJ J n x) d) d) =
        fun d => s'.vecJ J n x' d - (circuitMat (g0 :: gs0)).mulVec (s.vecJ J n x) d := by
      funext d
      have e1 : (fun d => f d - g0.mat.mulVec (s.vecJ J n x) d) = f - g0.mat.mulVec (s.vecJ J n x) := rfl
      rw [e1, Matrix.mulVec_sub, circuitMat, ← Matrix.mulVec_mulVec]
      show _ + ((circuitMat gs0).mulVec f d - _) = _
      ring
    rw [e0] at h1
    linarith

/-- The nodes of every state have a bounded norm. -/
theorem SimRuns.norms (hJ : J.Good) (hτ : 0 ≤ τ) (hR : J.Rounds τ) {n : Nat} (hz : 1000 * ((n : R) + 1) * τ ≤ 1)
    {x x' : PtrEdge} {gs gs0 : List (CGate R n)} (hU : ∀ g ∈ gs0, IsUnitary (mat2 g.U))
    (hgs : NearCirc τ gs gs0) (hrun : SimRuns J τ (fun _ _ => True) s x gs s' x') (hr : TReach J τ s) (hx : s.ValidV J n x) (hh : x ∈ (s.tab .v).held) :
    SimRuns J τ (fun s x => s.NormLe J ((3 / 2 * (1 + 4 * τ)) ^ n) n x.p) s x gs s' x' := by
  induction hrun generalizing gs0 with
  | done hk => exact .done hk
  | @gate s s1 s2 s' x e x' g gs hk _ hg _ ih =>
    cases hgs with | @cons _ g0 _ gs0 hn1 hgs
    obtain ⟨a1, a2, a3, a4⟩ := keepsRef_value hJ hτ hR hr hx hh hk
    have hs := gate_step hJ hτ hR a1 hz a3 (near_ok hτ hz (hU g0 List.mem_cons_self) hn1) hg rfl rfl
    exact .gate hk (normLe_exists hτ (a1.inv hJ hR hτ) n x.p a3.node n le_rfl) hg
      (ih (fun g hg => hU g (List.mem_cons_of_mem _ hg)) hgs hs.reach hs.valid hs.held)

/-- **C75.** Without any assumption on the nodes. -/
theorem C75_any (hJ : J.Good) (hτ : 0 ≤ τ) (hR : J.Rounds τ) {n : Nat} (hn : 1000 * ((n : R) + 1) ^ 2 * (3 / 2) ^ n * τ ≤ 1)
    {x x' : PtrEdge} {gs gs0 : List (CGate R n)} (hU : ∀ g ∈ gs0, IsUnitary (mat2 g.U))
    (hgs : NearCirc τ gs gs0) (hrun : SimRuns J τ (fun _ _ => True) s x gs s' x') (hr : TReach J τ s) (hx : s.ValidV J n x) (hh : x ∈ (s.tab .v).held)
    (hv : vnorm (s.vecJ J n x) + gs.length * gateErr τ n ((3 / 2 * (1 + 4 * τ)) ^ n) ≤ 3 / 2) :
    TReach J τ s' ∧ s'.ValidV J n x' ∧ x' ∈ (s'.tab .v).held ∧
    vnorm (fun d => s'.vecJ J n x' d - (circuitMat gs0).mulVec (s.vecJ J n x) d) ≤ gs.length * gateErr τ n ((3 / 2 * (1 + 4 * τ)) ^ n) :=
  C75_simulation hJ hτ hR hn (by positivity) hU hgs (hrun.norms hJ hτ hR (smallM_small hτ hn) hU hgs hr hx hh) hr hx hh hv

/-- **C75.** The calls never fail. -/
theorem C75_runs (hJ : J.Good) (hτ : 0 ≤ τ) (hR : J.Rounds τ) {n : Nat} (hz : 1000 * ((n : R) + 1) * τ ≤ 1) {gs gs0 : List (CGate R n)}
    (hU : ∀ g ∈ gs0, IsUnitary (mat2 g.U)) (hgs : NearCirc τ gs gs0) {x : PtrEdge} (hr : TReach J τ s) (hm : n ≤ (s.tab .m).tab.nvars) (hx : s.ValidV J n x) :
    ∃ s' x', SimRuns J τ (fun _ _ => True) s x gs s' x' := by
  induction hgs generalizing s x with
  | nil => exact ⟨s, x, .done .refl⟩
  | @cons g g0 gs gs0 hn1 hgs ih =>
    have hok := near_ok hτ hz (hU g0 List.mem_cons_self) hn1
    obtain ⟨s2, e, hg, -⟩ := C74_gate hJ hτ hR hr hm hz hok g.good
    have hs := gate_step hJ hτ hR hr hz hx hok hg rfl rfl
    obtain ⟨s', x', h⟩ := ih (fun g hg => hU g (List.mem_cons_of_mem _ hg)) hs.reach (by rw [hs.nvars]; exact hm) hs.valid
    exact ⟨s', x', .gate .refl trivial hg h⟩

/-- **C75.** From the call that makes the state |0…0⟩ to the amplitudes that are read in the end: these are the first column of the matrix of the
circuit, up to an error proportional to the tolerance and to the number of gates. -/
theorem C75_amplitudes (hJ : J.Good) (hτ : 0 ≤ τ) (hR : J.Rounds τ) (hsq : SqOk J τ) {n : Nat}
    (hn : 1000 * ((n : R) + 1) ^ 2 * (3 / 2) ^ n * τ ≤ 1) {gs gs0 : List (CGate R n)} (hU : ∀ g ∈ gs0, IsUnitary (mat2 g.U)) (hr : TReach J τ s)
    {s1 : JState R} {x x' : PtrEdge} (h0 : s.makeZeroState J n = some (s1, x))
    (hgs : NearCirc τ gs gs0) (hrun : SimRuns J τ (fun _ _ => True) (s1.holdV J x) x gs s' x')
    (hm : gs.length * gateErr τ n ((3 / 2 * (1 + 4 * τ)) ^ n) ≤ 2 / 5) (d : Fin n → Fin 2) :
    mag (s'.getVector J n x' d - circuitMat gs0 d (fun _ => 0)) ≤
      gs.length * gateErr τ n ((3 / 2 * (1 + 4 * τ)) ^ n) + 16 * τ * ((n : R) + 1) * (3 / 2) ^ n := by
  have hz := smallM_small hτ hn
  have hnv : n ≤ (s.tab .v).tab.nvars := by
    by_contra hc
    rw [JState.makeZeroState, if_pos (by omega)] at h0
    cases h0
  obtain ⟨s1', y, e1, r1, v1, k1, b1⟩ := C74_zero hJ hτ hR hsq hr hnv hz
  rw [h0] at e1
  have e1 := Option.some.inj e1
  obtain ⟨rfl, rfl⟩ : s1 = s1' ∧ x = y := ⟨congrArg Prod.fst e1, congrArg Prod.snd e1⟩
  have i1 := r1.inv hJ hR hτ
  obtain ⟨st, -⟩ := holdV_spec (τ := τ) hJ hτ i1 v1
  have r2 := r1.step st
  have hh : x ∈ ((s1.holdV J x).tab .v).held := holdV_held _ _
  obtain ⟨v2, e2⟩ := held_value hJ hτ i1 (r2.inv hJ hR hτ) (st.agree hJ hτ i1) v1 hh
  have n0 : (0 : R) ≤ n := Nat.cast_nonneg n
  have p1 : (1 : R) ≤ (3 / 2) ^ n := one_le_pow₀ (by norm_num)
  set z : (Fin n → Fin 2) → Cx R := fun d => if d = fun _ => 0 then 1 else 0 with hz0
  have z1 : vnorm z ≤ 1 := by
    refine vnorm_le zero_le_one ?_
    rw [Finset.sum_eq_single (fun _ => 0)]
    · rw [hz0]
      simp [Cx.mag2]
    · intro b _ hb
      rw [hz0]
      simp [hb, Cx.mag2]
    · simp
  have E1 : vnorm (fun d => s1.vecJ J n x d - z d) ≤ (3 / 2) ^ n * (12 * τ * n) := vnorm_sup (by positivity) b1
  have small : (3 / 2) ^ n * (12 * τ * n) ≤ 1 / 10 := by
    have h2 : (n : R) ≤ ((n : R) + 1) ^ 2 := by nlinarith
    have h3 : (n : R) * ((3 / 2) ^ n * τ) ≤ ((n : R) + 1) ^ 2 * ((3 / 2) ^ n * τ) := mul_le_mul_of_nonneg_right h2 (by positivity)
    linarith
  have hv : vnorm ((s1.holdV J x).vecJ J n x) ≤ 11 / 10 := by
    rw [e2]
    have := vnorm_near (f := s1.vecJ J n x) (g := z) (by positivity) b1
    linarith
  obtain ⟨a1, a2, a3, a4⟩ := C75_any hJ hτ hR hn hU hgs hrun r2 v2 hh (by linarith)
  have iso := C70_circuit_unitary gs0 (fun g hg => unitary_cols (hU g hg))
  rw [e2] at a4 hv
  set E := (gs.length : R) * gateErr τ n ((3 / 2 * (1 + 4 * τ)) ^ n)
  have cz : (circuitMat gs0).mulVec z d = circuitMat gs0 d (fun _ => 0) := by
    rw [hz0]
    unfold Matrix.mulVec dotProduct
    simp
  have hfin : vnorm (s'.vecJ J n x') ≤ 3 / 2 := by
    have h1 := vnorm_add ((circuitMat gs0).mulVec (s1.vecJ J n x)) (fun d => s'.vecJ J n x' d - (circuitMat gs0).mulVec (s1.vecJ J n x) d)
    have e0 : (fun d => (circuitMat gs0).mulVec (s1.vecJ J n x) d + (s'.vecJ J n x' d - (circuitMat gs0).mulVec (s1.vecJ J n x) d)) =
      s'.vecJ J n x' := by funext d; ring
    rw [e0, vnorm_isometry iso] at h1
    linarith
  have i3 := a1.inv hJ hR hτ
  have hw := state_weight_le hτ i3 hz a2 hfin
  have hread := C59_read hJ hτ hR a1 a2 d
  have hread' : mag (s'.getVector J n x' d - s'.vecJ J n x' d) ≤ 4 * τ * ((n : R) + 1) := by
    have h1 : max 1 (mag (s'.ct.cval J.C x'.w)) ≤ 8 / 5 := max_le (by norm_num) hw
    have h2 : (1 + 4 * τ) ^ n ≤ 51 / 50 := by
      have h3 := bernoulli (x := 4 * τ) (by linarith) n
      have e0 : 1000 * ((n : R) + 1) * τ = 1000 * ((n : R) * τ) + 1000 * τ := by ring
      have h4 : (n : R) * (4 * τ) ≤ 4 / 1000 := by
        have e : (n : R) * (4 * τ) = 4 * ((n : R) * τ) := by ring
        rw [e]
        linarith
      have h5 : 0 ≤ (1 + 4 * τ) ^ n := by positivity
      have h6 : (1 + 4 * τ) ^ n * (1 - 4 / 1000) ≤ 1 := le_trans (mul_le_mul_of_nonneg_left (by linarith) h5) h3
      linarith
    have h7 := mul_le_mul h2 h1 (le_trans zero_le_one (le_max_left _ _)) (by norm_num : (0 : R) ≤ 51 / 50)
    have h8 := mul_le_mul_of_nonneg_left h7 (by positivity : 0 ≤ 2 * τ * ((n : R) + 1))
    have h9 : 0 ≤ τ * ((n : R) + 1) := by positivity
    rw [← mul_assoc] at h8
    refine hread.trans (h8.trans ?_)
    linarith
  have hE : mag (s'.vecJ J n x' d - (circuitMat gs0).mulVec (s1.vecJ J n x) d) ≤ E :=
    (mag_le_vnorm (fun d => s'.vecJ J n x' d - (circuitMat gs0).mulVec (s1.vecJ J n x) d) d).trans a4
  have hI : mag ((circuitMat gs0).mulVec (s1.vecJ J n x) d - (circuitMat gs0).mulVec z d) ≤ (3 / 2) ^ n * (12 * τ * n) := by
    have e0 : (circuitMat gs0).mulVec (s1.vecJ J n x) d - (circuitMat gs0).mulVec z d = (circuitMat gs0).mulVec (fun d => s1.vecJ J n x d - z d) d := by
      have : (fun d => s1.vecJ J n x d - z d) = s1.vecJ J n x - z := rfl
      rw [this, Matrix.mulVec_sub]
      rfl
    rw [e0]
    refine (mag_le_vnorm _ d).trans ?_
    rw [vnorm_isometry iso]
    exact E1
  rw [cz] at hI
  refine (mag_tri _ (s'.vecJ J n x' d) _).trans ?_
  have h1 := mag_tri (s'.vecJ J n x' d) ((circuitMat gs0).mulVec (s1.vecJ J n x) d) (circuitMat gs0 d (fun _ => 0))
  have h2 : 4 * τ * ((n : R) + 1) * 1 ≤ 4 * τ * ((n : R) + 1) * (3 / 2) ^ n := mul_le_mul_of_nonneg_left p1 (by positivity)
  have h3 : (3 / 2) ^ n * (12 * τ * n) ≤ (3 / 2) ^ n * (12 * τ * ((n : R) + 1)) :=
    mul_le_mul_of_nonneg_left (mul_le_mul_of_nonneg_left (by linarith) (by positivity)) (by positivity)
  linarith

end DD

namespace DD.Ex

open Pkg

/-- The circuit that entangles two qubits: a Hadamard gate on qubit 1, then a controlled NOT. -/
noncomputable def bellGates : List (CGate ℝ 2) :=
  [⟨hadU, [], 1, by constructor <;> decide⟩, ⟨![0, 1, 1, 0], [⟨1, true⟩], 0, by constructor <;> decide⟩]

theorem xU_unitary : IsUnitary (mat2 (![0, 1, 1, 0] : Fin 4 → Cx ℝ)) := by
  constructor <;> (
    ext1 a b
    rw [Matrix.mul_apply, Fin.sum_univ_two]
    revert a b
    simp only [Fin.forall_fin_two]
    refine ⟨⟨?_, ?_⟩, ?_, ?_⟩ <;> simp [dagger, mat2, Cx.ext_iff, Cx.conj])

theorem bellGates_unitary : ∀ g ∈ bellGates, IsUnitary (mat2 g.U) := by
  intro g hg
  unfold bellGates at hg
  rcases List.mem_cons.1 hg with rfl | hg
  · exact hadU_unitary
  · rcases List.mem_cons.1 hg with rfl | hg
    · exact xU_unitary
    · cases hg

/-- With the tolerance of the package the amplitudes that are read are those of the circuit up to 10⁻⁸. -/
example : ∃ s1 x s' x', (jr (1 / 2 ^ 42) 2).makeZeroState JR 2 = some (s1, x) ∧
    SimRuns JR (1 / 2 ^ 42) (fun _ _ => True) (s1.holdV JR x) x bellGates s' x' ∧
    ∀ d, mag (s'.getVector JR 2 x' d - circuitMat bellGates d (fun _ => 0)) ≤ 1 / 10 ^ 8 := by
  have hτ : (0 : ℝ) ≤ 1 / 2 ^ 42 := by norm_num
  have hr := jr_reach (1 / 2 ^ 42) 2
  obtain ⟨s1, x, h0, r1, v1, k1, -⟩ := C74_zero JR_good hτ (JR_rounds hτ) (JR_sq hτ) hr (n := 2) (le_refl 2) (by norm_num)
  obtain ⟨st, nv⟩ := holdV_spec JR_good hτ (r1.inv JR_good (JR_rounds hτ) hτ) v1
  obtain ⟨v2, -⟩ := held_value JR_good hτ (r1.inv JR_good (JR_rounds hτ) hτ) ((r1.step st).inv JR_good (JR_rounds hτ) hτ)
    (st.agree JR_good hτ (r1.inv JR_good (JR_rounds hτ) hτ)) v1 (holdV_held _ _)
  obtain ⟨s', x', h⟩ := C75_runs JR_good hτ (JR_rounds hτ) (by norm_num) bellGates_unitary (.refl hτ _) (r1.step st)
    (by rw [nv, k1.2.2]; exact le_refl 2) v2
  refine ⟨s1, x, s', x', h0, h, fun d => ?_⟩
  have := C75_amplitudes JR_good hτ (JR_rounds hτ) (JR_sq hτ) (by norm_num) bellGates_unitary hr h0 (.refl hτ _) h
    (by unfold gateErr bellGates; norm_num) d
  refine this.trans ?_
  unfold gateErr bellGates
  norm_num

end DD.Ex
