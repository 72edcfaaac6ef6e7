import Verif.Model.ApproxCircuit2
import Verif.Props.C46
import Verif.Props.C81
import Verif.Props.C84
import Verif.Proofs.Ctrl2

/-!
# C85: circuits of gates on one and two qubits are simulated accurately up to the tolerance

C75 for circuits that also contain two-qubit gates, made by `makeTwoQubitGateDD`.
-/

namespace DD

open Pkg UTable

variable {R : Type} [Field R] [LinearOrder R] [IsStrictOrderedRing R] [FloorRing R] [HasSqrt R] [LawfulSqrt R]
variable {J : JCfg R} {τ : R} {s s' : JState R}

/-- Specification: the matrix of a gate. -/
noncomputable def AnyGate.mat {n : Nat} : AnyGate R n → QMat R n
  | .one g => g.mat
  | .two U t0 t1 _ => twoMat U t0 t1

/-- Specification: the matrix of a circuit; the first gate of the list acts first. -/
noncomputable def anyMat {n : Nat} : List (AnyGate R n) → QMat R n
  | [] => 1
  | g :: gs => anyMat gs * g.mat

/-- What is assumed of the gates that are meant: they are unitary, and two-qubit gates satisfy `TwoGateOk`, as all gates of the package do
(C84). -/
def AnyGate.Ok (K : R) {n : Nat} : AnyGate R n → Prop
  | .one g => IsUnitary (mat2 g.U)
  | .two U _ _ _ => IsUnitary (mat4 U) ∧ TwoGateOk 0 (7 / 10) K U

theorem twoMat_unitary {n : Nat} {U : Fin 4 → Fin 4 → Cx R} (hU : IsUnitary (mat4 U)) {t0 t1 : Fin n} (ht : t0 ≠ t1) :
    adj (twoMat U t0 t1) * twoMat U t0 t1 = 1 := by
  have e : adj (twoMat U t0 t1) = twoMat (dagger (mat4 U)) t0 t1 := by
    funext r c
    unfold adj twoMat
    by_cases h : ∀ i, i ≠ t0 → i ≠ t1 → r i = c i
    · rw [if_pos h, if_pos (fun i a b => (h i a b).symm)]; rfl
    · rw [if_neg h, if_neg (fun h' => h fun i a b => (h' i a b).symm)]; exact Cx.conj_zero
  ext1 r c
  rw [e, Matrix.mul_apply]
  refine (twoMat_mul (A := dagger (mat4 U)) (B := mat4 U) ht r c).trans ?_
  rw [hU.1, twoMat_one, Matrix.one_apply]

theorem AnyGate.unitary {K : R} {n : Nat} {g : AnyGate R n} (h : g.Ok K) : adj g.mat * g.mat = 1 := by
  cases g with
  | one g => exact C70_gate_unitary g (unitary_cols h)
  | two U t0 t1 ht => exact twoMat_unitary h.1 ht

theorem C85_unitary {K : R} {n : Nat} : ∀ (gs : List (AnyGate R n)), (∀ g ∈ gs, g.Ok K) → adj (anyMat gs) * anyMat gs = 1
  | [], _ => C70_circuit_unitary (R := R) (n := n) [] (by simp)
  | g :: gs, hU => by
    have ih := C85_unitary gs (fun g' h' => hU g' (List.mem_cons_of_mem _ h'))
    rw [anyMat, adj_mul, Matrix.mul_assoc, ← Matrix.mul_assoc (adj (anyMat gs)), ih, Matrix.one_mul]
    exact AnyGate.unitary (hU g List.mem_cons_self)

/-- The error of one gate. -/
def anyErr (τ : R) (n : Nat) (K B : R) : R := 232 * K * τ * ((n : R) + 1) ^ 2 * (3 / 2) ^ n * (1 + B)

omit [FloorRing R] [HasSqrt R] [LawfulSqrt R] in
theorem gateErr_le (hτ : 0 ≤ τ) {K B : R} (hK : 2 + 56 * τ ≤ K) (hB : 0 ≤ B) (n : Nat) : gateErr τ n B ≤ anyErr τ n K B := by
  unfold gateErr anyErr
  have p : 0 ≤ τ * ((n : R) + 1) ^ 2 * (3 / 2) ^ n * (1 + B) := by positivity
  have := mul_le_mul_of_nonneg_right (show (2 : R) ≤ K by linarith) p
  linarith

/-- What one gate yields. -/
structure AnyDone (J : JCfg R) (τ : R) (n : Nat) (K : R) (g0 : AnyGate R n) (s s' : JState R) (x y : PtrEdge) : Prop where
  reach : TReach J τ s'
  held : y ∈ (s'.tab .v).held
  valid : s'.ValidV J n y
  nvars : ∀ k, (s'.tab k).tab.nvars = (s.tab k).tab.nvars
  err : 1000 * ((n : R) + 1) ^ 2 * (3 / 2) ^ n * τ ≤ 1 → ∀ B : R, 0 ≤ B → s.NormLe J B n x.p → vnorm (s.vecJ J n x) ≤ 3 / 2 →
    vnorm (fun d => s'.vecJ J n y d - g0.mat.mulVec (s.vecJ J n x) d) ≤ anyErr τ n K B

theorem any_step (hJ : J.Good) (hτ : 0 ≤ τ) (hR : J.Rounds τ) (hr : TReach J τ s) {n : Nat}
    (hz : 1000 * ((n : R) + 1) * τ ≤ 1) (h128 : n < 128) {K : R} (hK : 2 + 56 * τ ≤ K) {x : PtrEdge} (hx : s.ValidV J n x) {g g0 : AnyGate R n}
    (hg0 : g.Near τ g0) (hU : g0.Ok K) {s2 : JState R} {e : PtrEdge} (hg : g.make J s = some (s2, e)) {y : PtrEdge} (hy : (s2.multiply J e x).2 = y)
    (hs : (s2.multiply J e x).1.holdV J y = s') : AnyDone J τ n K g0 s s' x y := by
  cases hg0 with
  | @one g g0 h1 =>
    have st := gate_step hJ hτ hR hr hz hx (near_ok hτ hz hU h1) hg hy hs
    exact ⟨st.reach, st.held, st.valid, st.nvars, fun hn B hB hxB hv => (gate_err hJ hτ hR hr hn hB hx hxB hv hy st h1).trans (gateErr_le hτ hK hB n)⟩
  | @two U V t0 t1 ht h1 =>
    have hg : s.makeTwoQubitGateDD J U n t0 t1 = some (s2, e) := hg
    have hnv : n ≤ (s.tab .m).tab.nvars := by
      by_contra hn
      rw [C84_reject (by omega)] at hg
      cases hg
    obtain ⟨s2', e', g1, r2, v2, k2, -⟩ := C84_gate hJ hτ hR hr hnv hz h128 hK (C84_rounded hτ (lt_one_of_small hτ hz).le hU.2 h1) ht
    rw [hg] at g1
    obtain ⟨rfl, rfl⟩ := Prod.mk.inj (Option.some.inj g1)
    have i2 := r2.inv hJ hR hτ
    have vx2 := (k2.1 n x hx).1
    obtain ⟨m1, m2, m3, -⟩ := multiply_acc hJ hτ i2 v2 vx2
    have r3 := r2.step (.multiply n e x v2 vx2)
    rw [hy] at m3
    obtain ⟨st, nv⟩ := holdV_spec (τ := τ) hJ hτ m1 m3
    rw [hs] at st nv
    have r4 := r3.step st
    have hh : y ∈ (s'.tab .v).held := by rw [← hs]; exact holdV_held _ _
    obtain ⟨v4, e4⟩ := held_value hJ hτ m1 (r4.inv hJ hR hτ) (st.agree hJ hτ m1) m3 hh
    refine ⟨r4, hh, v4, fun k => (nv k).trans ((m2.nvars k).trans (k2.2.2 k)), fun hn B hB hxB hv => ?_⟩
    obtain ⟨s3, e3, g3, -, -, a3⟩ := C84_apply hJ hτ hR hr hnv hn h128 hK hU.2 h1 ht hB hx hxB hv
    rw [hg] at g3
    obtain ⟨rfl, rfl⟩ := Prod.mk.inj (Option.some.inj g3)
    rw [hy] at a3
    have K0 : 0 ≤ K := by linarith
    rw [e4]
    refine (vnorm_sup (by positivity) a3).trans (le_of_eq ?_)
    unfold anyErr
    ring

/-- **C85.** A circuit of unitary gates on one and two qubits is simulated with an error, in the Euclidean norm, of at most
`232 K τ (n + 1)² (3/2)ⁿ (1 + B)` for each gate, where `B` bounds the norms of the nodes of the states (1 if they are normalised) and `K` is as in
C84. `gs` is the circuit that is given to the package, with rounded entries, `gs0` the one that is meant. -/
theorem C85_simulation (hJ : J.Good) (hτ : 0 ≤ τ) (hR : J.Rounds τ) {n : Nat} (hn : 1000 * ((n : R) + 1) ^ 2 * (3 / 2) ^ n * τ ≤ 1) (h128 : n < 128)
    {K : R} (hK : 2 + 56 * τ ≤ K) {B : R} (hB : 0 ≤ B) {x x' : PtrEdge} {gs gs0 : List (AnyGate R n)} (hU : ∀ g ∈ gs0, g.Ok K)
    (hgs : List.Forall₂ (AnyGate.Near τ) gs gs0) (hrun : SimAny J τ (fun s x => s.NormLe J B n x.p) s x gs s' x') (hr : TReach J τ s)
    (hx : s.ValidV J n x) (hh : x ∈ (s.tab .v).held) (hv : vnorm (s.vecJ J n x) + gs.length * anyErr τ n K B ≤ 3 / 2) :
    TReach J τ s' ∧ s'.ValidV J n x' ∧ x' ∈ (s'.tab .v).held ∧
    vnorm (fun d => s'.vecJ J n x' d - (anyMat gs0).mulVec (s.vecJ J n x) d) ≤ gs.length * anyErr τ n K B := by
  have K0 : 0 ≤ K := by linarith
  have E0 : 0 ≤ anyErr τ n K B := by unfold anyErr; positivity
  induction hrun generalizing gs0 with
  | done hk =>
    cases hgs
    obtain ⟨a1, a2, a3, a4⟩ := keepsRef_value hJ hτ hR hr hx hh hk
    refine ⟨a1, a3, a2, ?_⟩
    rw [anyMat, Matrix.one_mulVec, a4]
    refine vnorm_le (by simp) ?_
    simp [Cx.mag2]
  | @gate s s1 s2 s' x e x' g gs hk hq hg _ ih =>
    cases hgs with | @cons _ g0 _ gs0 hn1 hgs
    obtain ⟨a1, a2, a3, a4⟩ := keepsRef_value hJ hτ hR hr hx hh hk
    rw [List.length_cons] at hv ⊢
    push_cast at hv ⊢
    have hv1 : vnorm (s1.vecJ J n x) ≤ 3 / 2 := by
      rw [a4]
      have : 0 ≤ ((gs.length : R) + 1) * anyErr τ n K B := by positivity
      linarith
    have hs := any_step hJ hτ hR a1 (smallM_small hτ hn) h128 hK a3 hn1 (hU g0 List.mem_cons_self) hg rfl rfl
    have b4 := hs.err hn B hB hq hv1
    have b1 := hs.reach
    have b2 := hs.held
    have b3 := hs.valid
    have hg1 := AnyGate.unitary (hU g0 List.mem_cons_self)
    have hv2 : vnorm (((s2.multiply J e x).1.holdV J (s2.multiply J e x).2).vecJ J n (s2.multiply J e x).2) ≤
        vnorm (s.vecJ J n x) + anyErr τ n K B := by
      rw [a4] at b4
      set f := ((s2.multiply J e x).1.holdV J (s2.multiply J e x).2).vecJ J n (s2.multiply J e x).2
      have h1 := vnorm_add (g0.mat.mulVec (s.vecJ J n x)) (fun d => f d - g0.mat.mulVec (s.vecJ J n x) d)
      have e0 : (fun d => g0.mat.mulVec (s.vecJ J n x) d + (f d - g0.mat.mulVec (s.vecJ J n x) d)) = f := by funext d; ring
      rw [e0, vnorm_isometry hg1] at h1
      linarith
    obtain ⟨c1, c2, c3, c4⟩ := ih (fun g hg => hU g (List.mem_cons_of_mem _ hg)) hgs b1 b3 b2 (by linarith)
    refine ⟨c1, c2, c3, ?_⟩
    rw [a4] at b4
    set f := ((s2.multiply J e x).1.holdV J (s2.multiply J e x).2).vecJ J n (s2.multiply J e x).2
    have hgs := C85_unitary gs0 (fun g hg => hU g (List.mem_cons_of_mem _ hg))
    have h1 := vnorm_add (fun d => s'.vecJ J n x' d - (anyMat gs0).mulVec f d)
      ((anyMat gs0).mulVec (fun d => f d - g0.mat.mulVec (s.vecJ J n x) d))
    rw [vnorm_isometry hgs] at h1
    have e0 : (fun d => s'.vecJ J n x' d - (anyMat gs0).mulVec f d + (anyMat gs0).mulVec (fun d => f d - g0.mat.mulVec (s.vecJ J n x) d) d) =
        fun d => s'.vecJ J n x' d - (anyMat (g0 :: gs0)).mulVec (s.vecJ J n x) d := by
      funext d
      have e1 : (fun d => f d - g0.mat.mulVec (s.vecJ J n x) d) = f - g0.mat.mulVec (s.vecJ J n x) := rfl
      rw [e1, Matrix.mulVec_sub, anyMat, ← Matrix.mulVec_mulVec]
      show _ + ((anyMat gs0).mulVec f d - _) = _
      ring
    rw [e0] at h1
    linarith

/-- The nodes of every state have a bounded norm. -/
theorem SimAny.norms (hJ : J.Good) (hτ : 0 ≤ τ) (hR : J.Rounds τ) {n : Nat} (hz : 1000 * ((n : R) + 1) * τ ≤ 1) (h128 : n < 128)
    {K : R} (hK : 2 + 56 * τ ≤ K) {x x' : PtrEdge} {gs gs0 : List (AnyGate R n)} (hU : ∀ g ∈ gs0, g.Ok K)
    (hgs : List.Forall₂ (AnyGate.Near τ) gs gs0) (hrun : SimAny J τ (fun _ _ => True) s x gs s' x') (hr : TReach J τ s) (hx : s.ValidV J n x)
    (hh : x ∈ (s.tab .v).held) : SimAny J τ (fun s x => s.NormLe J ((3 / 2 * (1 + 4 * τ)) ^ n) n x.p) s x gs s' x' := by
  induction hrun generalizing gs0 with
  | done hk => exact .done hk
  | @gate s s1 s2 s' x e x' g gs hk _ hg _ ih =>
    cases hgs with | @cons _ g0 _ gs0 hn1 hgs
    obtain ⟨a1, a2, a3, a4⟩ := keepsRef_value hJ hτ hR hr hx hh hk
    have hs := any_step hJ hτ hR a1 hz h128 hK a3 hn1 (hU g0 List.mem_cons_self) hg rfl rfl
    exact .gate hk (normLe_exists hτ (a1.inv hJ hR hτ) n x.p a3.node n le_rfl) hg
      (ih (fun g hg => hU g (List.mem_cons_of_mem _ hg)) hgs hs.reach hs.valid hs.held)

/-- **C85.** Without any assumption on the nodes. -/
theorem C85_any (hJ : J.Good) (hτ : 0 ≤ τ) (hR : J.Rounds τ) {n : Nat} (hn : 1000 * ((n : R) + 1) ^ 2 * (3 / 2) ^ n * τ ≤ 1) (h128 : n < 128)
    {K : R} (hK : 2 + 56 * τ ≤ K) {x x' : PtrEdge} {gs gs0 : List (AnyGate R n)} (hU : ∀ g ∈ gs0, g.Ok K)
    (hgs : List.Forall₂ (AnyGate.Near τ) gs gs0) (hrun : SimAny J τ (fun _ _ => True) s x gs s' x') (hr : TReach J τ s) (hx : s.ValidV J n x)
    (hh : x ∈ (s.tab .v).held) (hv : vnorm (s.vecJ J n x) + gs.length * anyErr τ n K ((3 / 2 * (1 + 4 * τ)) ^ n) ≤ 3 / 2) :
    TReach J τ s' ∧ s'.ValidV J n x' ∧ x' ∈ (s'.tab .v).held ∧
    vnorm (fun d => s'.vecJ J n x' d - (anyMat gs0).mulVec (s.vecJ J n x) d) ≤ gs.length * anyErr τ n K ((3 / 2 * (1 + 4 * τ)) ^ n) :=
  C85_simulation hJ hτ hR hn h128 hK (by positivity) hU hgs (hrun.norms hJ hτ hR (smallM_small hτ hn) h128 hK hU hgs hr hx hh) hr hx hh hv

/-- **C85.** The calls never fail. -/
theorem C85_runs (hJ : J.Good) (hτ : 0 ≤ τ) (hR : J.Rounds τ) {n : Nat} (hz : 1000 * ((n : R) + 1) * τ ≤ 1) (h128 : n < 128)
    {K : R} (hK : 2 + 56 * τ ≤ K) {gs gs0 : List (AnyGate R n)} (hU : ∀ g ∈ gs0, g.Ok K) (hgs : List.Forall₂ (AnyGate.Near τ) gs gs0) {x : PtrEdge}
    (hr : TReach J τ s) (hm : n ≤ (s.tab .m).tab.nvars) (hx : s.ValidV J n x) :
    ∃ s' x', SimAny J τ (fun _ _ => True) s x gs s' x' := by
  induction hgs generalizing s x with
  | nil => exact ⟨s, x, .done .refl⟩
  | @cons g g0 gs gs0 hn1 hgs ih =>
    have hok := hU g0 List.mem_cons_self
    obtain ⟨s2, e, hg⟩ : ∃ s2 e, g.make J s = some (s2, e) := by
      cases hn1 with
      | @one g g0 h1 =>
        obtain ⟨s2, e, hg, -⟩ := C74_gate hJ hτ hR hr hm hz (near_ok hτ hz hok h1) g.good
        exact ⟨s2, e, hg⟩
      | @two U V t0 t1 ht h1 =>
        obtain ⟨s2, e, hg, -⟩ := C84_gate hJ hτ hR hr hm hz h128 hK (C84_rounded hτ (lt_one_of_small hτ hz).le hok.2 h1) ht
        exact ⟨s2, e, hg⟩
    have hs := any_step hJ hτ hR hr hz h128 hK hx hn1 hok hg rfl rfl
    obtain ⟨s', x', h⟩ := ih (fun g hg => hU g (List.mem_cons_of_mem _ hg)) hs.reach (by rw [hs.nvars]; exact hm) hs.valid
    exact ⟨s', x', .gate .refl trivial hg h⟩

/-- **C85.** From the call that makes the state |0…0⟩ to the amplitudes that are read in the end: these are the first column of the matrix of the
circuit, up to an error proportional to the tolerance and to the number of gates. -/
theorem C85_amplitudes (hJ : J.Good) (hτ : 0 ≤ τ) (hR : J.Rounds τ) (hsq : SqOk J τ) {n : Nat}
    (hn : 1000 * ((n : R) + 1) ^ 2 * (3 / 2) ^ n * τ ≤ 1) {gs gs0 : List (AnyGate R n)} (h128 : n < 128) {K : R} (hK : 2 + 56 * τ ≤ K) (hU : ∀ g ∈ gs0, g.Ok K) (hr : TReach J τ s)
    {s1 : JState R} {x x' : PtrEdge} (h0 : s.makeZeroState J n = some (s1, x))
    (hgs : List.Forall₂ (AnyGate.Near τ) gs gs0) (hrun : SimAny J τ (fun _ _ => True) (s1.holdV J x) x gs s' x')
    (hm : gs.length * anyErr τ n K ((3 / 2 * (1 + 4 * τ)) ^ n) ≤ 2 / 5) (d : Fin n → Fin 2) :
    mag (s'.getVector J n x' d - anyMat gs0 d (fun _ => 0)) ≤
      gs.length * anyErr τ n K ((3 / 2 * (1 + 4 * τ)) ^ n) + 16 * τ * ((n : R) + 1) * (3 / 2) ^ n := by
  have hz := smallM_small hτ hn
  have hnv : n ≤ (s.tab .v).tab.nvars := by
    by_contra hc
    rw [JState.makeZeroState, if_pos (by omega)] at h0
    cases h0
  obtain ⟨s1', y, e1, r1, v1, k1, b1⟩ := C74_zero hJ hτ hR hsq hr hnv hz
  rw [h0] at e1
  have e1 := Option.some.inj e1
  obtain ⟨rfl, rfl⟩ : s1 = s1' ∧ x = y := ⟨congrArg Prod.fst e1, congrArg Prod.snd e1⟩
  have i1 := r1.inv hJ hR hτ
  obtain ⟨st, -⟩ := holdV_spec (τ := τ) hJ hτ i1 v1
  have r2 := r1.step st
  have hh : x ∈ ((s1.holdV J x).tab .v).held := holdV_held _ _
  obtain ⟨v2, e2⟩ := held_value hJ hτ i1 (r2.inv hJ hR hτ) (st.agree hJ hτ i1) v1 hh
  have n0 : (0 : R) ≤ n := Nat.cast_nonneg n
  have p1 : (1 : R) ≤ (3 / 2) ^ n := one_le_pow₀ (by norm_num)
  set z : (Fin n → Fin 2) → Cx R := fun d => if d = fun _ => 0 then 1 else 0 with hz0
  have z1 : vnorm z ≤ 1 := by
    refine vnorm_le zero_le_one ?_
    rw [Finset.sum_eq_single (fun _ => 0)]
    · rw [hz0]
      simp [Cx.mag2]
    · intro b _ hb
      rw [hz0]
      simp [hb, Cx.mag2]
    · simp
  have E1 : vnorm (fun d => s1.vecJ J n x d - z d) ≤ (3 / 2) ^ n * (12 * τ * n) := vnorm_sup (by positivity) b1
  have small : (3 / 2) ^ n * (12 * τ * n) ≤ 1 / 10 := by
    have h2 : (n : R) ≤ ((n : R) + 1) ^ 2 := by nlinarith
    have h3 : (n : R) * ((3 / 2) ^ n * τ) ≤ ((n : R) + 1) ^ 2 * ((3 / 2) ^ n * τ) := mul_le_mul_of_nonneg_right h2 (by positivity)
    linarith
  have hv : vnorm ((s1.holdV J x).vecJ J n x) ≤ 11 / 10 := by
    rw [e2]
    have := vnorm_near (f := s1.vecJ J n x) (g := z) (by positivity) b1
    linarith
  obtain ⟨a1, a2, a3, a4⟩ := C85_any hJ hτ hR hn h128 hK hU hgs hrun r2 v2 hh (by linarith)
  have iso := C85_unitary gs0 hU
  rw [e2] at a4 hv
  set E := (gs.length : R) * anyErr τ n K ((3 / 2 * (1 + 4 * τ)) ^ n)
  have cz : (anyMat gs0).mulVec z d = anyMat gs0 d (fun _ => 0) := by
    rw [hz0]
    unfold Matrix.mulVec dotProduct
    simp
  have hfin : vnorm (s'.vecJ J n x') ≤ 3 / 2 := by
    have h1 := vnorm_add ((anyMat gs0).mulVec (s1.vecJ J n x)) (fun d => s'.vecJ J n x' d - (anyMat gs0).mulVec (s1.vecJ J n x) d)
    have e0 : (fun d => (anyMat gs0).mulVec (s1.vecJ J n x) d + (s'.vecJ J n x' d - (anyMat gs0).mulVec (s1.vecJ J n x) d)) =
      s'.vecJ J n x' := by funext d; ring
    rw [e0, vnorm_isometry iso] at h1
    linarith
  have i3 := a1.inv hJ hR hτ
  have hw := state_weight_le hτ i3 hz a2 hfin
  have hread := C59_read hJ hτ hR a1 a2 d
  have hread' : mag (s'.getVector J n x' d - s'.vecJ J n x' d) ≤ 4 * τ * ((n : R) + 1) := by
    have h1 : max 1 (mag (s'.ct.cval J.C x'.w)) ≤ 8 / 5 := max_le (by norm_num) hw
    have h2 : (1 + 4 * τ) ^ n ≤ 51 / 50 := by
      have h3 := bernoulli (x := 4 * τ) (by linarith) n
      have e0 : 1000 * ((n : R) + 1) * τ = 1000 * ((n : R) * τ) + 1000 * τ := by ring
      have h4 : (n : R) * (4 * τ) ≤ 4 / 1000 := by
        have e : (n : R) * (4 * τ) = 4 * ((n : R) * τ) := by ring
        rw [e]
        linarith
      have h5 : 0 ≤ (1 + 4 * τ) ^ n := by positivity
      have h6 : (1 + 4 * τ) ^ n * (1 - 4 / 1000) ≤ 1 := le_trans (mul_le_mul_of_nonneg_left (by linarith) h5) h3
      linarith
    have h7 := mul_le_mul h2 h1 (le_trans zero_le_one (le_max_left _ _)) (by norm_num : (0 : R) ≤ 51 / 50)
    have h8 := mul_le_mul_of_nonneg_left h7 (by positivity : 0 ≤ 2 * τ * ((n : R) + 1))
    have h9 : 0 ≤ τ * ((n : R) + 1) := by positivity
    rw [← mul_assoc] at h8
    refine hread.trans (h8.trans ?_)
    linarith
  have hE : mag (s'.vecJ J n x' d - (anyMat gs0).mulVec (s1.vecJ J n x) d) ≤ E :=
    (mag_le_vnorm (fun d => s'.vecJ J n x' d - (anyMat gs0).mulVec (s1.vecJ J n x) d) d).trans a4
  have hI : mag ((anyMat gs0).mulVec (s1.vecJ J n x) d - (anyMat gs0).mulVec z d) ≤ (3 / 2) ^ n * (12 * τ * n) := by
    have e0 : (anyMat gs0).mulVec (s1.vecJ J n x) d - (anyMat gs0).mulVec z d = (anyMat gs0).mulVec (fun d => s1.vecJ J n x d - z d) d := by
      have : (fun d => s1.vecJ J n x d - z d) = s1.vecJ J n x - z := rfl
      rw [this, Matrix.mulVec_sub]
      rfl
    rw [e0]
    refine (mag_le_vnorm _ d).trans ?_
    rw [vnorm_isometry iso]
    exact E1
  rw [cz] at hI
  refine (mag_tri _ (s'.vecJ J n x' d) _).trans ?_
  have h1 := mag_tri (s'.vecJ J n x' d) ((anyMat gs0).mulVec (s1.vecJ J n x) d) (anyMat gs0 d (fun _ => 0))
  have h2 : 4 * τ * ((n : R) + 1) * 1 ≤ 4 * τ * ((n : R) + 1) * (3 / 2) ^ n := mul_le_mul_of_nonneg_left p1 (by positivity)
  have h3 : (3 / 2) ^ n * (12 * τ * n) ≤ (3 / 2) ^ n * (12 * τ * ((n : R) + 1)) :=
    mul_le_mul_of_nonneg_left (mul_le_mul_of_nonneg_left (by linarith) (by positivity)) (by positivity)
  linarith

section

variable {H : (k : NK) → (Fin k.ar → PtrEdge) → Nat} {h : CK → CKey ℝ → Nat}

/-- A gate with rounded entries. -/
noncomputable def AnyGate.rounded {n : Nat} : AnyGate ℝ n → AnyGate ℝ n
  | .one g => .one g.rounded
  | .two U t0 t1 ht => .two (fun i j => ⟨ieee (U i j).re, ieee (U i j).im⟩) t0 t1 ht

theorem AnyGate.rounded_near {K : ℝ} {n : Nat} {g : AnyGate ℝ n} (hg : g.Ok K) : g.rounded.Near tol g := by
  cases g with
  | one g => exact .one (C81_rounded hg)
  | two U t0 t1 ht =>
    refine .two fun i j => ⟨?_, fun e => ?_⟩
    · have h1 := hg.2.1 i j
      rw [add_zero] at h1
      have a := ieee_small ((abs_re_le (U i j)).trans h1)
      have b := ieee_small ((abs_im_le (U i j)).trans h1)
      refine (mag_of_comp (b := U i j) (by positivity) a b).trans ?_
      rw [tol_eq]
      norm_num
    · rw [e]
      exact Cx.ext ieee_zero ieee_zero

theorem any_rounded {K : ℝ} {n : Nat} {gs : List (AnyGate ℝ n)} (hU : ∀ g ∈ gs, g.Ok K) :
    List.Forall₂ (AnyGate.Near tol) (gs.map AnyGate.rounded) gs := by
  induction gs with
  | nil => exact .nil
  | cons g gs ih => exact .cons (AnyGate.rounded_near (hU g List.mem_cons_self)) (ih fun g hg => hU g (List.mem_cons_of_mem _ hg))

/-- **C85.** Double precision: a circuit of gates on one and two qubits, whose matrices are given in double precision, is run on the state |0…0⟩.
If `(19 L + 1) (n + 1)² (9/4)ⁿ` is at most 2³⁰, where `L` is the number of gates, the amplitudes that are read in the end are those of the
circuit up to 2⁻³² times this number. No call fails. -/
theorem C85_double {s : JState ℝ} (hr : TReach (JCfg.double H h) tol s) {n : Nat} (hv : n ≤ (s.tab .v).tab.nvars)
    (hm : n ≤ (s.tab .m).tab.nvars) (h128 : n < 128) {gs : List (AnyGate ℝ n)} (hU : ∀ g ∈ gs, g.Ok 26)
    (hn : (19 * (gs.length : ℝ) + 1) * ((n : ℝ) + 1) ^ 2 * (9 / 4) ^ n ≤ 2 ^ 30) :
    ∃ s1 x, s.makeZeroState (JCfg.double H h) n = some (s1, x) ∧
      (∃ s' x', SimAny (JCfg.double H h) tol (fun _ _ => True) (s1.holdV (JCfg.double H h) x) x (gs.map AnyGate.rounded) s' x') ∧
      ∀ s' x', SimAny (JCfg.double H h) tol (fun _ _ => True) (s1.holdV (JCfg.double H h) x) x (gs.map AnyGate.rounded) s' x' →
        ∀ d, mag (s'.getVector (JCfg.double H h) n x' d - anyMat gs d (fun _ => 0)) ≤
          (19 * (gs.length : ℝ) + 1) * ((n : ℝ) + 1) ^ 2 * (9 / 4) ^ n / 2 ^ 32 := by
  obtain ⟨hJ, hR, -, -, hsq⟩ := C81_arithmetic (H := H) (h := h)
  obtain ⟨h1, h2, h3⟩ := double_sum (n := n) (L := 19 * gs.length) (by push_cast; exact hn)
  have hτ := tol_nonneg
  have hK : 2 + 56 * tol ≤ 26 := by rw [tol_eq]; norm_num
  have hE : (gs.length : ℝ) * anyErr tol n 26 ((3 / 2 * (1 + 4 * tol)) ^ n) ≤
      ((19 * gs.length : Nat) : ℝ) * gateErr tol n ((3 / 2 * (1 + 4 * tol)) ^ n) := by
    unfold anyErr gateErr
    push_cast
    have p : 0 ≤ (gs.length : ℝ) * (tol * ((n : ℝ) + 1) ^ 2 * (3 / 2) ^ n * (1 + (3 / 2 * (1 + 4 * tol)) ^ n)) := by positivity
    linarith
  have hz := smallM_small hτ h1
  obtain ⟨s1, x, h0, r1, v1, k1, -⟩ := C74_zero hJ hτ hR hsq hr hv hz
  have i1 := r1.inv hJ hR hτ
  obtain ⟨st, nv⟩ := holdV_spec hJ hτ i1 v1
  obtain ⟨v2, -⟩ := held_value hJ hτ i1 ((r1.step st).inv hJ hR hτ) (st.agree hJ hτ i1) v1 (holdV_held _ _)
  refine ⟨s1, x, h0, C85_runs hJ hτ hR hz h128 hK hU (any_rounded hU) (r1.step st) (by rw [nv, k1.2.2]; exact hm) v2, fun s' x' hrun d => ?_⟩
  have := C85_amplitudes hJ hτ hR hsq h1 h128 hK hU hr h0 (any_rounded hU) hrun (by rw [List.length_map]; exact hE.trans h2) d
  rw [List.length_map] at this
  push_cast at h3
  push_cast at hE
  exact this.trans (le_trans (by linarith) h3)

end

end DD

namespace DD.Ex

open Pkg Gates

/-- A Hadamard gate on qubit 1, then the gate `DCX` on both qubits, then the rotation `RZX` by some angle. -/
noncomputable def anyGates (θ : ℝ) : List (AnyGate ℝ 2) :=
  [.one ⟨hadU, [], 1, by constructor <;> decide⟩, .two DCXmat 1 0 (by decide), .two (RZXmat θ) 0 1 (by decide)]

theorem anyGates_ok (θ : ℝ) : ∀ g ∈ anyGates θ, g.Ok 26 := by
  intro g hg
  unfold anyGates at hg
  simp only [List.mem_cons, List.not_mem_nil, or_false] at hg
  rcases hg with rfl | rfl | rfl
  · exact hadU_unitary
  · exact ⟨C46_two_constant _ (by simp), (C84_gates 26 0).2.2.2.2.2.2.1⟩
  · exact ⟨C46_two_parametrised θ 0 _ (by simp), (C84_gates_rot le_rfl θ).2.2⟩

theorem AnyGate.Near.refl_list {τ : ℝ} (hτ : 0 ≤ τ) {n : Nat} (gs : List (AnyGate ℝ n)) : List.Forall₂ (AnyGate.Near τ) gs gs := by
  induction gs with
  | nil => exact .nil
  | cons g gs ih =>
    refine .cons ?_ ih
    cases g with
    | one g => exact .one (.refl hτ g)
    | two U t0 t1 ht => exact .two fun i j => ⟨by rw [sub_self, mag_zero]; positivity, id⟩

/-- With the tolerance of the package the amplitudes that are read are those of the circuit up to 10⁻⁶, for every angle. -/
example (θ : ℝ) : ∃ s1 x s' x', (jr (1 / 2 ^ 42) 2).makeZeroState JR 2 = some (s1, x) ∧
    SimAny JR (1 / 2 ^ 42) (fun _ _ => True) (s1.holdV JR x) x (anyGates θ) s' x' ∧
    ∀ d, mag (s'.getVector JR 2 x' d - anyMat (anyGates θ) d (fun _ => 0)) ≤ 1 / 10 ^ 6 := by
  have hτ : (0 : ℝ) ≤ 1 / 2 ^ 42 := by norm_num
  have hr := jr_reach (1 / 2 ^ 42) 2
  obtain ⟨s1, x, h0, r1, v1, k1, -⟩ := C74_zero JR_good hτ (JR_rounds hτ) (JR_sq hτ) hr (n := 2) (le_refl 2) (by norm_num)
  obtain ⟨st, nv⟩ := holdV_spec JR_good hτ (r1.inv JR_good (JR_rounds hτ) hτ) v1
  obtain ⟨v2, -⟩ := held_value JR_good hτ (r1.inv JR_good (JR_rounds hτ) hτ) ((r1.step st).inv JR_good (JR_rounds hτ) hτ)
    (st.agree JR_good hτ (r1.inv JR_good (JR_rounds hτ) hτ)) v1 (holdV_held _ _)
  obtain ⟨s', x', h⟩ := C85_runs JR_good hτ (JR_rounds hτ) (by norm_num) (by norm_num) (K := 26) (by norm_num) (anyGates_ok θ)
    (AnyGate.Near.refl_list hτ _) (r1.step st) (by rw [nv, k1.2.2]; exact le_refl 2) v2
  refine ⟨s1, x, s', x', h0, h, fun d => ?_⟩
  have := C85_amplitudes JR_good hτ (JR_rounds hτ) (JR_sq hτ) (by norm_num) (by norm_num) (K := 26) (by norm_num) (anyGates_ok θ) hr h0
    (AnyGate.Near.refl_list hτ _) h (by unfold anyErr anyGates; norm_num) d
  refine this.trans ?_
  unfold anyErr anyGates
  norm_num

/-- The same circuit in double precision: the amplitudes are those of the circuit up to 10⁻⁶. -/
example (θ : ℝ) : ∃ s1 x, jdbl.makeZeroState (JCfg.double (fun _ _ => 0) (fun _ _ => 0)) 2 = some (s1, x) ∧
    ∀ s' x', SimAny (JCfg.double (fun _ _ => 0) (fun _ _ => 0)) tol (fun _ _ => True) (s1.holdV (JCfg.double (fun _ _ => 0) (fun _ _ => 0)) x) x
      ((anyGates θ).map AnyGate.rounded) s' x' →
      ∀ d, mag (s'.getVector (JCfg.double (fun _ _ => 0) (fun _ _ => 0)) 2 x' d - anyMat (anyGates θ) d (fun _ => 0)) ≤ 1 / 10 ^ 6 := by
  obtain ⟨s1, x, h0, -, h2⟩ := C85_double jdbl_reach (n := 2) (le_refl 2) (le_refl 2) (by norm_num) (anyGates_ok θ) (by unfold anyGates; norm_num)
  refine ⟨s1, x, h0, fun s' x' hrun d => (h2 s' x' hrun d).trans ?_⟩
  unfold anyGates
  norm_num

end DD.Ex
