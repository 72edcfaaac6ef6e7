import Verif.Proofs.ApproxHeld
import Verif.Proofs.ApproxMeasureOne
import Verif.Props.C41
import Verif.Props.C77

/-!
# C78: measuring one qubit follows the Born rule up to the tolerance

`determineMeasurementProbabilities` and `measureOneCollapsing` in a package with tolerance `τ` and rounded arithmetic.
-/

namespace DD

open Pkg UTable

variable {R : Type} [Field R] [LinearOrder R] [IsStrictOrderedRing R] [FloorRing R] [HasSqrt R] [LawfulSqrt R]
variable {J : JCfg R} {τ : R} {s s' : JState R}

/-- The bound on the error of the two probabilities: `N` is the number of vector nodes in the table. -/
def probErr (τ δ : R) (n N : Nat) (assumeNorm : Bool) : R := τ * N + 2 * n * (if assumeNorm then δ else τ)

/-- The number of vector nodes in the table. -/
def JState.nodesV (s : JState R) : Nat := (s.tab .v).tab.all.toFinset.card

/-- **C78.** The two probabilities computed are those of the state, up to an error proportional to the tolerance and to the number of vector
nodes, and, if the flag says that nodes are to be taken as normalised, to the deviation `δ` of the nodes from being so. -/
theorem C78_probabilities (hJ : J.Good) (hτ : 0 ≤ τ) (hτ1 : 1000 * τ ≤ 1) (hR : J.Rounds τ) (hf : J.Exact) (hm : Monotone J.fl) (hr : TReach J τ s) {n : Nat}
    (hn : (n : R) * τ ≤ 1) {x : PtrEdge} (hx : s.ValidV J n x) (hw : 3 / 2 * τ < mag (s.ct.cval J.C x.w)) (hw1 : (s.ct.cval J.C x.w).mag2 ≤ 5 / 4) {δ : R}
    (hd0 : 0 ≤ δ) (hδ : 20 * (n * δ) ≤ 1) (hs : s.SumsLe J δ n x.p) (hN : (s.nodesV : R) * τ ≤ 1) (q : Fin n) (assumeNorm : Bool) {fuel : Nat}
    (hfuel : s.nodesV ≤ fuel) :
    ∃ p : Fin 2 → R, JState.determineMeasurementProbabilities J s x q assumeNorm fuel = some (p 0, p 1) ∧ ∀ c, 0 ≤ p c ∧
      |p c - outProb (s.vecJ J n x) q c| ≤ probErr τ δ n s.nodesV assumeNorm := by
  have hi := hr.inv hJ hR hτ
  obtain ⟨-, -, hz⟩ := lvlV_eq hJ hτ hi hx hw
  exact determine_acc hJ hτ hτ1 hi hf hm hd0 hδ hn hN hx hz hw1 hs q assumeNorm hfuel

omit [IsStrictOrderedRing R] [LawfulSqrt R] in
/-- The probabilities are rounded numbers. -/
theorem determine_fixed (hf : J.Exact) {x : PtrEdge} {q : Nat} {b : Bool} {fuel : Nat} {r : R × R}
    (h : JState.determineMeasurementProbabilities J s x q b fuel = some r) : J.fl r.1 = r.1 ∧ J.fl r.2 = r.2 := by
  have key : ∀ (prob : Option Nat → R) (below : Option (Option Nat → R)) (c : Fin 2) (L : List (Option Nat)) (a : R), J.fl a = a →
      J.fl (L.foldl (JState.addOutcome J s prob below c) a) = L.foldl (JState.addOutcome J s prob below c) a := by
    intro prob below c L
    induction L with
    | nil => intro a h; exact h
    | cons p L ih =>
      intro a ha
      refine ih _ ?_
      unfold JState.addOutcome
      cases p with
      | none => exact ha
      | some a' =>
        dsimp only
        split_ifs
        · exact ha
        · cases below with
          | none => exact hf.2.2 _
          | some f => exact hf.2.2 _
  unfold JState.determineMeasurementProbabilities at h
  cases hb : JState.bfsLoop J s q fuel ⟨Function.update (fun _ => 0) x.p (mag2F J.fl (s.ct.cval J.C x.w)), [x.p], [x.p]⟩ with
  | none => rw [hb] at h; cases h
  | some b' =>
    rw [hb] at h
    have h := Option.some.inj h
    rw [← h]
    exact ⟨key _ _ _ _ _ hf.1, key _ _ _ _ _ hf.1⟩

omit [LawfulSqrt R] in
theorem lookupSigned_reach (hr : TReach J τ s) (x : R) : TReach J τ { s with ct := (s.ct.lookupSigned J.C x).1 } := by
  unfold CTab.lookupSigned
  have st : ∀ v : R, 0 ≤ v → TReach J τ { s with ct := (s.ct.lookup J.C v).1 } := fun v hv =>
    hr.step (.other (.lookup v hv) (fun a ha => ha) (fun a ha => Or.inl ha) (fun _ _ h => h) (fun _ _ h => h) (fun _ _ h => h) (fun _ _ h => h) (fun _ _ h => h))
  split_ifs with h1 h2
  · exact hr
  · exact st |x| (abs_nonneg x)
  · exact st x (not_lt.1 h1)

omit [LawfulSqrt R] in
theorem lookupC_reach (hr : TReach J τ s) (z : Cx R) : TReach J τ (s.lookupC J z).1 := lookupSigned_reach (lookupSigned_reach hr z.re) z.im

/-- The factor with which the state is multiplied. -/
theorem factor_num {fl : R → R} {ε η : R} (h : Rnd fl τ ε η) (hm : Monotone fl) (h0 : fl 0 = 0) {p : R} (hp : 0 < p) (hp2 : p ≤ 2) :
    0 ≤ fl (HasSqrt.sqrt (fl (1 / p))) ∧ |fl (HasSqrt.sqrt (fl (1 / p))) - HasSqrt.sqrt (1 / p)| ≤ τ / 100 * HasSqrt.sqrt (1 / p) := by
  have p0 : 0 < 1 / p := by positivity
  have r0 := sqrt_pos p0
  have r2 := LawfulSqrt.mul_self (1 / p) p0.le
  have hr7 : 7 / 10 ≤ HasSqrt.sqrt (1 / p) := by
    refine le_of_sq r0.le ?_
    rw [r2, le_div_iff₀ hp]
    linarith
  obtain ⟨e1, e2, e3, e4, e5, e6, herr⟩ := h
  generalize HasSqrt.sqrt (1 / p) = r at *
  have a0 : 0 ≤ fl (1 / p) := h0 ▸ hm p0.le
  have ha := herr (1 / p)
  rw [abs_of_pos p0, ← r2] at ha
  rw [← r2] at a0
  have u0 := LawfulSqrt.nonneg (fl (r * r))
  have u2 := LawfulSqrt.mul_self _ a0
  rw [← r2]
  generalize HasSqrt.sqrt (fl (r * r)) = u at *
  rw [← u2] at ha
  have d1 : |u - r| ≤ 4 * ε * r := by
    have e : u * u - r * r = (u - r) * (u + r) := by ring
    rw [e, abs_mul, abs_of_nonneg (by linarith : 0 ≤ u + r)] at ha
    have : |u - r| * r ≤ 4 * ε * r * r := by
      have k1 : |u - r| * r ≤ |u - r| * (u + r) := mul_le_mul_of_nonneg_left (by linarith) (abs_nonneg _)
      have k2 : ε * 1 ≤ ε * (3 * (r * r)) := mul_le_mul_of_nonneg_left (by nlinarith) e1
      linarith
    exact le_of_mul_le_mul_right this r0
  have hk := herr u
  rw [abs_of_nonneg u0] at hk
  refine ⟨h0 ▸ hm u0, ?_⟩
  have d1' := abs_le.1 d1
  have hk' := abs_le.1 hk
  have k1 : ε * u ≤ ε * (2 * r) := by
    refine mul_le_mul_of_nonneg_left ?_ e1
    have : ε * r ≤ 1 / 1000 * r := mul_le_mul_of_nonneg_right (by linarith) r0.le
    linarith
  have k2 : ε * 1 ≤ ε * (2 * r) := mul_le_mul_of_nonneg_left (by linarith) e1
  have k3 : 1000 * ε * r ≤ τ * r := mul_le_mul_of_nonneg_right e2 r0.le
  rw [abs_le]
  constructor <;> linarith

/-- The norm of a node is at most `(3/2 (1 + 4 τ))ⁿ`. -/
theorem node_bound (hτ : 0 ≤ τ) (h : TInv J τ s) {n : Nat} {p : Option Nat} (hp : s.NodeOk n p) : vnorm (s.namp J n p) ≤ (3 / 2 * (1 + 4 * τ)) ^ n := by
  have one : (1 : R) ≤ (1 + 4 * τ) ^ n := one_le_pow₀ (by linarith)
  cases p with
  | none =>
    have : ∀ d : Fin n → Fin 2, mag (s.namp J n none d) ≤ 1 := by
      intro d
      cases n with
      | zero => exact le_of_eq mag_one
      | succ n => exact le_of_eq mag_one
    refine (vnorm_sup zero_le_one this).trans ?_
    rw [mul_pow, mul_one]
    exact le_mul_of_one_le_right (by positivity) one
  | some a =>
    cases n with
    | zero => exact absurd hp.2 (by omega)
    | succ n =>
      have hb := (normLe_exists hτ h (n + 1) (some a) hp (n + 1) le_rfl).1
      refine le_trans (le_of_eq ?_) hb
      congr 1
      funext d
      rw [vecJ_eq, cval_one, one_mul]

theorem project_norm {n : Nat} (x : (Fin n → Fin 2) → Cx R) (q : Fin n) (b : Fin 2) : vnorm (project x q b) * vnorm (project x q b) = outProb x q b := by
  rw [vnorm_sq]
  unfold outProb project
  refine Finset.sum_congr rfl fun d _ => ?_
  split_ifs
  · rfl
  · exact Cx.mag2_zero

omit [IsStrictOrderedRing R] [FloorRing R] [HasSqrt R] [LawfulSqrt R] in
theorem outProb_sum {n : Nat} (x : (Fin n → Fin 2) → Cx R) (q : Fin n) : outProb x q 0 + outProb x q 1 = ∑ d, (x d).mag2 := by
  unfold outProb
  rw [← Finset.sum_add_distrib]
  refine Finset.sum_congr rfl fun d _ => ?_
  have : d q = 0 ∨ d q = 1 := by
    generalize d q = c
    revert c; decide
  rcases this with h | h <;> simp [h]

/-- The matrix of the projection onto outcome `b` (Package.hpp:1254-1293). -/
def projU (b : Fin 2) : Fin 4 → Cx R := if b = 0 then ![1, 0, 0, 0] else ![0, 0, 0, 1]

omit [LinearOrder R] [IsStrictOrderedRing R] [FloorRing R] [HasSqrt R] [LawfulSqrt R] in
theorem projU_rc (b r c : Fin 2) : (projU b : Fin 4 → Cx R) (rc r c) = if r = b ∧ c = b then 1 else 0 := by
  unfold projU
  revert b r c
  simp only [Fin.forall_fin_two]
  refine ⟨⟨⟨?_, ?_⟩, ?_, ?_⟩, ⟨?_, ?_⟩, ?_, ?_⟩ <;> rfl

theorem projU_ok (hτ : 0 ≤ τ) (b : Fin 2) : GateOk τ (projU b : Fin 4 → Cx R) := by
  have hm : ∀ i, mag ((projU b : Fin 4 → Cx R) i) ≤ 1 := by
    intro i
    have : (projU b : Fin 4 → Cx R) i = 0 ∨ (projU b : Fin 4 → Cx R) i = 1 := by
      unfold projU
      revert b i
      simp only [Fin.forall_fin_two]
      constructor <;> intro i <;> fin_cases i <;> first | exact Or.inl rfl | exact Or.inr rfl
    rcases this with h | h <;> rw [h]
    · rw [mag_zero]; exact zero_le_one
    · rw [mag_one]
  refine ⟨fun i => (hm i).trans (by linarith), rc b b, ?_⟩
  rw [projU_rc, if_pos ⟨rfl, rfl⟩, mag_one]
  norm_num

/-- The norm of a node when `n τ` is small. -/
theorem node_bound' (hτ : 0 ≤ τ) {n : Nat} (hz : 1000 * ((n : R) + 1) * τ ≤ 1) (h : TInv J τ s) {p : Option Nat} (hp : s.NodeOk n p) :
    vnorm (s.namp J n p) ≤ (3 / 2) ^ n * 2 := by
  have e : (n : R) * (4 * τ) = 4 * ((n : R) * τ) := by ring
  have e' : 1000 * ((n : R) + 1) * τ = 1000 * ((n : R) * τ) + 1000 * τ := by ring
  have hnτ := mul_nonneg (Nat.cast_nonneg (α := R) n) hτ
  have b2 : (1 + 4 * τ) ^ n ≤ 2 := by
    have h3 := bernoulli (x := 4 * τ) (by linarith) n
    have h4 : (n : R) * (4 * τ) ≤ 1 / 2 := by
      rw [e]
      linarith
    have h5 : 0 ≤ (1 + 4 * τ) ^ n := by positivity
    have h6 : (1 + 4 * τ) ^ n * (1 / 2) ≤ 1 := le_trans (mul_le_mul_of_nonneg_left (by linarith) h5) h3
    linarith
  refine (node_bound hτ h hp).trans ?_
  rw [mul_pow]
  exact mul_le_mul_of_nonneg_left b2 (by positivity)

/-- Scaling: the error of a product whose weight is off by `a`. -/
theorem scale_err {n : Nat} {k a b c : R} {w v kk : Cx R} {f g : (Fin n → Fin 2) → Cx R} (hk : 0 ≤ k) (hkk : mag kk = k) (hw : mag (w - v * kk) ≤ a)
    (hf : vnorm f ≤ b) (hg : vnorm (fun d => v * f d - g d) ≤ c) (ha : 0 ≤ a) : vnorm (fun d => w * f d - kk * g d) ≤ k * c + a * b := by
  have e0 : (fun d => w * f d - kk * g d) = fun d => (w - v * kk) * f d + kk * (v * f d - g d) := by
    funext d
    ring
  rw [e0]
  refine (vnorm_add (fun d => (w - v * kk) * f d) (fun d => kk * (v * f d - g d))).trans ?_
  rw [vnorm_smul, vnorm_smul kk (fun d => v * f d - g d), hkk, add_comm]
  exact add_le_add (mul_le_mul_of_nonneg_left hg hk) (mul_le_mul hw hf (vnorm_nonneg _) ha)

/-- Projecting and scaling: everything in `measureOneCollapsing` after the choice of the outcome. -/
theorem collapse_acc (hJ : J.Good) (hτ : 0 ≤ τ) (hR : J.Rounds τ) (hr : TReach J τ s) {n : Nat} (hn : 1000 * ((n : R) + 1) ^ 2 * (3 / 2) ^ n * τ ≤ 1)
    (hnv : n ≤ (s.tab .m).tab.nvars) {B : R} (hB : 0 ≤ B) {x : PtrEdge} (hx : s.ValidV J n x) (hxB : s.NormLe J B n x.p)
    (hv : vnorm (s.vecJ J n x) + gateErr τ n B ≤ 3 / 2) (hheld : x ∈ (s.tab .v).held) (q : Fin n) (b : Fin 2) {k : R} (hk : 0 ≤ k) :
    ∃ gate s', s.makeGateDD J (projU b) n [] q = some gate ∧
      let e := gate.1.multiply J gate.2 x
      let w := e.1.lookupC J (e.1.ct.mulV J.fl (e.1.ct.cval J.C e.2.w) ⟨k, 0⟩)
      let e' : PtrEdge := ⟨e.2.p, w.2⟩
      (w.1.holdV J e').dropV J x = some s' ∧ TReach J τ s' ∧ s'.ValidV J n e' ∧ (s'.tab .v).held = (e' :: (s.tab .v).held).erase x ∧
      (∀ l y, y ∈ (s.tab .v).held.erase x → s.ValidV J l y → s'.ValidV J l y ∧ s'.vecJ J l y = s.vecJ J l y) ∧
      vnorm (fun d => s'.vecJ J n e' d - ⟨k, 0⟩ * project (s.vecJ J n x) q b d) ≤ k * gateErr τ n B + 8 * τ * (3 / 2) ^ n * max 1 k := by
  have hz := smallM_small hτ hn
  have hi := hr.inv hJ hR hτ
  let g : CGate R n := ⟨projU b, [], q, ⟨by simp, by simp, by simp⟩⟩
  obtain ⟨s2, eg, hg, -⟩ := C74_gate hJ hτ hR hr hnv hz (projU_ok hτ b) g.good
  have hs := gate_step hJ hτ hR hr hz hx (g := g) (projU_ok hτ b) hg rfl rfl
  have hE0 : 0 ≤ gateErr τ n B := by unfold gateErr; positivity
  have he := gate_err hJ hτ hR hr hn hB hx hxB (by linarith) rfl hs (.refl hτ g)
  have hmat : g.mat.mulVec (s.vecJ J n x) = project (s.vecJ J n x) q b := project_eq _ q b (projU b) (projU_rc b)
  rw [hs.val, hmat] at he
  refine ⟨(s2, eg), ?_⟩
  dsimp only
  -- the product
  obtain ⟨m1, m2, m3, -⟩ := multiply_acc hJ hτ hs.inv2 hs.mat hs.keep.1
  have rm : TReach J τ (s2.multiply J eg x).1 := hs.reach2.step (.multiply n eg x hs.mat hs.keep.1)
  have hh2 : (s2.multiply J eg x).1.heldOf = s.heldOf := (JState.heldOf_multiply _ _ _).trans (JState.heldOf_makeGateDD hg)
  have gm : Grow J s (s2.multiply J eg x).1 := hs.grow.trans m2
  generalize s2.multiply J eg x = e at *
  obtain ⟨sm, y⟩ := e
  dsimp only at *
  -- the new weight
  obtain ⟨l1, l2, l3, l4⟩ := lookupC_grow hJ hτ m1 (sm.ct.mulV J.fl (sm.ct.cval J.C y.w) ⟨k, 0⟩)
  have rl := lookupC_reach rm (sm.ct.mulV J.fl (sm.ct.cval J.C y.w) ⟨k, 0⟩)
  have hh3 : (sm.lookupC J (sm.ct.mulV J.fl (sm.ct.cval J.C y.w) ⟨k, 0⟩)).1.heldOf = s.heldOf := hh2
  have hτ1 : 1000 * τ ≤ 1 := by
    have : 1000 * ((n : R) + 1) * τ = 1000 * ((n : R) * τ) + 1000 * τ := by ring
    have := mul_nonneg (Nat.cast_nonneg (α := R) n) hτ
    linarith
  have htol := m1.tol hJ hτ
  have hzero : y.w = CNum.zero → (sm.lookupC J (sm.ct.mulV J.fl (sm.ct.cval J.C y.w) ⟨k, 0⟩)).2 = CNum.zero := by
    intro e0
    rw [e0, cval_zero, mulV_zero_left _ _ (by rw [htol]; exact hτ) (by rw [htol]; linarith)]
    exact lookupC_zero hJ hτ m1
  have hprod := m1.ok hJ hτ
  -- the weight of the product
  have hyn : vnorm (sm.vecJ J n y) ≤ 3 / 2 := by
    have h1 := vnorm_add (project (s.vecJ J n x) q b) (fun d => sm.vecJ J n y d - project (s.vecJ J n x) q b d)
    have e0 : (fun d => project (s.vecJ J n x) q b d + (sm.vecJ J n y d - project (s.vecJ J n x) q b d)) = sm.vecJ J n y := by funext d; ring
    rw [e0] at h1
    have h2 : vnorm (project (s.vecJ J n x) q b) ≤ vnorm (s.vecJ J n x) := by
      refine le_of_sq (vnorm_nonneg _) ?_
      rw [project_norm, vnorm_sq]
      unfold outProb
      refine Finset.sum_le_sum fun d _ => ?_
      split_ifs
      · exact le_rfl
      · exact Cx.mag2_nonneg _
    linarith
  have hyw := state_weight_le hτ m1 hz m3 hyn
  have kmag : mag (⟨k, 0⟩ : Cx R) = k := by
    have h1 := mag_sq (⟨k, 0⟩ : Cx R)
    have h2 : (⟨k, 0⟩ : Cx R).mag2 = k * k := by simp [Cx.mag2]
    rw [h2] at h1
    exact le_antisymm (le_of_sq hk h1.le) (le_of_sq (mag_nonneg _) h1.ge)
  have hmul := (mulV_spec (t := sm.ct) (fl := J.fl) hprod (p := 8 / 5) (q := max 1 k) hyw (by rw [kmag]; exact le_max_right _ _) (by norm_num) (le_max_left _ _)).2
  rw [htol] at hmul
  have hK1 : 1 ≤ max 1 k := le_max_left _ _
  have hwt : mag ((sm.lookupC J (sm.ct.mulV J.fl (sm.ct.cval J.C y.w) ⟨k, 0⟩)).1.ct.cval J.C (sm.lookupC J (sm.ct.mulV J.fl (sm.ct.cval J.C y.w) ⟨k, 0⟩)).2 -
      sm.ct.cval J.C y.w * ⟨k, 0⟩) ≤ 39 / 10 * τ * max 1 k := by
    refine (mag_tri _ (sm.ct.mulV J.fl (sm.ct.cval J.C y.w) ⟨k, 0⟩) _).trans ?_
    have := mul_le_mul_of_nonneg_left hK1 hτ
    linarith
  have ve : (sm.lookupC J (sm.ct.mulV J.fl (sm.ct.cval J.C y.w) ⟨k, 0⟩)).1.ValidV J n ⟨y.p, (sm.lookupC J (sm.ct.mulV J.fl (sm.ct.cval J.C y.w) ⟨k, 0⟩)).2⟩ :=
    .intro l3 (l2.nodeOk m3.node) (fun e0 => (m3.none e0).imp id hzero)
  have hnamp : ∀ d, (sm.lookupC J (sm.ct.mulV J.fl (sm.ct.cval J.C y.w) ⟨k, 0⟩)).1.namp J n y.p d = sm.namp J n y.p d := fun d => l2.namp m1 l1 d m3.node
  have h8 : 39 / 10 * τ * max 1 k * ((3 / 2) ^ n * 2) ≤ 8 * τ * (3 / 2) ^ n * max 1 k := by
    have b6 : 0 ≤ τ * (3 / 2) ^ n * max 1 k := by positivity
    have e : 39 / 10 * τ * max 1 k * ((3 / 2) ^ n * 2) = 78 / 10 * (τ * (3 / 2) ^ n * max 1 k) := by ring
    have e' : 8 * τ * (3 / 2) ^ n * max 1 k = 8 * (τ * (3 / 2) ^ n * max 1 k) := by ring
    rw [e, e']
    linarith
  generalize sm.lookupC J (sm.ct.mulV J.fl (sm.ct.cval J.C y.w) ⟨k, 0⟩) = w at *
  obtain ⟨sw, w⟩ := w
  dsimp only at *
  have gw : Grow J s sw := gm.trans l2
  -- the references
  obtain ⟨t3, -⟩ := holdV_spec hJ hτ l1 ve
  have r3 := rl.step t3
  have i3 := r3.inv hJ hR hτ
  have h3 : ((sw.holdV J ⟨y.p, w⟩).tab .v).held = ⟨y.p, w⟩ :: (s.tab .v).held := by
    have : (sw.tab .v).held = (s.tab .v).held := congrFun hh3 .v
    rw [← this]
    unfold JState.holdV
    dsimp only
    rw [Function.update_self]
  obtain ⟨s', e4, t4, h4, -⟩ := dropV_spec hJ hτ i3 (e := x) (by rw [h3]; exact List.mem_cons_of_mem _ hheld)
  have r4 := r3.step t4
  have i4 := r4.inv hJ hR hτ
  rw [h3] at h4
  have keep : ∀ l z, z ∈ (⟨y.p, w⟩ :: (s.tab .v).held).erase x → sw.ValidV J l z → s'.ValidV J l z ∧ s'.vecJ J l z = sw.vecJ J l z := by
    intro l z hz hv
    obtain ⟨k1, k2⟩ := held_value hJ hτ l1 i3 (t3.agree hJ hτ l1) hv (by rw [h3]; exact List.mem_of_mem_erase hz)
    obtain ⟨k3, k4⟩ := held_value hJ hτ i3 i4 (t4.agree hJ hτ i3) k1 (by rw [h4]; exact hz)
    exact ⟨k3, k4.trans k2⟩
  have hin : (⟨y.p, w⟩ : PtrEdge) ∈ (⟨y.p, w⟩ :: (s.tab .v).held).erase x := by
    by_cases hxe : (⟨y.p, w⟩ : PtrEdge) = x
    · rw [hxe, List.erase_cons_head]; exact hheld
    · exact (List.mem_erase_of_ne hxe).2 List.mem_cons_self
  obtain ⟨kv, ke⟩ := keep n _ hin ve
  refine ⟨s', hg, e4, r4, kv, h4, fun l z hz hv => ?_, ?_⟩
  · have hz' : z ∈ (⟨y.p, w⟩ :: (s.tab .v).held).erase x := ((List.sublist_cons_self _ _).erase x).subset hz
    obtain ⟨k1, k2⟩ := keep l z hz' (gw.validV hv)
    refine ⟨k1, k2.trans ?_⟩
    funext d
    rw [vecJ_eq, vecJ_eq, gw.cval hv.live, gw.namp hi l1 d hv.node]
  · rw [ke]
    have e0 : (fun d => sw.vecJ J n ⟨y.p, w⟩ d - ⟨k, 0⟩ * project (s.vecJ J n x) q b d) =
        fun d => sw.ct.cval J.C w * sm.namp J n y.p d - ⟨k, 0⟩ * project (s.vecJ J n x) q b d := by
      funext d
      rw [vecJ_eq, hnamp]
    have e1 : (fun d => sm.vecJ J n y d - project (s.vecJ J n x) q b d) =
        fun d => sm.ct.cval J.C y.w * sm.namp J n y.p d - project (s.vecJ J n x) q b d := by
      funext d
      rw [vecJ_eq]
    rw [e1] at he
    rw [e0]
    refine (scale_err hk kmag hwt (node_bound' hτ hz m1 m3.node) he (by positivity)).trans (le_of_eq_of_le ?_ (add_le_add_right h8 _))
    rfl

/-- Diagrams whose nodes are normalised have nodes of norm at most `21/20`. -/
theorem sums_normLe (h : TInv J τ s) {δ : R} (hd0 : 0 ≤ δ) {n : Nat} (hδ : (1 + δ) ^ n ≤ 20 / 19) : ∀ (l : Nat) (p : Option Nat), l ≤ n → s.NodeOk l p →
    s.SumsLe J δ l p → s.NormLe J (21 / 20) l p := by
  intro l
  induction l with
  | zero => intro p _ _ _; trivial
  | succ l ih =>
    intro p hl hp hs
    cases p with
    | none => trivial
    | some a =>
      refine ⟨?_, fun i => ?_⟩
      · have h1 := sums_le h hd0 (l + 1) (some a) hp (by simp) hs
        have h2 : (1 + δ) ^ (l + 1) ≤ (1 + δ) ^ n := pow_le_pow_right₀ (by linarith) hl
        have e : s.vecJ J (l + 1) ⟨some a, CNum.one⟩ = s.namp J (l + 1) (some a) := by
          funext d
          rw [vecJ_eq, cval_one, one_mul]
        rw [e]
        refine le_of_sq (by norm_num) ?_
        rw [vnorm_sq]
        exact (h1.trans (h2.trans hδ)).trans (by norm_num)
      · have hk := (h.kids a hp.1 i).1
        have hl' : ((s.tab .v).tab.mem a).v = l := by have := hp.2; omega
        rw [hl'] at hk
        exact ih _ (by omega) hk.node (hs.2 i)

/-- The choice of the outcome: `P 0 + P 1` is the norm of the state, the `p c` are the computed probabilities. -/
theorem choice_num {fl : R → R} {ε η : R} (h : Rnd fl τ ε η) (hm : Monotone fl) (hf : fl 0 = 0 ∧ fl 1 = 1) {p P : Fin 2 → R} {E eps : R}
    (hp : ∀ c, 0 ≤ p c ∧ |p c - P c| ≤ E) (hP : ∀ c, 0 ≤ P c) (hfix : fl (p 0) = p 0) (hS : |P 0 + P 1 - 1| + 2 * E + τ ≤ eps) (he : eps ≤ 1 / 8) :
    |fl (fl (p 0 + p 1) - 1)| ≤ eps ∧ |fl (p 0 / fl (p 0 + p 1)) - P 0 / (P 0 + P 1)| ≤ 2 * E + τ ∧ (∀ c, p c ≤ 2) ∧
      (0 < fl (p 0 / fl (p 0 + p 1)) → 0 < p 0) ∧ (fl (p 0 / fl (p 0 + p 1)) < 1 → 0 < p 1) := by
  obtain ⟨e1, e2, e3, e4, e5, e6, herr⟩ := h
  obtain ⟨a0, a1⟩ := hp 0
  obtain ⟨b0, b1⟩ := hp 1
  have P0 := hP 0
  have P1 := hP 1
  have hall : (∀ c, p c ≤ 2) ↔ p 0 ≤ 2 ∧ p 1 ≤ 2 := Fin.forall_fin_two
  rw [hall]
  generalize p 0 = x at *
  generalize p 1 = y at *
  generalize P 0 = X at *
  generalize P 1 = Y at *
  have a1' := abs_le.1 a1
  have b1' := abs_le.1 b1
  have hS' := abs_le.1 (le_refl |X + Y - 1|)
  have hE : 0 ≤ E := (abs_nonneg _).trans a1
  have hτ0 : 0 ≤ τ := by linarith
  have x2 : x + y ≤ 9 / 8 := by linarith
  have x2' : 7 / 8 ≤ x + y := by linarith
  have r1 := herr (x + y)
  have d1 : |fl (x + y) - (x + y)| ≤ τ / 400 := by
    refine r1.trans ?_
    rw [abs_of_nonneg (by linarith)]
    have : ε * (x + y) ≤ ε * (9 / 8) := mul_le_mul_of_nonneg_left x2 e1
    linarith
  have y0 : y = 0 → fl (x + y) = x := by
    intro e
    rw [e, add_zero, hfix]
  generalize fl (x + y) = σ at *
  have d1' := abs_le.1 d1
  have hτ1 : τ ≤ 1 / 8 := by
    have := abs_nonneg (X + Y - 1)
    linarith
  have σ0 : 3 / 4 ≤ σ := by linarith
  have σp : 0 < σ := by linarith
  refine ⟨?_, ?_, ⟨by linarith, by linarith⟩, ?_, ?_⟩
  · have r2 := herr (σ - 1)
    have k1 : |σ - 1| ≤ |X + Y - 1| + 2 * E + τ / 400 := by
      rw [abs_le]
      constructor <;> linarith
    have k2 : ε * |σ - 1| ≤ ε * 1 := mul_le_mul_of_nonneg_left (by linarith) e1
    have k3 := abs_sub_abs_le_abs_sub (fl (σ - 1)) (σ - 1)
    linarith
  · have r2 := herr (x / σ)
    have q0 : 0 ≤ x / σ := div_nonneg a0 σp.le
    have q1 : x / σ ≤ 2 := by
      rw [div_le_iff₀ σp]
      linarith
    rw [abs_of_nonneg q0] at r2
    have k1 : ε * (x / σ) ≤ ε * 2 := mul_le_mul_of_nonneg_left q1 e1
    have xy : 0 < x + y := by linarith
    have XY : 0 < X + Y := by linarith [abs_nonneg (X + Y - 1)]
    have k2 : |x / σ - x / (x + y)| ≤ τ / 300 := by
      have e : x / σ - x / (x + y) = x / (x + y) * ((x + y - σ) / σ) := by
        field_simp
      have h1 : 0 ≤ x / (x + y) := div_nonneg a0 xy.le
      have h2 : x / (x + y) ≤ 1 := by
        rw [div_le_one xy]
        linarith
      have h3 : |(x + y - σ) / σ| ≤ τ / 300 := by
        rw [abs_div, abs_of_pos σp, div_le_iff₀ σp, abs_sub_comm]
        have : τ / 300 * (3 / 4) ≤ τ / 300 * σ := mul_le_mul_of_nonneg_left σ0 (by linarith)
        linarith
      rw [e, abs_mul, abs_of_nonneg h1]
      calc _ ≤ 1 * |(x + y - σ) / σ| := mul_le_mul_of_nonneg_right h2 (abs_nonneg _)
        _ ≤ _ := by linarith
    have k3 : |x / (x + y) - X / (X + Y)| ≤ 8 / 7 * E := by
      have e : x / (x + y) - X / (X + Y) = ((x - X) * Y - (y - Y) * X) / ((x + y) * (X + Y)) := by
        field_simp
        ring
      rw [e, abs_div, abs_of_pos (mul_pos xy XY), div_le_iff₀ (mul_pos xy XY)]
      have h1 : |(x - X) * Y - (y - Y) * X| ≤ E * (X + Y) := by
        refine (abs_sub _ _).trans ?_
        rw [abs_mul, abs_mul, abs_of_nonneg P0, abs_of_nonneg P1]
        have := mul_le_mul_of_nonneg_right a1 P1
        have := mul_le_mul_of_nonneg_right b1 P0
        linarith
      refine h1.trans ?_
      have : E * (X + Y) * (7 / 8) ≤ E * (X + Y) * (x + y) := mul_le_mul_of_nonneg_left x2' (by positivity)
      linarith
    have r2' := abs_le.1 r2
    have k2' := abs_le.1 k2
    have k3' := abs_le.1 k3
    rw [abs_le]
    constructor <;> linarith
  · intro h0
    rcases a0.lt_or_eq with h | h
    · exact h
    · rw [← h, zero_div, hf.1] at h0
      exact absurd h0 (lt_irrefl _)
  · intro h0
    rcases b0.lt_or_eq with h | h
    · exact h
    · rw [y0 h.symm, div_self (by rw [← y0 h.symm]; exact σp.ne'), hf.2] at h0
      exact absurd h0 (lt_irrefl _)

/-- The factor compared with the right one. -/
theorem factor_err {k p P E : R} (hτ : 0 ≤ τ) (hτ1 : 1000 * τ ≤ 1) (hp : 0 < p) (hP : 0 < P) (hk : |k - HasSqrt.sqrt (1 / p)| ≤ τ / 100 * HasSqrt.sqrt (1 / p))
    (hE : |p - P| ≤ E) (h4 : 4 * E ≤ P) :
    k ≤ 6 / 5 * HasSqrt.sqrt (1 / P) ∧ |k - HasSqrt.sqrt (1 / P)| ≤ (τ / 80 + 4 / 3 * (E / P)) * HasSqrt.sqrt (1 / P) := by
  have p0 : 0 < 1 / p := by positivity
  have P0 : 0 < 1 / P := by positivity
  have a0 := sqrt_pos p0
  have a2 := LawfulSqrt.mul_self (1 / p) p0.le
  have u0 := sqrt_pos P0
  have u2 := LawfulSqrt.mul_self (1 / P) P0.le
  generalize HasSqrt.sqrt (1 / p) = a at *
  generalize HasSqrt.sqrt (1 / P) = u at *
  have hE' := abs_le.1 hE
  have hE0 : 0 ≤ E := (abs_nonneg _).trans hE
  have h1 : a * a ≤ 4 / 3 * (u * u) := by
    rw [a2, u2]
    have e : 4 / 3 * (1 / P) = 1 / (3 / 4 * P) := by field_simp
    rw [e]
    exact one_div_le_one_div_of_le (by linarith) (by linarith)
  have h2 : a ≤ 7 / 6 * u := le_of_sq (by linarith) (by nlinarith)
  have h3 : |a - u| ≤ 4 / 3 * (E / P) * u := by
    have e : a * a - u * u = (P - p) * (a * a) * (u * u) := by
      rw [a2, u2]
      field_simp
    have e' : a * a - u * u = (a - u) * (a + u) := by ring
    rw [e'] at e
    have h5 : |a - u| * (a + u) ≤ E * (a * a) * (u * u) := by
      rw [← abs_of_pos (by linarith : 0 < a + u), ← abs_mul, e, abs_mul, abs_mul, abs_mul_self, abs_mul_self, abs_sub_comm]
      gcongr
    have h6 : E * (a * a) * (u * u) ≤ E * (4 / 3 * (u * u)) * (u * u) := by gcongr
    have h7 : |a - u| * u ≤ |a - u| * (a + u) := mul_le_mul_of_nonneg_left (by linarith) (abs_nonneg _)
    have e8 : E * (4 / 3 * (u * u)) * (u * u) = 4 / 3 * (E / P) * u * u := by
      have : E / P = E * (u * u) := by rw [u2]; ring
      rw [this]
      ring
    exact le_of_mul_le_mul_right (by rw [← e8]; linarith) u0
  have k1 : τ / 100 * a ≤ τ / 100 * (7 / 6 * u) := mul_le_mul_of_nonneg_left h2 (by linarith)
  have k2 : 1000 * τ * u ≤ 1 * u := mul_le_mul_of_nonneg_right hτ1 u0.le
  have hk' := abs_le.1 hk
  have h3' := abs_le.1 h3
  have k3 : 0 ≤ τ * u := by positivity
  refine ⟨by linarith, ?_⟩
  rw [abs_le]
  constructor <;> linarith

/-- What follows from the norm of a state whose nodes are normalised. -/
theorem state_num (hi : TInv J τ s) {n : Nat} {x : PtrEdge} (hx : s.ValidV J n x) {δ : R} (hd0 : 0 ≤ δ) (hδ : 20 * (n * δ) ≤ 1) (hs : s.SumsLe J δ n x.p)
    (h1 : 7 / 8 ≤ ∑ d, (s.vecJ J n x d).mag2) (h2 : ∑ d, (s.vecJ J n x d).mag2 ≤ 9 / 8) :
    4 / 5 ≤ mag (s.ct.cval J.C x.w) ∧ (s.ct.cval J.C x.w).mag2 ≤ 5 / 4 ∧ s.NormLe J (21 / 20) n x.p := by
  have eS : ∑ d, (s.vecJ J n x d).mag2 = (s.ct.cval J.C x.w).mag2 * s.nodeSum J n x.p := by
    unfold JState.nodeSum
    rw [Finset.mul_sum]
    refine Finset.sum_congr rfl fun d _ => ?_
    rw [vecJ_eq, Cx.mag2_mul]
  have hw0 : s.ct.cval J.C x.w ≠ 0 := by
    intro e
    rw [eS, e, Cx.mag2_zero, zero_mul] at h1
    norm_num at h1
  have hp : x.p = none → n = 0 := fun e => (hx.none e).resolve_right fun e => hw0 (by rw [e, cval_zero])
  have hpow : (1 + δ) ^ n ≤ 20 / 19 := by
    have h3 := bernoulli (x := δ) hd0 n
    have h5 : 0 ≤ (1 + δ) ^ n := by positivity
    have h6 : (1 + δ) ^ n * (19 / 20) ≤ 1 := le_trans (mul_le_mul_of_nonneg_left (by linarith) h5) h3
    linarith
  have hN := sums_norm hi hd0 n x.p hx.node hp hs
  have hN' : |s.nodeSum J n x.p - 1| ≤ 1 / 19 := by
    refine hN.trans ?_
    have : (n : R) * δ * (1 + δ) ^ n ≤ 1 / 20 * (20 / 19) := mul_le_mul (by linarith) hpow (by positivity) (by norm_num)
    linarith
  have hN2 := abs_le.1 hN'
  rw [eS] at h1 h2
  refine ⟨?_, ?_, sums_normLe hi hd0 hpow n x.p le_rfl hx.node hs⟩
  · refine le_of_sq (mag_nonneg _) ?_
    rw [mag_sq]
    have : (s.ct.cval J.C x.w).mag2 * s.nodeSum J n x.p ≤ (s.ct.cval J.C x.w).mag2 * (20 / 19) := mul_le_mul_of_nonneg_left (by linarith) (Cx.mag2_nonneg _)
    linarith
  · have : (s.ct.cval J.C x.w).mag2 * (18 / 19) ≤ (s.ct.cval J.C x.w).mag2 * s.nodeSum J n x.p := mul_le_mul_of_nonneg_left (by linarith) (Cx.mag2_nonneg _)
    linarith

theorem total_num {n : Nat} {k Q G u A C : R} (hτ : 0 ≤ τ) (hG : 320 * τ * (3 / 2) ^ n ≤ G) (hu9 : 9 / 10 ≤ u)
    (hA : A ≤ k * G + 8 * τ * (3 / 2) ^ n * max 1 k) (h2 : k ≤ 6 / 5 * u) (hC : C ≤ τ / 80 + 4 / 3 * Q) (hQ : 0 ≤ Q) : A + C ≤ 5 / 4 * G * u + 2 * Q := by
  have u0 : 0 ≤ u := by linarith
  have p1 : (1 : R) ≤ (3 / 2) ^ n := one_le_pow₀ (by norm_num)
  generalize (3 / 2 : R) ^ n = T at *
  have p2 : 0 ≤ τ * T := by positivity
  have G0 : 0 ≤ G := by linarith
  have m1 : max 1 k ≤ 6 / 5 * u := max_le (by linarith) h2
  generalize max 1 k = M at *
  have h5 : 8 * τ * T * M ≤ 8 * τ * T * (6 / 5 * u) := mul_le_mul_of_nonneg_left m1 (by linarith)
  have h6 : τ * T * u * 320 ≤ G * u := by
    have := mul_le_mul_of_nonneg_right hG u0
    linarith
  have h7 : k * G ≤ 6 / 5 * u * G := mul_le_mul_of_nonneg_right h2 G0
  have h8 : τ * 1 * (9 / 10) ≤ τ * T * u := mul_le_mul (mul_le_mul_of_nonneg_left p1 hτ) hu9 (by norm_num) p2
  have h10 : 0 ≤ G * u := by positivity
  linarith

theorem unit_num {P u v : R} (hP : 0 < P) (hP2 : P ≤ 9 / 8) (u0 : 0 ≤ u) (u2 : u * u = 1 / P) (hv0 : 0 ≤ v) (hv : v * v = P) : 9 / 10 ≤ u ∧ u * v = 1 := by
  constructor
  · refine le_of_sq u0 ?_
    rw [u2, le_div_iff₀ hP]
    linarith
  · have e : (u * v) * (u * v) = 1 * 1 := by
      have : (u * v) * (u * v) = (u * u) * (v * v) := by ring
      rw [this, u2, hv, one_div_mul_cancel hP.ne', mul_one]
    exact le_antisymm (le_of_sq zero_le_one e.le) (le_of_sq (mul_nonneg u0 hv0) e.ge)

theorem rescale_cx {n : Nat} (k u : Cx R) (y v : (Fin n → Fin 2) → Cx R) :
    vnorm (fun d => y d - u * v d) ≤ vnorm (fun d => y d - k * v d) + mag (k - u) * vnorm v := by
  have e0 : (fun d => y d - u * v d) = fun d => (y d - k * v d) + (k - u) * v d := by
    funext d
    ring
  rw [e0, ← vnorm_smul]
  exact vnorm_add (fun d => y d - k * v d) (fun d => (k - u) * v d)

theorem rescale_norm {n : Nat} (k u : R) (y v : (Fin n → Fin 2) → Cx R) :
    vnorm (fun d => y d - ⟨u, 0⟩ * v d) ≤ vnorm (fun d => y d - ⟨k, 0⟩ * v d) + |k - u| * vnorm v := by
  have : (⟨k, 0⟩ - ⟨u, 0⟩ : Cx R) = ⟨k - u, 0⟩ := by
    apply Cx.ext <;> simp
  rw [← mag_real, ← this]
  exact rescale_cx _ _ _ _

/-- The error of the state after the measurement. -/
theorem total_err {n : Nat} {k E P G : R} {y v : (Fin n → Fin 2) → Cx R} (hτ : 0 ≤ τ) (hG : 320 * τ * (3 / 2) ^ n ≤ G) (hP : 0 < P) (hP2 : P ≤ 9 / 8)
    (hE0 : 0 ≤ E) (hv : vnorm v * vnorm v = P) (h1 : vnorm (fun d => y d - ⟨k, 0⟩ * v d) ≤ k * G + 8 * τ * (3 / 2) ^ n * max 1 k)
    {u : R} (hu : HasSqrt.sqrt (1 / P) = u) (h2 : k ≤ 6 / 5 * u) (h3 : |k - u| ≤ (τ / 80 + 4 / 3 * (E / P)) * u) :
    vnorm (fun d => y d - ⟨u, 0⟩ * v d) ≤ 5 / 4 * G * u + 2 * (E / P) := by
  have P0 : 0 < 1 / P := by positivity
  have u0 := LawfulSqrt.nonneg (1 / P)
  have u2 := LawfulSqrt.mul_self (1 / P) P0.le
  rw [hu] at u0 u2
  obtain ⟨hu9, huv⟩ := unit_num hP hP2 u0 u2 (vnorm_nonneg v) hv
  refine (rescale_norm k u y v).trans ?_
  have h4 := mul_le_mul_of_nonneg_right h3 (vnorm_nonneg v)
  rw [mul_assoc, huv, mul_one] at h4
  exact total_num hτ hG hu9 h1 h2 h4 (by positivity)

/-- **C78, the collapse.** Of a state held by the caller whose norm is one up to `eps` one qubit is measured. There is a number `θ`, the
probability of zero up to the tolerance, such that for draws below it the outcome is zero and for the others one. In both cases the caller holds
the new state instead of the old one, the other states held keep their values, and the new state is the projection of the old one onto the
outcome, divided by its norm, up to the tolerance. -/
theorem C78_measure (hJ : J.Good) (hτ : 0 ≤ τ) (hR : J.Rounds τ) (hf : J.Exact) (hm : Monotone J.fl) (hr : TReach J τ s) {n : Nat}
    (hn : 2000 * ((n : R) + 1) ^ 2 * (3 / 2) ^ n * τ ≤ 1) (hnv : n ≤ (s.tab .m).tab.nvars) {x : PtrEdge} (hx : s.ValidV J n x)
    (hheld : x ∈ (s.tab .v).held) {δ : R} (hd0 : 0 ≤ δ) (hδ : 20 * (n * δ) ≤ 1) (hs : s.SumsLe J δ n x.p) (hN : (s.nodesV : R) * τ ≤ 1) (q : Fin n)
    (assumeNorm : Bool) {fuel : Nat} (hfuel : s.nodesV ≤ fuel) {E eps : R} (hE : probErr τ δ n s.nodesV assumeNorm = E)
    (hS : |∑ d, (s.vecJ J n x d).mag2 - 1| + 2 * E + τ ≤ eps) (he : eps ≤ 1 / 8) :
    ∃ θ, |θ - outProb (s.vecJ J n x) q 0 / ∑ d, (s.vecJ J n x d).mag2| ≤ 2 * E + τ ∧
      ∀ draw, 0 ≤ draw → draw < 1 → ∃ (s' : JState R) (e : PtrEdge) (b : Fin 2), s.measureOneCollapsing J x q assumeNorm eps draw fuel = some (s', e, if b = 1 then '1' else '0') ∧
        (b = 0 ↔ draw < θ) ∧ TReach J τ s' ∧ s'.ValidV J n e ∧ (s'.tab .v).held = (e :: (s.tab .v).held).erase x ∧
        (∀ l y, y ∈ (s.tab .v).held.erase x → s.ValidV J l y → s'.ValidV J l y ∧ s'.vecJ J l y = s.vecJ J l y) ∧
        (0 < outProb (s.vecJ J n x) q b → 4 * E ≤ outProb (s.vecJ J n x) q b →
          vnorm (fun d => s'.vecJ J n e d - ⟨HasSqrt.sqrt (1 / outProb (s.vecJ J n x) q b), 0⟩ * project (s.vecJ J n x) q b d) ≤
            5 / 4 * gateErr τ n (21 / 20) * HasSqrt.sqrt (1 / outProb (s.vecJ J n x) q b) + 2 * (E / outProb (s.vecJ J n x) q b)) := by
  have hi := hr.inv hJ hR hτ
  have hT : 0 ≤ ((n : R) + 1) ^ 2 * (3 / 2) ^ n * τ := by positivity
  have hn1 : 1000 * ((n : R) + 1) ^ 2 * (3 / 2) ^ n * τ ≤ 1 := by linarith
  have hz := smallM_small hτ hn1
  have hnτ := mul_nonneg (Nat.cast_nonneg (α := R) n) hτ
  have e1000 : 1000 * ((n : R) + 1) * τ = 1000 * ((n : R) * τ) + 1000 * τ := by ring
  have hτ1 : 1000 * τ ≤ 1 := by linarith
  have hE0 : 0 ≤ E := by
    rw [← hE]
    unfold probErr
    split_ifs <;> positivity
  have hSl := abs_le.1 (le_refl |∑ d, (s.vecJ J n x d).mag2 - 1|)
  have hS0 := abs_nonneg (∑ d, (s.vecJ J n x d).mag2 - 1)
  have S1 : 7 / 8 ≤ ∑ d, (s.vecJ J n x d).mag2 := by linarith
  have S2 : ∑ d, (s.vecJ J n x d).mag2 ≤ 9 / 8 := by linarith
  obtain ⟨w1, w2, hxB⟩ := state_num hi hx hd0 hδ hs S1 S2
  have hw : 3 / 2 * τ < mag (s.ct.cval J.C x.w) := by linarith
  obtain ⟨-, hlv, -⟩ := lvlV_eq hJ hτ hi hx hw
  obtain ⟨p, hp1, hp2⟩ := C78_probabilities hJ hτ hτ1 hR hf hm hr (by linarith) hx hw w2 hd0 hδ hs hN q assumeNorm hfuel
  rw [hE] at hp2
  have hfix := (determine_fixed hf hp1).1
  have hsum := outProb_sum (s.vecJ J n x) q
  obtain ⟨ε, η, hrnd⟩ := hi.rnd
  have hRnd : Rnd J.fl τ ε η := ⟨hrnd.1, hrnd.2.1, hrnd.2.2.1, hrnd.2.2.2.1, hrnd.2.2.2.2.1, hrnd.2.2.2.2.2.1, hrnd.2.2.2.2.2.2⟩
  obtain ⟨c1, c2, c3, c4, c5⟩ := choice_num hRnd hm ⟨hf.1, hf.2.1⟩ (P := outProb (s.vecJ J n x) q) hp2 (fun c => outProb_nonneg _ _ _) hfix
    (by rw [hsum]; exact hS) he
  rw [hsum] at c2
  have hG : gateErr τ n (21 / 20 : R) ≤ 2 / 5 := by
    unfold gateErr
    linarith
  have hG2 : 320 * τ * (3 / 2) ^ n ≤ gateErr τ n (21 / 20 : R) := by
    unfold gateErr
    have h1 : (1 : R) ≤ ((n : R) + 1) ^ 2 := one_le_pow₀ (by linarith [Nat.cast_nonneg (α := R) n])
    have h2 : τ * (3 / 2) ^ n * 1 ≤ τ * (3 / 2) ^ n * ((n : R) + 1) ^ 2 := mul_le_mul_of_nonneg_left h1 (by positivity)
    linarith
  have hv : vnorm (s.vecJ J n x) + gateErr τ n (21 / 20 : R) ≤ 3 / 2 := by
    have : vnorm (s.vecJ J n x) ≤ 11 / 10 := by
      refine le_of_sq (by norm_num) ?_
      rw [vnorm_sq]
      linarith
    linarith
  refine ⟨_, c2, fun draw hd hd1 => ?_⟩
  have key : ∀ b : Fin 2, (b = 0 ↔ draw < J.fl (p 0 / J.fl (p 0 + p 1))) → 0 < p b ∧
      (projU b : Fin 4 → Cx R) = (if decide (draw < J.fl (p 0 / J.fl (p 0 + p 1))) = true then ![1, 0, 0, 0] else ![0, 0, 0, 1]) ∧
      p b = (if decide (draw < J.fl (p 0 / J.fl (p 0 + p 1))) = true then p 0 else p 1) ∧
      (if b = 1 then '1' else '0') = (if decide (draw < J.fl (p 0 / J.fl (p 0 + p 1))) = true then '0' else '1') := by
    intro b hb
    by_cases h : draw < J.fl (p 0 / J.fl (p 0 + p 1))
    · have hb0 := hb.2 h
      subst hb0
      exact ⟨c4 (by linarith), by rw [if_pos (decide_eq_true h)]; rfl, by rw [if_pos (decide_eq_true h)], by rw [if_pos (decide_eq_true h)]; rfl⟩
    · have hb0 : b = 1 := by
        have h1 : b ≠ 0 := fun e => h (hb.1 e)
        revert h1
        clear hb
        revert b
        decide
      subst hb0
      have hd : ¬ decide (draw < J.fl (p 0 / J.fl (p 0 + p 1))) = true := by simpa using h
      exact ⟨c5 (by linarith), by rw [if_neg hd]; rfl, by rw [if_neg hd], by rw [if_neg hd]; rfl⟩
  obtain ⟨b, hb⟩ : ∃ b : Fin 2, b = 0 ↔ draw < J.fl (p 0 / J.fl (p 0 + p 1)) := by
    by_cases h : draw < J.fl (p 0 / J.fl (p 0 + p 1))
    · exact ⟨0, by simp [h]⟩
    · exact ⟨1, by simp [h]⟩
  obtain ⟨k1, k2, k3, k4⟩ := key b hb
  obtain ⟨f0, f1⟩ := factor_num hRnd hm hf.1 k1 (c3 b)
  obtain ⟨gate, s', g1, g2, g3, g4, g5, g6, g7⟩ := collapse_acc hJ hτ hR hr hn1 hnv (by norm_num) hx hxB hv hheld q b f0
  refine ⟨s', _, b, ?_, hb, g3, g4, g5, g6, fun hpos h4 => ?_⟩
  · unfold JState.measureOneCollapsing
    rw [hp1]
    dsimp only
    rw [if_neg (not_lt.2 c1), ← k2, ← k3, ← k4, hlv, g1]
    dsimp only
    rw [g2]
  · obtain ⟨t1, t2⟩ := factor_err hτ hτ1 k1 hpos f1 (hp2 b).2 h4
    refine total_err hτ hG2 hpos ?_ hE0 (project_norm _ q b) g7 rfl t1 t2
    have h0 := outProb_nonneg (s.vecJ J n x) q 0
    have h1 := outProb_nonneg (s.vecJ J n x) q 1
    have hb01 : b = 0 ∨ b = 1 := (by decide : ∀ b : Fin 2, b = 0 ∨ b = 1) b
    rcases hb01 with e | e <;> rw [e] <;> linarith

/-- If the norm of the state is off by more than the bound, an exception is thrown. -/
theorem C78_throws (hJ : J.Good) (hτ : 0 ≤ τ) (hτ1 : 1000 * τ ≤ 1) (hR : J.Rounds τ) (hf : J.Exact) (hm : Monotone J.fl) (hr : TReach J τ s) {n : Nat}
    (hn : (n : R) * τ ≤ 1) {x : PtrEdge} (hx : s.ValidV J n x) (hw : 3 / 2 * τ < mag (s.ct.cval J.C x.w)) (hw1 : (s.ct.cval J.C x.w).mag2 ≤ 5 / 4) {δ : R}
    (hd0 : 0 ≤ δ) (hδ : 20 * (n * δ) ≤ 1) (hs : s.SumsLe J δ n x.p) (hN : (s.nodesV : R) * τ ≤ 1) (q : Fin n) (assumeNorm : Bool) {fuel : Nat}
    (hfuel : s.nodesV ≤ fuel) {E eps : R} (hE : probErr τ δ n s.nodesV assumeNorm = E)
    (hS : eps + 2 * E + τ < |∑ d, (s.vecJ J n x d).mag2 - 1|) (hS2 : |∑ d, (s.vecJ J n x d).mag2 - 1| ≤ 1) (draw : R) :
    s.measureOneCollapsing J x q assumeNorm eps draw fuel = none := by
  have hi := hr.inv hJ hR hτ
  obtain ⟨p, hp1, hp2⟩ := C78_probabilities hJ hτ hτ1 hR hf hm hr hn hx hw hw1 hd0 hδ hs hN q assumeNorm hfuel
  rw [hE] at hp2
  unfold JState.measureOneCollapsing
  rw [hp1]
  dsimp only
  rw [if_pos]
  have hsum := outProb_sum (s.vecJ J n x) q
  rw [← hsum] at hS hS2
  obtain ⟨ε, η, e1, e2, e3, e4, e5, e6, herr⟩ := hi.rnd
  obtain ⟨a0, a1⟩ := hp2 0
  obtain ⟨b0, b1⟩ := hp2 1
  generalize p 0 = x at *
  generalize p 1 = y at *
  generalize outProb (s.vecJ J n _) q 0 = X at *
  generalize outProb (s.vecJ J n _) q 1 = Y at *
  by_cases heps : eps < 0
  · exact lt_of_lt_of_le heps (abs_nonneg _)
  rw [not_lt] at heps
  have hE0 : 0 ≤ E := (abs_nonneg _).trans a1
  have a1' := abs_le.1 a1
  have b1' := abs_le.1 b1
  have hS2' := abs_le.1 hS2
  have r1 := herr (x + y)
  rw [abs_of_nonneg (by linarith : 0 ≤ x + y)] at r1
  have k1 : ε * (x + y) ≤ ε * 3 := mul_le_mul_of_nonneg_left (by linarith) e1
  have r2 := herr (J.fl (x + y) - 1)
  have r1' := abs_le.1 r1
  have k2 : |J.fl (x + y) - 1| ≤ 4 := by
    rw [abs_le]
    constructor <;> linarith
  have k3 : ε * |J.fl (x + y) - 1| ≤ ε * 4 := mul_le_mul_of_nonneg_left k2 e1
  have k4 : |X + Y - 1| ≤ |J.fl (x + y) - 1| + (2 * E + ε * 3 + η) := by
    have h := abs_le.1 (le_refl |J.fl (x + y) - 1|)
    rw [abs_le]
    constructor <;> linarith
  have k5 := abs_sub_abs_le_abs_sub (J.fl (x + y) - 1) (J.fl (J.fl (x + y) - 1))
  rw [abs_sub_comm (J.fl (J.fl (x + y) - 1))] at r2
  show eps < |J.fl (J.fl (x + y) - 1)|
  linarith

/-! Product states meet the hypotheses. -/

theorem nodeV_nodes (hJ : J.Good) {t : JState R} (hu : UWF (J.H .v) (t.tab .v).tab) {v : Nat} (hv : v < (t.tab .v).tab.nvars) (es : Fin 2 → PtrEdge) :
    (t.nodeV J v es).1.nodesV ≤ t.nodesV + 1 := by
  obtain ⟨_, _, _, _, _, _, _, _, _, hcase⟩ := mkNodeBy_spec (sameEdges_refl J t) hJ.U.growth hu v es false false hv
  have e : ((t.nodeV J v es).1.tab .v).tab = ((t.tab .v).tab.mkNodeBy (t.sameEdges J) (J.H .v) J.U v es false false).1 := by
    unfold JState.nodeV
    dsimp only
    rw [Function.update_self]
  unfold JState.nodesV
  rw [e]
  rcases hcase with ⟨_, h⟩ | ⟨_, h, _⟩
  · rw [h]; omega
  · rw [List.toFinset_eq_of_perm _ _ h, List.toFinset_cons]
    exact Finset.card_insert_le _ _

theorem take_nodes (hJ : J.Good) {t : JState R} (hu : UWF (J.H .v) (t.tab .v).tab) : (t.takeV J).nodesV = t.nodesV ∧ (t.takeBackV J).nodesV = t.nodesV := by
  have h := (getNode_spec hJ.U.growth hu).2.2.2.1
  have e : ((t.takeV J).tab .v).tab = ((t.tab .v).tab.getNode J.U).1 := by
    unfold JState.takeV
    dsimp only
    rw [Function.update_self]
  have e' : ((t.takeBackV J).tab .v).tab = ((t.tab .v).tab.getNode J.U).1.returnNode ((t.tab .v).tab.getNode J.U).2 := by
    unfold JState.takeBackV
    dsimp only
    rw [Function.update_self]
  have h2 : (((t.tab .v).tab.getNode J.U).1.returnNode ((t.tab .v).tab.getNode J.U).2).all = ((t.tab .v).tab.getNode J.U).1.all := rfl
  unfold JState.nodesV
  rw [e, e', h2, h]
  exact ⟨rfl, rfl⟩

theorem makeU_nodes (hJ : J.Good) {t : JState R} (hu : UWF (J.H .v) (t.tab .v).tab) {v : Nat} (hv : v < (t.tab .v).tab.nvars) (es : Fin 2 → PtrEdge) :
    (t.makeU J v es).1.nodesV ≤ t.nodesV + 1 := by
  have c : ∀ (s : JState R) (z : Cx R), (s.lookupC J z).1.tab = s.tab := fun _ _ => rfl
  have l : ∀ (s : JState R) (z : CNum Loc), (s.lookupN J z).1.tab = s.tab := by
    intro s z
    unfold JState.lookupN
    split_ifs <;> rfl
  have n : ∀ (r : JState R) (es : Fin 2 → PtrEdge), r.tab = t.tab → (r.nodeV J v es).1.nodesV ≤ t.nodesV + 1 := by
    intro r es h
    have e : r.nodesV = t.nodesV := by unfold JState.nodesV; rw [h]
    rw [← e]
    exact nodeV_nodes hJ (h ▸ hu) (by rw [h]; exact hv) es
  have k : ∀ r : JState R, r.tab = t.tab → (r.takeV J).nodesV = t.nodesV := by
    intro r h
    have e : r.nodesV = t.nodesV := by unfold JState.nodesV; rw [h]
    rw [(take_nodes hJ (t := r) (h ▸ hu)).1, e]
  have k2 : (t.takeBackV J).nodesV ≤ t.nodesV + 1 := by
    rw [(take_nodes hJ hu).2]
    omega
  clear hu
  unfold JState.makeU
  dsimp only
  split_ifs
  · exact k2
  · exact n _ _ (l _ _)
  · exact n _ _ (l _ _)
  all_goals first | (rw [k _ (c _ _)]; omega) | (refine n _ _ ?_; rw [c, c, c])

theorem basisLoop_nodes (hJ : J.Good) (hτ : 0 ≤ τ) (hsq : SqOk J τ) (h : TInv J τ s) (st : Nat → Basis) : ∀ (n : Nat), n ≤ (s.tab .v).tab.nvars →
    1000 * ((n : R) + 1) * τ ≤ 1 → (s.basisLoop J st n).1.nodesV ≤ s.nodesV + n := by
  intro n
  induction n with
  | zero => intro _ _; exact le_rfl
  | succ n ih =>
    intro hn hz
    have hz' : 1000 * ((n : R) + 1) * τ ≤ 1 := by
      push_cast at hz
      have : 1000 * ((n : R) + 1 + 1) * τ = 1000 * ((n : R) + 1) * τ + 1000 * τ := by ring
      linarith
    obtain ⟨a1, a2, -⟩ := basisLoop_acc hJ hτ hsq h st n (by omega) hz'
    have h1 := ih (by omega) hz'
    have e : (JState.basisKids J (s.basisLoop J st n).1 (st n) (s.basisLoop J st n).2).1.tab = (s.basisLoop J st n).1.tab := by
      unfold JState.basisKids
      cases st n <;> rfl
    obtain ⟨pin, hi⟩ := a1.reach.inv hJ (zero_tol hτ)
    have hu := ((hi.tab .v).inv hJ.U).uwf
    have h2 := makeU_nodes hJ (t := (JState.basisKids J (s.basisLoop J st n).1 (st n) (s.basisLoop J st n).2).1) (v := n) (by rw [e]; exact hu)
      (by rw [e, a2.nvars .v]; omega) (JState.basisKids J (s.basisLoop J st n).1 (st n) (s.basisLoop J st n).2).2
    have e2 : (JState.basisKids J (s.basisLoop J st n).1 (st n) (s.basisLoop J st n).2).1.nodesV = (s.basisLoop J st n).1.nodesV := by
      unfold JState.nodesV
      rw [e]
    show (JState.makeU J _ n _).1.nodesV ≤ _
    omega

theorem product_norm {n : Nat} (st : Fin n → Basis) : ∑ d : Fin n → Fin 2, (∏ i, basisAmp (R := R) (st i) (d i)).mag2 = 1 := by
  have e : ∀ d : Fin n → Fin 2, (∏ i, basisAmp (R := R) (st i) (d i)).mag2 = ∏ i, (basisAmp (R := R) (st i) (d i)).mag2 := by
    intro d
    induction (Finset.univ : Finset (Fin n)) using Finset.induction_on with
    | empty => simp [Cx.mag2_one]
    | insert a S ha ih => rw [Finset.prod_insert ha, Finset.prod_insert ha, Cx.mag2_mul, ih]
  rw [Finset.sum_congr rfl fun d _ => e d]
  have := Finset.prod_univ_sum (fun _ : Fin n => (Finset.univ : Finset (Fin 2))) (fun i c => (basisAmp (R := R) (st i) c).mag2)
  rw [Fintype.piFinset_univ] at this
  rw [← this]
  refine Finset.prod_eq_one fun i _ => ?_
  rw [Fin.sum_univ_two]
  have h := (sqrt12_num (R := R)).1
  cases st i <;> simp [basisAmp, Cx.mag2] <;> linarith

/-- Every product state, just made and then held, meets the hypotheses of `C78_measure`. -/
theorem C78_basis (hJ : J.Good) (hτ : 0 ≤ τ) (hR : J.Rounds τ) (hsq : SqOk J τ) (hr : TReach J τ s) {n : Nat} (hn : n ≤ (s.tab .v).tab.nvars)
    (hz : 1000 * ((n : R) + 1) ^ 2 * (3 / 2) ^ n * τ ≤ 1) {state : List Basis} (hl : n ≤ state.length) :
    ∃ s' e, s.makeBasisStates J n state = some (s', e) ∧ TReach J τ (s'.holdV J e) ∧ (s'.holdV J e).ValidV J n e ∧ e ∈ ((s'.holdV J e).tab .v).held ∧
      (s'.holdV J e).SumsLe J (40 * τ) n e.p ∧ (s'.holdV J e).nodesV ≤ s.nodesV + n ∧ ((s'.holdV J e).tab .m).tab.nvars = (s.tab .m).tab.nvars ∧
      (∀ d, mag ((s'.holdV J e).vecJ J n e d - ∏ i : Fin n, basisAmp (state[i.val]'(by omega)) (d i)) ≤ 12 * τ * n) ∧
      |∑ d, ((s'.holdV J e).vecJ J n e d).mag2 - 1| ≤ 25 * τ * n * (3 / 2) ^ n := by
  have hz' := smallM_small hτ hz
  have hi := hr.inv hJ hR hτ
  obtain ⟨a1, a2, a3⟩ := basisLoop_acc hJ hτ hsq hi (fun i => state.getD i .zero) n hn hz'
  have hnodes := basisLoop_nodes hJ hτ hsq hi (fun i => state.getD i .zero) n hn hz'
  obtain ⟨s', e, he, hr', hv, -, hd⟩ := C74_basis hJ hτ hR hsq hr hn hz' hl
  have hb : s.basisLoop J (fun i => state.getD i .zero) n = (s', e) := by
    have h := he
    unfold JState.makeBasisStates at h
    rw [if_neg (by omega), if_neg (by omega)] at h
    exact Option.some.inj h
  rw [hb] at a1 a2 hnodes
  obtain ⟨hsum, -⟩ := C77_basis hJ hτ hR hsq hr hn hz' hl he
  obtain ⟨t1, t2⟩ := holdV_spec hJ hτ a1 hv
  have r1 := hr'.step t1
  have i1 := r1.inv hJ hR hτ
  have hh := holdV_held (J := J) s' e
  have hag := t1.agree hJ hτ a1
  obtain ⟨x1, x2⟩ := held_value hJ hτ a1 i1 hag hv hh
  have hN : (s'.holdV J e).nodesV = s'.nodesV := by
    have hk : ∀ x ∈ ptrRefs .v e, s'.Known J x := by
      rw [known_ptr]
      refine ⟨hv.live, fun b hb => ?_⟩
      have := hv.node
      rw [hb] at this
      exact this.1
    obtain ⟨pin, hi'⟩ := a1.reach.inv hJ (zero_tol hτ)
    have sp : IncSpec J.U (s'.tab .v).tab e ((s'.tab .v).tab.incRef J.U e).1 ((s'.tab .v).tab.incRef J.U e).2 := by
      apply incRefF_spec J.U _ _ _ ((hi'.tab .v).inv hJ.U).closed
      intro b hb
      exact ⟨(known_ptr.1 hk).2 b hb, by simp [UTable.lvl, hb]⟩
    unfold JState.nodesV
    have : ((s'.holdV J e).tab .v).tab = ((s'.tab .v).tab.incRef J.U e).1 := by
      unfold JState.holdV
      dsimp only
      rw [Function.update_self]
    rw [this, sp.shape.all]
  refine ⟨s', e, he, r1, x1, hh, sumsLe_agree i1 a1 hag.symm n e.p x1.node hv.node hsum, by rw [hN]; exact hnodes, (t2 .m).trans (a2.nvars .m),
    by rw [x2]; exact hd, ?_⟩
  rw [x2]
  set g : (Fin n → Fin 2) → Cx R := fun d => ∏ i : Fin n, basisAmp (state[i.val]'(by omega)) (d i) with hg
  have g1 : vnorm g = 1 := by
    have h1 : vnorm g * vnorm g = 1 * 1 := by
      rw [vnorm_sq, hg, product_norm (fun i : Fin n => state[i.val]'(by omega)), mul_one]
    exact le_antisymm (le_of_sq zero_le_one h1.le) (le_of_sq (vnorm_nonneg _) h1.ge)
  have u1 := vnorm_near (f := s'.vecJ J n e) (g := g) (by positivity) hd
  have u2 := vnorm_near (f := g) (g := s'.vecJ J n e) (e := 12 * τ * n) (by positivity) (fun d => by rw [mag_sub_comm]; exact hd d)
  rw [g1] at u1 u2
  rw [← vnorm_sq]
  have v0 := vnorm_nonneg (s'.vecJ J n e)
  generalize vnorm (s'.vecJ J n e) = v at *
  have small : 1000 * (τ * n * (3 / 2) ^ n) ≤ 1 := by
    refine le_trans ?_ hz
    have h0 : (0 : R) ≤ n := Nat.cast_nonneg n
    have h1 : (n : R) ≤ ((n : R) + 1) ^ 2 := by nlinarith
    have h2 : (n : R) * ((3 / 2) ^ n * τ) ≤ ((n : R) + 1) ^ 2 * ((3 / 2) ^ n * τ) := mul_le_mul_of_nonneg_right h1 (by positivity)
    linarith
  have nn : 0 ≤ τ * n * (3 / 2) ^ n := by positivity
  have e1 : (3 / 2) ^ n * (12 * τ * n) = 12 * (τ * n * (3 / 2) ^ n) := by ring
  have e2 : 25 * τ * n * (3 / 2) ^ n = 25 * (τ * n * (3 / 2) ^ n) := by ring
  rw [e1] at u1 u2
  rw [e2]
  generalize τ * n * (3 / 2) ^ n = r at *
  have e3 : v * v - 1 = (v - 1) * (v + 1) := by ring
  rw [e3, abs_mul, abs_of_nonneg (by linarith : 0 ≤ v + 1)]
  have h1 : |v - 1| ≤ 12 * r := by
    rw [abs_le]
    constructor <;> linarith
  have h2 : |v - 1| * (v + 1) ≤ 12 * r * (2 + 1 / 50) := mul_le_mul h1 (by linarith) (by linarith) (by linarith)
  linarith

namespace Ex

theorem jr_nodes (τ : ℝ) (n : Nat) : (jr τ n).nodesV = 0 := by
  unfold JState.nodesV jr JState.init
  dsimp only
  simp [UTable.all, UTable.init]

/-- A state of ten qubits in a package with the tolerance of the code, measured with both values of the flag: the probability of zero is right up
to `10⁻⁸`, and for likely outcomes so is the state afterwards, up to `10⁻⁵`. -/
example (assumeNorm : Bool) (q : Fin 10) : ∃ s x, TReach JR (1 / 2 ^ 42) s ∧ x ∈ (s.tab .v).held ∧ |∑ d, (s.vecJ JR 10 x d).mag2 - 1| ≤ 1 / 10 ^ 6 ∧
    ∃ θ, |θ - outProb (s.vecJ JR 10 x) q 0 / ∑ d, (s.vecJ JR 10 x d).mag2| ≤ 1 / 10 ^ 8 ∧
      ∀ draw, 0 ≤ draw → draw < 1 → ∃ s' e b, s.measureOneCollapsing JR x q assumeNorm (1 / 1000) draw 10 = some (s', e, if b = 1 then '1' else '0') ∧
        (b = 0 ↔ draw < θ) ∧ (1 / 4 ≤ outProb (s.vecJ JR 10 x) q b →
          vnorm (fun d => s'.vecJ JR 10 e d - ⟨HasSqrt.sqrt (1 / outProb (s.vecJ JR 10 x) q b), 0⟩ * project (s.vecJ JR 10 x) q b d) ≤ 1 / 10 ^ 5) := by
  have t0 : (0 : ℝ) ≤ 1 / 2 ^ 42 := by norm_num
  obtain ⟨s, x, -, hr, hx, hh, hs, hN, hnv, -, hS⟩ := C78_basis JR_good t0 (JR_rounds t0) (JR_sq t0) (jr_reach (1 / 2 ^ 42) 10)
    (n := 10) (le_refl 10) (by norm_num) (state := [.left, .one, .plus, .minus, .right, .zero, .plus, .plus, .one, .minus]) (by simp)
  rw [jr_nodes, zero_add] at hN
  have hN' : ((s.holdV JR x).nodesV : ℝ) ≤ 10 := by exact_mod_cast hN
  have hE : probErr (1 / 2 ^ 42) (40 * (1 / 2 ^ 42)) 10 (s.holdV JR x).nodesV assumeNorm ≤ (810 : ℝ) / 2 ^ 42 := by
    unfold probErr
    split_ifs <;> push_cast <;> linarith
  generalize hEe : probErr (1 / 2 ^ 42 : ℝ) (40 * (1 / 2 ^ 42)) 10 (s.holdV JR x).nodesV assumeNorm = E at hE
  have hS' : |∑ d, ((s.holdV JR x).vecJ JR 10 x d).mag2 - 1| ≤ 1 / 10 ^ 6 := hS.trans (by norm_num)
  obtain ⟨θ, h1, h2⟩ := C78_measure JR_good t0 (JR_rounds t0) JR_exact monotone_id hr (by norm_num) (by rw [hnv]; exact le_refl 10) hx hh (by norm_num)
    (by norm_num) hs (by linarith) q assumeNorm hN hEe (eps := 1 / 1000) (by linarith) (by norm_num)
  refine ⟨_, x, hr, hh, hS', θ, h1.trans (by linarith), fun draw d0 d1 => ?_⟩
  obtain ⟨s', e, b, m1, m2, -, -, -, -, m7⟩ := h2 draw d0 d1
  refine ⟨s', e, b, m1, m2, fun hp => (m7 (by linarith) (by linarith)).trans ?_⟩
  generalize outProb ((s.holdV JR x).vecJ JR 10 x) q b = P at *
  have P0 : 0 < P := by linarith
  have u2 := LawfulSqrt.mul_self (1 / P) (by positivity)
  have u0 := LawfulSqrt.nonneg (1 / P)
  generalize HasSqrt.sqrt (1 / P) = u at *
  have h4 : 1 / P ≤ 4 := by
    rw [div_le_iff₀ P0]
    linarith
  have h5 : u ≤ 2 := by nlinarith
  have h6 : E / P ≤ 810 / 2 ^ 42 * 4 := by
    rw [div_le_iff₀ P0]
    have : (810 : ℝ) / 2 ^ 42 * 4 * (1 / 4) ≤ 810 / 2 ^ 42 * 4 * P := mul_le_mul_of_nonneg_left hp (by norm_num)
    linarith
  have h7 : 5 / 4 * gateErr (1 / 2 ^ 42 : ℝ) 10 (21 / 20) * u ≤ 5 / 4 * gateErr (1 / 2 ^ 42 : ℝ) 10 (21 / 20) * 2 := by
    refine mul_le_mul_of_nonneg_left h5 ?_
    unfold gateErr
    positivity
  have h8 : 5 / 4 * gateErr (1 / 2 ^ 42 : ℝ) 10 (21 / 20) * 2 ≤ 3 / 10 ^ 6 := by
    unfold gateErr
    norm_num
  linarith

end Ex
end DD
