import Verif.Proofs.ApproxMat

/-! # Accuracy of multiplying a matrix and a vector -/

namespace DD

open Pkg UTable JState

variable {R : Type} [Field R] [LinearOrder R] [IsStrictOrderedRing R] [FloorRing R] {J : JCfg R} {τ : R}
variable {s s' s'' : JState R} [HasSqrt R] [LawfulSqrt R]

/-! ## Numbers -/

section small

theorem SmallM.le (hτ : 0 ≤ τ) {l : Nat} (h : SmallM τ (l + 1)) : τ * (3 / 2) ^ l * ((l : R) + 2) ^ 2 ≤ 1 / 1500 := by
  unfold SmallM at h
  rw [pow_succ (3 / 2 : R)] at h
  push_cast at h
  have e : (1000 : R) * ((l : R) + 1 + 1) ^ 2 * ((3 / 2) ^ l * (3 / 2)) * τ = 1500 * (τ * (3 / 2) ^ l * ((l : R) + 2) ^ 2) := by ring
  rw [e] at h
  linarith

theorem SmallM.pred (hτ : 0 ≤ τ) {l : Nat} (h : SmallM τ (l + 1)) : SmallM τ l := by
  have h1 := h.le hτ
  unfold SmallM
  have e : (1000 : R) * ((l : R) + 1) ^ 2 * (3 / 2) ^ l * τ = 1000 * (τ * (3 / 2) ^ l * ((l : R) + 1) ^ 2) := by ring
  rw [e]
  have h2 : τ * (3 / 2) ^ l * ((l : R) + 1) ^ 2 ≤ τ * (3 / 2) ^ l * ((l : R) + 2) ^ 2 := by
    apply mul_le_mul_of_nonneg_left _ (by positivity)
    have : (0 : R) ≤ l := Nat.cast_nonneg l
    nlinarith
  linarith

theorem SmallM.small (hτ : 0 ≤ τ) {l : Nat} (h : SmallM τ l) : Small τ l := by
  unfold SmallM Small at *
  refine le_trans ?_ h
  have : (0 : R) ≤ l := Nat.cast_nonneg l
  have h1 : (l : R) + 1 ≤ ((l : R) + 1) ^ 2 := by nlinarith
  have e : (1000 : R) * ((l : R) + 1) * (3 / 2) ^ l * τ = 1000 * (3 / 2) ^ l * τ * ((l : R) + 1) := by ring
  have e' : (1000 : R) * ((l : R) + 1) ^ 2 * (3 / 2) ^ l * τ = 1000 * (3 / 2) ^ l * τ * ((l : R) + 1) ^ 2 := by ring
  rw [e, e']
  exact mul_le_mul_of_nonneg_left h1 (by positivity)

theorem mulE_nonneg (hτ : 0 ≤ τ) (l : Nat) {X : R} (hX : 0 ≤ X) : 0 ≤ mulE τ l X := by
  have := kidBound_one hτ
  unfold mulE
  positivity

/-- The norm of an error is small. -/
theorem mulE_norm (hτ : 0 ≤ τ) {l : Nat} (h : SmallM τ l) {X : R} (hX : 0 ≤ X) : (3 / 2) ^ l * mulE τ l X ≤ 41 / 1000 * X := by
  have kb := (h.small hτ).kid hτ (m := l) (by omega)
  have k1 := kidBound_one hτ
  unfold SmallM at h
  unfold mulE
  have h1 : 40 * ((l : R) ^ 2 * (3 / 2) ^ l * τ) ≤ 40 / 1000 := by
    have : (l : R) ^ 2 * (3 / 2) ^ l * τ ≤ ((l : R) + 1) ^ 2 * (3 / 2) ^ l * τ := by
      have : (0 : R) ≤ l := Nat.cast_nonneg l
      apply mul_le_mul_of_nonneg_right _ hτ
      apply mul_le_mul_of_nonneg_right _ (by positivity)
      nlinarith
    linarith
  have e : (3 / 2) ^ l * (40 * τ * (l : R) ^ 2 * kidBound τ ^ l * X) = 40 * ((l : R) ^ 2 * (3 / 2) ^ l * τ) * kidBound τ ^ l * X := by ring
  rw [e]
  apply mul_le_mul_of_nonneg_right _ hX
  calc 40 * ((l : R) ^ 2 * (3 / 2) ^ l * τ) * kidBound τ ^ l ≤ 40 / 1000 * (51 / 50) := mul_le_mul h1 kb (by positivity) (by norm_num)
    _ ≤ _ := by norm_num

theorem mul_row (hτ : 0 ≤ τ) {l : Nat} (h : SmallM τ (l + 1)) {P k c0 c1 N : R} (hP : 1 ≤ P) (hk : 1 ≤ k)
    (hc : c0 + c1 ≤ k * kidBound τ)
    (hN : N ≤ c0 * P + c1 * P + (3 / 2) ^ l * ((c0 * mulE τ l P + 66 / 10 * τ * P * (k * kidBound τ)) +
      (c1 * mulE τ l P + 66 / 10 * τ * P * (k * kidBound τ)))) :
    (c0 * mulE τ l P + 66 / 10 * τ * P * (k * kidBound τ)) + (c1 * mulE τ l P + 66 / 10 * τ * P * (k * kidBound τ)) + addR τ l N ≤
      k * kidBound τ * mulE τ l P + (20 + 42 * l) * τ * (k * P) := by
  have hu := h.le hτ
  have sm := (h.pred hτ).small hτ
  have kb := sm.kid hτ (m := l + 1) (by omega)
  have k1 := kidBound_one hτ
  have t1 := (sm.le hτ).2.1
  have kb1 : kidBound τ ≤ 1004 / 1000 := by unfold kidBound; linarith
  have hE := mulE_nonneg hτ l (by linarith : 0 ≤ P)
  set g := kidBound τ with hg
  set q : R := (3 / 2) ^ l with hq
  have q0 : 0 ≤ q := by positivity
  set L : R := (l : R) with hL
  have L0 : 0 ≤ L := by positivity
  set u := τ * q with hu'
  have u0 : 0 ≤ u := by positivity
  have u1 : u ≤ 1 / 6000 := by
    have : u * 4 ≤ u * (L + 2) ^ 2 := mul_le_mul_of_nonneg_left (by nlinarith) u0
    linarith
  have u2 : u * L ^ 2 ≤ 1 / 1500 := by
    have : u * L ^ 2 ≤ u * (L + 2) ^ 2 := mul_le_mul_of_nonneg_left (by nlinarith) u0
    linarith
  have P' : 1 ≤ k * P := by nlinarith
  have tP : 0 ≤ τ * (k * P) := mul_nonneg hτ (by linarith)
  have s1 : (c0 * mulE τ l P + 66 / 10 * τ * P * (k * g)) + (c1 * mulE τ l P + 66 / 10 * τ * P * (k * g)) ≤
      k * g * mulE τ l P + 133 / 10 * (τ * (k * P)) := by
    have a1 : (c0 + c1) * mulE τ l P ≤ k * g * mulE τ l P := mul_le_mul_of_nonneg_right hc hE
    have a2 : τ * (k * P) * g ≤ τ * (k * P) * (1004 / 1000) := mul_le_mul_of_nonneg_left kb1 tP
    linarith
  have s2 : q * (k * g * mulE τ l P + 133 / 10 * (τ * (k * P))) ≤ 3 / 100 * (k * P) := by
    unfold mulE
    have e : q * (k * g * (40 * τ * L ^ 2 * g ^ l * P) + 133 / 10 * (τ * (k * P))) =
        (40 * (u * L ^ 2) * g ^ (l + 1) + 133 / 10 * u) * (k * P) := by rw [hu', pow_succ]; ring
    rw [← hg, ← hL, e]
    apply mul_le_mul_of_nonneg_right _ (by linarith)
    have : 40 * (u * L ^ 2) * g ^ (l + 1) ≤ 40 * (1 / 1500) * (51 / 50) :=
      mul_le_mul (by linarith) kb (by positivity) (by norm_num)
    linarith
  have s3 : N ≤ 1034 / 1000 * (k * P) := by
    have a1 := mul_le_mul_of_nonneg_left s1 q0
    have a2 : (c0 + c1) * P ≤ k * g * P := mul_le_mul_of_nonneg_right hc (by linarith)
    have a3 : k * P * g ≤ k * P * (1004 / 1000) := mul_le_mul_of_nonneg_left kb1 (by linarith)
    linarith
  have s4 : addR τ l N ≤ (62 / 10 + 41 * L) * (τ * (k * P)) := by
    unfold addR addA
    rw [← hq, ← hu', ← hL]
    have a1 : 1 + (N + 41 / 10 * u) ≤ 2035 / 1000 * (k * P) := by linarith
    have a2 : 20 * τ * L * (1 + 36 * u) ≤ 20 * τ * L * (1006 / 1000) := mul_le_mul_of_nonneg_left (by linarith) (by positivity)
    have a3 : 20 * τ * L * (1 + 36 * u) * (1 + (N + 41 / 10 * u)) ≤ 20 * τ * L * (1 + 36 * u) * (2035 / 1000 * (k * P)) :=
      mul_le_mul_of_nonneg_left a1 (by positivity)
    have a4 : 20 * τ * L * (1 + 36 * u) * (2035 / 1000 * (k * P)) ≤ 20 * τ * L * (1006 / 1000) * (2035 / 1000 * (k * P)) :=
      mul_le_mul_of_nonneg_right a2 (by linarith)
    have a5 : 0 ≤ L * (τ * (k * P)) := mul_nonneg L0 tP
    have a6 : τ ≤ τ * (k * P) := le_mul_of_one_le_right hτ P'
    have a7 := mul_le_mul_of_nonneg_left s3 hτ
    linarith
  have e : (20 + 42 * L) * τ * (k * P) = (20 + 42 * L) * (τ * (k * P)) := by ring
  rw [e]
  have a5 : 0 ≤ L * (τ * (k * P)) := mul_nonneg L0 tP
  linarith

theorem mul_make (hτ : 0 ≤ τ) {l : Nat} (h : SmallM τ (l + 1)) {P k M : R} (hP : 1 ≤ P) (hk : 1 ≤ k)
    (hM : M ≤ 51 / 50 * (k * P + 3 / 2 * ((3 / 2) ^ l * (k * kidBound τ * mulE τ l P + (20 + 42 * l) * τ * (k * P))))) :
    k * kidBound τ * mulE τ l P + (20 + 42 * l) * τ * (k * P) + 41 / 25 * τ * (1 + 3 * M) ≤ mulE τ (l + 1) (k * P) := by
  have hu := h.le hτ
  have sm := (h.pred hτ).small hτ
  have kb := sm.kid hτ (m := l + 1) (by omega)
  have kp := kidBound_pow hτ (l + 1)
  set g := kidBound τ with hg
  set q : R := (3 / 2) ^ l with hq
  set L : R := (l : R) with hL
  have L0 : 0 ≤ L := by positivity
  set u := τ * q with hu'
  have u0 : 0 ≤ u := by positivity
  have u1 : u ≤ 1 / 6000 := by
    have : u * 4 ≤ u * (L + 2) ^ 2 := mul_le_mul_of_nonneg_left (by nlinarith) u0
    linarith
  have u2 : u * L ^ 2 ≤ 1 / 1500 := by
    have : u * L ^ 2 ≤ u * (L + 2) ^ 2 := mul_le_mul_of_nonneg_left (by nlinarith) u0
    linarith
  have u3 : u * L ≤ 1 / 12000 := by
    have : u * (8 * L) ≤ u * (L + 2) ^ 2 := mul_le_mul_of_nonneg_left (by nlinarith [sq_nonneg (L - 2)]) u0
    linarith
  have P' : 1 ≤ k * P := by nlinarith
  have tP : 0 ≤ τ * (k * P) := mul_nonneg hτ (by linarith)
  have e0 : k * g * mulE τ l P = 40 * L ^ 2 * g ^ (l + 1) * (τ * (k * P)) := by
    unfold mulE; rw [← hg, ← hL, pow_succ]; ring
  have e1 : mulE τ (l + 1) (k * P) = 40 * (L + 1) ^ 2 * g ^ (l + 1) * (τ * (k * P)) := by
    unfold mulE; rw [← hg]; push_cast; rw [← hL]; ring
  rw [e0] at hM ⊢
  rw [e1]
  have s2 : q * (40 * L ^ 2 * g ^ (l + 1) * (τ * (k * P)) + (20 + 42 * L) * τ * (k * P)) ≤ 35 / 1000 * (k * P) := by
    have e : q * (40 * L ^ 2 * g ^ (l + 1) * (τ * (k * P)) + (20 + 42 * L) * τ * (k * P)) =
        (40 * (u * L ^ 2) * g ^ (l + 1) + 20 * u + 42 * (u * L)) * (k * P) := by rw [hu']; ring
    rw [e]
    apply mul_le_mul_of_nonneg_right _ (by linarith)
    have : 40 * (u * L ^ 2) * g ^ (l + 1) ≤ 40 * (1 / 1500) * (51 / 50) :=
      mul_le_mul (by linarith) kb (by linarith) (by norm_num)
    linarith
  have s3 : M ≤ 108 / 100 * (k * P) := by linarith
  have s4 : 41 / 25 * τ * (1 + 3 * M) ≤ 41 / 25 * τ * (424 / 100 * (k * P)) := mul_le_mul_of_nonneg_left (by linarith) (by positivity)
  have s5 : 40 * (L + 1) ^ 2 * g ^ (l + 1) * (τ * (k * P)) = 40 * L ^ 2 * g ^ (l + 1) * (τ * (k * P)) +
      (80 * L + 40) * (g ^ (l + 1) * (τ * (k * P))) := by ring
  rw [s5]
  have s6 : τ * (k * P) ≤ g ^ (l + 1) * (τ * (k * P)) := le_mul_of_one_le_left tP kp
  have s7 := mul_le_mul_of_nonneg_left s6 (by linarith : 0 ≤ 80 * L + 40)
  have a5 : 0 ≤ L * (τ * (k * P)) := mul_nonneg L0 tP
  have s8 : 40 * L ^ 2 * g ^ (l + 1) * (τ * (k * P)) + (20 + 42 * L) * τ * (k * P) + 41 / 25 * τ * (424 / 100 * (k * P)) ≤
      40 * L ^ 2 * g ^ (l + 1) * (τ * (k * P)) + (80 * L + 40) * (τ * (k * P)) := by
    clear_value g q L u
    linarith
  linarith

theorem schur2 {c : Fin 2 → Fin 2 → R} {m : Fin 2 → R} {K : R} (hc : ∀ i k, 0 ≤ c i k) (row : ∀ i, c i 0 + c i 1 ≤ K)
    (col : ∀ k, c 0 k + c 1 k ≤ K) :
    (c 0 0 * m 0 + c 0 1 * m 1) * (c 0 0 * m 0 + c 0 1 * m 1) + (c 1 0 * m 0 + c 1 1 * m 1) * (c 1 0 * m 0 + c 1 1 * m 1) ≤
      K * K * (m 0 * m 0 + m 1 * m 1) := by
  have hK : 0 ≤ K := by linarith [hc 0 0, hc 0 1, row 0]
  have one : ∀ i, (c i 0 * m 0 + c i 1 * m 1) * (c i 0 * m 0 + c i 1 * m 1) ≤ K * (c i 0 * (m 0 * m 0) + c i 1 * (m 1 * m 1)) := by
    intro i
    have h1 : (c i 0 * m 0 + c i 1 * m 1) * (c i 0 * m 0 + c i 1 * m 1) =
        (c i 0 + c i 1) * (c i 0 * (m 0 * m 0) + c i 1 * (m 1 * m 1)) - c i 0 * c i 1 * ((m 0 - m 1) * (m 0 - m 1)) := by ring
    have h2 : 0 ≤ c i 0 * c i 1 * ((m 0 - m 1) * (m 0 - m 1)) := mul_nonneg (mul_nonneg (hc i 0) (hc i 1)) (mul_self_nonneg _)
    have h3 : 0 ≤ c i 0 * (m 0 * m 0) + c i 1 * (m 1 * m 1) :=
      add_nonneg (mul_nonneg (hc i 0) (mul_self_nonneg _)) (mul_nonneg (hc i 1) (mul_self_nonneg _))
    have h4 := mul_le_mul_of_nonneg_right (row i) h3
    linarith
  have a0 := mul_le_mul_of_nonneg_right (col 0) (mul_self_nonneg (m 0))
  have a1 := mul_le_mul_of_nonneg_right (col 1) (mul_self_nonneg (m 1))
  have a2 := mul_le_mul_of_nonneg_left (add_le_add a0 a1) hK
  linarith [one 0, one 1]

theorem kappa_one {K : Nat → R} (hK : ∀ j, 1 ≤ K j) (l : Nat) : 1 ≤ kappa K l := by
  unfold kappa
  induction l with
  | zero => simp
  | succ l ih => rw [Finset.prod_range_succ]; nlinarith [hK l]

theorem kappa_succ (K : Nat → R) (l : Nat) : kappa K (l + 1) = kappa K l * K l := by
  unfold kappa; rw [Finset.prod_range_succ]

end small

/-! ## Products of nodes -/

theorem prodV_succ (s : JState R) (l a b : Nat) (d : Fin (l + 1) → Fin 2) :
    s.prodV J (l + 1) (some a) (some b) d = ∑ k : Fin 2,
      s.ct.cval J.C (((s.tab .m).tab.mem a).e (rc (d (Fin.last l)) k)).w * s.ct.cval J.C (((s.tab .v).tab.mem b).e k).w *
        s.prodV J l (((s.tab .m).tab.mem a).e (rc (d (Fin.last l)) k)).p (((s.tab .v).tab.mem b).e k).p (Fin.init d) := by
  have := sum_split (fun (k : Fin 2) (c : Fin l → Fin 2) =>
    s.ct.cval J.C (((s.tab .m).tab.mem a).e (rc (d (Fin.last l)) k)).w *
      s.nampM J l (((s.tab .m).tab.mem a).e (rc (d (Fin.last l)) k)).p (fun i => rc (Fin.init d i) (c i)) *
    (s.ct.cval J.C (((s.tab .v).tab.mem b).e k).w * s.namp J l (((s.tab .v).tab.mem b).e k).p c))
  refine Eq.trans this (Finset.sum_congr rfl (fun k _ => ?_))
  unfold JState.prodV
  rw [Finset.mul_sum]
  refine Finset.sum_congr rfl (fun c _ => ?_)
  ring

theorem Grow.nodeM (g : Grow J s s') {l : Nat} {p : Option Nat} (hp : s.NodeM l p) : s'.NodeM l p :=
  g.rel.nodeM hp (fun a ha => by subst ha; exact g.all .m a hp.1)

theorem Grow.rowCol (g : Grow J s s') (h : TInv J τ s) (h' : TInv J τ s') {K : Nat → R} {l : Nat} {p : Option Nat} (hp : s.NodeM l p)
    (hr : s.RowCol J K l p) : s'.RowCol J K l p :=
  rowCol_agree h'.kidsM h.kidsM g.rel.symm l p (g.nodeM hp) hp hr

theorem Grow.normLe (g : Grow J s s') (h : TInv J τ s) (h' : TInv J τ s') {B : R} {l : Nat} {p : Option Nat} (hp : s.NodeOk l p)
    (hr : s.NormLe J B l p) : s'.NormLe J B l p :=
  normLe_agree h'.valid h.valid g.rel.symm l p (g.nodeOk hp) hp hr

theorem Grow.prodV (g : Grow J s s') (h : TInv J τ s) (h' : TInv J τ s') {l : Nat} {a b : Option Nat} (ha : s.NodeM l a)
    (hb : s.NodeOk l b) : s'.prodV J l a b = s.prodV J l a b := by
  funext d
  unfold JState.prodV
  refine Finset.sum_congr rfl (fun c _ => ?_)
  rw [g.namp h h' _ hb, nampM_agree h.kidsM h'.kidsM g.rel l a _ ha (g.nodeM ha)]

/-- The norm of the vector of a node. -/
theorem namp_normLe {B : R} (hB : 0 ≤ B) : ∀ (l : Nat) (p : Option Nat), (p = none → l = 0) → s.NormLe J B l p →
    vnorm (s.namp J l p) ≤ 1 + B := by
  intro l p hp h
  cases l with
  | zero =>
    refine vnorm_le (by linarith) ?_
    show ∑ d : Fin 0 → Fin 2, Cx.mag2 (1 : Cx R) ≤ _
    rw [← mag_sq, mag_one]
    simp
    nlinarith
  | succ l =>
    cases p with
    | none => exact absurd (hp rfl) (by omega)
    | some a =>
      have e : s.vecJ J (l + 1) ⟨some a, CNum.one⟩ = s.namp J (l + 1) (some a) := by
        funext d
        rw [vecJ_eq, cval_one, one_mul]
      have := h.1
      rw [e] at this
      linarith

/-- The norm of a product. -/
theorem prodV_norm (hτ1 : τ < 1) (h : TInv J τ s) {K : Nat → R} (hK : ∀ j, 1 ≤ K j) : ∀ (l : Nat) (a b : Option Nat),
    s.NodeM l a → s.NodeOk l b → (a = none → l = 0) → (b = none → l = 0) → s.RowCol J K l a →
    vnorm (s.prodV J l a b) ≤ kappa K l * vnorm (s.namp J l b) := by
  intro l
  induction l with
  | zero =>
    intro a b _ _ _ _ _
    have e : s.prodV J 0 a b = s.namp J 0 b := by
      funext d
      unfold JState.prodV
      show ∑ c : Fin 0 → Fin 2, (1 : Cx R) * 1 = 1
      simp
    rw [e]
    unfold kappa
    simp
  | succ l ih =>
    intro a b na nb ha hb hr
    cases a with
    | none => exact absurd (ha rfl) (by omega)
    | some a =>
    cases b with
    | none => exact absurd (hb rfl) (by omega)
    | some b =>
    have hav : ((s.tab .m).tab.mem a).v = l := by have := na.2; omega
    have hbv : ((s.tab .v).tab.mem b).v = l := by have := nb.2; omega
    have km : ∀ i : Fin 4, s.KnM J τ l (((s.tab .m).tab.mem a).e i) := fun i => by have := h.kidsM a na.1 i; rwa [hav] at this
    have kv : ∀ i : Fin 2, s.ValidV J l (((s.tab .v).tab.mem b).e i) := fun i => by have := (h.kids b nb.1 i).1; rwa [hbv] at this
    have hr1 : ∀ i : Fin 2, mag (s.ct.cval J.C (((s.tab .m).tab.mem a).e (rc i 0)).w) +
        mag (s.ct.cval J.C (((s.tab .m).tab.mem a).e (rc i 1)).w) ≤ K l ∧
        mag (s.ct.cval J.C (((s.tab .m).tab.mem a).e (rc 0 i)).w) + mag (s.ct.cval J.C (((s.tab .m).tab.mem a).e (rc 1 i)).w) ≤ K l := hr.1
    have hr2 : ∀ i : Fin 4, s.RowCol J K l (((s.tab .m).tab.mem a).e i).p := hr.2
    set X : Fin 2 → Fin 2 → Cx R := fun i k => s.ct.cval J.C (((s.tab .m).tab.mem a).e (rc i k)).w with hX
    set Y : Fin 2 → Cx R := fun k => s.ct.cval J.C (((s.tab .v).tab.mem b).e k).w with hY
    set p : Fin 2 → Fin 2 → Option Nat := fun i k => (((s.tab .m).tab.mem a).e (rc i k)).p with hp
    set r : Fin 2 → Option Nat := fun k => (((s.tab .v).tab.mem b).e k).p with hr'
    have k0 : 0 ≤ kappa K l := by linarith [kappa_one hK l]
    have kid : ∀ i k, mag (X i k * Y k) * vnorm (s.prodV J l (p i k) (r k)) ≤
        mag (X i k) * (mag (Y k) * (kappa K l * vnorm (s.namp J l (r k)))) := by
      intro i k
      rw [mag_mul, mul_assoc]
      by_cases h1 : p i k = none → l = 0
      · by_cases h2 : r k = none → l = 0
        · refine mul_le_mul_of_nonneg_left (mul_le_mul_of_nonneg_left ?_ (mag_nonneg _)) (mag_nonneg _)
          exact ih (p i k) (r k) (km _).node (kv k).node h1 h2 (hr2 _)
        · push Not at h2
          have : Y k = 0 := by
            rcases (kv k).none h2.1 with h0 | h0
            · exact absurd h0 h2.2
            · rw [hY]; dsimp only; rw [h0, cval_zero]
          rw [this, mag_zero, zero_mul, zero_mul]
      · push Not at h1
        have : X i k = 0 := by
          rcases (km (rc i k)).2.2 h1.1 hτ1 with h0 | h0
          · exact absurd h0 h1.2
          · rw [hX]; dsimp only; rw [h0, cval_zero]
        rw [this, mag_zero, zero_mul, zero_mul]
    set F : Fin 2 → (Fin l → Fin 2) → Cx R := fun i d => X i 0 * Y 0 * s.prodV J l (p i 0) (r 0) d +
      X i 1 * Y 1 * s.prodV J l (p i 1) (r 1) d with hF
    have eF : s.prodV J (l + 1) (some a) (some b) = fun d => F (d (Fin.last l)) (Fin.init d) := by
      funext d
      rw [prodV_succ, Fin.sum_univ_two]
    set G : Fin 2 → (Fin l → Fin 2) → Cx R := fun k d => Y k * s.namp J l (r k) d with hG
    have eG : s.namp J (l + 1) (some b) = fun d => G (d (Fin.last l)) (Fin.init d) := rfl
    have nG : ∀ k, vnorm (G k) = mag (Y k) * vnorm (s.namp J l (r k)) := fun k => vnorm_smul _ _
    have nF : ∀ i, vnorm (F i) ≤ mag (X i 0) * (kappa K l * vnorm (G 0)) + mag (X i 1) * (kappa K l * vnorm (G 1)) := by
      intro i
      refine (vnorm_add _ _).trans ?_
      rw [vnorm_smul, vnorm_smul]
      have a0 := kid i 0
      have a1 := kid i 1
      rw [nG, nG]
      linarith
    have sF := vnorm_split F
    have sG := vnorm_split G
    rw [← eF] at sF
    rw [← eG] at sG
    have sc := schur2 (c := fun i k => mag (X i k)) (m := fun k => kappa K l * vnorm (G k)) (K := K l) (fun i k => mag_nonneg _)
      (fun i => (hr1 i).1) (fun k => (hr1 k).2)
    have kl : 0 ≤ K l := by linarith [hK l]
    have vn := vnorm_nonneg (s.namp J (l + 1) (some b))
    refine le_of_sq (by rw [kappa_succ]; positivity) ?_
    rw [sF]
    have b0 := mul_self_le_mul_self (vnorm_nonneg _) (nF 0)
    have b1 := mul_self_le_mul_self (vnorm_nonneg _) (nF 1)
    refine (add_le_add b0 b1).trans (sc.trans (le_of_eq ?_))
    rw [kappa_succ]
    have : K l * K l * (kappa K l * vnorm (G 0) * (kappa K l * vnorm (G 0)) + kappa K l * vnorm (G 1) * (kappa K l * vnorm (G 1))) =
      (kappa K l * K l) * (kappa K l * K l) * (vnorm (G 0) * vnorm (G 0) + vnorm (G 1) * vnorm (G 1)) := by ring
    rw [this, ← sG]
    ring

/-! ## The cache -/

theorem mulIns_grow (hJ : J.Good) (hτ : 0 ≤ τ) (h : TInv J τ s) {a b : Option Nat} {r : ValEdge R}
    (hok : MulOk J τ s (mulKey a b, .val .v r)) : TInv J τ (s.mulIns J a b r) ∧ Grow J s (s.mulIns J a b r) := by
  obtain ⟨pin, hi⟩ := h.reach.inv hJ (zero_tol hτ)
  obtain ⟨l, a', b', r', he, hx, hy, hr, _⟩ := id hok
  simp only [mulKey, Prod.mk.injEq, List.cons.injEq, CArg.ptr.injEq, CArg.val.injEq, Edge.mk.injEq, true_and, and_true] at he
  obtain ⟨⟨rfl, rfl⟩, rfl⟩ := he
  have kv : ∀ p : Option Nat, s.NodeOk l p → ∀ c, p = some c → c ∈ (s.tab .v).tab.all := by
    intro p hp c hc
    subst hc
    exact hp.1
  have hst : JStep J (· = τ) s (s.mulIns J a b r) := by
    refine .insert .matrixVectorMultiplication (mulKey a b) (.val .v r) ?_ ?_ ?_ ?_ (fun e => by cases e)
    · exact .cons rfl (.cons rfl .nil)
    · exact rfl
    · intro x hx' q hq
      simp only [mulKey, List.mem_cons, List.not_mem_nil, or_false] at hx'
      rcases hx' with rfl | rfl
      · refine (known_ptr (e := ⟨a, CNum.one⟩).2 ⟨⟨trivial, trivial⟩, fun c hc => ?_⟩) q hq
        dsimp only at hc
        subst hc
        exact hx.1
      · exact (known_ptr (e := ⟨b, CNum.one⟩).2 ⟨⟨trivial, trivial⟩, fun c hc => kv _ hy c hc⟩) q hq
    · intro q hq
      have hq' : q ∈ nodeRefs .v r.p := hq
      cases hp : r.p with
      | none => rw [hp] at hq'; simp [nodeRefs] at hq'
      | some c =>
        rw [hp] at hq'
        simp only [nodeRefs, List.mem_singleton] at hq'
        subst hq'
        exact kv _ hr c hp
  have ha := hst.agree hJ (zero_tol hτ) hi
  have g : Grow J s (s.mulIns J a b r) := ⟨ha, fun _ a ha => ha, fun l hl => hl, fun _ => rfl⟩
  refine ⟨h.keep hJ hτ (h.reach.step hst) ha (fun a ha => Or.inl ha) (fun a ha => Or.inl ha) (fun i k hs => Or.inl hs)
    (fun i k hs => Or.inl hs) (fun i k hs => ?_) (fun i k hs => Or.inl hs), g⟩
  have hc : (s.mulIns J a b r).cache .matrixVectorMultiplication =
      (s.cache .matrixVectorMultiplication).insert (J.h .matrixVectorMultiplication) (mulKey a b) (.val .v r) :=
    Function.update_self (β := fun _ : CK => Cache (CKey R) (CArg R)) CK.matrixVectorMultiplication _ s.cache
  rw [hc] at hs
  simp only [Cache.insert] at hs
  split_ifs at hs with h1
  · right
    simp only [Option.some.injEq] at hs
    subst hs
    have valid' : ∀ a' ∈ ((s.mulIns J a b r).tab .v).tab.all, ∀ i, (s.mulIns J a b r).ValidV J (((s.mulIns J a b r).tab .v).tab.mem a').v
        ((((s.mulIns J a b r).tab .v).tab.mem a').e i) := fun a' ha' i => g.validV (h.kids a' ha' i).1
    have kidsM' : ∀ a' ∈ ((s.mulIns J a b r).tab .m).tab.all, ∀ i, (s.mulIns J a b r).KnM J τ (((s.mulIns J a b r).tab .m).tab.mem a').v
        ((((s.mulIns J a b r).tab .m).tab.mem a').e i) := fun a' ha' i => g.knM (h.kidsM a' ha' i)
    obtain ⟨l, a', b', r', he, hA, hB, hr, h0, hF⟩ := hok
    refine ⟨l, a', b', r', he, hA, hB, hr, h0, fun hsm K B hK hB0 hrc hnl d => ?_⟩
    have := hF hsm K B hK hB0 (rowCol_agree h.kidsM kidsM' ha l a' hA (g.nodeM hA) hrc)
      (normLe_agree h.valid valid' ha l b' hB (g.nodeOk hB) hnl) d
    have e1 : (s.mulIns J a b r).evec J l r' d = s.evec J l r' d := by
      unfold JState.evec; rw [namp_agree h.valid valid' ha l _ d hr (g.nodeOk hr)]
    have e2 : (s.mulIns J a b r).prodV J l a' b' d = s.prodV J l a' b' d := by
      unfold JState.prodV
      refine Finset.sum_congr rfl (fun c _ => ?_)
      rw [namp_agree h.valid valid' ha l _ c hB (g.nodeOk hB), nampM_agree h.kidsM kidsM' ha l _ _ hA (g.nodeM hA)]
    rw [e1, e2]
    exact this
  · exact Or.inl hs

theorem mulIns_ok (h : TInv J τ (s.mulIns J a b r)) : MulOk J τ (s.mulIns J a b r) (mulKey a b, .val .v r) := by
  refine h.mul (J.h .matrixVectorMultiplication (mulKey a b)) _ ?_
  have hc : (s.mulIns J a b r).cache .matrixVectorMultiplication =
      (s.cache .matrixVectorMultiplication).insert (J.h .matrixVectorMultiplication) (mulKey a b) (.val .v r) :=
    Function.update_self (β := fun _ : CK => Cache (CKey R) (CArg R)) CK.matrixVectorMultiplication _ s.cache
  rw [hc]
  simp [Cache.insert]

/-- A hit in the cache of `multiply`. -/
theorem mulLook_hit (h : TInv J τ s) {a b : Option Nat} {r : ValEdge R} (hh : s.mulLook J a b = some r) :
    MulOk J τ s (mulKey a b, .val .v r) := by
  unfold JState.mulLook Cache.lookup at hh
  cases hs : (s.cache .matrixVectorMultiplication).slot (J.h .matrixVectorMultiplication (mulKey a b)) with
  | none => rw [hs] at hh; simp at hh
  | some kr =>
    rw [hs] at hh
    have hok := h.mul _ _ hs
    obtain ⟨l, a', b', r', rfl, _⟩ := id hok
    simp only [Bool.and_true] at hh
    split_ifs at hh with hsame
    · simp only [Option.some.injEq] at hh
      subst hh
      simp only [mulKey, sameKey, sameArg, Bool.and_eq_true, decide_eq_true_eq, true_and, and_true] at hsame
      obtain ⟨⟨a1, _⟩, b1, _⟩ := hsame
      subst a1 b1
      exact hok

/-! ## Multiplication -/

/-- What a product satisfies. -/
structure MulRes (J : JCfg R) (τ : R) (s : JState R) (l : Nat) (x y : PtrEdge) (r : JState R × SEdge R) : Prop where
  inv : TInv J τ r.1
  grow : Grow J s r.1
  ok : r.1.SOk l r.2
  fine : SmallM τ l → ∀ K B, (∀ j, 1 ≤ K j) → 0 ≤ B → s.RowCol J K l x.p → s.NormLe J B l y.p → ∀ X Y, 1 ≤ X → 1 ≤ Y →
    mag (s.ct.cval J.C x.w) ≤ X → mag (s.ct.cval J.C y.w) ≤ Y → ∀ d,
    mag (sval r.2.w * r.1.namp J l r.2.p d - s.ct.cval J.C x.w * s.ct.cval J.C y.w * s.prodV J l x.p y.p d) ≤
      mag (s.ct.cval J.C x.w) * mag (s.ct.cval J.C y.w) * mulE τ l (kappa K l * (1 + B)) + 66 / 10 * τ * (kappa K l * (1 + B)) * (X * Y)

/-- The same, from an earlier state. -/
theorem MulRes.back {r : JState R × SEdge R} {l : Nat} {x y : PtrEdge} (m : MulRes J τ s' l x y r) (g : Grow J s s') (h : TInv J τ s)
    (h' : TInv J τ s') (hx : s.KnM J τ l x) (hy : s.ValidV J l y) : MulRes J τ s l x y r := by
  refine ⟨m.inv, g.trans m.grow, m.ok, fun hsm K B hK hB hr hn X Y hX hY hxX hyY d => ?_⟩
  have e1 := g.cval hx.1
  have e2 := g.cval hy.live
  have := m.fine hsm K B hK hB (g.rowCol h h' hx.node hr) (g.normLe h h' hy.node hn) X Y hX hY (by rw [e1]; exact hxX)
    (by rw [e2]; exact hyY) d
  rw [e1, e2, g.prodV h h' hx.node hy.node] at this
  exact this

/-- The weights are multiplied to the result for the nodes. -/
theorem mulEnd_acc (hJ : J.Good) (hτ : 0 ≤ τ) (h : TInv J τ s) {l : Nat} (hsm : SmallM τ l) {p : Option Nat} (hp : s.NodeOk l p)
    {z : Cx R} {x y : PtrEdge} {f : (Fin l → Fin 2) → Cx R} {E P X Y : R} (hP : 1 ≤ P) (hz : mag z ≤ 11 / 10 * P)
    (hf : ∀ d, mag (z * s.namp J l p d - f d) ≤ E) (hX : 1 ≤ X) (hY : 1 ≤ Y) (hxX : mag (s.ct.cval J.C x.w) ≤ X)
    (hyY : mag (s.ct.cval J.C y.w) ≤ Y) (d : Fin l → Fin 2) :
    mag (sval (mulEnd J s p z x y).w * s.namp J l (mulEnd J s p z x y).p d - s.ct.cval J.C x.w * s.ct.cval J.C y.w * f d) ≤
      mag (s.ct.cval J.C x.w) * mag (s.ct.cval J.C y.w) * E + 66 / 10 * τ * P * (X * Y) := by
  have ht := h.tol hJ hτ
  have ht0 : 0 ≤ s.ct.tol := by rw [ht]; exact hτ
  set a := s.ct.cval J.C x.w
  set b := s.ct.cval J.C y.w
  have kb := (hsm.small hτ).kid hτ (m := l) (by omega)
  have nb := (namp_bound hτ h l p d hp).trans kb
  have m1 := mulV_spec (h.ok hJ hτ) hz hxX (by linarith) hX
  have pX : 1 ≤ 11 / 10 * P * X := by nlinarith
  have r1 : 1 ≤ rho s.ct.tol := rho_one ht0
  have pR : 1 ≤ rho s.ct.tol * (11 / 10 * P * X) := by nlinarith
  have m2 := mulV_spec (h.ok hJ hτ) m1.1 hyY pR hY
  rw [ht] at m1 m2
  set w := s.ct.mulV J.fl (s.ct.mulV J.fl z a) b with hw
  have XY : 1 ≤ X * Y := by nlinarith
  have PXY : 1 ≤ P * (X * Y) := by nlinarith
  have ew : mag (w - z * a * b) ≤ 44 / 10 * τ * (P * (X * Y)) := by
    have e : w - z * a * b = (w - s.ct.mulV J.fl z a * b) + (s.ct.mulV J.fl z a - z * a) * b := by ring
    rw [e]
    refine (mag_add _ _).trans ((add_le_add m2.2 (mag_mono_mul m1.2 hyY)).trans ?_)
    have q1 : 0 ≤ τ * (P * (X * Y)) := mul_nonneg hτ (by linarith)
    have q2 := mul_le_mul_of_nonneg_right (rho_le' τ) q1
    linarith
  have e1 : mag (w * s.namp J l p d - a * b * f d) ≤ mag a * mag b * E + 449 / 100 * τ * (P * (X * Y)) := by
    have e : w * s.namp J l p d - a * b * f d = a * b * (z * s.namp J l p d - f d) + (w - z * a * b) * s.namp J l p d := by ring
    rw [e]
    refine (mag_add _ _).trans (add_le_add ?_ ?_)
    · rw [mag_mul, mag_mul]
      exact mul_le_mul_of_nonneg_left (hf d) (mul_nonneg (mag_nonneg _) (mag_nonneg _))
    · refine (mag_mono_mul ew nb).trans ?_
      have : 0 ≤ τ * (P * (X * Y)) := mul_nonneg hτ (by linarith)
      linarith
  have t1 : τ ≤ τ * (P * (X * Y)) := le_mul_of_one_le_right hτ PXY
  unfold JState.mulEnd
  dsimp only
  rw [← hw]
  split_ifs with h0
  · have hz' := zeroV_mag ht0 h0
    rw [ht] at hz'
    have e : sval (none : Option (Cx R)) * s.namp J l none d - a * b * f d =
        (w * s.namp J l p d - a * b * f d) + (- (w * s.namp J l p d)) := by
      show 0 * _ - _ = _
      ring
    dsimp only
    rw [e]
    have e2 : mag (- (w * s.namp J l p d)) ≤ 2 * τ * (51 / 50) := by rw [mag_neg]; exact mag_mono_mul hz' nb
    refine (mag_add _ _).trans ((add_le_add e1 e2).trans ?_)
    linarith
  · refine e1.trans ?_
    have : 0 ≤ τ * (P * (X * Y)) := mul_nonneg hτ (by linarith)
    linarith

/-- The weight of a product of nodes. -/
theorem prod_weight (hτ : 0 ≤ τ) (h : TInv J τ s) {l : Nat} (hsm : SmallM τ l) {K : Nat → R} {B : R} (hK : ∀ j, 1 ≤ K j) (hB : 0 ≤ B)
    {a b : Option Nat} (ha : s.NodeM l a) (hb : s.NodeOk l b) (ha0 : a = none → l = 0) (hb0 : b = none → l = 0)
    (hr : s.RowCol J K l a) (hn : s.NormLe J B l b) {r : ValEdge R} (hp : s'.NodeOk l r.p) (h' : TInv J τ s')
    (hf : ∀ d, mag (s'.evec J l r d - s.prodV J l a b d) ≤ mulE τ l (kappa K l * (1 + B))) :
    mag r.w ≤ 11 / 10 * (kappa K l * (1 + B)) := by
  have sm := hsm.small hτ
  have t1 := (sm.le hτ).2.1
  have k1 := kappa_one hK l
  have P0 : 0 ≤ kappa K l * (1 + B) := mul_nonneg (by linarith) (by linarith)
  have E0 := mulE_nonneg hτ l P0
  have w := weight_le hτ (by linarith) h' hp E0 hf
  have v := prodV_norm (by linarith) h hK l a b ha hb ha0 hb0 hr
  have v2 := mul_le_mul_of_nonneg_left (namp_normLe hB l b hb0 hn) (by linarith : 0 ≤ kappa K l)
  have e := mulE_norm hτ hsm P0
  have v0 := vnorm_nonneg (s.prodV J l a b)
  have g := sm.g hτ (m := l) (by omega)
  have q0 : (0 : R) ≤ (3 / 2) ^ l := by positivity
  have : (1 + 12 * τ) ^ l * (vnorm (s.prodV J l a b) + (3 / 2) ^ l * mulE τ l (kappa K l * (1 + B))) ≤
      51 / 50 * (kappa K l * (1 + B) + 41 / 1000 * (kappa K l * (1 + B))) :=
    mul_le_mul g (by linarith) (by positivity) (by norm_num)
  linarith

/-- A row. -/
structure RowRes (J : JCfg R) (τ : R) (s t : JState R) (l : Nat) (x y : Fin 2 → PtrEdge) (r : JState R × SEdge R) : Prop where
  inv : TInv J τ r.1
  grow : Grow J t r.1
  ok : r.1.SOk l r.2
  fine : SmallM τ (l + 1) → ∀ K B, (∀ j, 1 ≤ K j) → 0 ≤ B → (∀ k, s.RowCol J K l (x k).p) → (∀ k, s.NormLe J B l (y k).p) →
    mag (s.ct.cval J.C (x 0).w) + mag (s.ct.cval J.C (x 1).w) ≤ K l → (∀ k, mag (s.ct.cval J.C (y k).w) ≤ kidBound τ) → ∀ d,
    mag (sval r.2.w * r.1.namp J l r.2.p d - ∑ k, s.ct.cval J.C (x k).w * s.ct.cval J.C (y k).w * s.prodV J l (x k).p (y k).p d) ≤
      K l * kidBound τ * mulE τ l (kappa K l * (1 + B)) + (20 + 42 * l) * τ * (K l * (kappa K l * (1 + B)))

theorem row_acc (hJ : J.Good) (hτ : 0 ≤ τ) (h : TInv J τ s) {l : Nat} {x y : Fin 2 → PtrEdge} (hx : ∀ k, s.KnM J τ l (x k))
    (hy : ∀ k, s.ValidV J l (y k)) {a0 a1 : JState R × SEdge R} (m0 : MulRes J τ s l (x 0) (y 0) a0) (m1 : MulRes J τ s l (x 1) (y 1) a1)
    (g : Grow J a0.1 a1.1) : RowRes J τ s a1.1 l x y (mulSum J l a1.1 a0.2 a1.2) := by
  -- errors of the two products
  have err : SmallM τ (l + 1) → ∀ K B, (∀ j, 1 ≤ K j) → 0 ≤ B → (∀ k, s.RowCol J K l (x k).p) → (∀ k, s.NormLe J B l (y k).p) →
      mag (s.ct.cval J.C (x 0).w) + mag (s.ct.cval J.C (x 1).w) ≤ K l → (∀ k, mag (s.ct.cval J.C (y k).w) ≤ kidBound τ) →
      ∀ c0 c1 P E, c0 = mag (s.ct.cval J.C (x 0).w) * mag (s.ct.cval J.C (y 0).w) →
      c1 = mag (s.ct.cval J.C (x 1).w) * mag (s.ct.cval J.C (y 1).w) → P = kappa K l * (1 + B) → E = mulE τ l P → 
      1 ≤ P ∧ c0 + c1 ≤ K l * kidBound τ ∧
      (∀ d, mag (sval a0.2.w * a1.1.namp J l a0.2.p d - s.ct.cval J.C (x 0).w * s.ct.cval J.C (y 0).w * s.prodV J l (x 0).p (y 0).p d) ≤
        c0 * E + 66 / 10 * τ * P * (K l * kidBound τ)) ∧
      (∀ d, mag (sval a1.2.w * a1.1.namp J l a1.2.p d - s.ct.cval J.C (x 1).w * s.ct.cval J.C (y 1).w * s.prodV J l (x 1).p (y 1).p d) ≤
        c1 * E + 66 / 10 * τ * P * (K l * kidBound τ)) ∧
      vnorm (fun d => s.ct.cval J.C (x 0).w * s.ct.cval J.C (y 0).w * s.prodV J l (x 0).p (y 0).p d) ≤ c0 * P ∧
      vnorm (fun d => s.ct.cval J.C (x 1).w * s.ct.cval J.C (y 1).w * s.prodV J l (x 1).p (y 1).p d) ≤ c1 * P := by
    intro hsm K B hK hB hrc hnl hrow hyk c0 c1 P E h0 h1 hP hE
    have sm := hsm.pred hτ
    have t1 := ((sm.small hτ).le hτ).2.1
    have k1 := kappa_one hK l
    have P1 : 1 ≤ P := by rw [hP]; nlinarith
    have g1 := kidBound_one hτ
    have x0 := mag_nonneg (s.ct.cval J.C (x 0).w)
    have x1 := mag_nonneg (s.ct.cval J.C (x 1).w)
    have nrm : ∀ k, vnorm (fun d => s.ct.cval J.C (x k).w * s.ct.cval J.C (y k).w * s.prodV J l (x k).p (y k).p d) ≤
        mag (s.ct.cval J.C (x k).w) * mag (s.ct.cval J.C (y k).w) * P := by
      intro k
      rw [vnorm_smul, mag_mul]
      by_cases hx0 : (x k).p = none → l = 0
      · by_cases hy0 : (y k).p = none → l = 0
        · refine mul_le_mul_of_nonneg_left ?_ (mul_nonneg (mag_nonneg _) (mag_nonneg _))
          rw [hP]
          exact (prodV_norm (by linarith) h hK l _ _ (hx k).node (hy k).node hx0 hy0 (hrc k)).trans
            (mul_le_mul_of_nonneg_left (namp_normLe hB l _ hy0 (hnl k)) (by linarith))
        · push Not at hy0
          have : s.ct.cval J.C (y k).w = 0 := by
            rcases (hy k).none hy0.1 with h0 | h0
            · exact absurd h0 hy0.2
            · rw [h0, cval_zero]
          rw [this, mag_zero, mul_zero, zero_mul, zero_mul]
      · push Not at hx0
        have : s.ct.cval J.C (x k).w = 0 := by
          rcases (hx k).2.2 hx0.1 (by linarith) with h0 | h0
          · exact absurd h0 hx0.2
          · rw [h0, cval_zero]
        rw [this, mag_zero, zero_mul, zero_mul, zero_mul]
    refine ⟨P1, ?_, fun d => ?_, fun d => ?_, ?_, ?_⟩
    · rw [h0, h1]
      have b0 := mul_le_mul_of_nonneg_left (hyk 0) x0
      have b1 := mul_le_mul_of_nonneg_left (hyk 1) x1
      have b2 := mul_le_mul_of_nonneg_right hrow (by linarith : 0 ≤ kidBound τ)
      linarith
    · rw [g.namp m0.inv m1.inv _ m0.ok.1]
      have := m0.fine sm K B hK hB (hrc 0) (hnl 0) (K l) (kidBound τ) (hK l) g1 (by linarith) (hyk 0) d
      rw [← hP, ← hE, ← h0] at this
      exact this
    · have := m1.fine sm K B hK hB (hrc 1) (hnl 1) (K l) (kidBound τ) (hK l) g1 (by linarith) (hyk 1) d
      rw [← hP, ← hE, ← h1] at this
      exact this
    · rw [h0]; exact nrm 0
    · rw [h1]; exact nrm 1
  have addR0 : ∀ {N : R}, 0 ≤ N → 0 ≤ addR τ l N := by
    intro N hN
    unfold addR
    have := addA_nonneg hτ l (N := N + 41 / 10 * (τ * (3 / 2) ^ l)) (by positivity)
    have := mul_nonneg hτ hN
    linarith
  -- no sum is computed
  have simple : ∀ (e : SEdge R), (∀ d, sval e.w * a1.1.namp J l e.p d = sval a0.2.w * a1.1.namp J l a0.2.p d +
      sval a1.2.w * a1.1.namp J l a1.2.p d) → a1.1.SOk l e → RowRes J τ s a1.1 l x y (a1.1, e) := by
    intro e he hok
    refine ⟨m1.inv, .refl _, hok, fun hsm K B hK hB hrc hnl hrow hyk d => ?_⟩
    obtain ⟨P1, hc, e0, e1, -, -⟩ := err hsm K B hK hB hrc hnl hrow hyk _ _ _ _ rfl rfl rfl rfl
    have b := (mag_add (sval a0.2.w * a1.1.namp J l a0.2.p d - s.ct.cval J.C (x 0).w * s.ct.cval J.C (y 0).w * s.prodV J l (x 0).p (y 0).p d)
      (sval a1.2.w * a1.1.namp J l a1.2.p d - s.ct.cval J.C (x 1).w * s.ct.cval J.C (y 1).w * s.prodV J l (x 1).p (y 1).p d)).trans
      (add_le_add (e0 d) (e1 d))
    dsimp only
    rw [he d, Fin.sum_univ_two, add_sub_add_comm]
    refine b.trans ?_
    have r := mul_row hτ hsm P1 (hK l) hc (le_refl _)
    refine le_trans ?_ r
    refine le_add_of_nonneg_right (addR0 ?_)
    have k0 := hK l
    have g1 := kidBound_one hτ
    have E0 := mulE_nonneg hτ l (by linarith : 0 ≤ kappa K l * (1 + B))
    have := mag_nonneg (s.ct.cval J.C (x 0).w)
    have := mag_nonneg (s.ct.cval J.C (x 1).w)
    have := mag_nonneg (s.ct.cval J.C (y 0).w)
    have := mag_nonneg (s.ct.cval J.C (y 1).w)
    positivity
  unfold JState.mulSum
  cases hw0 : a0.2.w with
  | none =>
    dsimp only
    exact simple a1.2 (fun d => by rw [hw0]; show _ = 0 * _ + _; ring) m1.ok
  | some z0 =>
    cases hw1 : a1.2.w with
    | none =>
      dsimp only
      exact simple a0.2 (fun d => by rw [hw1]; show _ = _ + 0 * _; ring) (g.sOk m0.ok)
    | some z1 =>
      dsimp only
      have o0 : a1.1.OOk J l ⟨a0.2.p, .slot z0⟩ := ⟨(g.sOk m0.ok).1, fun hp => by
        rcases m0.ok.2 hp with h0 | h0
        · exact Or.inl h0
        · rw [hw0] at h0; simp at h0, fun c hc => by simp at hc⟩
      have o1 : a1.1.OOk J l ⟨a1.2.p, .slot z1⟩ := ⟨m1.ok.1, fun hp => by
        rcases m1.ok.2 hp with h0 | h0
        · exact Or.inl h0
        · rw [hw1] at h0; simp at h0, fun c hc => by simp at hc⟩
      have ad := addF_acc hJ hτ l l a1.1 ⟨a0.2.p, .slot z0⟩ ⟨a1.2.p, .slot z1⟩ m1.inv o0 o1 (fun _ _ _ => le_refl _)
      refine ⟨ad.inv, ad.grow, ad.ok, fun hsm K B hK hB hrc hnl hrow hyk d => ?_⟩
      obtain ⟨P1, hc, e0, e1, n0, n1⟩ := err hsm K B hK hB hrc hnl hrow hyk _ _ _ _ rfl rfl rfl rfl
      rw [hw0] at e0
      rw [hw1] at e1
      have k0 := hK l
      have g1 := kidBound_one hτ
      have E0 := mulE_nonneg hτ l (by linarith : 0 ≤ kappa K l * (1 + B))
      have c00 : 0 ≤ mag (s.ct.cval J.C (x 0).w) * mag (s.ct.cval J.C (y 0).w) := mul_nonneg (mag_nonneg _) (mag_nonneg _)
      have c10 : 0 ≤ mag (s.ct.cval J.C (x 1).w) * mag (s.ct.cval J.C (y 1).w) := mul_nonneg (mag_nonneg _) (mag_nonneg _)
      have v0 := vnorm_near (f := a1.1.evec J l ⟨a0.2.p, z0⟩) (by positivity) e0
      have v1 := vnorm_near (f := a1.1.evec J l ⟨a1.2.p, z1⟩) (by positivity) e1
      have f := ad.fine ((hsm.pred hτ).small hτ) d
      have r := mul_row hτ hsm P1 (hK l) hc (N := vnorm (a1.1.evec J l ⟨a0.2.p, z0⟩) + vnorm (a1.1.evec J l ⟨a1.2.p, z1⟩)) (by linarith)
      have b := (mag_add (z0 * a1.1.namp J l a0.2.p d - s.ct.cval J.C (x 0).w * s.ct.cval J.C (y 0).w * s.prodV J l (x 0).p (y 0).p d)
        (z1 * a1.1.namp J l a1.2.p d - s.ct.cval J.C (x 1).w * s.ct.cval J.C (y 1).w * s.prodV J l (x 1).p (y 1).p d)).trans
        (add_le_add (e0 d) (e1 d))
      rw [← add_sub_add_comm] at b
      rw [Fin.sum_univ_two]
      refine (mag_tri _ _ _).trans ((add_le_add f b).trans ?_)
      rw [add_comm]
      exact r

/-- An entry of the cache of `multiply` at a known level. -/
theorem mulOk_at {x y r} {l b : Nat} (h : MulOk J τ s (mulKey x y, .val .v r)) (hb : y = some b) (hy : s.NodeOk (l + 1) y) :
    s.NodeM (l + 1) x ∧ s.NodeOk (l + 1) r.p ∧ (r.p = none → r.w = 0) ∧
    (SmallM τ (l + 1) → ∀ K B, (∀ j, 1 ≤ K j) → 0 ≤ B → s.RowCol J K (l + 1) x → s.NormLe J B (l + 1) y →
      ∀ d, mag (s.evec J (l + 1) r d - s.prodV J (l + 1) x y d) ≤ mulE τ (l + 1) (kappa K (l + 1) * (1 + B))) := by
  obtain ⟨k, a', b', r', he, hA, hB, hr, h0, hF⟩ := h
  simp only [mulKey, Prod.mk.injEq, List.cons.injEq, CArg.ptr.injEq, CArg.val.injEq, Edge.mk.injEq, true_and, and_true] at he
  obtain ⟨⟨rfl, rfl⟩, rfl⟩ := he
  subst hb
  obtain rfl : k = l + 1 := by
    have := hy.2; have := hB.2; omega
  exact ⟨hA, hr, fun hp => (h0 hp).resolve_left (by omega), hF⟩

/-- The result for the operands from the result for their nodes. -/
theorem mulEnd_res (hJ : J.Good) (hτ : 0 ≤ τ) (h : TInv J τ s) (h' : TInv J τ s') (g : Grow J s s') {l b : Nat} {x y : PtrEdge}
    (hx : s.KnM J τ (l + 1) x) (hy : s.ValidV J (l + 1) y) (hx0 : x.w ≠ CNum.zero) (hb : y.p = some b) {r : ValEdge R}
    (hr : MulOk J τ s' (mulKey x.p y.p, .val .v r)) :
    (r.p ≠ none → MulRes J τ s (l + 1) x y (s', mulEnd J s' r.p r.w x y)) ∧
    (s'.ct.zeroV r.w = true → ∀ p, s'.NodeOk (l + 1) p → MulRes J τ s (l + 1) x y (s', ⟨p, none⟩)) := by
  obtain ⟨mA, mR, m0, mF⟩ := mulOk_at hr hb (g.nodeOk hy.node)
  have ht := h'.tol hJ hτ
  have ht0 : 0 ≤ s'.ct.tol := by rw [ht]; exact hτ
  have ex := g.cval hx.1
  have ey := g.cval hy.live
  have main : SmallM τ (l + 1) → ∀ K B, (∀ j, 1 ≤ K j) → 0 ≤ B → s.RowCol J K (l + 1) x.p → s.NormLe J B (l + 1) y.p →
      1 ≤ kappa K (l + 1) * (1 + B) ∧ mag r.w ≤ 11 / 10 * (kappa K (l + 1) * (1 + B)) ∧
      ∀ d, mag (s'.evec J (l + 1) r d - s.prodV J (l + 1) x.p y.p d) ≤ mulE τ (l + 1) (kappa K (l + 1) * (1 + B)) := by
    intro hsm K B hK hB hrc hnl
    have t1 := ((hsm.small hτ).le hτ).2.1
    have f := mF hsm K B hK hB (g.rowCol h h' hx.node hrc) (g.normLe h h' hy.node hnl)
    rw [g.prodV h h' hx.node hy.node] at f
    have k1 := kappa_one hK (l + 1)
    refine ⟨by nlinarith, ?_, f⟩
    exact prod_weight hτ h hsm hK hB hx.node hy.node
      (fun hp => absurd ((hx.2.2 hp (by linarith)).resolve_left (by omega)) hx0)
      (fun hp => by rw [hb] at hp; simp at hp) hrc hnl mR h' f
  constructor
  · intro hp
    refine ⟨h', g, ?_, fun hsm K B hK hB hrc hnl X Y hX hY hxX hyY d => ?_⟩
    · unfold JState.mulEnd
      dsimp only
      split_ifs
      · exact ⟨trivial, fun _ => Or.inr rfl⟩
      · exact ⟨mR, fun h0 => absurd h0 hp⟩
    · obtain ⟨P1, hz, hf⟩ := main hsm K B hK hB hrc hnl
      have := mulEnd_acc hJ hτ h' hsm mR (x := x) (y := y) P1 hz hf hX hY (by rw [ex]; exact hxX) (by rw [ey]; exact hyY) d
      rw [ex, ey] at this
      exact this
  · intro hz p hp
    refine ⟨h', g, ⟨hp, fun _ => Or.inr rfl⟩, fun hsm K B hK hB hrc hnl X Y hX hY hxX hyY d => ?_⟩
    obtain ⟨P1, _, hf⟩ := main hsm K B hK hB hrc hnl
    have zm := zeroV_mag ht0 hz
    rw [ht] at zm
    have nb := (namp_bound hτ h' (l + 1) _ d mR).trans ((hsm.small hτ).kid hτ (m := l + 1) (by omega))
    have b2 : mag (r.w * s'.namp J (l + 1) r.p d) ≤ 2 * τ * (51 / 50) := mag_mono_mul zm nb
    have f := hf d
    have e : sval (none : Option (Cx R)) * s'.namp J (l + 1) p d - s.ct.cval J.C x.w * s.ct.cval J.C y.w * s.prodV J (l + 1) x.p y.p d =
        s.ct.cval J.C x.w * s.ct.cval J.C y.w * (s'.evec J (l + 1) r d - s.prodV J (l + 1) x.p y.p d) +
        - (s.ct.cval J.C x.w * s.ct.cval J.C y.w * (r.w * s'.namp J (l + 1) r.p d)) := by
      unfold JState.evec
      show 0 * _ - _ = _
      ring
    dsimp only
    rw [e]
    refine (mag_add _ _).trans (add_le_add ?_ ?_)
    · rw [mag_mul, mag_mul]
      exact mul_le_mul_of_nonneg_left f (mul_nonneg (mag_nonneg _) (mag_nonneg _))
    · rw [mag_neg]
      have hXY := mag_mono_mul hxX hyY
      refine (mag_mono_mul hXY b2).trans ?_
      have XY : 0 ≤ X * Y := by nlinarith
      have : X * Y * (2 * τ * (51 / 50)) ≤ 66 / 10 * τ * (X * Y) := by
        have : 0 ≤ τ * (X * Y) := mul_nonneg hτ XY
        linarith
      refine this.trans ?_
      have : 66 / 10 * τ * (kappa K (l + 1) * (1 + B)) * (X * Y) = 66 / 10 * τ * (X * Y) * (kappa K (l + 1) * (1 + B)) := by ring
      rw [this]
      exact le_mul_of_one_le_right (by positivity) P1

/-- The rows are put together. -/
theorem mulNode_acc (hJ : J.Good) (hτ : 0 ≤ τ) (h : TInv J τ s) {l b : Nat} {x y : PtrEdge}
    (hx : s.KnM J τ (l + 1) x) (hy : s.ValidV J (l + 1) y) (hx0 : x.w ≠ CNum.zero) (hb : y.p = some b)
    {t0 t1 : JState R} {r0 r1 : JState R × SEdge R} (g0 : Grow J s t0) (g1 : Grow J r0.1 t1)
    (R0 : RowRes J τ s t0 l (fun k => mulKidM s x.p l (rc 0 k)) (fun k => mulKidV s y.p l k) r0)
    (R1 : RowRes J τ s t1 l (fun k => mulKidM s x.p l (rc 1 k)) (fun k => mulKidV s y.p l k) r1) :
    MakeOk J τ r1.1 l ![r0.2, r1.2] (makeV J r1.1 l ![r0.2, r1.2]) ∧
    MulOk J τ (makeV J r1.1 l ![r0.2, r1.2]).1
      (mulKey x.p y.p, .val .v ⟨(makeV J r1.1 l ![r0.2, r1.2]).2.p, sval (makeV J r1.1 l ![r0.2, r1.2]).2.w⟩) := by
  have gr : Grow J r0.1 r1.1 := g1.trans R1.grow
  have gs : Grow J s r1.1 := (g0.trans R0.grow).trans gr
  have hyn := hy.node
  rw [hb] at hyn
  have hl : l < (r1.1.tab .v).tab.nvars := by
    rw [gs.nvars .v]; exact nodeOk_nvars hJ hτ h hyn
  have so : ∀ i : Fin 2, r1.1.SOk l ((![r0.2, r1.2] : Fin 2 → SEdge R) i) := by
    intro i
    fin_cases i
    · exact gr.sOk R0.ok
    · exact R1.ok
  have mk := makeV_spec hJ hτ R1.inv hl so
  refine ⟨mk, ?_⟩
  set n := makeV J r1.1 l ![r0.2, r1.2] with hn
  have gn := gs.trans mk.grow
  refine ⟨l + 1, x.p, y.p, _, rfl, gn.nodeM hx.node, gn.nodeOk hy.node, mk.ok.1, fun hp => ?_, fun hsm K B hK hB hrc hnl d => ?_⟩
  · rcases mk.ok.2 hp with h0 | h0
    · exact Or.inl h0
    · right
      dsimp only
      rw [h0]; rfl
  · have sm := hsm.small hτ
    have t1 := (sm.le hτ).2.1
    have hrc' := rowCol_agree h.kidsM mk.inv.kidsM gn.rel (l + 1) x.p hx.node (gn.nodeM hx.node) hrc
    have hnl' := normLe_agree h.valid mk.inv.valid gn.rel (l + 1) y.p hy.node (gn.nodeOk hy.node) hnl
    rw [gn.prodV h mk.inv hx.node hy.node]
    obtain ⟨a, ha⟩ : ∃ a, x.p = some a := by
      cases hxa : x.p with
      | some a => exact ⟨a, rfl⟩
      | none => exact absurd ((hx.2.2 hxa (by linarith)).resolve_left (by omega)) hx0
    have hxn := hx.node
    rw [ha] at hxn hrc'
    rw [hb] at hnl'
    have kx : ∀ i, mulKidM s x.p l i = ((s.tab .m).tab.mem a).e i := by
      intro i
      unfold JState.mulKidM
      rw [ha]
      dsimp only
      rw [if_pos (by have := hxn.2; omega)]
    have ky : ∀ i, mulKidV s y.p l i = ((s.tab .v).tab.mem b).e i := by
      intro i
      unfold JState.mulKidV
      rw [hb]
      dsimp only
      rw [if_pos (by have := hyn.2; omega)]
    have yk : ∀ k : Fin 2, mag (s.ct.cval J.C (((s.tab .v).tab.mem b).e k).w) ≤ kidBound τ := fun k => (h.kids b hyn.1 k).2.trans (kidW_le hτ)
    have F0 := R0.fine hsm K B hK hB (fun k => by rw [kx]; exact hrc'.2 _) (fun k => by rw [ky]; exact hnl'.2 k)
      (by simp only [kx]; exact (hrc'.1 0).1) (fun k => by rw [ky]; exact yk k)
    have F1 := R1.fine hsm K B hK hB (fun k => by rw [kx]; exact hrc'.2 _) (fun k => by rw [ky]; exact hnl'.2 k)
      (by simp only [kx]; exact (hrc'.1 1).1) (fun k => by rw [ky]; exact yk k)
    simp only [kx, ky] at F0 F1
    have P1 : 1 ≤ kappa K l * (1 + B) := by
      have := kappa_one hK l
      nlinarith
    have e0 : 0 ≤ K l * kidBound τ * mulE τ l (kappa K l * (1 + B)) + (20 + 42 * l) * τ * (K l * (kappa K l * (1 + B))) := by
      have := hK l
      have := kidBound_one hτ
      have := mulE_nonneg hτ l (by linarith : 0 ≤ kappa K l * (1 + B))
      positivity
    have hF : ∀ (i : Fin 2) (d : Fin l → Fin 2), mag (sval ((![r0.2, r1.2] : Fin 2 → SEdge R) i).w *
        r1.1.namp J l ((![r0.2, r1.2] : Fin 2 → SEdge R) i).p d -
        (fun (i : Fin 2) (d : Fin l → Fin 2) => ∑ k : Fin 2, s.ct.cval J.C (((s.tab .m).tab.mem a).e (rc i k)).w *
          s.ct.cval J.C (((s.tab .v).tab.mem b).e k).w *
          s.prodV J l (((s.tab .m).tab.mem a).e (rc i k)).p (((s.tab .v).tab.mem b).e k).p d) i d) ≤
        K l * kidBound τ * mulE τ l (kappa K l * (1 + B)) + (20 + 42 * l) * τ * (K l * (kappa K l * (1 + B))) := by
      intro i d
      fin_cases i
      · have := F0 d
        rw [← gr.namp R0.inv R1.inv d R0.ok.1] at this
        exact this
      · exact F1 d
    obtain ⟨M, A⟩ := make_near hτ ((hsm.pred hτ).small hτ) R1.inv so mk e0 hF
    have pe : s.prodV J (l + 1) x.p y.p = (fun d : Fin (l + 1) → Fin 2 =>
        (fun (i : Fin 2) (d : Fin l → Fin 2) => ∑ k : Fin 2, s.ct.cval J.C (((s.tab .m).tab.mem a).e (rc i k)).w *
          s.ct.cval J.C (((s.tab .v).tab.mem b).e k).w *
          s.prodV J l (((s.tab .m).tab.mem a).e (rc i k)).p (((s.tab .v).tab.mem b).e k).p d) (d (Fin.last l)) (Fin.init d)) := by
      funext d
      rw [ha, hb]
      exact prodV_succ s l a b d
    rw [← pe] at M
    have kk : kappa K (l + 1) * (1 + B) = K l * (kappa K l * (1 + B)) := by rw [kappa_succ]; ring
    have nv : vnorm (s.prodV J (l + 1) x.p y.p) ≤ K l * (kappa K l * (1 + B)) := by
      rw [← kk]
      have hb0 : y.p = none → l + 1 = 0 := fun hp => by rw [hb] at hp; simp at hp
      refine (prodV_norm (by linarith) h hK (l + 1) _ _ hx.node hy.node (fun hp => by rw [ha] at hp; simp at hp) hb0
        (by rw [ha]; exact hrc')).trans (mul_le_mul_of_nonneg_left (namp_normLe hB (l + 1) _ hb0 (by rw [hb]; exact hnl')) ?_)
      have := kappa_one hK (l + 1)
      linarith
    have mm := mul_make hτ hsm P1 (hK l) (M.trans (mul_le_mul_of_nonneg_left (add_le_add_left nv _) (by norm_num)))
    rw [kk]
    refine le_trans ?_ mm
    have := A d
    rw [pe]
    exact this

/-- The result is stored, then the weights are multiplied to it. -/
theorem mulTail_acc (hJ : J.Good) (hτ : 0 ≤ τ) (h : TInv J τ s) {l b : Nat} {x y : PtrEdge}
    (hx : s.KnM J τ (l + 1) x) (hy : s.ValidV J (l + 1) y) (hx0 : x.w ≠ CNum.zero) (hb : y.p = some b)
    {n : JState R × SEdge R} (hn : TInv J τ n.1) (g : Grow J s n.1) (so : n.1.SOk (l + 1) n.2)
    (ok : MulOk J τ n.1 (mulKey x.p y.p, .val .v ⟨n.2.p, sval n.2.w⟩)) :
    MulRes J τ s (l + 1) x y (match n.2.w with
      | none => (n.1.mulIns J x.p y.p ⟨n.2.p, sval n.2.w⟩, n.2)
      | some z => (n.1.mulIns J x.p y.p ⟨n.2.p, sval n.2.w⟩,
          mulEnd J (n.1.mulIns J x.p y.p ⟨n.2.p, sval n.2.w⟩) n.2.p z x y)) := by
  obtain ⟨t, p, w⟩ := n
  dsimp only at *
  obtain ⟨i1, i2⟩ := mulIns_grow hJ hτ hn ok
  obtain ⟨e1, e2⟩ := mulEnd_res hJ hτ h i1 (g.trans i2) hx hy hx0 hb (mulIns_ok i1)
  cases w with
  | none => exact e2 (zeroV_zero (by rw [i1.tol hJ hτ]; exact hτ)) p (i2.nodeOk so.1)
  | some z => exact e1 (fun hp => by
      rcases so.2 hp with h0 | h0
      · omega
      · simp at h0)

theorem multiplyF_acc (hJ : J.Good) (hτ : 0 ≤ τ) : ∀ (l : Nat) (s : JState R) (x y : PtrEdge), TInv J τ s → s.KnM J τ l x →
    s.ValidV J l y → MulRes J τ s l x y (multiplyF J l s x y) := by
  have zero : ∀ l (s : JState R) (x y : PtrEdge), TInv J τ s → (x.w = CNum.zero ∨ y.w = CNum.zero) →
      MulRes J τ s l x y (s, ⟨none, none⟩) := by
    intro l s x y h hz
    refine ⟨h, .refl s, ⟨trivial, fun _ => Or.inr rfl⟩, fun _ K B hK hB _ _ X Y hX hY _ _ d => ?_⟩
    have e : sval (none : Option (Cx R)) * s.namp J l none d - s.ct.cval J.C x.w * s.ct.cval J.C y.w * s.prodV J l x.p y.p d = 0 := by
      show 0 * _ - _ = _
      rcases hz with h0 | h0 <;> rw [h0, cval_zero] <;> ring
    dsimp only
    rw [e, mag_zero]
    have k0 := kappa_one hK l
    have P0 : 0 ≤ kappa K l * (1 + B) := mul_nonneg (by linarith) (by linarith)
    have := mulE_nonneg hτ l P0
    have := mag_nonneg (s.ct.cval J.C x.w)
    have := mag_nonneg (s.ct.cval J.C y.w)
    have : 0 ≤ X * Y := by nlinarith
    positivity
  intro l
  induction l with
  | zero =>
    intro s x y h hx hy
    have ht := h.tol hJ hτ
    have ht0 : 0 ≤ s.ct.tol := by rw [ht]; exact hτ
    rw [multiplyF]
    split_ifs with hz
    · exact zero 0 s x y h hz
    · refine ⟨h, .refl s, ⟨trivial, fun _ => Or.inl rfl⟩, fun _ K B hK hB _ _ X Y hX hY hxX hyY d => ?_⟩
      have ms := (mulV_spec (h.ok hJ hτ) hxX hyY hX hY).2
      rw [ht] at ms
      have e : s.prodV J 0 x.p y.p d = 1 := by
        unfold JState.prodV
        rw [Fintype.sum_unique]
        cases x.p <;> cases y.p <;> simp [JState.nampM, JState.namp]
      have e' : s.namp J 0 none d = 1 := rfl
      rw [e, e', mul_one, mul_one]
      refine ms.trans ?_
      have E0 : 0 ≤ mulE τ 0 (kappa K 0 * (1 + B)) := mulE_nonneg hτ 0 (mul_nonneg (by linarith [kappa_one hK 0]) (by linarith))
      have XY : 0 ≤ τ * (X * Y) := mul_nonneg hτ (by nlinarith)
      have P1 : 1 ≤ kappa K 0 * (1 + B) := by have := kappa_one hK 0; nlinarith
      have h1 := le_mul_of_one_le_right XY P1
      have h2 : 0 ≤ mag (s.ct.cval J.C x.w) * mag (s.ct.cval J.C y.w) * mulE τ 0 (kappa K 0 * (1 + B)) :=
        mul_nonneg (mul_nonneg (mag_nonneg _) (mag_nonneg _)) E0
      have e3 : 66 / 10 * τ * (kappa K 0 * (1 + B)) * (X * Y) = 66 / 10 * (τ * (X * Y) * (kappa K 0 * (1 + B))) := by ring
      rw [e3]
      linarith
  | succ l ih =>
    intro s x y h hx hy
    rw [multiplyF]
    split_ifs with hz
    · exact zero _ s x y h hz
    · push Not at hz
      obtain ⟨b, hb⟩ : ∃ b, y.p = some b := by
        cases hyb : y.p with
        | some b => exact ⟨b, rfl⟩
        | none => exact absurd ((hy.none hyb).resolve_left (by omega)) hz.2
      cases hc : s.mulLook J x.p y.p with
      | some r =>
        dsimp only
        have ok := mulLook_hit h hc
        obtain ⟨e1, e2⟩ := mulEnd_res hJ hτ h h (.refl s) hx hy hz.1 hb ok
        split_ifs with hr
        · exact e2 hr none trivial
        · refine e1 (fun hp => hr ?_)
          rw [(mulOk_at ok hb hy.node).2.2.1 hp]
          exact zeroV_zero (by rw [h.tol hJ hτ]; exact hτ)
      | none =>
        dsimp only
        have hyn := hy.node
        rw [hb] at hyn
        have kx : ∀ i, s.KnM J τ l (mulKidM s x.p l i) := by
          intro i
          unfold JState.mulKidM
          cases hxa : x.p with
          | none =>
            exact ⟨⟨trivial, trivial⟩, fun b hb => by simp at hb, fun _ h1 =>
              absurd ((hx.2.2 hxa h1).resolve_left (by omega)) hz.1⟩
          | some a =>
            have hxn := hx.node
            rw [hxa] at hxn
            have hl : ((s.tab .m).tab.mem a).v = l := by have := hxn.2; omega
            dsimp only
            rw [if_pos hl]
            have := h.kidsM a hxn.1 i
            rw [hl] at this
            exact this
        have ky : ∀ i, s.ValidV J l (mulKidV s y.p l i) := by
          intro i
          unfold JState.mulKidV
          have hl : ((s.tab .v).tab.mem b).v = l := by have := hyn.2; omega
          rw [hb]
          dsimp only
          rw [if_pos hl]
          have := (h.kids b hyn.1 i).1
          rw [hl] at this
          exact this
        have a0 := ih s _ _ h (kx (rc 0 0)) (ky 0)
        have a1' := ih _ _ _ a0.inv (a0.grow.knM (kx (rc 0 1))) (a0.grow.validV (ky 1))
        have a1 := a1'.back a0.grow h a0.inv (kx (rc 0 1)) (ky 1)
        have R0 := row_acc hJ hτ h (x := fun k => mulKidM s x.p l (rc 0 k)) (y := fun k => mulKidV s y.p l k)
          (fun k => kx _) (fun k => ky k) a0 a1 a1'.grow
        have gr0 := a1.grow.trans R0.grow
        have b0' := ih _ _ _ R0.inv (gr0.knM (kx (rc 1 0))) (gr0.validV (ky 0))
        have b0 := b0'.back gr0 h R0.inv (kx (rc 1 0)) (ky 0)
        have b1' := ih _ _ _ b0.inv (b0.grow.knM (kx (rc 1 1))) (b0.grow.validV (ky 1))
        have b1 := b1'.back b0.grow h b0.inv (kx (rc 1 1)) (ky 1)
        have R1 := row_acc hJ hτ h (x := fun k => mulKidM s x.p l (rc 1 k)) (y := fun k => mulKidV s y.p l k)
          (fun k => kx _) (fun k => ky k) b0 b1 b1'.grow
        obtain ⟨mk, ok⟩ := mulNode_acc hJ hτ h hx hy hz.1 hb a1.grow (b0'.grow.trans b1'.grow) R0 R1
        exact mulTail_acc hJ hτ h hx hy hz.1 hb mk.inv ((b1.grow.trans R1.grow).trans mk.grow) mk.ok ok

end DD
