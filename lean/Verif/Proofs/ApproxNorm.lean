import Mathlib.Algebra.Order.Chebyshev
import Mathlib.Algebra.BigOperators.Fin
import Verif.Proofs.ApproxState

/-! # Norms of vectors, and how they bound weights -/

namespace DD

open Pkg UTable

variable {R : Type} [Field R] [LinearOrder R] [IsStrictOrderedRing R] [FloorRing R] {J : JCfg R} {τ : R}
variable {s s' s'' : JState R}

/-- A sum over all paths, split at the top level. -/
theorem sum_split {M : Type} [AddCommMonoid M] {k l : Nat} (F : Fin k → (Fin l → Fin k) → M) :
    ∑ d : Fin (l + 1) → Fin k, F (d (Fin.last l)) (Fin.init d) = ∑ i, ∑ d, F i d := by
  rw [← Fintype.sum_prod_type' (f := fun i d => F i d)]
  refine (Fintype.sum_equiv (Fin.snocEquiv (fun _ => Fin k)) _ _ (fun x => ?_)).symm
  obtain ⟨i, d⟩ := x
  simp [Fin.snocEquiv]

section small
omit [FloorRing R]

theorem bernoulli {x : R} (hx : 0 ≤ x) (m : Nat) : (1 + x) ^ m * (1 - m * x) ≤ 1 := by
  induction m with
  | zero => simp
  | succ m ih =>
    have h1 : 0 ≤ (1 + x) ^ m := by positivity
    have h2 : (1 + x) ^ (m + 1) * (1 - ((m + 1 : Nat) : R) * x) = (1 + x) ^ m * (1 - m * x) - (1 + x) ^ m * ((m + 1) * (x * x)) := by
      push_cast; ring
    rw [h2]
    have : 0 ≤ (1 + x) ^ m * ((m + 1) * (x * x)) := by positivity
    linarith

theorem pow32 (l : Nat) : (1 : R) ≤ (3 / 2) ^ l := one_le_pow₀ (by norm_num)

theorem Small.le (hτ : 0 ≤ τ) {l : Nat} (h : Small τ l) :
    τ * (3 / 2) ^ l ≤ 1 / 1000 ∧ τ ≤ 1 / 1000 ∧ τ * (3 / 2) ^ l * (l + 1) ≤ 1 / 1000 := by
  unfold Small at h
  have h1 := pow32 (R := R) l
  have h2 : 0 ≤ τ * (3 / 2) ^ l := by positivity
  have h3 : 0 ≤ τ * (3 / 2) ^ l * l := by positivity
  have h4 : τ ≤ τ * (3 / 2) ^ l := le_mul_of_one_le_right hτ h1
  have h5 : 1000 * (τ * (3 / 2) ^ l * (l + 1)) ≤ 1 := by
    calc _ = 1000 * ((l : R) + 1) * (3 / 2) ^ l * τ := by ring
      _ ≤ 1 := h
  refine ⟨by nlinarith, by nlinarith, by linarith⟩

theorem Small.pred (hτ : 0 ≤ τ) {l : Nat} (h : Small τ (l + 1)) : Small τ l := by
  unfold Small at *
  refine le_trans ?_ h
  have h1 := pow32 (R := R) l
  have h2 : 0 ≤ (3 / 2 : R) ^ l * τ := by positivity
  push_cast
  rw [pow_succ]
  have h3 : 0 ≤ (l : R) * ((3 / 2 : R) ^ l * τ) := by positivity
  nlinarith

theorem Small.pow (hτ : 0 ≤ τ) {l : Nat} (h : Small τ l) : (1 + 12 * τ) ^ (l + 1) ≤ 51 / 50 := by
  obtain ⟨h1, h2, h3⟩ := h.le hτ
  have hb := bernoulli (x := 12 * τ) (by linarith) (l + 1)
  have h4 := pow32 (R := R) l
  have h5 : τ * (l + 1) ≤ 1 / 1000 := by
    refine le_trans ?_ h3
    have : 0 ≤ τ * ((l : R) + 1) := by positivity
    nlinarith
  have h6 : ((l + 1 : Nat) : R) * (12 * τ) ≤ 12 / 1000 := by push_cast; nlinarith
  have h7 : 0 ≤ (1 + 12 * τ) ^ (l + 1) := by positivity
  nlinarith

theorem Small.pow' (hτ : 0 ≤ τ) {l : Nat} (h : Small τ l) : (1 + 12 * τ) ^ (l + 1) ≤ 507 / 500 := by
  obtain ⟨h1, h2, h3⟩ := h.le hτ
  have hb := bernoulli (x := 12 * τ) (by linarith) (l + 1)
  have h4 := pow32 (R := R) l
  have h5 : τ * (l + 1) ≤ 1 / 1000 := by
    refine le_trans ?_ h3
    have : 0 ≤ τ * ((l : R) + 1) := by positivity
    nlinarith
  have h6 : ((l + 1 : Nat) : R) * (12 * τ) ≤ 12 / 1000 := by push_cast; nlinarith
  have h7 : 0 ≤ (1 + 12 * τ) ^ (l + 1) := by positivity
  nlinarith

theorem kidW_le' (hτ : 0 ≤ τ) : kidW τ ≤ 1 + 12 * τ := by unfold kidW; linarith

theorem Small.kidW (hτ : 0 ≤ τ) {l m : Nat} (h : Small τ l) (hm : m ≤ l + 1) : kidW τ ^ m ≤ 507 / 500 := by
  have h0 : (1 : R) ≤ DD.kidW τ := by unfold DD.kidW; linarith
  calc DD.kidW τ ^ m ≤ DD.kidW τ ^ (l + 1) := pow_le_pow_right₀ h0 hm
    _ ≤ (1 + 12 * τ) ^ (l + 1) := pow_le_pow_left₀ (by linarith) (kidW_le' hτ) _
    _ ≤ 507 / 500 := h.pow' hτ

theorem Small.g' (hτ : 0 ≤ τ) {l m : Nat} (h : Small τ l) (hm : m ≤ l + 1) : (1 + 12 * τ) ^ m ≤ 507 / 500 :=
  (pow_le_pow_right₀ (by linarith) hm).trans (h.pow' hτ)

theorem kidBound_le (hτ : 0 ≤ τ) : kidBound τ ≤ 1 + 12 * τ := by unfold kidBound; linarith

theorem Small.kid (hτ : 0 ≤ τ) {l m : Nat} (h : Small τ l) (hm : m ≤ l + 1) : kidBound τ ^ m ≤ 51 / 50 := by
  have h0 : (1 : R) ≤ kidBound τ := by unfold kidBound; linarith
  calc kidBound τ ^ m ≤ kidBound τ ^ (l + 1) := pow_le_pow_right₀ h0 hm
    _ ≤ (1 + 12 * τ) ^ (l + 1) := pow_le_pow_left₀ (by linarith) (kidBound_le hτ) _
    _ ≤ 51 / 50 := h.pow hτ

theorem Small.g (hτ : 0 ≤ τ) {l m : Nat} (h : Small τ l) (hm : m ≤ l + 1) : (1 + 12 * τ) ^ m ≤ 51 / 50 :=
  (pow_le_pow_right₀ (by linarith) hm).trans (h.pow hτ)

theorem addA_mono (hτ : 0 ≤ τ) (l : Nat) {N N' : R} (h : N ≤ N') : addA τ l N ≤ addA τ l N' := by
  unfold addA
  apply mul_le_mul_of_nonneg_left (by linarith)
  positivity

theorem addA_nonneg (hτ : 0 ≤ τ) (l : Nat) {N : R} (h : 0 ≤ N) : 0 ≤ addA τ l N := by
  unfold addA; positivity

end small

variable [HasSqrt R] [LawfulSqrt R]

section norm
omit [FloorRing R]
variable {l : Nat} {f g : (Fin l → Fin 2) → Cx R}

theorem vnorm_nonneg (f : (Fin l → Fin 2) → Cx R) : 0 ≤ vnorm f := LawfulSqrt.nonneg _

theorem vnorm_sq (f : (Fin l → Fin 2) → Cx R) : vnorm f * vnorm f = ∑ d, (f d).mag2 :=
  LawfulSqrt.mul_self _ (Finset.sum_nonneg (fun _ _ => Cx.mag2_nonneg _))

theorem le_of_sq {a b : R} (hb : 0 ≤ b) (h : a * a ≤ b * b) : a ≤ b := by
  by_contra hn
  push Not at hn
  nlinarith

theorem vnorm_le {c : R} (hc : 0 ≤ c) (h : ∑ d, (f d).mag2 ≤ c * c) : vnorm f ≤ c := by
  rw [← vnorm_sq] at h
  exact le_of_sq hc h

theorem vnorm_add (f g : (Fin l → Fin 2) → Cx R) : vnorm (fun d => f d + g d) ≤ vnorm f + vnorm g := by
  have hf := vnorm_nonneg f
  have hg := vnorm_nonneg g
  refine vnorm_le (by linarith) ?_
  have h1 := vnorm_sq f
  have h2 := vnorm_sq g
  have cs := Finset.sum_mul_sq_le_sq_mul_sq Finset.univ (fun d => mag (f d)) (fun d => mag (g d))
  have e1 : ∑ d, mag (f d) ^ 2 = vnorm f * vnorm f := by
    rw [h1]; exact Finset.sum_congr rfl (fun d _ => by rw [sq, mag_sq])
  have e2 : ∑ d, mag (g d) ^ 2 = vnorm g * vnorm g := by
    rw [h2]; exact Finset.sum_congr rfl (fun d _ => by rw [sq, mag_sq])
  rw [e1, e2] at cs
  have hs : ∑ d, mag (f d) * mag (g d) ≤ vnorm f * vnorm g := by
    refine le_of_sq (mul_nonneg hf hg) ?_
    rw [← sq]
    refine cs.trans (le_of_eq (by ring))
  have h3 : ∑ d, (f d + g d).mag2 ≤ ∑ d, ((f d).mag2 + (g d).mag2 + 2 * (mag (f d) * mag (g d))) := by
    refine Finset.sum_le_sum (fun d _ => ?_)
    rw [← mag_sq, ← mag_sq, ← mag_sq]
    have h4 := mag_add (f d) (g d)
    have h5 := mag_nonneg (f d + g d)
    nlinarith
  refine h3.trans ?_
  rw [Finset.sum_add_distrib, Finset.sum_add_distrib, ← h1, ← h2, ← Finset.mul_sum]
  nlinarith

theorem vnorm_smul (c : Cx R) (f : (Fin l → Fin 2) → Cx R) : vnorm (fun d => c * f d) = mag c * vnorm f := by
  have h0 := vnorm_nonneg f
  have h1 := mag_nonneg c
  have e : ∑ d, (c * f d).mag2 = (mag c * vnorm f) * (mag c * vnorm f) := by
    have : (mag c * vnorm f) * (mag c * vnorm f) = c.mag2 * ∑ d, (f d).mag2 := by rw [← vnorm_sq, ← mag_sq]; ring
    rw [this, Finset.mul_sum]
    exact Finset.sum_congr rfl (fun d _ => by rw [Cx.mag2_mul])
  apply le_antisymm
  · exact vnorm_le (mul_nonneg h1 h0) e.le
  · refine le_of_sq (vnorm_nonneg _) ?_
    rw [vnorm_sq, e]

theorem vnorm_sup {e : R} (he : 0 ≤ e) (h : ∀ d, mag (f d) ≤ e) : vnorm f ≤ (3 / 2) ^ l * e := by
  refine vnorm_le (by positivity) ?_
  have h1 : ∑ d, (f d).mag2 ≤ ∑ _d : Fin l → Fin 2, e * e := by
    refine Finset.sum_le_sum (fun d _ => ?_)
    rw [← mag_sq]
    exact mul_le_mul (h d) (h d) (mag_nonneg _) he
  refine h1.trans ?_
  rw [Finset.sum_const, Finset.card_univ, Fintype.card_fun, Fintype.card_fin, Fintype.card_fin, nsmul_eq_mul]
  push_cast
  have h2 : (2 : R) ^ l ≤ (9 / 4) ^ l := pow_le_pow_left₀ (by norm_num) (by norm_num) l
  have h3 : (3 / 2 : R) ^ l * e * ((3 / 2) ^ l * e) = (9 / 4) ^ l * (e * e) := by
    rw [show (9 / 4 : R) = 3 / 2 * (3 / 2) by norm_num, mul_pow]; ring
  rw [h3]
  exact mul_le_mul_of_nonneg_right h2 (mul_nonneg he he)

theorem mag_le_vnorm (f : (Fin l → Fin 2) → Cx R) (d : Fin l → Fin 2) : mag (f d) ≤ vnorm f := by
  refine le_of_sq (vnorm_nonneg f) ?_
  rw [vnorm_sq, mag_sq]
  exact Finset.single_le_sum (f := fun d => (f d).mag2) (fun _ _ => Cx.mag2_nonneg _) (Finset.mem_univ d)

theorem vnorm_near {e : R} (he : 0 ≤ e) (h : ∀ d, mag (f d - g d) ≤ e) : vnorm f ≤ vnorm g + (3 / 2) ^ l * e := by
  have h1 := vnorm_add g (fun d => f d - g d)
  have h2 := vnorm_sup (f := fun d => f d - g d) he h
  have e0 : (fun d => g d + (f d - g d)) = f := by funext d; ring
  rw [e0] at h1
  linarith

theorem vnorm_split (F : Fin 2 → (Fin l → Fin 2) → Cx R) :
    vnorm (fun d : Fin (l + 1) → Fin 2 => F (d (Fin.last l)) (Fin.init d)) *
      vnorm (fun d : Fin (l + 1) → Fin 2 => F (d (Fin.last l)) (Fin.init d)) =
    vnorm (F 0) * vnorm (F 0) + vnorm (F 1) * vnorm (F 1) := by
  rw [vnorm_sq, vnorm_sq, vnorm_sq, sum_split (fun i d => (F i d).mag2), Fin.sum_univ_two]

theorem vnorm_part (F : Fin 2 → (Fin l → Fin 2) → Cx R) (i : Fin 2) :
    vnorm (F i) ≤ vnorm (fun d : Fin (l + 1) → Fin 2 => F (d (Fin.last l)) (Fin.init d)) := by
  refine le_of_sq (vnorm_nonneg _) ?_
  rw [vnorm_split]
  have h0 := mul_self_nonneg (vnorm (F 0))
  have h1 := mul_self_nonneg (vnorm (F 1))
  fin_cases i
  · show vnorm (F 0) * vnorm (F 0) ≤ _; linarith
  · show vnorm (F 1) * vnorm (F 1) ≤ _; linarith

/-- The triangle inequality for two numbers, in the form needed for weights. -/
theorem two_norm {a0 a1 A c z z0 z1 : R} (h0 : 0 ≤ a0) (h1 : 0 ≤ a1) (hA : 0 ≤ A) (hc : 0 ≤ c) (hz0 : 0 ≤ z0) (hz1 : 0 ≤ z1)
    (hs : a0 * a0 + a1 * a1 = A * A) (h2 : z0 ≤ a0 + c) (h3 : z1 ≤ a1 + c) (hz : z * z ≤ z0 * z0 + z1 * z1) :
    z ≤ A + 3 / 2 * c := by
  refine le_of_sq (by linarith) ?_
  have h4 : a0 + a1 ≤ 3 / 2 * A := by
    refine le_of_sq (by linarith) ?_
    nlinarith [mul_self_nonneg (a0 - a1)]
  have h5 : z0 * z0 ≤ (a0 + c) * (a0 + c) := mul_le_mul h2 h2 hz0 (by linarith)
  have h6 : z1 * z1 ≤ (a1 + c) * (a1 + c) := mul_le_mul h3 h3 hz1 (by linarith)
  nlinarith [mul_nonneg hc hc]

end norm

theorem vnorm_evec (s : JState R) (l : Nat) (e : ValEdge R) : vnorm (s.evec J l e) = mag e.w * vnorm (s.namp J l e.p) :=
  vnorm_smul e.w _

/-- The vector of a node is not much shorter than one. -/
theorem namp_low (hτ : 0 ≤ τ) (hτ1 : τ ≤ 1 / 12) (h : TInv J τ s) : ∀ (l : Nat) (p : Option Nat), s.NodeOk l p →
    1 ≤ (1 + 12 * τ) ^ l * vnorm (s.namp J l p) := by
  have key : ∀ (l : Nat) (p : Option Nat), s.NodeOk l p →
      1 ≤ ((1 + 12 * τ) ^ l * vnorm (s.namp J l p)) * ((1 + 12 * τ) ^ l * vnorm (s.namp J l p)) := by
    intro l
    induction l with
    | zero =>
      intro p _
      have : vnorm (s.namp J 0 p) * vnorm (s.namp J 0 p) = 1 := by
        rw [vnorm_sq]
        show ∑ d : Fin 0 → Fin 2, (1 : Cx R).mag2 = 1
        simp [Cx.mag2_one]
      rw [pow_zero, one_mul, this]
    | succ l ih =>
      intro p hp
      cases p with
      | none =>
        have : (1 : R) ≤ vnorm (s.namp J (l + 1) none) * vnorm (s.namp J (l + 1) none) := by
          rw [vnorm_sq]
          show 1 ≤ ∑ d : Fin (l + 1) → Fin 2, (1 : Cx R).mag2
          rw [Cx.mag2_one, Finset.sum_const, Finset.card_univ, Fintype.card_fun, Fintype.card_fin, Fintype.card_fin, nsmul_eq_mul, mul_one]
          push_cast
          exact one_le_pow₀ (by norm_num)
        have g1 : (1 : R) ≤ (1 + 12 * τ) ^ (l + 1) := one_le_pow₀ (by linarith)
        have g2 : (1 : R) ≤ (1 + 12 * τ) ^ (l + 1) * (1 + 12 * τ) ^ (l + 1) := by nlinarith
        calc (1 : R) = 1 * 1 := by ring
          _ ≤ ((1 + 12 * τ) ^ (l + 1) * (1 + 12 * τ) ^ (l + 1)) * (vnorm (s.namp J (l + 1) none) * vnorm (s.namp J (l + 1) none)) :=
            mul_le_mul g2 this (by norm_num) (by linarith)
          _ = _ := by ring
      | some a =>
        obtain ⟨kv, low⟩ := h.kidsV a hp.1
        have hl : ((s.tab .v).tab.mem a).v = l := by have := hp.2; omega
        rw [hl] at kv
        have sp := vnorm_split (fun (i : Fin 2) d => s.ct.cval J.C (((s.tab .v).tab.mem a).e i).w *
          s.namp J l (((s.tab .v).tab.mem a).e i).p d)
        have e : vnorm (s.namp J (l + 1) (some a)) * vnorm (s.namp J (l + 1) (some a)) = _ := sp
        rw [vnorm_smul, vnorm_smul] at e
        have i0 := ih _ (kv (0 : Fin 2)).1.node
        have i1 := ih _ (kv (1 : Fin 2)).1.node
        have m0 := mag_sq (s.ct.cval J.C (((s.tab .v).tab.mem a).e (0 : Fin 2)).w)
        have m1 := mag_sq (s.ct.cval J.C (((s.tab .v).tab.mem a).e (1 : Fin 2)).w)
        set w0 := s.ct.cval J.C (((s.tab .v).tab.mem a).e (0 : Fin 2)).w
        set w1 := s.ct.cval J.C (((s.tab .v).tab.mem a).e (1 : Fin 2)).w
        have sq := LawfulSqrt.mul_self (w0.mag2 + w1.mag2) (add_nonneg (Cx.mag2_nonneg _) (Cx.mag2_nonneg _))
        set m := HasSqrt.sqrt (w0.mag2 + w1.mag2)
        have hm : 1 - 6 * τ ≤ m := by linarith
        have hgm : 1 ≤ (1 + 12 * τ) * m := by
          have : (1 + 12 * τ) * (1 - 6 * τ) ≤ (1 + 12 * τ) * m := mul_le_mul_of_nonneg_left hm (by linarith)
          nlinarith
        have hgm2 : 1 ≤ ((1 + 12 * τ) * m) * ((1 + 12 * τ) * m) := by nlinarith
        have hS : 1 ≤ (1 + 12 * τ) * (1 + 12 * τ) * (mag w0 * mag w0 + mag w1 * mag w1) := by
          rw [m0, m1, ← sq]
          refine hgm2.trans (le_of_eq (by ring))
        generalize vnorm (s.namp J l (((s.tab .v).tab.mem a).e (0 : Fin 2)).p) = v0 at *
        generalize vnorm (s.namp J l (((s.tab .v).tab.mem a).e (1 : Fin 2)).p) = v1 at *
        have t0 := mul_le_mul_of_nonneg_left i0 (mul_self_nonneg (mag w0))
        have t1 := mul_le_mul_of_nonneg_left i1 (mul_self_nonneg (mag w1))
        have t2 := mul_le_mul_of_nonneg_left (add_le_add t0 t1) (mul_self_nonneg (1 + 12 * τ))
        calc (1 : R) ≤ (1 + 12 * τ) * (1 + 12 * τ) * (mag w0 * mag w0 * 1 + mag w1 * mag w1 * 1) := by rw [mul_one, mul_one]; exact hS
          _ ≤ _ := t2
          _ = ((1 + 12 * τ) ^ (l + 1) * (1 + 12 * τ) ^ (l + 1)) * (mag w0 * v0 * (mag w0 * v0) + mag w1 * v1 * (mag w1 * v1)) := by
            rw [pow_succ]; ring
          _ = _ := by rw [← e]; ring
  intro l p hp
  refine le_of_sq (mul_nonneg (by positivity) (vnorm_nonneg _)) ?_
  rw [one_mul]
  exact key l p hp

theorem namp_high (hτ : 0 ≤ τ) (h : TInv J τ s) (l : Nat) (p : Option Nat) (hp : s.NodeOk l p) :
    vnorm (s.namp J l p) ≤ (3 / 2) ^ l * kidBound τ ^ l :=
  vnorm_sup (by have := kidBound_pow hτ l; linarith) (fun d => namp_bound hτ h l p d hp)

/-- The weight of an edge that is close to a given vector. -/
theorem weight_le (hτ : 0 ≤ τ) (hτ1 : τ ≤ 1 / 12) (h : TInv J τ s) {l : Nat} {e : ValEdge R} (hp : s.NodeOk l e.p)
    {f : (Fin l → Fin 2) → Cx R} {ε : R} (hε : 0 ≤ ε) (hf : ∀ d, mag (s.evec J l e d - f d) ≤ ε) :
    mag e.w ≤ (1 + 12 * τ) ^ l * (vnorm f + (3 / 2) ^ l * ε) := by
  have h1 := namp_low hτ hτ1 h l e.p hp
  have h2 := vnorm_near hε hf
  rw [vnorm_evec] at h2
  have h3 := mag_nonneg e.w
  have h4 : (0 : R) ≤ (1 + 12 * τ) ^ l := by positivity
  calc mag e.w = mag e.w * 1 := by ring
    _ ≤ mag e.w * ((1 + 12 * τ) ^ l * vnorm (s.namp J l e.p)) := mul_le_mul_of_nonneg_left h1 h3
    _ = (1 + 12 * τ) ^ l * (mag e.w * vnorm (s.namp J l e.p)) := by ring
    _ ≤ _ := mul_le_mul_of_nonneg_left h2 h4

/-- The weight of an edge is bounded by its norm. -/
theorem weight_norm (hτ : 0 ≤ τ) (hτ1 : τ ≤ 1 / 12) (h : TInv J τ s) {l : Nat} {e : ValEdge R} (hp : s.NodeOk l e.p) :
    mag e.w ≤ (1 + 12 * τ) ^ l * vnorm (s.evec J l e) := by
  have := weight_le hτ hτ1 h hp (f := s.evec J l e) (ε := 0) (le_refl _) (fun d => by rw [sub_self, mag_zero])
  rwa [mul_zero, add_zero] at this

end DD
