import Verif.Proofs.ApproxMulAcc
import Verif.Proofs.History

/-! # Reading, the states of a package with a tolerance, and the bounds in closed form -/

namespace DD

open Pkg UTable JState

variable {R : Type} [Field R] [LinearOrder R] [IsStrictOrderedRing R] [FloorRing R] {J : JCfg R} {τ : R}
variable {s s' s'' : JState R} [HasSqrt R] [LawfulSqrt R]

/-! ## Reading -/

theorem readF_acc (hJ : J.Good) (hτ : 0 ≤ τ) (h : TInv J τ s) : ∀ (l : Nat) (e : PtrEdge) (amp : Cx R) (d : Fin l → Fin 2)
    (W A : R), s.ValidV J l e → 1 ≤ W → 1 ≤ A → mag (s.ct.cval J.C e.w) ≤ W → mag amp ≤ A →
    mag (readF J s l e amp d - amp * s.vecJ J l e d) ≤ 2 * τ * ((l : R) + 1) * (kidW τ * rho τ) ^ l * (W * A) := by
  have ht := h.tol hJ hτ
  have ht0 : 0 ≤ s.ct.tol := by rw [ht]; exact hτ
  have w1 := kidW_one hτ
  have r1 := rho_one hτ
  have g1 : 1 ≤ kidW τ * rho τ := by nlinarith
  have wg : kidW τ ≤ kidW τ * rho τ := le_mul_of_one_le_right (by linarith) r1
  intro l
  induction l with
  | zero =>
    intro e amp d W A hv hW hA hw ha
    have ms := (mulV_spec (h.ok hJ hτ) hw ha hW hA).2
    rw [ht] at ms
    rw [vecJ_eq]
    show mag (s.ct.mulV J.fl (s.ct.cval J.C e.w) amp - amp * (s.ct.cval J.C e.w * 1)) ≤ _
    rw [mul_one, mul_comm amp]
    refine ms.trans ?_
    have := mul_nonneg hτ (by nlinarith : 0 ≤ W * A)
    simp only [Nat.cast_zero, zero_add, mul_one, pow_zero]
    linarith
  | succ l ih =>
    intro e amp d W A hv hW hA hw ha
    have ms := mulV_spec (h.ok hJ hτ) hw ha hW hA
    rw [ht] at ms
    have hWA : 1 ≤ W * A := by nlinarith
    have hRWA : 1 ≤ rho τ * (W * A) := by nlinarith
    set g := kidW τ * rho τ with hg
    have wl : ∀ m, kidW τ ^ m ≤ g ^ m := fun m => pow_le_pow_left₀ (by linarith) wg m
    have gl : ∀ m, 1 ≤ g ^ m := fun m => one_le_pow₀ g1
    have bd := (namp_bound' hτ h (l + 1) e.p d hv.node).trans (wl _)
    have e1 : mag (s.ct.mulV J.fl (s.ct.cval J.C e.w) amp * s.namp J (l + 1) e.p d - amp * s.vecJ J (l + 1) e d) ≤
        2 * τ * (W * A) * g ^ (l + 1) := by
      rw [vecJ_eq, ← mul_assoc, mul_comm amp, ← sub_mul]
      refine (mag_mono_mul ms.2 bd).trans ?_
      have : 0 ≤ τ * (W * A) * g ^ (l + 1) := mul_nonneg (mul_nonneg hτ (by linarith)) (by linarith [gl (l + 1)])
      linarith
    have hexp : 2 * τ * (((l + 1 : Nat) : R) + 1) * g ^ (l + 1) * (W * A) =
        2 * τ * ((l : R) + 1) * g ^ l * (g * (W * A)) + 2 * τ * (W * A) * g ^ (l + 1) := by
      push_cast; rw [pow_succ]; ring
    rw [hexp]
    refine (mag_tri _ _ _).trans (add_le_add ?_ e1)
    have h0 : 0 ≤ 2 * τ * (g ^ l * (g * (W * A))) := by
      have : 0 ≤ g := by linarith
      have : 0 ≤ W * A := by linarith
      positivity
    have h1 : 2 * τ * (g ^ l * (g * (W * A))) ≤ 2 * τ * ((l : R) + 1) * g ^ l * (g * (W * A)) := by
      have : 2 * τ * ((l : R) + 1) * g ^ l * (g * (W * A)) = 2 * τ * (g ^ l * (g * (W * A))) * ((l : R) + 1) := by ring
      rw [this]
      exact le_mul_of_one_le_right h0 (by linarith [(Nat.cast_nonneg l : (0 : R) ≤ l)])
    obtain ⟨p, w⟩ := e
    cases p with
    | none =>
      show mag (s.ct.mulV J.fl (s.ct.cval J.C w) amp - s.ct.mulV J.fl (s.ct.cval J.C w) amp * (1 : Cx R)) ≤ _
      rw [mul_one, sub_self, mag_zero]
      exact h0.trans h1
    | some a =>
      have hn := hv.node
      obtain ⟨v1, v2⟩ := h.kids a hn.1 (d (Fin.last l))
      have hl : ((s.tab .v).tab.mem a).v = l := by have := hn.2; omega
      rw [hl] at v1
      rw [readF]
      dsimp only
      show mag (_ - s.ct.mulV J.fl (s.ct.cval J.C w) amp *
        (s.ct.cval J.C (((s.tab .v).tab.mem a).e (d (Fin.last l))).w * s.namp J l (((s.tab .v).tab.mem a).e (d (Fin.last l))).p (Fin.init d))) ≤ _
      split_ifs with hz
      · have hz' := zeroV_mag ht0 hz
        rw [ht] at hz'
        rw [zero_sub, mag_neg]
        refine (mag_mono_mul ms.1 (mag_mono_mul hz' ((namp_bound' hτ h l _ (Fin.init d) v1.node).trans (wl l)))).trans (le_trans ?_ h1)
        have : rho τ * (W * A) * (2 * τ * g ^ l) = 2 * τ * (g ^ l * (rho τ * (W * A))) := by ring
        rw [this]
        apply mul_le_mul_of_nonneg_left _ (by linarith)
        apply mul_le_mul_of_nonneg_left _ (by linarith [gl l])
        apply mul_le_mul_of_nonneg_right _ (by linarith)
        exact le_mul_of_one_le_left (by linarith) w1
      · have := ih (((s.tab .v).tab.mem a).e (d (Fin.last l))) (s.ct.mulV J.fl (s.ct.cval J.C w) amp) (Fin.init d) (kidW τ) (rho τ * (W * A))
          v1 w1 hRWA v2 ms.1
        rw [vecJ_eq] at this
        refine this.trans (le_of_eq ?_)
        rw [hg]
        ring

/-! ## Building states -/

theorem makeState_acc (hJ : J.Good) (hτ : 0 ≤ τ) (h : TInv J τ s) {xs : List (Cx R)} (hx : xs.length ≤ 2 ^ (s.tab .v).tab.nvars)
    {e : PtrEdge} (he : s.makeStateFromVector J xs = some (s', e)) :
    TInv J τ s' ∧ Grow J s s' ∧ ∀ n, xs.length = 2 ^ n → s'.ValidV J n e ∧ mag (s'.ct.cval J.C e.w) ≤ rho τ ^ n * norm2 xs + 3 / 2 * τ ∧
      ∀ d : Fin n → Fin 2, mag (s'.vecJ J n e d - xs.getD (bitIdx d) 0) ≤
        2 * τ * ((n : R) * (1 + 3 * norm2 xs) + 1) * (1 + 4 * τ) ^ n := by
  have nn : 0 ≤ (xs.map Cx.mag2).sum := by
    apply List.sum_nonneg
    intro y hy
    obtain ⟨z, _, rfl⟩ := List.mem_map.1 hy
    exact Cx.mag2_nonneg z
  have hN : 0 ≤ norm2 xs := LawfulSqrt.nonneg _
  have hN2 : norm2 xs * norm2 xs = (xs.map Cx.mag2).sum := LawfulSqrt.mul_self _ nn
  unfold JState.makeStateFromVector at he
  split_ifs at he with h1 h2 h3
  · simp only [Option.some.injEq, Prod.mk.injEq] at he
    obtain ⟨rfl, rfl⟩ := he
    refine ⟨h, .refl s, fun n hn => ?_⟩
    rw [h1] at hn
    have := Nat.two_pow_pos n
    simp at hn
    omega
  · simp only [Option.some.injEq, Prod.mk.injEq] at he
    obtain ⟨e1, e2⟩ := he
    obtain ⟨a1, a2, a3, a4⟩ := lookupC_grow hJ hτ h (xs.getD 0 0)
    subst e1 e2
    refine ⟨a1, a2, fun n hn => ?_⟩
    have hn0 : n = 0 := by
      by_contra hc
      have : 2 ^ 1 ≤ 2 ^ n := Nat.pow_le_pow_right (by omega) (by omega)
      omega
    subst hn0
    obtain ⟨x, rfl⟩ := List.length_eq_one_iff.1 h3
    have hm : mag x ≤ norm2 [x] := mag_le hN (by rw [hN2]; simp)
    refine ⟨.intro a3 trivial (fun _ => Or.inl rfl), (mag_le_add _ x).trans (add_le_add (by rw [pow_zero, one_mul]; exact hm) a4), fun d => ?_⟩
    rw [vecJ_eq]
    have hb : bitIdx d = 0 := by simp [bitIdx]
    rw [hb]
    show mag (_ * (1 : Cx R) - _) ≤ _
    rw [mul_one]
    refine (a4.trans (by linarith : _ ≤ 2 * τ)).trans ?_
    simp
  · have hpow := two_pow_of_and (by intro h0; exact h1 (List.length_eq_zero_iff.1 h0)) (by simpa using h2)
    obtain ⟨m, hm⟩ : ∃ m, Nat.log2 xs.length = m + 1 := by
      refine ⟨Nat.log2 xs.length - 1, ?_⟩
      have : Nat.log2 xs.length ≠ 0 := by
        intro h0
        rw [h0] at hpow
        exact h3 hpow
      omega
    rw [hm] at hpow he
    simp only [Option.some.injEq, Nat.add_sub_cancel] at he
    have hmn : m < (s.tab .v).tab.nvars := by
      rw [hpow] at hx
      have := (Nat.pow_le_pow_iff_right (by omega : 1 < 2)).1 hx
      omega
    obtain ⟨b1, b2, b3, b4, b5⟩ := stateF_acc hJ hτ m s xs h hpow hmn
    obtain ⟨c1, c2, c3, c4, c5⟩ := finishV_acc hJ hτ b1 b3
    rw [he] at c1 c2 c3 c4 c5
    refine ⟨c1, b2.trans c2, fun n hn => ?_⟩
    obtain rfl : n = m + 1 := by
      rw [hpow] at hn
      exact (Nat.pow_right_injective (le_refl 2) hn).symm
    have r1 := rho_one hτ
    have rp : 1 ≤ rho τ ^ (m + 1) := one_le_pow₀ r1
    have hmag : mag (sval (stateF J m s xs).2.w) ≤ rho τ ^ (m + 1) * norm2 xs := by
      refine le_of_sq (mul_nonneg (by linarith) hN) ?_
      refine b4.trans (le_of_eq ?_)
      rw [← hN2]; ring
    refine ⟨c3, (mag_le_add _ _).trans (add_le_add hmag c4), fun d => ?_⟩
    refine (mag_tri _ _ _).trans ((add_le_add (c5 d) (b5 _ hN (by rw [hN2]) d)).trans ?_)
    have w1 := kidW_one hτ
    have wm := kidW_pow hτ m
    have g1 := kidBound_one hτ
    have gp := kidBound_pow hτ (m + 1)
    have f1 : kidW τ ^ m ≤ kidBound τ ^ (m + 1) :=
      (pow_le_pow_left₀ (by linarith) (kidW_le hτ) m).trans (pow_le_pow_right₀ g1 (by omega))
    have f2 : kidW τ ^ (m + 1) ≤ kidBound τ ^ (m + 1) := pow_le_pow_left₀ (by linarith) (kidW_le hτ) _
    have f3 : rho τ ^ (m + 1) * kidW τ ^ m ≤ kidBound τ ^ (m + 1) := by
      calc rho τ ^ (m + 1) * kidW τ ^ m ≤ rho τ ^ (m + 1) * kidW τ ^ (m + 1) :=
            mul_le_mul_of_nonneg_left (pow_le_pow_right₀ w1 (by omega)) (by linarith)
        _ = (kidW τ * rho τ) ^ (m + 1) := by rw [mul_pow, mul_comm]
        _ ≤ _ := pow_le_pow_left₀ (by nlinarith) (kidW_rho' hτ) _
    have f4 : (1 + 3 * (rho τ ^ (m + 1) * norm2 xs)) * kidW τ ^ m ≤ (1 + 3 * norm2 xs) * kidBound τ ^ (m + 1) := by
      have := mul_le_mul_of_nonneg_right f3 hN
      linarith
    have hm0 : (0 : R) ≤ m := Nat.cast_nonneg m
    have f5 := mul_le_mul_of_nonneg_left f4 (by positivity : 0 ≤ ((m : R) + 1) * τ)
    have f6 := mul_le_mul_of_nonneg_left f2 hτ
    have f7 : 0 ≤ ((m : R) + 1) * τ * ((1 + 3 * norm2 xs) * kidBound τ ^ (m + 1)) := by positivity
    have f8 : 0 ≤ τ * kidBound τ ^ (m + 1) := by positivity
    show _ ≤ 2 * τ * (((m + 1 : Nat) : R) * (1 + 3 * norm2 xs) + 1) * kidBound τ ^ (m + 1)
    push_cast
    linarith

omit [IsStrictOrderedRing R] [LawfulSqrt R] in
theorem makeState_isSome (s : JState R) (xs : List (Cx R)) :
    (∃ r, s.makeStateFromVector J xs = some r) ↔ xs = [] ∨ ∃ n, xs.length = 2 ^ n := by
  unfold JState.makeStateFromVector
  split_ifs with h1 h2 h3
  · simp [h1]
  · refine ⟨fun ⟨_, h⟩ => by simp at h, ?_⟩
    rintro (h | h)
    · exact absurd h h1
    · have h0 : xs.length ≠ 0 := fun h0 => h1 (List.length_eq_zero_iff.1 h0)
      exact absurd ((Nat.and_sub_one_eq_zero_iff_isPowerOfTwo h0).2 h) h2
  · exact ⟨fun _ => Or.inr ⟨0, h3⟩, fun _ => ⟨_, rfl⟩⟩
  · have h0 : xs.length ≠ 0 := fun h0 => h1 (List.length_eq_zero_iff.1 h0)
    exact ⟨fun _ => Or.inr ⟨_, two_pow_of_and h0 (by simpa using h2)⟩, fun _ => ⟨_, rfl⟩⟩

/-! ## Adding -/

theorem addP_eq : ∀ l, addP τ l = 2 * (3 / 2 * ((1 + 2 * τ) * kidBound τ)) ^ l
  | 0 => by simp [addP]
  | l + 1 => by
    show 3 / 2 * ((1 + 2 * τ) * addP τ l * kidBound τ) = _
    rw [addP_eq l, pow_succ]; ring

theorem addE_le (hτ : 0 ≤ τ) : ∀ l, addE τ l ≤ 60 * τ * (3 / 2 * ((1 + 2 * τ) * kidBound τ ^ 2)) ^ l
  | 0 => by simp only [addE, pow_zero, mul_one]; linarith
  | l + 1 => by
    have ih := addE_le hτ l
    have g := kidBound_one hτ
    set gg := kidBound τ with hgg
    set q := 1 + 2 * τ with hq
    have hq1 : 1 ≤ q := by rw [hq]; linarith
    set k := 3 / 2 * (q * gg ^ 2) with hk
    have k1 : 3 / 2 * gg ≤ k := by
      rw [hk]
      have : gg ≤ q * gg ^ 2 := by nlinarith
      linarith
    have k2 : 3 / 2 * (q * gg) ≤ k := by
      rw [hk]
      have : q * gg ≤ q * gg ^ 2 := by
        apply mul_le_mul_of_nonneg_left _ (by linarith)
        nlinarith
      linarith
    have kp : 0 ≤ k := by linarith
    have kl : 0 ≤ k ^ l := pow_nonneg kp l
    have gl : gg ^ l ≤ k ^ l := pow_le_pow_left₀ (by linarith) (by linarith) l
    have glp : 0 ≤ gg ^ l := by positivity
    have hP : addP τ (l + 1) * gg ^ l ≤ 2 * k ^ (l + 1) := by
      rw [addP_eq]
      have e : k ^ (l + 1) = (3 / 2 * (q * gg)) ^ (l + 1) * gg ^ (l + 1) := by
        rw [← mul_pow]; congr 1; rw [hk]; ring
      rw [e, mul_assoc]
      apply mul_le_mul_of_nonneg_left _ (by norm_num)
      apply mul_le_mul_of_nonneg_left _ (by positivity)
      exact pow_le_pow_right₀ g (by omega)
    have h1 : q * addE τ l * gg ≤ 40 * τ * k ^ (l + 1) := by
      have a1 : q * addE τ l * gg ≤ q * (60 * τ * k ^ l) * gg := by
        apply mul_le_mul_of_nonneg_right _ (by linarith)
        exact mul_le_mul_of_nonneg_left ih (by linarith)
      have a2 : q * gg ≤ 2 / 3 * k := by linarith
      have a3 := mul_le_mul_of_nonneg_left a2 (by positivity : 0 ≤ 60 * τ * k ^ l)
      rw [pow_succ]
      linarith
    have h2 : gg ^ (l + 1) ≤ 2 / 3 * k ^ (l + 1) := by
      rw [pow_succ, pow_succ]
      have := mul_le_mul gl (by linarith : gg ≤ 2 / 3 * k) (by linarith) kl
      linarith
    have h3 : gg ^ l ≤ gg ^ (l + 1) := pow_le_pow_right₀ g (by omega)
    show (q * addE τ l + 6 * τ * gg ^ l) * gg + 4 * τ * gg ^ (l + 1) +
      2 * τ * (1 + 3 * addP τ (l + 1)) * gg ^ l ≤ 60 * τ * k ^ (l + 1)
    have e : (q * addE τ l + 6 * τ * gg ^ l) * gg + 4 * τ * gg ^ (l + 1) + 2 * τ * (1 + 3 * addP τ (l + 1)) * gg ^ l =
      q * addE τ l * gg + 10 * (τ * gg ^ (l + 1)) + 2 * (τ * gg ^ l) + 6 * (τ * (addP τ (l + 1) * gg ^ l)) := by
      rw [pow_succ]; ring
    rw [e]
    have m2 := mul_le_mul_of_nonneg_left h2 hτ
    have m3 := mul_le_mul_of_nonneg_left h3 hτ
    have m4 := mul_le_mul_of_nonneg_left hP hτ
    linarith

/-- Bound for sums in terms of the norms of the operands. -/
theorem addR_le (hτ : 0 ≤ τ) {l : Nat} (h : Small τ l) {N : R} (hN : 0 ≤ N) :
    addR τ l N + 2 * τ * kidBound τ ^ l ≤ 21 * τ * ((l : R) + 1) * (1 + N) := by
  obtain ⟨s1, s2, s3⟩ := h.le hτ
  have kb := h.kid hτ (m := l) (by omega)
  unfold addR addA
  set u := τ * (3 / 2) ^ l with hu
  have u0 : 0 ≤ u := by rw [hu]; positivity
  have l0 : (0 : R) ≤ l := Nat.cast_nonneg l
  have ul0 : 0 ≤ u * l := by positivity
  have ul : u * l ≤ 1 / 1000 := by linarith
  have e1 : (1 + 36 * u) * (1 + (N + 41 / 10 * u)) ≤ (1 + N) * (1041 / 1000) := by
    have : (1 + 36 * u) ≤ 1036 / 1000 := by linarith
    have h2 : (1 + (N + 41 / 10 * u)) ≤ (1 + N) * (1 + 41 / 10000) := by
      have : 41 / 10 * u ≤ 41 / 10000 := by linarith
      nlinarith
    have := mul_le_mul this h2 (by positivity) (by norm_num)
    linarith
  have e2 : 20 * τ * l * ((1 + 36 * u) * (1 + (N + 41 / 10 * u))) ≤ 20 * τ * l * ((1 + N) * (1041 / 1000)) :=
    mul_le_mul_of_nonneg_left e1 (by positivity)
  have e3 : 2 * τ * kidBound τ ^ l ≤ 2 * τ * (51 / 50) := mul_le_mul_of_nonneg_left kb (by linarith)
  have e4 : 0 ≤ τ * N := mul_nonneg hτ hN
  have e5 : 0 ≤ τ * l * (1 + N) := by positivity
  have e6 : τ * N ≤ τ * (1 + N) := by linarith
  linarith

theorem finish_weak (hτ : 0 ≤ τ) {l : Nat} : 3 / 2 * τ * kidW τ ^ l ≤ 2 * τ * kidBound τ ^ l := by
  have h1 : kidW τ ^ l ≤ kidBound τ ^ l := pow_le_pow_left₀ (by linarith [kidW_one hτ]) (kidW_le hτ) l
  have h2 := mul_le_mul_of_nonneg_left h1 hτ
  have h3 := mul_nonneg hτ (by linarith [kidBound_pow hτ l] : 0 ≤ kidBound τ ^ l)
  linarith

theorem add_acc (hJ : J.Good) (hτ : 0 ≤ τ) (h : TInv J τ s) {l : Nat} {x y : PtrEdge} (hx : s.ValidV J l x) (hy : s.ValidV J l y) :
    TInv J τ (s.add J x y).1 ∧ Grow J s (s.add J x y).1 ∧ (s.add J x y).1.ValidV J l (s.add J x y).2 ∧
    (∀ U, 1 ≤ U → mag (s.ct.cval J.C x.w) ≤ U → mag (s.ct.cval J.C y.w) ≤ U → ∀ d : Fin l → Fin 2,
      mag ((s.add J x y).1.vecJ J l (s.add J x y).2 d - (s.vecJ J l x d + s.vecJ J l y d)) ≤
        68 * τ * (1 + 2 * τ) * (3 / 2 * ((1 + 2 * τ) * (1 + 4 * τ) ^ 2)) ^ l * U) ∧
    (Small τ l → ∀ d : Fin l → Fin 2,
      mag ((s.add J x y).1.vecJ J l (s.add J x y).2 d - (s.vecJ J l x d + s.vecJ J l y d)) ≤
        21 * τ * ((l : R) + 1) * (1 + (vnorm (s.vecJ J l x) + vnorm (s.vecJ J l y)))) := by
  have ok : ∀ {e : PtrEdge}, s.ValidV J l e → s.OOk J l ⟨e.p, .tab e.w⟩ := fun he =>
    ⟨he.node, fun hp => (he.none hp).imp id (fun h0 => by simp [OW.isZero, h0]), fun c hc => by
      simp only [OW.tab.injEq] at hc
      subst hc; exact he.live⟩
  have lv : ∀ {e : PtrEdge}, s.ValidV J l e → e.p ≠ none → s.lvlV e.p = l := by
    intro e he hp
    cases hq : e.p with
    | none => exact absurd hq hp
    | some a => exact nodeOk_lvl (hq ▸ he.node)
  have hf := addF_acc hJ hτ (max (s.lvlV x.p) (s.lvlV y.p)) l s ⟨x.p, .tab x.w⟩ ⟨y.p, .tab y.w⟩ h (ok hx) (ok hy) (by
    intro _ _ hp
    dsimp only at hp
    by_cases hx0 : x.p = none
    · have := lv hy (fun hy0 => hp (hx0.trans hy0.symm))
      omega
    · have := lv hx hx0
      omega)
  obtain ⟨c1, c2, c3, c4, c5⟩ := finishV_acc hJ hτ hf.inv hf.ok
  have c5 := fun d => (c5 d).trans (finish_weak (l := l) hτ)
  refine ⟨c1, hf.grow.trans c2, c3, fun U hU hxU hyU d => ?_, fun hsm d => ?_⟩
  rotate_left
  · have hfine := hf.fine hsm d
    have ev : ∀ e : PtrEdge, s.evec J l ⟨e.p, s.oval J (.tab e.w)⟩ = s.vecJ J l e := by
      intro e
      funext d
      rw [vecJ_eq]
      rfl
    rw [ev x, ev y] at hfine
    have n0 := vnorm_nonneg (s.vecJ J l x)
    have n1 := vnorm_nonneg (s.vecJ J l y)
    refine (mag_tri _ _ _).trans ((add_le_add (c5 d) (d := addR τ l (vnorm (s.vecJ J l x) + vnorm (s.vecJ J l y))) ?_).trans ?_)
    · rw [vecJ_eq, vecJ_eq]
      exact hfine
    · rw [add_comm]
      exact addR_le hτ hsm (by linarith)
  have hacc := (hf.acc U hU hxU hyU).2 d
  refine (mag_tri _ _ _).trans ((add_le_add (c5 d) (d := ((1 + 2 * τ) * addE τ l + 6 * τ * kidBound τ ^ l) * U) ?_).trans ?_)
  · rw [vecJ_eq, vecJ_eq]
    exact hacc
  · have hE := addE_le hτ l
    have g := kidBound_one hτ
    have gl := kidBound_pow hτ l
    show _ ≤ 68 * τ * (1 + 2 * τ) * (3 / 2 * ((1 + 2 * τ) * kidBound τ ^ 2)) ^ l * U
    set k := 3 / 2 * ((1 + 2 * τ) * kidBound τ ^ 2) with hk
    have k1 : kidBound τ ≤ k := by
      rw [hk]
      have : kidBound τ ≤ (1 + 2 * τ) * kidBound τ ^ 2 := by nlinarith
      linarith
    have hkl : kidBound τ ^ l ≤ k ^ l := pow_le_pow_left₀ (by linarith) k1 l
    have kl0 : 0 ≤ k ^ l := by linarith
    have a1 : (1 + 2 * τ) * addE τ l * U ≤ (1 + 2 * τ) * (60 * τ * k ^ l) * U := by
      apply mul_le_mul_of_nonneg_right _ (by linarith)
      exact mul_le_mul_of_nonneg_left hE (by linarith)
    have a2 : τ * kidBound τ ^ l ≤ τ * k ^ l * U := by
      have b1 := mul_le_mul_of_nonneg_left hkl hτ
      have b2 : τ * k ^ l ≤ τ * k ^ l * U := le_mul_of_one_le_right (mul_nonneg hτ kl0) hU
      linarith
    have a3 : τ * kidBound τ ^ l * U ≤ τ * k ^ l * U := by
      apply mul_le_mul_of_nonneg_right _ (by linarith)
      exact mul_le_mul_of_nonneg_left hkl hτ
    have a4 : 0 ≤ 2 * τ * (τ * k ^ l * U) := by positivity
    linarith

/-! ## Multiplying -/

theorem mulVec_eq (s : JState R) (l : Nat) (x y : PtrEdge) (d : Fin l → Fin 2) :
    (s.matJ J l x).mulVec (s.vecJ J l y) d = s.ct.cval J.C x.w * s.ct.cval J.C y.w * s.prodV J l x.p y.p d := by
  unfold JState.prodV Matrix.mulVec dotProduct
  rw [Finset.mul_sum]
  refine Finset.sum_congr rfl (fun c _ => ?_)
  show s.matJ J l x d c * _ = _
  rw [matJ_eq, vecJ_eq]
  ring

theorem multiply_acc (hJ : J.Good) (hτ : 0 ≤ τ) (h : TInv J τ s) {l : Nat} {x y : PtrEdge} (hx : s.ValidM J l x) (hy : s.ValidV J l y) :
    TInv J τ (s.multiply J x y).1 ∧ Grow J s (s.multiply J x y).1 ∧ (s.multiply J x y).1.ValidV J l (s.multiply J x y).2 ∧
    (SmallM τ l → ∀ K B, (∀ j, 1 ≤ K j) → 0 ≤ B → s.RowCol J K l x.p → s.NormLe J B l y.p → ∀ X Y, 1 ≤ X → 1 ≤ Y →
      mag (s.ct.cval J.C x.w) ≤ X → mag (s.ct.cval J.C y.w) ≤ Y → ∀ d,
      mag ((s.multiply J x y).1.vecJ J l (s.multiply J x y).2 d - (s.matJ J l x).mulVec (s.vecJ J l y) d) ≤
        41 * τ * ((l : R) + 1) ^ 2 * (kappa K l * (1 + B)) * (X * Y)) := by
  have hk := validM_kn (τ := τ) hx
  have hm : MulRes J τ s l x y (multiplyF J (max (s.lvlM x.p) (s.lvlV y.p)) s x y) := by
    by_cases hz : x.w = CNum.zero ∨ y.w = CNum.zero
    · have e : ∀ k, multiplyF J k s x y = (s, ⟨none, none⟩) := by
        intro k
        rw [multiplyF.eq_def]
        simp only [hz, if_true]
      rw [e, ← e l]
      exact multiplyF_acc hJ hτ l s x y h hk hy
    · push Not at hz
      have lx : s.lvlM x.p = l := by
        cases hp : x.p with
        | none =>
          have := hx.2.2
          rw [hp] at this
          exact (this.resolve_right hz.1).symm
        | some a =>
          have := hx.2.2
          rw [hp] at this
          exact this.2
      have ly : s.lvlV y.p = l := by
        cases hp : y.p with
        | none => exact ((hy.none hp).resolve_right hz.2).symm
        | some a => exact nodeOk_lvl (hp ▸ hy.node)
      rw [lx, ly, max_self]
      exact multiplyF_acc hJ hτ l s x y h hk hy
  obtain ⟨c1, c2, c3, c4, c5⟩ := finishV_acc hJ hτ hm.inv hm.ok
  have c5 := fun d => (c5 d).trans (finish_weak (l := l) hτ)
  refine ⟨c1, hm.grow.trans c2, c3, fun hsm K B hK hB hrc hnl X Y hX hY hxX hyY d => ?_⟩
  have f := hm.fine hsm K B hK hB hrc hnl X Y hX hY hxX hyY d
  rw [mulVec_eq]
  refine (mag_tri _ _ _).trans ((add_le_add (c5 d) f).trans ?_)
  have kb := (hsm.small hτ).kid hτ (m := l) (by omega)
  have k1 := kappa_one hK l
  have P1 : 1 ≤ kappa K l * (1 + B) := by nlinarith
  set P := kappa K l * (1 + B)
  have XY1 : 1 ≤ X * Y := by nlinarith
  have l0 : (0 : R) ≤ l := Nat.cast_nonneg l
  have g0 := kidBound_pow hτ l
  have e1 : mag (s.ct.cval J.C x.w) * mag (s.ct.cval J.C y.w) * mulE τ l P ≤ X * Y * (40 * τ * (l : R) ^ 2 * (51 / 50) * P) := by
    refine mul_le_mul ?_ ?_ (mulE_nonneg hτ l (by linarith)) (by linarith)
    · exact mul_le_mul hxX hyY (mag_nonneg _) (by linarith)
    · unfold mulE
      have := mul_le_mul_of_nonneg_left kb (by positivity : 0 ≤ 40 * τ * (l : R) ^ 2)
      exact mul_le_mul_of_nonneg_right this (by linarith)
  have e2 : 2 * τ * kidBound τ ^ l ≤ 204 / 100 * τ := by
    have := mul_le_mul_of_nonneg_left kb (by linarith : 0 ≤ 2 * τ)
    linarith
  have PXY : 1 ≤ P * (X * Y) := by nlinarith
  have e3 : τ ≤ τ * (P * (X * Y)) := le_mul_of_one_le_right hτ PXY
  have e4 : 0 ≤ τ * (P * (X * Y)) * l := by positivity
  have e5 : 0 ≤ τ * (P * (X * Y)) * (l : R) ^ 2 := by positivity
  linarith

/-- Every diagram has bounds on its weights. -/
theorem rowCol_exists (s : JState R) : ∀ (l : Nat) (p : Option Nat), ∃ K : Nat → R, (∀ j, 1 ≤ K j) ∧ s.RowCol J K l p := by
  have mono : ∀ (l : Nat) (p : Option Nat) (K K' : Nat → R), (∀ j, K j ≤ K' j) → s.RowCol J K l p → s.RowCol J K' l p := by
    intro l
    induction l with
    | zero => intros; trivial
    | succ l ih =>
      intro p K K' hK h
      cases p with
      | none => trivial
      | some a => exact ⟨fun i => ⟨(h.1 i).1.trans (hK l), (h.1 i).2.trans (hK l)⟩, fun i => ih _ K K' hK (h.2 i)⟩
  intro l
  induction l with
  | zero => exact fun p => ⟨fun _ => 1, fun _ => le_refl _, trivial⟩
  | succ l ih =>
    intro p
    cases p with
    | none => exact ⟨fun _ => 1, fun _ => le_refl _, trivial⟩
    | some a =>
      choose K hK hr using fun i : Fin 4 => ih (((s.tab .m).tab.mem a).e i).p
      set w : Fin 2 → Fin 2 → R := fun i j => mag (s.ct.cval J.C (((s.tab .m).tab.mem a).e (rc i j)).w) with hw
      have w0 : ∀ i j, 0 ≤ w i j := fun i j => mag_nonneg _
      have K0 : ∀ i j, 0 ≤ K i j := fun i j => by have := hK i j; linarith
      have s4 : ∀ j, K 0 j + K 1 j + K 2 j + K 3 j = ∑ i, K i j := fun j => by rw [Fin.sum_univ_four]
      have le : ∀ i j, K i j ≤ ∑ i, K i j := fun i j => Finset.single_le_sum (f := fun i => K i j) (fun i _ => K0 i j) (Finset.mem_univ i)
      refine ⟨fun j => (∑ i, K i j) + (w 0 0 + w 0 1 + w 1 0 + w 1 1), fun j => ?_, fun i => ?_, fun i => ?_⟩
      · have := hK 0 j
        have := le 0 j
        have := w0 0 0; have := w0 0 1; have := w0 1 0; have := w0 1 1
        linarith
      · have := K0 0 l
        have := le 0 l
        have := w0 0 0; have := w0 0 1; have := w0 1 0; have := w0 1 1
        have goal : w i 0 + w i 1 ≤ (∑ i, K i l) + (w 0 0 + w 0 1 + w 1 0 + w 1 1) ∧
            w 0 i + w 1 i ≤ (∑ i, K i l) + (w 0 0 + w 0 1 + w 1 0 + w 1 1) := by
          fin_cases i
          · dsimp only [Fin.zero_eta, Fin.isValue]
            constructor <;> linarith
          · dsimp only [Fin.mk_one, Fin.isValue]
            constructor <;> linarith
        exact goal
      · refine mono l _ (K i) _ (fun j => ?_) (hr i)
        have := le i j
        have := w0 0 0; have := w0 0 1; have := w0 1 0; have := w0 1 1
        linarith

theorem JState.NormLe.mono {B B' : R} (hB : B ≤ B') : ∀ {l : Nat} {p : Option Nat}, s.NormLe J B l p → s.NormLe J B' l p := by
  intro l
  induction l with
  | zero => intros; trivial
  | succ l ih =>
    intro p h
    cases p with
    | none => trivial
    | some a => exact ⟨h.1.trans hB, fun i => ih (h.2 i)⟩

/-- Every vector has bounds on the norms of its nodes. -/
theorem normLe_exists (hτ : 0 ≤ τ) (h : TInv J τ s) : ∀ (l : Nat) (p : Option Nat), s.NodeOk l p →
    ∀ n, l ≤ n → s.NormLe J ((3 / 2 * (1 + 4 * τ)) ^ n) l p := by
  intro l
  induction l with
  | zero => intros; trivial
  | succ l ih =>
    intro p hp n hn
    cases p with
    | none => trivial
    | some a =>
      have hl : ((s.tab .v).tab.mem a).v = l := by have := hp.2; omega
      refine ⟨?_, fun i => ih _ ?_ n (by omega)⟩
      · have e : s.vecJ J (l + 1) ⟨some a, CNum.one⟩ = s.namp J (l + 1) (some a) := by
          funext d
          rw [vecJ_eq, cval_one, one_mul]
        rw [e]
        refine (namp_high hτ h (l + 1) _ hp).trans ?_
        rw [← mul_pow]
        have g := kidBound_one hτ
        exact pow_le_pow_right₀ (show (1 : R) ≤ 3 / 2 * kidBound τ by linarith) hn
      · have := (h.kids a hp.1 i).1.node
        rw [hl] at this
        exact this

/-! ## The states of a package -/

end DD
