import Verif.Model.Ulp
import Verif.Proofs.Double
import Mathlib.Data.Int.SuccPred
import Mathlib.Order.Interval.Finset.SuccPred
import Mathlib.Order.Interval.Finset.Nat
import Mathlib.Data.Set.Card

/-!
# C87: distance in units in the last place, and rounding to the nearest double

`ulpDistance(a, b)` ends for all finite doubles and is the number of steps between neighbouring doubles from `a` to `b`; so it is
0 exactly for equal numbers, symmetric and additive, and bounds the relative difference. The rounding of Model/Double.lean, on
which the accuracy claims for double precision rest (C81, C85), yields the nearest double.
-/

namespace DD

theorem decode_succ (n : ℕ) : decode (n + 1) = decode n + 2 ^ (max ((n / 2 ^ 52 : ℕ) : ℤ) 1 - 1075) := by
  have hdm := Nat.div_add_mod n (2 ^ 52)
  have hr : n % 2 ^ 52 < 2 ^ 52 := Nat.mod_lt _ (by positivity)
  unfold decode
  set q := n / 2 ^ 52 with hq
  set r := n % 2 ^ 52 with hrr
  by_cases hc : r + 1 < 2 ^ 52
  · have h1 : (n + 1) / 2 ^ 52 = q := by omega
    have h2 : (n + 1) % 2 ^ 52 = r + 1 := by omega
    rw [h1, h2]
    by_cases h0 : q = 0
    · rw [if_pos h0, if_pos h0, h0]
      push_cast
      have : (2 : ℝ) ^ (max 0 1 - 1075 : ℤ) = 2 ^ (-1074 : ℤ) := by norm_num
      rw [this]; ring
    · rw [if_neg h0, if_neg h0]
      have : max (q : ℤ) 1 = q := by omega
      rw [this]; push_cast; ring
  · have h1 : (n + 1) / 2 ^ 52 = q + 1 := by omega
    have h2 : (n + 1) % 2 ^ 52 = 0 := by omega
    rw [h1, h2, if_neg (by omega)]
    have hr1 : r = 2 ^ 52 - 1 := by omega
    by_cases h0 : q = 0
    · rw [if_pos h0, h0]
      have hn : n = 2 ^ 52 - 1 := by omega
      rw [hn]
      norm_num
      ring
    · rw [if_neg h0, hr1]
      have : max (q : ℤ) 1 = q := by omega
      rw [this]
      have e : (((q + 1 : ℕ) : ℤ) - 1075) = ((q : ℤ) - 1075) + 1 := by push_cast; ring
      rw [e, zpow_add₀ (by norm_num)]
      push_cast
      ring

theorem decode_strictMono : StrictMono decode := by
  apply strictMono_nat_of_lt_succ
  intro n
  rw [decode_succ]
  have : (0 : ℝ) < 2 ^ (max ((n / 2 ^ 52 : ℕ) : ℤ) 1 - 1075) := two_zpow_pos _
  linarith

theorem decode_zero : decode 0 = 0 := by simp [decode]

theorem decode_nonneg (n : ℕ) : 0 ≤ decode n := by
  rw [← decode_zero]; exact decode_strictMono.monotone (Nat.zero_le n)

theorem dval_nat (n : ℕ) : dval n = decode n := by simp [dval]

theorem dval_neg (k : ℤ) : dval (-k) = - dval k := by
  rcases lt_trichotomy k 0 with h | h | h
  · unfold dval
    rw [if_pos (by omega), if_neg (by omega), neg_neg]
  · subst h; simp [dval, decode_zero]
  · unfold dval
    rw [if_neg (by omega), if_pos (by omega), neg_neg]

theorem dval_strictMono : StrictMono dval := by
  apply strictMono_int_of_lt_succ
  intro k
  rcases lt_or_ge k 0 with h | h
  · obtain ⟨n, rfl⟩ : ∃ n : ℕ, k = -((n : ℤ) + 1) := ⟨(-k - 1).toNat, by omega⟩
    have e1 : -((n : ℤ) + 1) + 1 = -(n : ℤ) := by ring
    have e2 : ((n : ℤ) + 1) = ((n + 1 : ℕ) : ℤ) := by push_cast; ring
    rw [e1, dval_neg, dval_neg, e2, dval_nat, dval_nat]
    have := decode_strictMono (Nat.lt_succ_self n)
    linarith
  · obtain ⟨n, rfl⟩ : ∃ n : ℕ, k = n := ⟨k.toNat, by omega⟩
    have e2 : ((n : ℤ) + 1) = ((n + 1 : ℕ) : ℤ) := by push_cast; ring
    rw [e2, dval_nat, dval_nat]
    exact decode_strictMono (Nat.lt_succ_self n)

/-- Numbers of doubles are in the order of the doubles, so the number of a double is unique. -/
theorem C87_order (a b : ℤ) : (dval a < dval b ↔ a < b) ∧ (dval a = dval b ↔ a = b) :=
  ⟨dval_strictMono.lt_iff_lt, dval_strictMono.injective.eq_iff⟩

/-- `nextafter` goes to the neighbouring double in the direction of `b`. -/
theorem C87_neighbours (a b : ℤ) :
    (dval a = dval b → nextAfter a b = b) ∧
    (dval a < dval b → dval a < dval (nextAfter a b) ∧ dval (nextAfter a b) ≤ dval b ∧
      ∀ k, ¬ (dval a < dval k ∧ dval k < dval (nextAfter a b))) ∧
    (dval b < dval a → dval (nextAfter a b) < dval a ∧ dval b ≤ dval (nextAfter a b) ∧
      ∀ k, ¬ (dval k < dval a ∧ dval (nextAfter a b) < dval k)) := by
  simp only [dval_strictMono.lt_iff_lt, dval_strictMono.le_iff_le, dval_strictMono.injective.eq_iff]
  unfold nextAfter
  refine ⟨fun h => by rw [if_pos h], fun h => ?_, fun h => ?_⟩
  · rw [if_neg (by omega), if_pos h]
    exact ⟨by omega, by omega, fun k hk => by omega⟩
  · rw [if_neg (by omega), if_neg (by omega)]
    exact ⟨by omega, by omega, fun k hk => by omega⟩

theorem ulpLoop_eq (b : ℤ) : ∀ (f u : ℕ) (n : ℤ), (n - b).natAbs ≤ f → ulpLoop b f u n = some (u + (n - b).natAbs) := by
  intro f
  induction f with
  | zero =>
    intro u n h
    have : n = b := by omega
    subst this
    simp [ulpLoop]
  | succ f ih =>
    intro u n h
    unfold ulpLoop
    by_cases hn : n = b
    · subst hn; simp
    · rw [if_pos hn]
      have hx : (nextAfter n b - b).natAbs + 1 = (n - b).natAbs := by
        unfold nextAfter
        rw [if_neg hn]
        split_ifs <;> omega
      rw [ih _ _ (by omega)]
      congr 1
      omega

theorem ulpLoop_none (b : ℤ) : ∀ (f u : ℕ) (n : ℤ), f < (n - b).natAbs → ulpLoop b f u n = none := by
  intro f
  induction f with
  | zero =>
    intro u n h
    have : n ≠ b := by omega
    simp [ulpLoop, this]
  | succ f ih =>
    intro u n h
    have hn : n ≠ b := by omega
    unfold ulpLoop
    rw [if_pos hn]
    apply ih
    have hx : (nextAfter n b - b).natAbs + 1 = (n - b).natAbs := by
      unfold nextAfter
      rw [if_neg hn]
      split_ifs <;> omega
    omega

theorem nextAfter_natAbs {a b : ℤ} (h : a ≠ b) : (nextAfter a b - b).natAbs + 1 = (a - b).natAbs := by
  unfold nextAfter
  rw [if_neg h]
  split_ifs <;> omega

theorem ulpDistance_some {rounds : ℕ} {a b : ℤ} {u : ℕ} (h : ulpDistance rounds a b = some u) : u = (a - b).natAbs := by
  unfold ulpDistance at h
  split_ifs at h with hab
  · subst hab; simpa using (Option.some.inj h).symm
  · have hx := nextAfter_natAbs hab
    by_cases hf : (nextAfter a b - b).natAbs ≤ rounds
    · rw [ulpLoop_eq _ _ _ _ hf] at h
      have := Option.some.inj h
      omega
    · rw [ulpLoop_none _ _ _ _ (by omega)] at h
      simp at h

/-- The loop ends, after at most as many rounds as there are doubles between the arguments. -/
theorem C87_ends (a b : ℤ) (rounds : ℕ) (h : (a - b).natAbs ≤ rounds) : ∃ u, ulpDistance rounds a b = some u := by
  unfold ulpDistance
  split_ifs with hab
  · exact ⟨_, rfl⟩
  · have hx := nextAfter_natAbs hab
    exact ⟨_, ulpLoop_eq _ _ _ _ (by omega)⟩

/-- The result is the number of doubles after the smaller argument, up to and including the larger one. -/
theorem C87_count {rounds : ℕ} {a b : ℤ} {u : ℕ} (h : ulpDistance rounds a b = some u) :
    u = {x : ℝ | (∃ k, x = dval k) ∧ min (dval a) (dval b) < x ∧ x ≤ max (dval a) (dval b)}.ncard := by
  have hs : {x : ℝ | (∃ k, x = dval k) ∧ min (dval a) (dval b) < x ∧ x ≤ max (dval a) (dval b)} =
      dval '' (Finset.Ioc (min a b) (max a b) : Finset ℤ) := by
    rw [← dval_strictMono.monotone.map_min, ← dval_strictMono.monotone.map_max]
    ext x
    simp only [Set.mem_setOf_eq, Finset.coe_Ioc, Set.mem_image, Set.mem_Ioc]
    constructor
    · rintro ⟨⟨k, rfl⟩, h1, h2⟩
      exact ⟨k, ⟨dval_strictMono.lt_iff_lt.1 h1, dval_strictMono.le_iff_le.1 h2⟩, rfl⟩
    · rintro ⟨k, ⟨h1, h2⟩, rfl⟩
      exact ⟨⟨k, rfl⟩, dval_strictMono.lt_iff_lt.2 h1, dval_strictMono.le_iff_le.2 h2⟩
  rw [hs, Set.ncard_image_of_injective _ dval_strictMono.injective, Set.ncard_coe_finset, Int.card_Ioc, ulpDistance_some h]
  omega

/-- The distance is 0 for equal numbers only, does not depend on the order, and adds up along the line. -/
theorem C87_metric {r1 r2 r3 : ℕ} {a b c : ℤ} {u v w : ℕ} (h1 : ulpDistance r1 a b = some u) :
    (u = 0 ↔ dval a = dval b) ∧ (ulpDistance r2 b a = some v → v = u) ∧
    (dval a ≤ dval c → dval c ≤ dval b → ulpDistance r2 a c = some v → ulpDistance r3 c b = some w → u = v + w) ∧
    (ulpDistance r2 a c = some v → ulpDistance r3 c b = some w → u ≤ v + w) := by
  have e1 := ulpDistance_some h1
  simp only [dval_strictMono.le_iff_le, dval_strictMono.injective.eq_iff]
  refine ⟨by omega, fun h => ?_, fun ha hb h h' => ?_, fun h h' => ?_⟩
  · have := ulpDistance_some h; omega
  · have := ulpDistance_some h; have := ulpDistance_some h'; omega
  · have := ulpDistance_some h; have := ulpDistance_some h'; omega

/-- The count of finite doubles fits into 64 bits. -/
theorem C87_fits {rounds : ℕ} {a b : ℤ} {u : ℕ} (ha : |a| ≤ maxDbl) (hb : |b| ≤ maxDbl) (h : ulpDistance rounds a b = some u) :
    u < 2 ^ 64 := by
  have := ulpDistance_some h
  have h1 := abs_le.1 ha
  have h2 := abs_le.1 hb
  unfold maxDbl at h1 h2
  omega

theorem decode_gap (n : ℕ) : decode (n + 1) - decode n ≤ max (2 ^ (-1074 : ℤ)) (2 ^ (-52 : ℤ) * decode n) := by
  rw [decode_succ, add_sub_cancel_left]
  by_cases h0 : n / 2 ^ 52 = 0
  · apply le_max_of_le_left
    rw [h0]; norm_num
  · apply le_max_of_le_right
    have : max ((n / 2 ^ 52 : ℕ) : ℤ) 1 = ((n / 2 ^ 52 : ℕ) : ℤ) := by omega
    rw [this]
    unfold decode
    rw [if_neg h0]
    have hp := two_zpow_pos (((n / 2 ^ 52 : ℕ) : ℤ) - 1075)
    have h1 : (1 : ℝ) ≤ 2 ^ (-52 : ℤ) * ((2 ^ 52 + n % 2 ^ 52 : ℕ) : ℝ) := by
      have h2 : ((2 ^ 52 : ℕ) : ℝ) ≤ ((2 ^ 52 + n % 2 ^ 52 : ℕ) : ℝ) := Nat.cast_le.2 (Nat.le_add_right _ _)
      have h3 : (2 : ℝ) ^ (-52 : ℤ) * ((2 ^ 52 : ℕ) : ℝ) = 1 := by norm_num
      rw [← h3]
      exact mul_le_mul_of_nonneg_left h2 (two_zpow_pos (-52)).le
    rw [← mul_assoc]
    exact le_mul_of_one_le_left hp.le h1

theorem dval_gap (k : ℤ) (M : ℝ) (h1 : |dval k| ≤ M) (h2 : |dval (k + 1)| ≤ M) :
    dval (k + 1) - dval k ≤ max (2 ^ (-1074 : ℤ)) (2 ^ (-52 : ℤ) * M) := by
  have hp := two_zpow_pos (-52)
  have key : ∀ n : ℕ, decode n ≤ M → decode (n + 1) - decode n ≤ max (2 ^ (-1074 : ℤ)) (2 ^ (-52 : ℤ) * M) := by
    intro n hn
    refine (decode_gap n).trans (max_le_max le_rfl ?_)
    exact mul_le_mul_of_nonneg_left hn hp.le
  rcases lt_or_ge k 0 with h | h
  · obtain ⟨n, rfl⟩ : ∃ n : ℕ, k = -((n : ℤ) + 1) := ⟨(-k - 1).toNat, by omega⟩
    have e1 : -((n : ℤ) + 1) + 1 = -(n : ℤ) := by ring
    have e2 : ((n : ℤ) + 1) = ((n + 1 : ℕ) : ℤ) := by push_cast; ring
    rw [e1, dval_neg, dval_nat, abs_neg, abs_of_nonneg (decode_nonneg n)] at h2
    rw [e1, dval_neg, dval_neg, e2, dval_nat, dval_nat]
    linarith [key n h2]
  · obtain ⟨n, rfl⟩ : ∃ n : ℕ, k = n := ⟨k.toNat, by omega⟩
    have e2 : ((n : ℤ) + 1) = ((n + 1 : ℕ) : ℤ) := by push_cast; ring
    rw [dval_nat, abs_of_nonneg (decode_nonneg n)] at h1
    rw [e2, dval_nat, dval_nat]
    exact key n h1

/-- The distance bounds the difference: each step is at most 2⁻⁵² of the larger of the two numbers, or the smallest double. -/
theorem C87_difference {rounds : ℕ} {a b : ℤ} {u : ℕ} (h : ulpDistance rounds a b = some u) :
    |dval a - dval b| ≤ u * max (2 ^ (-1074 : ℤ)) (2 ^ (-52 : ℤ) * max |dval a| |dval b|) := by
  have main : ∀ a b : ℤ, a ≤ b →
      dval b - dval a ≤ ((b - a).toNat : ℝ) * max (2 ^ (-1074 : ℤ)) (2 ^ (-52 : ℤ) * max |dval a| |dval b|) := by
    intro a b hab
    have hin : ∀ k, a ≤ k → k ≤ b → |dval k| ≤ max |dval a| |dval b| := by
      intro k h1 h2
      have l1 := dval_strictMono.monotone h1
      have l2 := dval_strictMono.monotone h2
      exact abs_le_max_abs_abs l1 l2
    have hn : ∀ n : ℕ, a + n ≤ b →
        dval (a + n) - dval a ≤ n * max (2 ^ (-1074 : ℤ)) (2 ^ (-52 : ℤ) * max |dval a| |dval b|) := by
      intro n
      induction n with
      | zero => intro _; simp
      | succ n ih =>
        intro hle
        push_cast at hle ⊢
        have i1 := ih (by omega)
        have i2 := dval_gap (a + n) _ (hin (a + n) (by omega) (by omega)) (hin (a + n + 1) (by omega) (by omega))
        rw [← add_assoc]
        nlinarith
    have := hn (b - a).toNat (by omega)
    rwa [show a + ((b - a).toNat : ℤ) = b by omega] at this
  have hu := ulpDistance_some h
  rcases le_total a b with hab | hab
  · have h1 := main a b hab
    rw [abs_sub_comm, abs_of_nonneg (by linarith [dval_strictMono.monotone hab])]
    rw [show u = (b - a).toNat by omega]
    exact h1
  · have h1 := main b a hab
    rw [abs_of_nonneg (by linarith [dval_strictMono.monotone hab]), max_comm |dval a|]
    rw [show u = (a - b).toNat by omega]
    exact h1

/-! ### Rounding -/

theorem decode_form (n : ℕ) : ∃ (M : ℕ) (E : ℤ), decode n = M * 2 ^ E ∧ M < 2 ^ 53 ∧ -1074 ≤ E := by
  have hr : n % 2 ^ 52 < 2 ^ 52 := Nat.mod_lt _ (by positivity)
  by_cases h0 : n / 2 ^ 52 = 0
  · refine ⟨n, -1074, by unfold decode; rw [if_pos h0], ?_, le_rfl⟩
    have := Nat.div_add_mod n (2 ^ 52)
    rw [h0] at this
    omega
  · exact ⟨2 ^ 52 + n % 2 ^ 52, _, by unfold decode; rw [if_neg h0], by omega, by omega⟩

/-- Every number with 53 binary digits, none of them below 2⁻¹⁰⁷⁴, is a double. -/
theorem decode_rep : ∀ (t M : ℕ), M < 2 ^ 53 → ∃ n, decode n = M * 2 ^ ((t : ℤ) - 1074) := by
  intro t
  have big : ∀ t M : ℕ, 2 ^ 52 ≤ M → M < 2 ^ 53 → ∃ n, decode n = M * 2 ^ ((t : ℤ) - 1074) := by
    intro t M h1 h2
    refine ⟨(t + 1) * 2 ^ 52 + (M - 2 ^ 52), ?_⟩
    have hd : ((t + 1) * 2 ^ 52 + (M - 2 ^ 52)) / 2 ^ 52 = t + 1 := by omega
    have hm : ((t + 1) * 2 ^ 52 + (M - 2 ^ 52)) % 2 ^ 52 = M - 2 ^ 52 := by omega
    unfold decode
    rw [hd, hm, if_neg (by omega)]
    have e1 : 2 ^ 52 + (M - 2 ^ 52) = M := by omega
    have e2 : (((t + 1 : ℕ) : ℤ) - 1075) = (t : ℤ) - 1074 := by push_cast; ring
    rw [e1, e2]
  induction t with
  | zero =>
    intro M hM
    rcases Nat.lt_or_ge M (2 ^ 52) with h | h
    · refine ⟨M, ?_⟩
      unfold decode
      rw [if_pos (Nat.div_eq_of_lt h)]
      norm_num
    · exact big 0 M h hM
  | succ t ih =>
    intro M hM
    rcases Nat.lt_or_ge M (2 ^ 52) with h | h
    · obtain ⟨n, hn⟩ := ih (2 * M) (by omega)
      refine ⟨n, hn.trans ?_⟩
      have e : (((t + 1 : ℕ) : ℤ) - 1074) = ((t : ℤ) - 1074) + 1 := by push_cast; ring
      rw [e, zpow_add₀ (by norm_num)]
      push_cast; ring
    · exact big (t + 1) M h hM

theorem dval_rep {m : ℤ} {e : ℤ} (hm : |m| ≤ 2 ^ 53) (he : -1074 ≤ e) : ∃ k, (m : ℝ) * 2 ^ e = dval k := by
  have pos : ∀ M : ℕ, M ≤ 2 ^ 53 → ∃ n, decode n = M * 2 ^ e := by
    intro M hM
    rcases Nat.lt_or_ge M (2 ^ 53) with h | h
    · obtain ⟨n, hn⟩ := decode_rep (e + 1074).toNat M h
      refine ⟨n, ?_⟩
      rw [hn]; congr 2; omega
    · obtain ⟨n, hn⟩ := decode_rep ((e + 1074).toNat + 1) (2 ^ 52) (by norm_num)
      refine ⟨n, ?_⟩
      have e1 : M = 2 ^ 53 := le_antisymm hM h
      have e2 : (((e + 1074).toNat + 1 : ℕ) : ℤ) - 1074 = e + 1 := by omega
      rw [hn, e1, e2, zpow_add₀ (by norm_num)]
      push_cast; ring
  obtain ⟨h1, h2⟩ := abs_le.1 hm
  rcases le_total 0 m with h | h
  · obtain ⟨n, hn⟩ := pos m.toNat (by omega)
    refine ⟨n, ?_⟩
    rw [dval_nat, hn]
    congr 1
    exact_mod_cast (Int.toNat_of_nonneg h).symm
  · obtain ⟨n, hn⟩ := pos (-m).toNat (by omega)
    refine ⟨-(n : ℤ), ?_⟩
    rw [dval_neg, dval_nat, hn]
    have : (((-m).toNat : ℕ) : ℝ) = -(m : ℝ) := by
      have : (((-m).toNat : ℕ) : ℤ) = -m := Int.toNat_of_nonneg (by omega)
      exact_mod_cast this
    rw [this]; ring

/-- Doubles are not changed by rounding. -/
theorem C87_fixed (k : ℤ) : ieee (dval k) = dval k := by
  have pos : ∀ n : ℕ, ieee (decode n) = decode n := by
    intro n
    obtain ⟨M, E, h1, h2, h3⟩ := decode_form n
    rw [h1]
    have := ieee_fixed (k := (M : ℤ)) (e := E) h3 (by rw [abs_of_nonneg (by omega)]; exact_mod_cast h2)
    exact_mod_cast this
  rcases le_total 0 k with h | h
  · obtain ⟨n, rfl⟩ : ∃ n : ℕ, k = n := ⟨k.toNat, by omega⟩
    rw [dval_nat, pos]
  · obtain ⟨n, rfl⟩ : ∃ n : ℕ, k = -(n : ℤ) := ⟨(-k).toNat, by omega⟩
    rw [dval_neg, dval_nat, ieee_neg, pos]

/-- Among whole multiples of the unit, rounding takes the nearest. -/
theorem ieee_near_mul (x : ℝ) (j : ℤ) : |x - ieee x| ≤ |x - j * 2 ^ ulpExp x| := by
  have hp := two_zpow_pos (ulpExp x)
  set P : ℝ := 2 ^ ulpExp x with hP
  have hx : x = x / P * P := by field_simp
  have hi : ieee x = rne (x / P) * P := rfl
  have hn := rne_near (x / P)
  have key : |x / P - rne (x / P)| ≤ |x / P - j| := by
    by_cases hj : j = rne (x / P)
    · rw [hj]
    · have h1 : (1 : ℝ) ≤ |((rne (x / P) - j : ℤ) : ℝ)| := by
        rw [← Int.cast_abs]
        have : (1 : ℤ) ≤ |rne (x / P) - j| := Int.one_le_abs (by omega)
        exact_mod_cast this
      push_cast at h1
      have h2 : |(rne (x / P) : ℝ) - j| ≤ |(rne (x / P) : ℝ) - x / P| + |x / P - j| := by
        have := abs_add_le ((rne (x / P) : ℝ) - x / P) (x / P - j)
        rwa [sub_add_sub_cancel] at this
      rw [abs_sub_comm (x / P)]
      linarith
  have e1 : x - ieee x = (x / P - rne (x / P)) * P := by rw [hi]; nth_rewrite 1 [hx]; ring
  have e2 : x - j * P = (x / P - j) * P := by nth_rewrite 1 [hx]; ring
  rw [e1, e2, abs_mul, abs_mul]
  exact mul_le_mul_of_nonneg_right key (abs_nonneg _)

/-- The rounding of the model yields a double, and no double is nearer. -/
theorem C87_rounding (x : ℝ) : (∃ k, ieee x = dval k) ∧ ∀ k, |x - ieee x| ≤ |x - dval k| := by
  constructor
  · by_cases hx : x = 0
    · exact ⟨0, by rw [hx, ieee_zero]; simp [dval, decode_zero]⟩
    have he : -1074 ≤ ulpExp x := le_max_right _ _
    have hb := ulp_bound hx
    rw [abs_le] at hb
    have h1 : rne (x / 2 ^ ulpExp x) ≤ 2 ^ 53 := by
      have a : x / 2 ^ ulpExp x ≤ ((2 ^ 53 : ℤ) : ℝ) := by
        rw [div_le_iff₀ (two_zpow_pos _)]; push_cast; linarith [hb.2]
      have := rne_mono a
      rwa [rne_int] at this
    have h2 : -2 ^ 53 ≤ rne (x / 2 ^ ulpExp x) := by
      have a : ((-2 ^ 53 : ℤ) : ℝ) ≤ x / 2 ^ ulpExp x := by
        rw [le_div_iff₀ (two_zpow_pos _)]; push_cast; linarith [hb.1]
      have := rne_mono a
      rwa [rne_int] at this
    exact dval_rep (abs_le.2 ⟨h2, h1⟩) he
  · -- positive arguments first
    have pos : ∀ x : ℝ, 0 < x → ∀ k, |x - ieee x| ≤ |x - dval k| := by
      intro x hx k
      set u := ulpExp x with hu
      have hbig : u = -1074 ∨ (2 : ℝ) ^ (u + 52) ≤ x := by
        rcases le_or_gt (Int.log 2 |x| - 52) (-1074) with h | h
        · left; rw [hu]; unfold ulpExp; exact max_eq_right h
        · right
          have : u = Int.log 2 |x| - 52 := by rw [hu]; unfold ulpExp; exact max_eq_left h.le
          rw [this, sub_add_cancel, abs_of_pos hx]
          exact_mod_cast Int.zpow_log_le_self (b := 2) (by norm_num) hx
      have neg : dval k ≤ 0 → |x - ieee x| ≤ |x - dval k| := by
        intro h
        have := ieee_near_mul x 0
        simp only [Int.cast_zero, zero_mul, sub_zero] at this
        rw [abs_of_pos hx] at this
        rw [abs_of_nonneg (a := x - dval k) (by linarith)]
        linarith
      rcases le_or_gt k 0 with hk | hk
      · apply neg
        have := dval_strictMono.monotone hk
        simpa [dval, decode_zero] using this
      obtain ⟨n, rfl⟩ : ∃ n : ℕ, k = n := ⟨k.toNat, by omega⟩
      rw [dval_nat]
      obtain ⟨M, E, h1, h2, h3⟩ := decode_form n
      by_cases hE : u ≤ E
      · have := ieee_near_mul x (M * 2 ^ (E - u).toNat)
        rw [← hu] at this
        have e : (((M : ℤ) * 2 ^ (E - u).toNat : ℤ) : ℝ) * 2 ^ u = decode n := by
          rw [h1, pow_split hE]; push_cast; ring
        rwa [e] at this
      · have hE' : E + 1 ≤ u := by omega
        have hP : (2 : ℝ) ^ (u + 52) ≤ x := hbig.resolve_left (by omega)
        have hlt : decode n ≤ 2 ^ (u + 52) := by
          rw [h1]
          have hM : (M : ℝ) ≤ 2 ^ 53 := by exact_mod_cast h2.le
          have hs : (2 : ℝ) ^ (u + 52) = 2 ^ 53 * 2 ^ (u - 1) := by
            rw [← zpow_natCast, ← zpow_add₀ (by norm_num)]; congr 1; push_cast; ring
          rw [hs]
          have hz : (2 : ℝ) ^ E ≤ 2 ^ (u - 1) := zpow_le_zpow_right₀ (by norm_num) (by omega)
          exact mul_le_mul hM hz (two_zpow_pos _).le (by positivity)
        have := ieee_near_mul x (2 ^ 52)
        rw [← hu] at this
        have e : (((2 ^ 52 : ℤ)) : ℝ) * 2 ^ u = 2 ^ (u + 52) := by
          rw [zpow_add₀ (by norm_num)]; push_cast; norm_cast; ring
        rw [e, abs_of_nonneg (a := x - 2 ^ (u + 52)) (by linarith)] at this
        rw [abs_of_nonneg (a := x - decode n) (by linarith)]
        linarith
    intro k
    rcases lt_trichotomy x 0 with h | h | h
    · have := pos (-x) (by linarith) (-k)
      rw [ieee_neg, dval_neg, ← abs_neg, ← abs_neg (-x - -dval k)] at this
      simpa [sub_eq_add_neg, add_comm] using this
    · rw [h, ieee_zero]; simp
    · exact pos x h k

theorem rne_tie {y : ℝ} {j : ℤ} (hj : j ≠ rne y) (h : |y - j| ≤ |y - rne y|) : Even (rne y) := by
  have hn := rne_near y
  rw [abs_sub_comm] at hn
  have h1 : (1 : ℝ) ≤ |((rne y - j : ℤ) : ℝ)| := by
    rw [← Int.cast_abs]
    have : (1 : ℤ) ≤ |rne y - j| := Int.one_le_abs (by omega)
    exact_mod_cast this
  push_cast at h1
  have h2 : |(rne y : ℝ) - j| ≤ |(rne y : ℝ) - y| + |y - j| := by
    have := abs_add_le ((rne y : ℝ) - y) (y - j)
    rwa [sub_add_sub_cancel] at this
  rw [abs_sub_comm _ y] at h2
  have h3 : |y - rne y| = 1 / 2 := by linarith
  have hf := Int.self_sub_floor y
  have hf0 := Int.fract_nonneg y
  unfold rne at h3 ⊢
  split_ifs at h3 ⊢ with c1 c2 c3
  · rw [hf, abs_of_nonneg hf0] at h3; linarith
  · have : y - ((⌊y⌋ + 1 : ℤ) : ℝ) = Int.fract y - 1 := by push_cast; linarith
    rw [this, abs_of_nonpos (by linarith [Int.fract_lt_one y])] at h3
    linarith
  · exact c3
  · rw [Int.not_even_iff_odd] at c3
    exact c3.add_one

/-- If another double is equally near, the last bit of the result is zero: rounding is to the nearest double, ties to even. -/
theorem C87_ties (x : ℝ) {k k' : ℤ} (hk : ieee x = dval k) (hne : k' ≠ k) (h : |x - dval k'| = |x - ieee x|) : Even k := by
  have pos : ∀ x : ℝ, 0 < x → ∀ k k' : ℤ, ieee x = dval k → k' ≠ k → |x - dval k'| = |x - ieee x| → Even k := by
    intro x hx k k' hk hne h
    have hp := two_zpow_pos (ulpExp x)
    have hi : ieee x = rne (x / 2 ^ ulpExp x) * 2 ^ ulpExp x := rfl
    have he : -1074 ≤ ulpExp x := le_max_right _ _
    -- the even multiple of the unit has an even number
    have fin : Even (rne (x / 2 ^ ulpExp x)) → Even k := by
      intro hev
      set m := rne (x / 2 ^ ulpExp x) with hm
      have hm0 : 0 ≤ m := by
        have h1 := rne_mono (div_nonneg hx.le hp.le)
        have h0 : rne (0 : ℝ) = 0 := by simpa using rne_int 0
        rwa [h0] at h1
      have hm1 : m ≤ 2 ^ 53 := by
        have a : x / 2 ^ ulpExp x ≤ ((2 ^ 53 : ℤ) : ℝ) := by
          have hb := ulp_bound hx.ne'
          rw [abs_of_pos hx] at hb
          rw [div_le_iff₀ hp]; push_cast; linarith
        have := rne_mono a
        rwa [rne_int] at this
      have hm2 : ulpExp x = -1074 ∨ 2 ^ 52 ≤ m := by
        rcases le_or_gt (Int.log 2 |x| - 52) (-1074) with h | h
        · left; unfold ulpExp; exact max_eq_right h
        · right
          have hu : ulpExp x = Int.log 2 |x| - 52 := by unfold ulpExp; exact max_eq_left h.le
          have a : ((2 ^ 52 : ℤ) : ℝ) ≤ x / 2 ^ ulpExp x := by
            rw [le_div_iff₀ hp, hu, abs_of_pos hx]
            have e : (((2 ^ 52 : ℤ)) : ℝ) * 2 ^ (Int.log 2 x - 52) = 2 ^ Int.log 2 x := by
              have : (((2 ^ 52 : ℤ)) : ℝ) = 2 ^ (52 : ℤ) := by push_cast; norm_cast
              rw [this, ← zpow_add₀ (by norm_num)]; congr 1; ring
            rw [e]
            exact_mod_cast Int.zpow_log_le_self (b := 2) (by norm_num) hx
          have := rne_mono a
          rwa [rne_int] at this
      obtain ⟨c, hc⟩ := hev
      -- the number of the double m 2^u
      have hnum : ∃ n : ℕ, decode n = m * 2 ^ ulpExp x ∧ Even n := by
        clear_value m
        obtain ⟨M, rfl⟩ : ∃ M : ℕ, m = M := ⟨m.toNat, by omega⟩
        obtain ⟨t, ht⟩ : ∃ t : ℕ, ulpExp x = (t : ℤ) - 1074 := ⟨(ulpExp x + 1074).toNat, by omega⟩
        rw [ht]
        push_cast
        have hM1 : M ≤ 2 ^ 53 := by exact_mod_cast hm1
        rcases Nat.lt_or_ge M (2 ^ 52) with h1 | h1
        · have ht0 : t = 0 := by
            rcases hm2 with h | h
            · omega
            · have : 2 ^ 52 ≤ M := by exact_mod_cast h
              omega
          refine ⟨M, ?_, ?_⟩
          · unfold decode
            rw [if_pos (Nat.div_eq_of_lt h1), ht0]; norm_num
          · rw [Nat.even_iff]; omega
        · rcases Nat.lt_or_ge M (2 ^ 53) with h2 | h2
          · refine ⟨(t + 1) * 2 ^ 52 + (M - 2 ^ 52), ?_, ?_⟩
            · have hd : ((t + 1) * 2 ^ 52 + (M - 2 ^ 52)) / 2 ^ 52 = t + 1 := by omega
              have hmm : ((t + 1) * 2 ^ 52 + (M - 2 ^ 52)) % 2 ^ 52 = M - 2 ^ 52 := by omega
              unfold decode
              rw [hd, hmm, if_neg (by omega)]
              have e1 : 2 ^ 52 + (M - 2 ^ 52) = M := by omega
              have e2 : (((t + 1 : ℕ) : ℤ) - 1075) = (t : ℤ) - 1074 := by push_cast; ring
              rw [e1, e2]
            · rw [Nat.even_iff]; omega
          · refine ⟨(t + 2) * 2 ^ 52, ?_, ?_⟩
            · have hd : ((t + 2) * 2 ^ 52) / 2 ^ 52 = t + 2 := by omega
              have hmm : ((t + 2) * 2 ^ 52) % 2 ^ 52 = 0 := by omega
              unfold decode
              rw [hd, hmm, if_neg (by omega), show M = 2 ^ 53 by omega]
              have e2 : (((t + 2 : ℕ) : ℤ) - 1075) = ((t : ℤ) - 1074) + 1 := by push_cast; ring
              rw [e2, zpow_add₀ (by norm_num)]
              push_cast; ring
            · rw [Nat.even_iff]; omega
      obtain ⟨n, hn1, hn2⟩ := hnum
      have : k = n := by
        apply dval_strictMono.injective
        rw [dval_nat, hn1, ← hk, hi]
      rw [this]
      exact_mod_cast hn2
    have mult : ∀ j : ℤ, dval k' = j * 2 ^ ulpExp x → Even k := by
      intro j hj
      apply fin
      refine rne_tie (j := j) ?_ ?_
      · rintro rfl
        apply hne
        apply dval_strictMono.injective
        rw [hj, ← hk, hi]
      · have h' := h.le
        rw [hj, hi] at h'
        set P : ℝ := 2 ^ ulpExp x with hP
        have e1 : ∀ i : ℝ, |x - i * P| = |x / P - i| * P := by
          intro i
          have : x - i * P = (x / P - i) * P := by field_simp
          rw [this, abs_mul, abs_of_pos hp]
        rw [e1, e1] at h'
        exact le_of_mul_le_mul_right h' hp
    rcases le_or_gt k' 0 with hk0 | hk0
    · -- zero is a multiple; negative numbers are farther away than zero
      have h0 : dval k' ≤ 0 := by
        have := dval_strictMono.monotone hk0
        simpa [dval, decode_zero] using this
      rcases eq_or_lt_of_le h0 with h1 | h1
      · exact mult 0 (by rw [h1]; simp)
      · exfalso
        have := ieee_near_mul x 0
        simp only [Int.cast_zero, zero_mul, sub_zero] at this
        rw [abs_of_pos hx] at this
        rw [abs_of_nonneg (a := x - dval k') (by linarith)] at h
        linarith
    · obtain ⟨n, rfl⟩ : ∃ n : ℕ, k' = n := ⟨k'.toNat, by omega⟩
      obtain ⟨M, E, h1, h2, h3⟩ := decode_form n
      by_cases hE : ulpExp x ≤ E
      · refine mult (M * 2 ^ (E - ulpExp x).toNat) ?_
        rw [dval_nat, h1, pow_split hE]; push_cast; ring
      · exfalso
        have hP : (2 : ℝ) ^ (ulpExp x + 52) ≤ x := by
          have hu : ulpExp x = Int.log 2 |x| - 52 := by unfold ulpExp at hE ⊢; omega
          rw [hu, sub_add_cancel, abs_of_pos hx]
          exact_mod_cast Int.zpow_log_le_self (b := 2) (by norm_num) hx
        have hlt : decode n < 2 ^ (ulpExp x + 52) := by
          rw [h1]
          have hM : (M : ℝ) < 2 ^ 53 := by exact_mod_cast h2
          have hs : (2 : ℝ) ^ (ulpExp x + 52) = 2 ^ 53 * 2 ^ (ulpExp x - 1) := by
            rw [← zpow_natCast, ← zpow_add₀ (by norm_num)]; congr 1; push_cast; ring
          rw [hs]
          have hz : (2 : ℝ) ^ E ≤ 2 ^ (ulpExp x - 1) := zpow_le_zpow_right₀ (by norm_num) (by omega)
          exact (mul_lt_mul_of_pos_right hM (two_zpow_pos E)).trans_le (mul_le_mul_of_nonneg_left hz (by positivity))
        have := ieee_near_mul x (2 ^ 52)
        have e : (((2 ^ 52 : ℤ)) : ℝ) * 2 ^ ulpExp x = 2 ^ (ulpExp x + 52) := by
          rw [zpow_add₀ (by norm_num)]; push_cast; norm_cast; ring
        rw [e, abs_of_nonneg (a := x - 2 ^ (ulpExp x + 52)) (by linarith)] at this
        rw [dval_nat, abs_of_nonneg (a := x - decode n) (by linarith)] at h
        linarith
  rcases lt_trichotomy x 0 with hx | hx | hx
  · have := pos (-x) (by linarith) (-k) (-k') (by rw [ieee_neg, dval_neg, hk]) (by omega)
      (by rw [ieee_neg, dval_neg, ← abs_neg, ← abs_neg (-x - -ieee x)]
          simpa [sub_eq_add_neg, add_comm] using h)
    exact even_neg.1 this
  · exfalso
    subst hx
    rw [ieee_zero, sub_zero, abs_zero, zero_sub, abs_neg, abs_eq_zero] at h
    rw [ieee_zero] at hk
    exact hne (dval_strictMono.injective (h.trans hk))
  · exact pos x hx k k' hk hne h

namespace Ex

/-- 1, the double after it, and the smallest double. -/
theorem dval_examples : dval (1023 * 2 ^ 52) = 1 ∧ dval (1023 * 2 ^ 52 + 1) = 1 + 2 ^ (-52 : ℤ) ∧ dval 1 = 2 ^ (-1074 : ℤ) ∧
    dval (-(1024 * 2 ^ 52)) = -2 := by
  have t1 : (4607182418800017408 : ℤ).toNat = 4607182418800017408 := rfl
  have t2 : (4607182418800017409 : ℤ).toNat = 4607182418800017409 := rfl
  have t3 : (4611686018427387904 : ℤ).toNat = 4611686018427387904 := rfl
  refine ⟨?_, ?_, ?_, ?_⟩ <;> norm_num [dval, decode, t1, t2, t3]

/-- From 1 to 1 + 2⁻⁴⁰ there are 4096 steps. -/
example : ulpDistance 5000 (1023 * 2 ^ 52) (1023 * 2 ^ 52 + 4096) = some 4096 ∧
    dval (1023 * 2 ^ 52 + 4096) = 1 + 2 ^ (-40 : ℤ) := by
  constructor
  · obtain ⟨u, hu⟩ := C87_ends (1023 * 2 ^ 52) (1023 * 2 ^ 52 + 4096) 5000 (by norm_num)
    rw [hu, ulpDistance_some hu]; norm_num
  · have t1 : (4607182418800021504 : ℤ).toNat = 4607182418800021504 := rfl
    norm_num [dval, decode, t1]

example : ulpDistance 3 (-1) 2 = some 3 ∧ ulpDistance 1 (-1) 2 = none ∧ |(-1 : ℤ)| ≤ maxDbl := by decide

/-- The largest double. -/
example : dval maxDbl = (2 ^ 53 - 1) * 2 ^ (971 : ℤ) := by
  have t1 : (9218868437227405311 : ℤ).toNat = 9218868437227405311 := rfl
  norm_num [dval, decode, maxDbl, t1]

/-- Half of the smallest double is rounded to zero, the even one of its two neighbours. -/
example : ieee (2 ^ (-1075 : ℤ)) = 0 := by
  have hx := two_zpow_pos (-1075)
  have d0 : dval 0 = 0 := by simp [dval, decode_zero]
  have d1 : dval 1 = 2 * 2 ^ (-1075 : ℤ) := by
    rw [dval_examples.2.2.1, show (-1074 : ℤ) = 1 + -1075 by norm_num, zpow_add₀ (by norm_num)]; norm_num
  set x : ℝ := 2 ^ (-1075 : ℤ) with hxd
  obtain ⟨⟨k, hk⟩, hn⟩ := C87_rounding x
  have h0 := hn 0
  rw [d0, sub_zero, abs_of_pos hx, hk, abs_le] at h0
  have k0 : 0 ≤ k := by
    rw [← dval_strictMono.le_iff_le, d0]; linarith
  have k1 : k ≤ 1 := by
    rw [← dval_strictMono.le_iff_le, d1]; linarith
  have hne : k ≠ 1 := by
    rintro rfl
    have := C87_ties x (k' := 0) hk (by norm_num) (by rw [hk, d0, d1, abs_sub_comm x (2 * x)]; congr 1; ring)
    exact absurd this (by decide)
  obtain rfl : k = 0 := by omega
  rw [hk, d0]

end Ex

end DD
