import Verif.Proofs.TextWeight
import Verif.Proofs.Double
import Mathlib.Data.Nat.Digits.Lemmas
import Mathlib.Tactic.Ring
import Mathlib.Tactic.IntervalCases

/-! # Text: decimal notation -/

namespace DD

/-! ## Digits -/

theorem digVal_foldl (l : List Char) (a : Nat) : l.foldl (fun a c => 10 * a + (c.toNat - 48)) a = a * 10 ^ l.length + digVal l := by
  induction l generalizing a with
  | nil => simp [digVal]
  | cons c l ih =>
    have h2 : digVal (c :: l) = l.foldl (fun a c => 10 * a + (c.toNat - 48)) (10 * 0 + (c.toNat - 48)) := rfl
    rw [h2, List.foldl_cons, ih, ih, List.length_cons, pow_succ]
    ring

theorem digVal_append (a b : List Char) : digVal (a ++ b) = digVal a * 10 ^ b.length + digVal b := by
  have : digVal (a ++ b) = b.foldl (fun a c => 10 * a + (c.toNat - 48)) (digVal a) := by simp [digVal]
  rw [this, digVal_foldl]

theorem digVal_zeros (k : Nat) : digVal (List.replicate k '0') = 0 := by
  induction k with
  | zero => rfl
  | succ k ih => rw [List.replicate_succ', digVal_append, ih]; rfl

theorem digVal_zero_cons (l : List Char) : digVal ('0' :: l) = digVal l := by
  have := digVal_append ['0'] l
  simpa [digVal] using this

theorem digitChar_val {d : Nat} (h : d < 10) : (Nat.digitChar d).toNat - 48 = d := by interval_cases d <;> rfl

theorem digitChar_isDigit {d : Nat} (h : d < 10) : (Nat.digitChar d).isDigit = true := by interval_cases d <;> rfl

theorem digVal_map (l : List Nat) (h : ∀ d ∈ l, d < 10) : digVal (l.reverse.map Nat.digitChar) = Nat.ofDigits 10 l := by
  induction l with
  | nil => rfl
  | cons d l ih =>
    rw [List.reverse_cons, List.map_append, digVal_append, ih fun a ha => h a (by simp [ha]), Nat.ofDigits_cons]
    have : digVal (List.map Nat.digitChar [d]) = d := by
      simp only [List.map_cons, List.map_nil, digVal, List.foldl_cons, List.foldl_nil]
      rw [digitChar_val (h d (by simp))]; omega
    rw [this]
    simp
    ring

theorem digVal_digits (n : Nat) : digVal (digits n) = n := by
  unfold digits
  split_ifs with h
  · rw [h]; rfl
  · rw [digVal_map _ fun d hd => Nat.digits_lt_base (by norm_num) hd, Nat.ofDigits_digits]

theorem digits_isDigit (n : Nat) : ∀ a ∈ digits n, a.isDigit = true := by
  intro a ha
  unfold digits at ha
  split_ifs at ha with h
  · simp at ha; subst ha; rfl
  · simp only [List.mem_map, List.mem_reverse] at ha
    obtain ⟨d, hd, rfl⟩ := ha
    exact digitChar_isDigit (Nat.digits_lt_base (by norm_num) hd)

theorem digits_ne (n : Nat) : digits n ≠ [] := by
  unfold digits
  split_ifs with h
  · simp
  · simpa using Nat.digits_ne_nil_iff_ne_zero.2 h

theorem digits_length {m p : Nat} (hp : 1 ≤ p) (h1 : 10 ^ (p - 1) ≤ m) (h2 : m < 10 ^ p) : (digits m).length = p := by
  have hm : m ≠ 0 := by have : 0 < 10 ^ (p - 1) := by positivity
                        omega
  unfold digits
  rw [if_neg hm, List.length_map, List.length_reverse]
  have a := (Nat.digits_length_le_iff (b := 10) (by norm_num) m (k := p)).2 h2
  have b := (Nat.lt_digits_length_iff (b := 10) (by norm_num) m (k := p - 1)).2 h1
  omega

theorem strip_spec (l : List Char) : ∃ k, l = strip l ++ List.replicate k '0' := by
  refine ⟨(l.rtakeWhile (· == '0')).length, ?_⟩
  have h : l.rtakeWhile (· == '0') = List.replicate (l.rtakeWhile (· == '0')).length '0' :=
    List.eq_replicate_iff.2 ⟨rfl, fun b hb => by simpa using List.mem_rtakeWhile_imp hb⟩
  have := List.rdropWhile_append_rtakeWhile (p := (· == '0')) (l := l)
  rw [h] at this
  exact this.symm

theorem strip_mem {l : List Char} : ∀ a ∈ strip l, a ∈ l := fun _ ha => (List.rdropWhile_prefix (· == '0') l).subset ha

/-- Zeros at the end do not change the value of the digits after the point. -/
theorem strip_val (a l : List Char) : (digVal (a ++ strip l) : ℝ) / 10 ^ (a ++ strip l).length = digVal (a ++ l) / 10 ^ (a ++ l).length := by
  obtain ⟨k, hk⟩ := strip_spec l
  have e : a ++ l = (a ++ strip l) ++ List.replicate k '0' := by rw [List.append_assoc, ← hk]
  rw [e, digVal_append (a ++ strip l), digVal_zeros, List.length_append (as := a ++ strip l), List.length_replicate, pow_add]
  push_cast
  have h1 : (10 : ℝ) ^ k ≠ 0 := by positivity
  have h2 : (10 : ℝ) ^ (a ++ strip l).length ≠ 0 := by positivity
  field_simp
  simp

/-! ## Reading a number -/

/-- The value of a number in decimal notation. -/
noncomputable def Dec.val (d : Dec) : ℝ :=
  let x : ℝ := ((digVal d.ip : ℝ) + (digVal d.fp : ℝ) / 10 ^ d.fp.length) *
    10 ^ (match d.ex with
      | none => (0 : Int)
      | some (n, ds) => if n then -(digVal ds : Int) else digVal ds)
  if d.neg then -x else x

theorem takeWhile_dig {l t : List Char} (hl : ∀ a ∈ l, a.isDigit = true) (ht : ∀ a ∈ t.head?, a.isDigit = false) :
    (l ++ t).takeWhile Char.isDigit = l ∧ (l ++ t).dropWhile Char.isDigit = t := by
  induction l with
  | nil =>
    cases t with
    | nil => simp
    | cons a t =>
      have := ht a (by simp)
      simp [this]
  | cons a l ih =>
    have h1 := hl a (by simp)
    obtain ⟨i1, i2⟩ := ih fun b hb => hl b (by simp [hb])
    simp [h1, i1, i2]

theorem takeWhile_dig' {l : List Char} (hl : ∀ a ∈ l, a.isDigit = true) : l.takeWhile Char.isDigit = l := by
  have := (takeWhile_dig (t := []) hl (by simp)).1
  simpa using this

theorem splitSign_dig {a : Char} {l : List Char} (ha : a.isDigit = true) : splitSign (a :: l) = (false, a :: l) := by
  have h1 : a ≠ '-' := by rintro rfl; revert ha; decide
  have h2 : a ≠ '+' := by rintro rfl; revert ha; decide
  simp [splitSign, h1, h2]

theorem mant_head {d : Dec} (hd : d.Ok) (t : List Char) : ∃ a s, d.mant ++ t = a :: s ∧ a.isDigit = true := by
  cases h : d.ip with
  | nil => exact absurd h hd.ip0
  | cons a l => exact ⟨a, _, by simp [Dec.mant, h]; rfl, hd.ip a (by simp [h])⟩

theorem stodExp_expo {d : Dec} (hd : d.Ok) : stodExp d.expo = (match d.ex with
      | none => (0 : Int)
      | some (n, ds) => if n then -(digVal ds : Int) else digVal ds) := by
  unfold Dec.expo
  rcases he : d.ex with _ | ⟨n, ds⟩
  · rfl
  · have := takeWhile_dig' (hd.ex n ds he)
    cases n <;> simp [stodExp, splitSign, this]

theorem expo_head (d : Dec) : ∀ a ∈ d.expo.head?, a = 'e' := by
  unfold Dec.expo
  rcases d.ex with _ | ⟨n, ds⟩ <;> simp

/-- The value after the sign has been read. -/
theorem stod_mant {d : Dec} (hd : d.Ok) {s : List Char} {n : Bool} (hs : splitSign s = (n, d.mant ++ d.expo)) (hn : n = d.neg) :
    stodR s = some d.val := by
  have key : (d.mant ++ d.expo).takeWhile Char.isDigit = d.ip ∧ stodFrac ((d.mant ++ d.expo).dropWhile Char.isDigit) = (d.fp, d.expo) := by
    unfold Dec.mant
    rw [List.append_assoc]
    have hh : ∀ a ∈ ((if d.fp = [] then [] else '.' :: d.fp) ++ d.expo).head?, a.isDigit = false := by
      split_ifs with h
      · intro a ha
        rw [expo_head d a (by simpa using ha)]; rfl
      · intro a ha
        obtain rfl : '.' = a := by simpa using ha
        rfl
    obtain ⟨e1, e2⟩ := takeWhile_dig hd.ip hh
    refine ⟨e1, ?_⟩
    rw [e2]
    split_ifs with h
    · rw [h, List.nil_append]
      cases he : d.expo with
      | nil => rfl
      | cons a l =>
        have := expo_head d a (by simp [he])
        subst this
        simp [stodFrac]
    · obtain ⟨e3, e4⟩ := takeWhile_dig hd.fp (t := d.expo) (fun a ha => by rw [expo_head d a ha]; rfl)
      simp only [List.cons_append, stodFrac, if_pos, e3, e4]
  unfold stodR
  simp only [hs, key.1, key.2]
  rw [if_neg (fun h => hd.ip0 h.1), stodExp_expo hd, hn]
  rfl

theorem stodR_text {d : Dec} (hd : d.Ok) : stodR d.text = some d.val := by
  rw [d.text_eq]
  unfold Dec.sgn
  obtain ⟨a, s, e, ha⟩ := mant_head hd d.expo
  split_ifs with h
  · exact stod_mant hd (n := true) (by simp [splitSign]) h.symm
  · refine stod_mant hd (n := false) ?_ (by simpa using h)
    rw [List.nil_append, e, splitSign_dig ha]

theorem stodR_plus {d : Dec} (hd : d.Ok) (hn : d.neg = false) : stodR ('+' :: d.text) = some d.val := by
  rw [d.text_eq]
  refine stod_mant hd (n := false) ?_ hn.symm
  simp [splitSign, Dec.sgn, hn]

theorem stoi_int {z : Int} (h1 : -2 ^ 31 ≤ z) (h2 : z < 2 ^ 31) : stoi (intText z) = some z := by
  obtain ⟨a, l, hl⟩ := List.exists_cons_of_ne_nil (digits_ne z.natAbs)
  have ha : a.isDigit = true := digits_isDigit z.natAbs a (by simp [hl])
  unfold intText stoi
  split_ifs with hz
  · have e : splitSign ('-' :: digits z.natAbs) = (true, digits z.natAbs) := by simp [splitSign]
    simp only [e, takeWhile_dig' (digits_isDigit _), digVal_digits, if_neg (digits_ne _)]
    simp only [if_true]
    rw [if_pos (by omega)]
    congr 1
    omega
  · have e : splitSign (digits z.natAbs) = (false, digits z.natAbs) := by rw [hl]; exact splitSign_dig ha
    simp only [e, takeWhile_dig' (digits_isDigit _), digVal_digits, if_neg (digits_ne _)]
    simp only [Bool.false_eq_true, if_false]
    rw [if_pos (by omega)]
    congr 1
    omega

/-! ## Writing a number -/

/-- The decimal number written for `x` with `p` digits. -/
noncomputable def decimal (p : Nat) (x : ℝ) : ℝ := (decG p x).val

theorem ten_zpow_pos (e : ℤ) : (0 : ℝ) < 10 ^ e := zpow_pos (by norm_num) e

theorem sig_spec {p : Nat} (hp : 1 ≤ p) {x : ℝ} (hx : x ≠ 0) :
    10 ^ (p - 1) ≤ (sig p x).1 ∧ (sig p x).1 < 10 ^ p ∧
      ((sig p x).1 : ℝ) * 10 ^ ((sig p x).2 + 1 - p) = rne (|x| * 10 ^ ((p : ℤ) - 1 - Int.log 10 |x|)) * 10 ^ (Int.log 10 |x| + 1 - p) := by
  have hx' : 0 < |x| := abs_pos.2 hx
  have l1 := Int.zpow_log_le_self (b := 10) (by norm_num) hx'
  have l2 := Int.lt_zpow_succ_log_self (b := 10) (by norm_num) |x|
  push_cast at l1 l2
  set e := Int.log 10 |x| with he
  set y := |x| * 10 ^ ((p : ℤ) - 1 - e) with hy
  have h1 : (10 : ℝ) ^ ((p : ℤ) - 1) ≤ y := by
    have : (10 : ℝ) ^ ((p : ℤ) - 1) = 10 ^ e * 10 ^ ((p : ℤ) - 1 - e) := by rw [← zpow_add₀ (by norm_num)]; congr 1; ring
    rw [this, hy]
    exact mul_le_mul_of_nonneg_right l1 (ten_zpow_pos _).le
  have h2 : y < (10 : ℝ) ^ (p : ℤ) := by
    have : (10 : ℝ) ^ (p : ℤ) = 10 ^ (e + 1) * 10 ^ ((p : ℤ) - 1 - e) := by rw [← zpow_add₀ (by norm_num)]; congr 1; ring
    rw [this, hy]
    exact mul_lt_mul_of_pos_right l2 (ten_zpow_pos _)
  have c1 : (10 : ℝ) ^ ((p : ℤ) - 1) = ((10 ^ (p - 1) : ℤ) : ℝ) := by
    push_cast
    rw [← zpow_natCast]; congr 1; omega
  have c2 : (10 : ℝ) ^ (p : ℤ) = ((10 ^ p : ℤ) : ℝ) := by push_cast; rw [← zpow_natCast]
  rw [c1] at h1
  rw [c2] at h2
  have r1 : (10 ^ (p - 1) : ℤ) ≤ rne y := by
    have := rne_mono h1
    rwa [rne_int] at this
  have r2 : rne y ≤ (10 ^ p : ℤ) := by
    have := rne_mono h2.le
    rwa [rne_int] at this
  have hpos : 0 ≤ rne y := le_trans (by positivity) r1
  have cast : (((rne y).toNat : ℕ) : ℝ) = rne y := by
    have : (((rne y).toNat : ℕ) : ℤ) = rne y := Int.toNat_of_nonneg hpos
    exact_mod_cast this
  unfold sig
  simp only [← he, ← hy]
  have hpp : 10 ^ (p - 1) < 10 ^ p := Nat.pow_lt_pow_right (by norm_num) (by omega)
  split_ifs with hm
  · refine ⟨le_rfl, hpp, ?_⟩
    have : (rne y : ℝ) = 10 ^ p := by rw [← cast, hm]; push_cast; rfl
    rw [this]
    push_cast
    rw [← zpow_natCast, ← zpow_natCast, ← zpow_add₀ (by norm_num), ← zpow_add₀ (by norm_num)]
    congr 1
    omega
  · refine ⟨?_, ?_, ?_⟩
    · zify; rw [Int.toNat_of_nonneg hpos]; exact_mod_cast r1
    · have : (rne y).toNat ≤ 10 ^ p := by zify; rw [Int.toNat_of_nonneg hpos]; exact_mod_cast r2
      omega
    · rw [cast]

theorem take1_ne {l : List Char} (h : l ≠ []) (n : Nat) : l.take (n + 1) ≠ [] := by
  cases l with
  | nil => exact absurd rfl h
  | cons a l => simp

theorem pad2_spec (l : List Char) (h0 : l ≠ []) (h : ∀ a ∈ l, a.isDigit = true) :
    pad2 l ≠ [] ∧ (∀ a ∈ pad2 l, a.isDigit = true) ∧ digVal (pad2 l) = digVal l := by
  unfold pad2
  split_ifs
  · refine ⟨by simp, ?_, digVal_zero_cons l⟩
    intro a ha
    rcases List.mem_cons.1 ha with rfl | ha
    · rfl
    · exact h a ha
  · exact ⟨h0, h, rfl⟩

theorem decG_ok (p : Nat) (x : ℝ) : (decG p x).Ok := by
  have hd := digits_isDigit (sig p x).1
  have h0 := digits_ne (sig p x).1
  unfold decG
  dsimp only
  split_ifs with hx h1 h2
  · exact ⟨by simp, by intro a ha; simp at ha; subst ha; rfl, by simp, by simp, by simp⟩
  · obtain ⟨q1, q2, -⟩ := pad2_spec _ (digits_ne (sig p x).2.natAbs) (digits_isDigit _)
    refine ⟨take1_ne h0 0, fun a ha => hd a (List.mem_of_mem_take ha), fun a ha => hd a (List.mem_of_mem_drop (strip_mem a ha)), ?_, ?_⟩
    · intro n ds h
      simp only [Option.some.injEq, Prod.mk.injEq] at h
      rw [← h.2]; exact q1
    · intro n ds h
      simp only [Option.some.injEq, Prod.mk.injEq] at h
      rw [← h.2]; exact q2
  · exact ⟨take1_ne h0 _, fun a ha => hd a (List.mem_of_mem_take ha), fun a ha => hd a (List.mem_of_mem_drop (strip_mem a ha)), by simp, by simp⟩
  · refine ⟨by simp, by intro a ha; simp at ha; subst ha; rfl, ?_, by simp, by simp⟩
    intro a ha
    rcases List.mem_append.1 ha with h | h
    · rw [(List.mem_replicate.1 h).2]; rfl
    · exact hd a (strip_mem a h)

theorem decG_neg {p : Nat} {x : ℝ} (hx : x ≠ 0) : (decG p x).neg = decide (x < 0) := by
  unfold decG
  rw [if_neg hx]
  dsimp only
  split_ifs <;> rfl

/-- The value of what is written. -/
theorem decG_val {p : Nat} (hp : 1 ≤ p) {x : ℝ} (hx : x ≠ 0) :
    decimal p x = (if x < 0 then -1 else 1) * ((sig p x).1 * 10 ^ ((sig p x).2 + 1 - p)) := by
  obtain ⟨s1, s2, -⟩ := sig_spec hp hx
  have hl := digits_length hp s1 s2
  have hv := digVal_digits (sig p x).1
  set m := (sig p x).1 with hm
  set e := (sig p x).2 with he
  have key : ∀ k : Nat, k ≤ p → ((digVal ((digits m).take k) : ℝ) + digVal (strip ((digits m).drop k)) / 10 ^ (strip ((digits m).drop k)).length)
      = m * 10 ^ ((k : ℤ) - p) := by
    intro k hk
    have h1 := strip_val [] ((digits m).drop k)
    simp only [List.nil_append] at h1
    rw [h1]
    have h2 := digVal_append ((digits m).take k) ((digits m).drop k)
    rw [List.take_append_drop, hv] at h2
    have h3 : ((digits m).drop k).length = p - k := by rw [List.length_drop, hl]
    rw [h3] at h2 ⊢
    have h4 : (10 : ℝ) ^ ((k : ℤ) - p) = 1 / 10 ^ (p - k) := by
      rw [one_div, ← zpow_natCast, ← zpow_neg]; congr 1; omega
    rw [h4]
    have h5 : (m : ℝ) = digVal ((digits m).take k) * 10 ^ (p - k) + digVal ((digits m).drop k) := by exact_mod_cast h2
    rw [h5]
    have : (10 : ℝ) ^ (p - k) ≠ 0 := by positivity
    field_simp
  have sgn : ∀ y : ℝ, (if decide (x < 0) = true then -y else y) = (if x < 0 then -1 else 1) * y := by
    intro y
    by_cases h : x < 0 <;> simp [h]
  unfold decimal decG
  rw [if_neg hx]
  simp only [← hm, ← he]
  by_cases h1 : e < -4 ∨ (p : Int) ≤ e
  · rw [if_pos h1]
    simp only [Dec.val, sgn]
    rw [key 1 hp]
    obtain ⟨-, -, q3⟩ := pad2_spec _ (digits_ne e.natAbs) (digits_isDigit _)
    rw [q3, digVal_digits]
    congr 1
    rw [mul_assoc, ← zpow_add₀ (by norm_num)]
    congr 2
    by_cases h : e < 0
    · rw [if_pos (decide_eq_true h)]
      omega
    · rw [if_neg (by simpa using h)]
      omega
  rw [if_neg h1]
  by_cases h2 : 0 ≤ e
  · rw [if_pos h2]
    simp only [Dec.val, sgn]
    rw [key (e.toNat + 1) (by omega)]
    congr 1
    rw [mul_assoc, ← zpow_add₀ (by norm_num)]
    congr 2
    push_cast
    omega
  · rw [if_neg h2]
    simp only [Dec.val, sgn]
    congr 1
    rw [strip_val, digVal_append, digVal_zeros, hv, List.length_append, List.length_replicate, hl]
    have h3 : digVal ['0'] = 0 := rfl
    rw [h3]
    simp only [Nat.cast_zero, zero_add, zero_mul, zpow_zero, mul_one]
    rw [div_eq_mul_inv, ← zpow_natCast, ← zpow_neg]
    congr 2
    push_cast
    omega

theorem decimal_zero (p : Nat) : decimal p 0 = 0 := by simp [decimal, decG, Dec.val, digVal]

/-- The number written, without the detour. -/
theorem decimal_eq {p : Nat} (hp : 1 ≤ p) {x : ℝ} (hx : x ≠ 0) :
    decimal p x = (if x < 0 then -1 else 1) * (rne (|x| * 10 ^ ((p : ℤ) - 1 - Int.log 10 |x|)) * 10 ^ (Int.log 10 |x| + 1 - p)) := by
  rw [decG_val hp hx, (sig_spec hp hx).2.2]

/-- The error is at most half a unit of the last digit. -/
theorem decimal_err_log {p : Nat} (hp : 1 ≤ p) {x : ℝ} (hx : x ≠ 0) : |decimal p x - x| ≤ 1 / 2 * 10 ^ (Int.log 10 |x| + 1 - p) := by
  rw [decimal_eq hp hx]
  set e := Int.log 10 |x|
  have h1 : x = (if x < 0 then -1 else 1) * |x| := by
    split_ifs with h
    · rw [abs_of_neg h]; ring
    · rw [abs_of_nonneg (not_lt.1 h)]; ring
  have h2 : |x| = |x| * 10 ^ ((p : ℤ) - 1 - e) * 10 ^ (e + 1 - p) := by
    rw [mul_assoc, ← zpow_add₀ (by norm_num)]
    have : (p : ℤ) - 1 - e + (e + 1 - p) = 0 := by ring
    rw [this, zpow_zero, mul_one]
  have h3 := rne_near (|x| * 10 ^ ((p : ℤ) - 1 - e))
  generalize hσ : (if x < 0 then (-1 : ℝ) else 1) = σ at *
  have hσ1 : |σ| = 1 := by rw [← hσ]; split_ifs <;> simp
  generalize |x| = a at *
  generalize (rne (a * 10 ^ ((p : ℤ) - 1 - e)) : ℝ) = r at *
  have h6 := mul_le_mul_of_nonneg_right h3 (ten_zpow_pos (e + 1 - p)).le
  calc |σ * (r * 10 ^ (e + 1 - p)) - x| = |σ * ((r - a * 10 ^ ((p : ℤ) - 1 - e)) * 10 ^ (e + 1 - p))| := by
        congr 1
        rw [sub_mul, ← h2, mul_sub, ← h1]
    _ = |r - a * 10 ^ ((p : ℤ) - 1 - e)| * 10 ^ (e + 1 - p) := by rw [abs_mul, hσ1, one_mul, abs_mul, abs_of_pos (ten_zpow_pos _)]
    _ ≤ _ := h6

theorem decimal_err {p : Nat} (hp : 1 ≤ p) (x : ℝ) : |decimal p x - x| ≤ 1 / 2 * 10 ^ (1 - (p : ℤ)) * |x| := by
  by_cases hx : x = 0
  · subst hx; rw [decimal_zero]; simp
  · refine (decimal_err_log hp hx).trans ?_
    have l1 := Int.zpow_log_le_self (b := 10) (by norm_num) (abs_pos.2 hx)
    push_cast at l1
    have : (10 : ℝ) ^ (Int.log 10 |x| + 1 - p) = 10 ^ (1 - (p : ℤ)) * 10 ^ Int.log 10 |x| := by
      rw [← zpow_add₀ (by norm_num)]; congr 1; ring
    rw [this, mul_assoc]
    have h2 := mul_le_mul_of_nonneg_left l1 (ten_zpow_pos (1 - (p : ℤ))).le
    linarith

/-- A number with at most `p` digits is written exactly. -/
theorem decimal_exact {p : Nat} (hp : 1 ≤ p) {k e : ℤ} (hk : |k| < 10 ^ p) : decimal p ((k : ℝ) * 10 ^ e) = k * 10 ^ e := by
  by_cases hk0 : k = 0
  · subst hk0; simp [decimal_zero]
  have hx : (k : ℝ) * 10 ^ e ≠ 0 := mul_ne_zero (by exact_mod_cast hk0) (ten_zpow_pos e).ne'
  rw [decimal_eq hp hx]
  set x := (k : ℝ) * 10 ^ e with hxd
  have habs : |x| = ((|k| : ℤ) : ℝ) * 10 ^ e := by rw [hxd, abs_mul, abs_of_pos (ten_zpow_pos e)]; push_cast; rfl
  set g := Int.log 10 |x| with hg
  have hg2 : g < e + p := by
    refine (Int.lt_zpow_iff_log_lt (b := 10) (by norm_num) (abs_pos.2 hx)).1 ?_
    push_cast
    rw [habs, add_comm, zpow_add₀ (by norm_num), zpow_natCast]
    refine mul_lt_mul_of_pos_right ?_ (ten_zpow_pos e)
    exact_mod_cast hk
  have hi : |x| * 10 ^ ((p : ℤ) - 1 - g) = ((|k| * 10 ^ (p - 1 - g + e).toNat : ℤ) : ℝ) := by
    rw [habs, mul_assoc, ← zpow_add₀ (by norm_num)]
    push_cast
    rw [← zpow_natCast]
    congr 2
    omega
  rw [hi, rne_int, ← hi, mul_assoc, ← zpow_add₀ (by norm_num)]
  have : (p : ℤ) - 1 - g + (g + 1 - p) = 0 := by ring
  rw [this, zpow_zero, mul_one]
  split_ifs with h
  · rw [abs_of_neg h]; ring
  · rw [abs_of_nonneg (not_lt.1 h)]; ring

/-- The number written has at most `p` digits. -/
theorem decimal_short {p : Nat} (hp : 1 ≤ p) (x : ℝ) : ∃ k e : ℤ, |k| < 10 ^ p ∧ decimal p x = k * 10 ^ e := by
  by_cases hx : x = 0
  · exact ⟨0, 0, by positivity, by rw [hx, decimal_zero]; simp⟩
  · obtain ⟨-, s2, -⟩ := sig_spec hp hx
    refine ⟨(if x < 0 then -1 else 1) * (sig p x).1, (sig p x).2 + 1 - p, ?_, ?_⟩
    · rw [abs_mul]
      have : |(if x < 0 then (-1 : ℤ) else 1)| = 1 := by split_ifs <;> simp
      rw [this, one_mul]
      simp only [Nat.abs_cast]
      exact_mod_cast s2
    · rw [decG_val hp hx]
      push_cast
      ring

end DD
