import Verif.Proofs.TextNum
import Verif.TextSpec

/-! # Text: lines and files -/

namespace DD

/-! ## Captures -/

theorem str_cons_eq (k : Nat) (w : List Char) (c : Caps) : Caps.str ((k, w) :: c) k = w := by simp [Caps.str]

theorem str_cons_ne {k j : Nat} (h : j ≠ k) (w : List Char) (c : Caps) : Caps.str ((j, w) :: c) k = Caps.str c k := by
  simp [Caps.str, h]

theorem str_nil (k : Nat) : Caps.str [] k = [] := rfl

theorem str_append_right {a b : Caps} {k : Nat} (h : ∀ x ∈ a, x.1 ≠ k) : Caps.str (a ++ b) k = Caps.str b k := by
  induction a with
  | nil => rfl
  | cons x a ih =>
    obtain ⟨j, w⟩ := x
    rw [List.cons_append, str_cons_ne (h (j, w) (by simp)), ih fun y hy => h y (by simp [hy])]

theorem str_append_left {a b : Caps} {k : Nat} (h : ∀ x ∈ b, x.1 ≠ k) : Caps.str (a ++ b) k = Caps.str a k := by
  induction a with
  | nil =>
    have := str_append_right (a := b) (b := []) h
    rw [List.append_nil] at this
    rw [List.nil_append, this]
  | cons x a ih =>
    obtain ⟨j, w⟩ := x
    by_cases e : j = k
    · subst e; rw [List.cons_append, str_cons_eq, str_cons_eq]
    · rw [List.cons_append, str_cons_ne e, str_cons_ne e, ih]

/-! ## Weights -/

/-- The component that is read. -/
noncomputable def textC (fl : ℝ → ℝ) (T : ℝ) (p : Nat) (x : ℝ) : ℝ := if |x| ≤ T then 0 else fl (decimal p x)
/-- The weight that is read. -/
noncomputable def textW (fl : ℝ → ℝ) (T : ℝ) (p : Nat) (w : Cx ℝ) : Cx ℝ := ⟨textC fl T p w.re, textC fl T p w.im⟩

theorem textC_read {fl : ℝ → ℝ} {T : ℝ} {p : Nat} (hp : 1 ≤ p) (x : ℝ) : CompRead fl T p x (textC fl T p x) := by
  refine ⟨fun h => if_pos h, fun h => ⟨decimal p x, if_neg (not_le.2 h), decimal_short hp x, decimal_err hp x, ?_⟩⟩
  rintro ⟨k, e, hk, rfl⟩
  exact decimal_exact hp hk

theorem textW_read {fl : ℝ → ℝ} {T : ℝ} {p : Nat} (hp : 1 ≤ p) (w : Cx ℝ) : WeightRead fl T p w (textW fl T p w) :=
  ⟨textC_read hp _, textC_read hp _⟩

/-- The forms of a written weight. -/
theorem weightText_cases {T : ℝ} (hT : 0 ≤ T) (p : Nat) (w : Cx ℝ) :
    (|w.re| ≤ T ∧ |w.im| ≤ T ∧ weightText T p w = (⟨false, ['0'], [], none⟩ : Dec).text) ∨
    (T < |w.re| ∧ |w.im| ≤ T ∧ weightText T p w = (decG p w.re).text) ∨
    (|w.re| ≤ T ∧ T < |w.im| ∧ weightText T p w = (decG p w.im).text ++ ['i']) ∨
    (T < |w.re| ∧ T < |w.im| ∧ ∃ q, (q = [] ∧ (decG p w.im).neg = true ∨ q = ['+'] ∧ (decG p w.im).neg = false) ∧
      weightText T p w = (decG p w.re).text ++ (q ++ (decG p w.im).text ++ ['i'])) := by
  unfold weightText numText
  by_cases h1 : |w.re| ≤ T <;> by_cases h2 : |w.im| ≤ T
  · left; refine ⟨h1, h2, ?_⟩; rw [if_pos ⟨h1, h2⟩]; simp [Dec.text]
  · right; right; left
    refine ⟨h1, not_le.1 h2, ?_⟩
    rw [if_neg (fun h => h2 h.2), if_neg (not_lt.2 h1), if_pos (not_le.1 h2), if_pos h1, List.nil_append]
  · right; left
    refine ⟨not_le.1 h1, h2, ?_⟩
    rw [if_neg (fun h => h1 h.1), if_pos (not_le.1 h1), if_neg (not_lt.2 h2), List.append_nil]
  · right; right; right
    have h0 : w.im ≠ 0 := by rintro h; rw [h, abs_zero] at h2; exact h2 hT
    refine ⟨not_le.1 h1, not_le.1 h2, ?_⟩
    rw [if_neg (fun h => h1 h.1), if_pos (not_le.1 h1), if_pos (not_le.1 h2), if_neg h1, decG_neg h0]
    by_cases h3 : 0 < w.im
    · refine ⟨['+'], Or.inr ⟨rfl, by simpa using h3.le⟩, ?_⟩
      rw [if_pos h3]; rfl
    · refine ⟨[], Or.inl ⟨rfl, by simpa using lt_of_le_of_ne (not_lt.1 h3) h0⟩, ?_⟩
      rw [if_neg h3]; rfl

theorem zeroDec_ok : (⟨false, ['0'], [], none⟩ : Dec).Ok :=
  ⟨by simp, by intro a ha; simp at ha; subst ha; rfl, by simp, by simp, by simp⟩

theorem stod_dec (fl : ℝ → ℝ) {p : Nat} {x : ℝ} : stod fl (decG p x).text = some (fl (decimal p x)) := by
  unfold stod; rw [stodR_text (decG_ok p x)]; rfl

theorem filter_dec {d : Dec} (hd : d.Ok) : (d.text.filter (· != ' ')).filter (· != 'i') = d.text := by
  have h1 : d.text.filter (· != ' ') = d.text := by
    rw [List.filter_eq_self]
    intro a ha
    rcases Rx.text_chars hd a ha with h | rfl | rfl | rfl | rfl
    · simpa using fun e => by subst e; exact absurd h (by decide)
    all_goals decide
  rw [h1, List.filter_eq_self]
  intro a ha
  rcases Rx.text_chars hd a ha with h | rfl | rfl | rfl | rfl
  · simpa using fun e => by subst e; exact absurd h (by decide)
  all_goals decide

theorem filter_i : ((['i'] : List Char).filter (· != ' ')).filter (· != 'i') = [] := by decide

theorem text_ne_sign {d : Dec} (hd : d.Ok) {q : List Char} : ¬ (q ++ d.text = ['+'] ∨ q ++ d.text = ['-']) := by
  obtain ⟨u, x, h, hx⟩ := Rx.text_last hd
  rw [h, ← List.append_assoc]
  rintro (e | e)
  · have e : (q ++ u) ++ [x] = [] ++ ['+'] := e
    have := List.append_inj' e rfl
    have : x = '+' := by simpa using this.2
    subst this; exact absurd hx (by decide)
  · have e : (q ++ u) ++ [x] = [] ++ ['-'] := e
    have := List.append_inj' e rfl
    have : x = '-' := by simpa using this.2
    subst this; exact absurd hx (by decide)

/-- The number read from the text of the imaginary part. -/
theorem imag_read (fl : ℝ → ℝ) {p : Nat} {x : ℝ} {q : List Char} (hq : q = [] ∨ q = ['+'] ∧ (decG p x).neg = false) (re : List Char) (r : ℝ)
    (hre : (if re = [] then some 0 else stod fl re) = some r) :
    fromString fl re (q ++ (decG p x).text ++ ['i']) = some ⟨r, fl (decimal p x)⟩ := by
  have hd := decG_ok p x
  have hq' : (q.filter (· != ' ')).filter (· != 'i') = q := by rcases hq with rfl | ⟨rfl, -⟩ <;> decide
  have e : ((q ++ (decG p x).text ++ ['i']).filter (· != ' ')).filter (· != 'i') = q ++ (decG p x).text := by
    rw [List.filter_append, List.filter_append, List.filter_append, List.filter_append, hq', filter_dec hd, filter_i, List.append_nil]
  unfold fromString
  simp only [e, if_neg (text_ne_sign hd), hre]
  rw [if_neg (by simp [Rx.text_ne hd])]
  have : stod fl (q ++ (decG p x).text) = some (fl (decimal p x)) := by
    rcases hq with rfl | ⟨rfl, hn⟩
    · exact stod_dec fl
    · unfold stod
      rw [List.singleton_append, stodR_plus hd hn]; rfl
  rw [this]

/-- Reading a written weight: there is a match, and every match gives the same number. -/
theorem weight_text (fl : ℝ → ℝ) (h0 : fl 0 = 0) {T : ℝ} (hT : 0 ≤ T) (p : Nat) (w : Cx ℝ) {k : Nat} {t : List Char} (ht : Rx.End t) :
    (∃ c, (Rx.weight k).M (weightText T p w ++ t) t c) ∧
    ∀ c, (Rx.weight k).M (weightText T p w ++ t) t c → (∀ x ∈ c, x.1 = k ∨ x.1 = k + 1) ∧
      fromString fl (c.str k) (c.str (k + 1)) = some (textW fl T p w) := by
  rcases weightText_cases hT p w with ⟨h1, h2, e⟩ | ⟨h1, h2, e⟩ | ⟨h1, h2, e⟩ | ⟨h1, h2, q, hq, e⟩ <;> rw [e]
  · refine ⟨⟨_, (Rx.weight_real zeroDec_ok ht _).2 rfl⟩, fun c h => ?_⟩
    rw [(Rx.weight_real zeroDec_ok ht c).1 h]
    refine ⟨by simp, ?_⟩
    rw [str_cons_eq, str_cons_ne (by omega), str_nil]
    have : stod fl (⟨false, ['0'], [], none⟩ : Dec).text = some 0 := by
      unfold stod
      rw [stodR_text zeroDec_ok]
      simp [Dec.val, digVal, h0]
    unfold fromString
    rw [if_neg (Rx.text_ne zeroDec_ok), this]
    simp [textW, textC, h1, h2]
  · refine ⟨⟨_, (Rx.weight_real (decG_ok p w.re) ht _).2 rfl⟩, fun c h => ?_⟩
    rw [(Rx.weight_real (decG_ok p w.re) ht c).1 h]
    refine ⟨by simp, ?_⟩
    rw [str_cons_eq, str_cons_ne (by omega), str_nil]
    unfold fromString
    rw [if_neg (Rx.text_ne (decG_ok p w.re)), stod_dec]
    simp [textW, textC, h2, not_le.2 h1]
  · refine ⟨⟨_, (Rx.weight_imag (decG_ok p w.im) _).2 rfl⟩, fun c h => ?_⟩
    rw [(Rx.weight_imag (decG_ok p w.im) c).1 h]
    refine ⟨by simp, ?_⟩
    rw [str_cons_ne (by omega), str_cons_eq, str_nil]
    have := imag_read fl (p := p) (x := w.im) (q := []) (Or.inl rfl) [] 0 (by simp)
    rw [List.nil_append] at this
    rw [this]
    simp [textW, textC, h1, not_le.2 h2]
  · refine ⟨⟨_, (Rx.weight_both (decG_ok p w.re) (decG_ok p w.im) hq _).2 rfl⟩, fun c h => ?_⟩
    rw [(Rx.weight_both (decG_ok p w.re) (decG_ok p w.im) hq c).1 h]
    refine ⟨by simp, ?_⟩
    rw [str_cons_eq, str_cons_ne (by omega), str_cons_eq]
    have := imag_read fl (p := p) (x := w.im) (q := q) (hq.imp (fun h => h.1) id) (decG p w.re).text (fl (decimal p w.re))
      (by rw [if_neg (Rx.text_ne (decG_ok p w.re)), stod_dec])
    rw [this]
    simp [textW, textC, not_le.2 h1, not_le.2 h2]

/-- The characters of a weight. -/
def wchar (a : Char) : Prop := a.isDigit = true ∨ a = '.' ∨ a = 'e' ∨ a = '-' ∨ a = '+' ∨ a = 'i'

theorem dec_wchar {d : Dec} (hd : d.Ok) : ∀ a ∈ d.text, wchar a := by
  intro a ha
  have := Rx.text_chars hd a ha
  unfold wchar; tauto

theorem weightText_chars {T : ℝ} (hT : 0 ≤ T) (p : Nat) (w : Cx ℝ) : ∀ a ∈ weightText T p w, wchar a := by
  have hi : wchar 'i' := by unfold wchar; tauto
  have hp : wchar '+' := by unfold wchar; tauto
  rcases weightText_cases hT p w with ⟨h1, h2, e⟩ | ⟨h1, h2, e⟩ | ⟨h1, h2, e⟩ | ⟨h1, h2, q, hq, e⟩ <;> rw [e]
  · exact dec_wchar zeroDec_ok
  · exact dec_wchar (decG_ok _ _)
  · intro a ha
    rcases List.mem_append.1 ha with h | h
    · exact dec_wchar (decG_ok _ _) a h
    · rw [List.mem_singleton.1 h]; exact hi
  · intro a ha
    simp only [List.mem_append, List.mem_singleton] at ha
    rcases ha with h | (h | h) | h
    · exact dec_wchar (decG_ok _ _) a h
    · rcases hq with ⟨rfl, -⟩ | ⟨rfl, -⟩
      · cases h
      · rw [List.mem_singleton.1 h]; exact hp
    · exact dec_wchar (decG_ok _ _) a h
    · rw [h]; exact hi

theorem weightText_ne {T : ℝ} (hT : 0 ≤ T) (p : Nat) (w : Cx ℝ) : weightText T p w ≠ [] := by
  rcases weightText_cases hT p w with ⟨h1, h2, e⟩ | ⟨h1, h2, e⟩ | ⟨h1, h2, e⟩ | ⟨h1, h2, q, hq, e⟩ <;> rw [e]
  · exact Rx.text_ne zeroDec_ok
  · exact Rx.text_ne (decG_ok _ _)
  · simp
  · simp

theorem intText_chars (z : Int) : ∀ a ∈ intText z, a.isDigit = true ∨ a = '-' := by
  intro a ha
  unfold intText at ha
  split_ifs at ha
  · rcases List.mem_cons.1 ha with h | h
    · exact Or.inr h
    · exact Or.inl (digits_isDigit _ a h)
  · exact Or.inl (digits_isDigit _ a ha)

theorem intText_nat (n : Nat) : intText n = digits n := by unfold intText; rw [if_neg (by omega)]; rfl

theorem intText_ne (z : Int) : intText z ≠ [] := by
  unfold intText
  split_ifs
  · simp
  · exact digits_ne _

theorem int_M (z : Int) (t : List Char) : (Rx.seq (Rx.opt (Rx.chr '-')) (Rx.plus Rx.dig)).M (intText z ++ t) t [] := by
  unfold intText
  split_ifs
  · exact Rx.seq_mk0 (Rx.opt_some (Rx.chr_M.2 ⟨rfl, rfl⟩)) (Rx.plus_cls.2 ⟨rfl, _, rfl, digits_ne _, digits_isDigit _⟩)
  · exact Rx.seq_mk0 (Rx.opt_none _ _) (Rx.plus_cls.2 ⟨rfl, _, rfl, digits_ne _, digits_isDigit _⟩)

/-! ## Edges -/

open Classical in
/-- The edge that is read. -/
noncomputable def textE (fl : ℝ → ℝ) (T : ℝ) : Option (Int × Cx ℝ) → Option (Int × Cx ℝ)
  | none => none
  | some (z, w) => if |w.re| ≤ T ∧ |w.im| ≤ T then none else some (z, textW fl T 16 w)

theorem textE_read (fl : ℝ → ℝ) (T : ℝ) (e : Option (Int × Cx ℝ)) : EdgeRead fl T e (textE fl T e) := by
  rcases e with _ | ⟨z, w⟩
  · rfl
  · exact ⟨fun h => if_pos h, fun h => ⟨textW fl T 16 w, if_neg h, textW_read (by norm_num) w⟩⟩

/-- Nothing between the parentheses. -/
theorem edge_empty {k : Nat} {t u : List Char} {c : Caps} : (Rx.edge k).M (' ' :: '(' :: ')' :: t) u c ↔ u = t ∧ c = [] := by
  constructor
  · rintro ⟨s1, c1, c2, h1, ⟨s2, c3, c4, h2, ⟨s3, c5, c6, h3, h4, rfl⟩, rfl⟩, rfl⟩
    obtain ⟨e1, rfl⟩ := Rx.chr_M.1 h1
    obtain ⟨-, rfl⟩ := List.cons.inj e1
    obtain ⟨e2, rfl⟩ := Rx.chr_M.1 h2
    obtain ⟨-, rfl⟩ := List.cons.inj e2
    obtain ⟨rfl, rfl⟩ := Rx.chr_M.1 h4
    rcases h3 with ⟨w, c7, e, h, rfl⟩ | ⟨e, rfl⟩
    · exfalso
      obtain ⟨s4, c8, c9, ⟨w', c10, e', h', -⟩, -⟩ := h
      obtain ⟨w1, e1, f⟩ := h'.fits
      cases w1 with
      | nil => exact absurd (f.nul rfl) (by decide)
      | cons a w1 =>
        obtain ⟨rfl, -⟩ := List.cons.inj e1
        exact absurd (f.fst _ _ rfl) (by decide)
    · obtain ⟨-, rfl⟩ := List.cons.inj e
      exact ⟨rfl, rfl⟩
  · rintro ⟨rfl, rfl⟩
    exact Rx.seq_mk0 (Rx.chr_M.2 ⟨rfl, rfl⟩) (Rx.seq_mk0 (Rx.chr_M.2 ⟨rfl, rfl⟩) (Rx.seq_mk0 (Rx.opt_none _ _) (Rx.chr_M.2 ⟨rfl, rfl⟩)))

/-- Edge with a target and a weight. -/
theorem edge_full {T : ℝ} (hT : 0 ≤ T) {z : Int} {w : Cx ℝ} {k : Nat} {t u : List Char} {c : Caps} :
    (Rx.edge k).M (' ' :: '(' :: (intText z ++ ' ' :: weightText T 16 w ++ [')']) ++ t) u c ↔
      u = t ∧ ∃ d, (Rx.weight (k + 3)).M (weightText T 16 w ++ ')' :: t) (')' :: t) d ∧
        c = (k, intText z ++ ' ' :: weightText T 16 w) :: (k + 1, intText z) :: (k + 2, weightText T 16 w) :: d := by
  have hz : ∀ a ∈ intText z, a.isDigit = true ∨ a = '-' := intText_chars z
  have hw := weightText_chars hT 16 w
  have n1 : ' ' ∉ intText z := fun h => by rcases hz _ h with h | h <;> revert h <;> decide
  have n2 : ')' ∉ intText z ++ ' ' :: weightText T 16 w := by
    intro h
    rcases List.mem_append.1 h with h | h
    · rcases hz _ h with h | h <;> revert h <;> decide
    · rcases List.mem_cons.1 h with h | h
      · revert h; decide
      · rcases hw _ h with h | h | h | h | h | h <;> revert h <;> decide
  have et : ' ' :: '(' :: (intText z ++ ' ' :: weightText T 16 w ++ [')']) ++ t
      = ' ' :: '(' :: (intText z ++ ' ' :: (weightText T 16 w ++ ')' :: t)) := by simp
  rw [et]
  constructor
  · rintro ⟨s1, c1, c2, h1, ⟨s2, c3, c4, h2, ⟨s3, c5, c6, h3, h4, rfl⟩, rfl⟩, rfl⟩
    obtain ⟨e1, rfl⟩ := Rx.chr_M.1 h1
    obtain ⟨-, rfl⟩ := List.cons.inj e1
    obtain ⟨e2, rfl⟩ := Rx.chr_M.1 h2
    obtain ⟨-, rfl⟩ := List.cons.inj e2
    obtain ⟨rfl, rfl⟩ := Rx.chr_M.1 h4
    rcases h3 with h3 | ⟨e, rfl⟩
    · have hs := Rx.M.stop' h3 (by rfl) (w := intText z ++ ' ' :: weightText T 16 w) (t := t) n2 (by simp)
      subst hs
      obtain ⟨v, c7, e, ⟨s4, c8, c9, h5, ⟨s5, c10, c11, h6, h7, rfl⟩, rfl⟩, rfl⟩ := h3
      obtain ⟨rfl, rfl⟩ := Rx.chr_M.1 h6
      have hs := Rx.M.stop (x := ' ') (by rfl) n1 h5
      subst hs
      obtain ⟨v1, c12, e5, h8, rfl⟩ := h5
      obtain ⟨v2, c13, e7, h9, rfl⟩ := h7
      have : c12 = [] := Rx.M.nocap (by rfl) h8
      subst this
      have e5 := List.append_cancel_right e5
      have e7' := List.append_cancel_right e7
      have e : (intText z ++ ' ' :: weightText T 16 w) ++ (')' :: u) = v ++ (')' :: u) := by simpa using e
      have e := List.append_cancel_right e
      subst e5 e e7'
      refine ⟨rfl, c13, h9, by simp⟩
    · exfalso
      obtain ⟨a, l, hl⟩ := List.exists_cons_of_ne_nil (intText_ne z)
      rw [hl] at e
      have := List.cons.inj e
      have ha := hz a (by simp [hl])
      rw [this.1] at ha
      revert ha; decide
  · rintro ⟨rfl, d, hd, rfl⟩
    refine ⟨_, [], _, Rx.chr_M.2 ⟨rfl, rfl⟩, ⟨_, [], _, Rx.chr_M.2 ⟨rfl, rfl⟩, ⟨')' :: u, _, [], Rx.opt_some ⟨intText z ++ ' ' :: weightText T 16 w, _, ?_, ⟨_, _, _,
      ⟨intText z, [], rfl, int_M z _, rfl⟩, ⟨_, [], _, Rx.chr_M.2 ⟨rfl, rfl⟩, ⟨weightText T 16 w, d, rfl, hd, rfl⟩, rfl⟩, rfl⟩, rfl⟩,
      Rx.chr_M.2 ⟨rfl, rfl⟩, rfl⟩, rfl⟩, ?_⟩
    · simp
    · simp

/-- Reading a written edge. -/
theorem edge_text (fl : ℝ → ℝ) (h0 : fl 0 = 0) {T : ℝ} (hT : 0 ≤ T) (e : Option (Int × Cx ℝ))
    (he : ∀ z w, e = some (z, w) → -1 ≤ z ∧ z < 2 ^ 31) (k : Nat) (t : List Char) :
    (∃ c, (Rx.edge k).M (edgeText T e ++ t) t c) ∧
    ∀ u c, (Rx.edge k).M (edgeText T e ++ t) u c → u = t ∧ (∀ x ∈ c, k ≤ x.1 ∧ x.1 < k + 5) ∧ readEdge fl c k = some (textE fl T e) := by
  rcases e with _ | ⟨z, w⟩
  · refine ⟨⟨_, edge_empty.2 ⟨rfl, rfl⟩⟩, fun u c h => ?_⟩
    obtain ⟨rfl, rfl⟩ := edge_empty.1 h
    exact ⟨rfl, by simp, rfl⟩
  · unfold edgeText textE
    dsimp only
    by_cases hz : |w.re| ≤ T ∧ |w.im| ≤ T
    · rw [if_pos hz, if_pos hz]
      refine ⟨⟨_, edge_empty.2 ⟨rfl, rfl⟩⟩, fun u c h => ?_⟩
      obtain ⟨rfl, rfl⟩ := edge_empty.1 h
      exact ⟨rfl, by simp, rfl⟩
    · rw [if_neg hz, if_neg hz]
      obtain ⟨⟨c, hc⟩, hr⟩ := weight_text fl h0 hT 16 w (k := k + 3) (t := ')' :: t) (Or.inr ⟨t, rfl⟩)
      refine ⟨⟨_, (edge_full hT).2 ⟨rfl, c, hc, rfl⟩⟩, fun u c h => ?_⟩
      obtain ⟨rfl, d, hd, rfl⟩ := (edge_full hT).1 h
      obtain ⟨k1, k2⟩ := hr d hd
      refine ⟨rfl, ?_, ?_⟩
      · intro x hx
        simp only [List.mem_cons] at hx
        rcases hx with rfl | rfl | rfl | hx
        · exact ⟨le_rfl, by dsimp only; omega⟩
        · exact ⟨by dsimp only; omega, by dsimp only; omega⟩
        · exact ⟨by dsimp only; omega, by dsimp only; omega⟩
        · have := k1 x hx
          omega
      · obtain ⟨z1, z2⟩ := he z w rfl
        unfold readEdge
        rw [str_cons_eq, if_neg (by simp), str_cons_ne (by omega), str_cons_eq, stoi_int (by omega) z2, str_cons_ne (by omega),
          str_cons_ne (by omega), str_cons_ne (by omega), str_cons_ne (by omega), str_cons_ne (by omega), str_cons_ne (by omega), k2]

theorem readEdge_congr (fl : ℝ → ℝ) {c d : Caps} {j k : Nat} (h0 : c.str j = d.str k) (h1 : c.str (j + 1) = d.str (k + 1))
    (h3 : c.str (j + 3) = d.str (k + 3)) (h4 : c.str (j + 4) = d.str (k + 4)) : readEdge fl c j = readEdge fl d k := by
  unfold readEdge
  simp only [h0, h1, h3, h4]

/-- Reading the edges of a line. -/
theorem edges_text (fl : ℝ → ℝ) (h0 : fl 0 = 0) {T : ℝ} (hT : 0 ≤ T) (n : Nat) : ∀ (e : Fin n → Option (Int × Cx ℝ))
    (_ : ∀ i z w, e i = some (z, w) → -1 ≤ z ∧ z < 2 ^ 31) (k : Nat),
    (∃ c, (Rx.edges n k).M (List.ofFn fun i => edgeText T (e i)).flatten [] c) ∧
    ∀ c, (Rx.edges n k).M (List.ofFn fun i => edgeText T (e i)).flatten [] c → (∀ x ∈ c, k ≤ x.1) ∧
      ∀ j : Fin n, readEdge fl c (k + 5 * j) = some (textE fl T (e j)) := by
  induction n with
  | zero =>
    intro e _ k
    refine ⟨⟨[], Rx.seq_mk0 (.nil _) (Rx.opt_none _ _)⟩, fun c h => ?_⟩
    have : c = [] := Rx.M.nocap (by rfl) h
    subst this
    exact ⟨by simp, fun j => j.elim0⟩
  | succ n ih =>
    intro e he k
    rw [List.ofFn_succ, List.flatten_cons]
    obtain ⟨⟨c1, x1⟩, u1⟩ := edge_text fl h0 hT (e 0) (he 0) k (List.ofFn fun i : Fin n => edgeText T (e i.succ)).flatten
    obtain ⟨⟨c2, x2⟩, u2⟩ := ih (fun i => e i.succ) (fun i => he i.succ) (k + 5)
    refine ⟨⟨_, Rx.seq_mk x1 x2⟩, ?_⟩
    rintro c ⟨u, d1, d2, m1, m2, rfl⟩
    obtain ⟨rfl, q1, q2⟩ := u1 u d1 m1
    obtain ⟨r1, r2⟩ := u2 d2 m2
    have left : ∀ j, j < k + 5 → Caps.str (d1 ++ d2) j = Caps.str d1 j := fun j hj =>
      str_append_left fun x hx => by have := r1 x hx; omega
    have right : ∀ j, k + 5 ≤ j → Caps.str (d1 ++ d2) j = Caps.str d2 j := fun j hj =>
      str_append_right fun x hx => by have := q1 x hx; omega
    refine ⟨?_, ?_⟩
    · intro x hx
      rcases List.mem_append.1 hx with h | h
      · exact (q1 x h).1
      · have := r1 x h; omega
    · intro j
      refine Fin.cases ?_ (fun j => ?_) j
      · rw [← q2]
        exact readEdge_congr fl (left k (by omega)) (left (k + 1) (by omega)) (left (k + 3) (by omega)) (left (k + 4) (by omega))
      · rw [← r2 j]
        have ek : k + 5 * ((j.succ : Fin (n + 1)) : Nat) = k + 5 + 5 * (j : Nat) := by rw [Fin.val_succ]; ring
        rw [ek]
        exact readEdge_congr fl (right _ (by omega)) (right _ (by omega)) (right _ (by omega)) (right _ (by omega))

/-! ## Lines -/

/-- The record that is read. -/
noncomputable def textR {n : Nat} (fl : ℝ → ℝ) (T : ℝ) (r : Rec ℝ n) : Rec ℝ n := ⟨r.idx, r.v, fun i => textE fl T (r.e i)⟩

theorem textR_read {n : Nat} (fl : ℝ → ℝ) (T : ℝ) (r : Rec ℝ n) : RecRead fl T r (textR fl T r) := ⟨rfl, rfl, fun i => textE_read fl T (r.e i)⟩

theorem edgesText_head {T : ℝ} {n : Nat} (e : Fin n → Option (Int × Cx ℝ)) :
    n = 0 ∨ ∃ s, (List.ofFn fun i => edgeText T (e i)).flatten = ' ' :: s := by
  cases n with
  | zero => exact Or.inl rfl
  | succ n =>
    right
    rw [List.ofFn_succ, List.flatten_cons]
    rcases e 0 with _ | ⟨z, w⟩
    · exact ⟨_, rfl⟩
    · simp only [edgeText]
      split_ifs
      · exact ⟨_, rfl⟩
      · exact ⟨_, rfl⟩

/-- Reading a written line (`n ≥ 1`). -/
theorem line_text (fl : ℝ → ℝ) (h0 : fl 0 = 0) {T : ℝ} (hT : 0 ≤ T) {n : Nat} (hn : n ≠ 0) {r : Rec ℝ n} (hr : r.InRange) :
    (∃ c, (Rx.line n).Match (lineText T r) c) ∧ ∀ c, (Rx.line n).Match (lineText T r) c → readRec fl n c = some (textR fl T r) := by
  obtain ⟨i0, i1, hv, he⟩ := hr
  obtain ⟨⟨c, x⟩, u⟩ := edges_text fl h0 hT n r.e he 3
  obtain ⟨E, hE⟩ := (edgesText_head (T := T) r.e).resolve_left hn
  obtain ⟨i, hi⟩ := Int.eq_ofNat_of_zero_le i0
  have hidx : intText r.idx = digits i := by rw [hi]; exact intText_nat i
  unfold lineText
  rw [hidx, intText_nat]
  have nd : ∀ m : Nat, ' ' ∉ digits m := fun m h => absurd (digits_isDigit m _ h) (by decide)
  constructor
  · refine ⟨(1, digits i) :: (2, digits r.v) :: c, _, [(1, digits i)], (2, digits r.v) :: c,
      ⟨digits i, [], by rw [List.append_assoc]; rfl, Rx.plus_cls.2 ⟨rfl, digits i, by rw [List.append_assoc]; rfl, digits_ne _, digits_isDigit _⟩, rfl⟩,
      ⟨_, [], (2, digits r.v) :: c, Rx.chr_M.2 ⟨rfl, rfl⟩, ⟨_, [(2, digits r.v)], c,
        ⟨digits r.v, [], rfl, Rx.plus_cls.2 ⟨rfl, _, rfl, digits_ne _, digits_isDigit _⟩, rfl⟩, x, rfl⟩, rfl⟩, rfl⟩
  · rintro c ⟨s1, c1, c2, h1, ⟨s2, c3, c4, h2, ⟨s3, c5, c6, h3, h4, rfl⟩, rfl⟩, rfl⟩
    obtain ⟨rfl, rfl⟩ := Rx.chr_M.1 h2
    have hs := Rx.M.stop' h1 (by rfl) (w := digits i) (t := digits r.v ++ (List.ofFn fun i => edgeText T (r.e i)).flatten) (nd i) (by simp)
    subst hs
    obtain ⟨v1, c7, e1, h5, rfl⟩ := h1
    have e1 : digits i = v1 := by
      have : digits i ++ (' ' :: (digits r.v ++ (List.ofFn fun i => edgeText T (r.e i)).flatten)) = v1 ++ (' ' :: (digits r.v ++ (List.ofFn fun i => edgeText T (r.e i)).flatten)) := by
        simpa using e1
      exact List.append_cancel_right this
    subst e1
    have : c7 = [] := Rx.M.nocap (by rfl) h5
    subst this
    have h3' : ∃ E', s3 = ' ' :: E' := by
      cases n with
      | zero => exact absurd rfl hn
      | succ n =>
        obtain ⟨u1, d1, d2, ⟨u2, d3, d4, m1, -⟩, -⟩ := h4
        exact ⟨u2, (Rx.chr_M.1 m1).1⟩
    obtain ⟨E', rfl⟩ := h3'
    rw [hE] at h3
    have hs := Rx.M.stop (x := ' ') (by rfl) (w := digits r.v) (t := E) (nd _) h3
    subst hs
    obtain ⟨v2, c8, e2, h6, rfl⟩ := h3
    have e2 := List.append_cancel_right e2
    subst e2
    have : c8 = [] := Rx.M.nocap (by rfl) h6
    subst this
    rw [← hE] at h4
    obtain ⟨q1, q2⟩ := u c6 h4
    have es : ∀ k, 3 ≤ k → Caps.str ([(1, digits i)] ++ ([] ++ ([(2, digits r.v)] ++ c6))) k = Caps.str c6 k := by
      intro k hk
      rw [List.nil_append, List.singleton_append, List.singleton_append, str_cons_ne (by omega), str_cons_ne (by omega)]
    have ee : ∀ j : Fin n, readEdge fl ([(1, digits i)] ++ ([] ++ ([(2, digits r.v)] ++ c6))) (3 + 5 * j) = some (textE fl T (r.e j)) := by
      intro j
      rw [← q2 j]
      exact readEdge_congr fl (es _ (by omega)) (es _ (by omega)) (es _ (by omega)) (es _ (by omega))
    have e1 : stoi (Caps.str ([(1, digits i)] ++ ([] ++ ([(2, digits r.v)] ++ c6))) 1) = some (i : Int) := by
      rw [List.singleton_append, str_cons_eq, ← intText_nat]
      exact stoi_int (by omega) (by omega)
    have e2 : stoi (Caps.str ([(1, digits i)] ++ ([] ++ ([(2, digits r.v)] ++ c6))) 2) = some (r.v : Int) := by
      rw [List.nil_append, List.singleton_append, List.singleton_append, str_cons_ne (by omega), str_cons_eq, ← intText_nat]
      exact stoi_int (by omega) (by omega)
    unfold readRec
    have e1' := e1
    simp only [e1, e2, ee]
    rw [if_pos ⟨fun _ => rfl, by exact_mod_cast hv⟩]
    simp only [textR, hi, Int.toNat_natCast, Option.getD_some]

theorem line_chars {T : ℝ} (hT : 0 ≤ T) {n : Nat} (r : Rec ℝ n) : '\n' ∉ lineText T r := by
  have hz : ∀ z : Int, '\n' ∉ intText z := fun z h => by rcases intText_chars z _ h with h | h <;> revert h <;> decide
  have hw : ∀ w : Cx ℝ, '\n' ∉ weightText T 16 w := fun w h => by
    rcases weightText_chars hT 16 w _ h with h | h | h | h | h | h <;> revert h <;> decide
  unfold lineText
  intro h
  simp only [List.mem_append, List.mem_cons, List.mem_flatten, List.mem_ofFn] at h
  rcases h with (h | h | h) | ⟨l, ⟨i, rfl⟩, h⟩
  · exact hz _ h
  · revert h; decide
  · exact hz _ h
  · generalize r.e i = x at h
    rcases x with _ | ⟨z, w⟩
    · revert h; simp [edgeText]
    · simp only [edgeText] at h
      split_ifs at h
      · revert h; simp
      · simp only [List.mem_append, List.mem_cons] at h
        rcases h with h | h | (h | h | h) | h | h
        · revert h; decide
        · revert h; decide
        · exact hz _ h
        · revert h; decide
        · exact hw _ h
        · revert h; decide
        · cases h

theorem getline_eq {l s : List Char} (hl : '\n' ∉ l) : getline (l ++ '\n' :: s) = some (l, s) := by
  have key : (l ++ '\n' :: s).takeWhile (· != '\n') = l ∧ (l ++ '\n' :: s).dropWhile (· != '\n') = '\n' :: s := by
    induction l with
    | nil => simp
    | cons a l ih =>
      have h1 : a ≠ '\n' := fun h => hl (by simp [h])
      obtain ⟨i1, i2⟩ := ih fun h => hl (by simp [h])
      simp [h1, i1, i2]
  have h2 : l ++ '\n' :: s ≠ [] := by simp
  obtain ⟨a, t, e⟩ := List.exists_cons_of_ne_nil h2
  have : getline (l ++ '\n' :: s) = some ((l ++ '\n' :: s).takeWhile (· != '\n'), ((l ++ '\n' :: s).dropWhile (· != '\n')).drop 1) := by
    rw [e]; rfl
  rw [this, key.1, key.2]
  rfl

theorem line_length {T : ℝ} {n : Nat} (r : Rec ℝ n) : 1 < (lineText T r).length := by
  unfold lineText
  have := List.length_pos_iff.2 (intText_ne r.idx)
  simp only [List.length_append, List.length_cons]
  omega

theorem lines_text (fl : ℝ → ℝ) (h0 : fl 0 = 0) {T : ℝ} (hT : 0 ≤ T) {n : Nat} (hn : n ≠ 0) (recs : List (Rec ℝ n)) (hr : ∀ r ∈ recs, r.InRange)
    (rs : List (Rec ℝ n)) : ReadsLines fl n (recs.map fun r => lineText T r ++ ['\n']).flatten rs ↔ rs = recs.map (textR fl T) := by
  induction recs generalizing rs with
  | nil =>
    constructor
    · intro h
      cases h with
      | eof _ => rfl
      | skip h => cases h
      | line h => cases h
    · rintro rfl; exact .eof rfl
  | cons r recs ih =>
    have ih := ih fun r hr' => hr r (by simp [hr'])
    obtain ⟨⟨c, hc⟩, hu⟩ := line_text fl h0 hT hn (hr r (by simp))
    have hg : getline ((r :: recs).map fun r => lineText T r ++ ['\n']).flatten
        = some (lineText T r, (recs.map fun r => lineText T r ++ ['\n']).flatten) := by
      rw [List.map_cons, List.flatten_cons, List.append_assoc, List.singleton_append]
      exact getline_eq (line_chars hT r)
    constructor
    · intro h
      cases h with
      | eof h => rw [hg] at h; cases h
      | skip h h' _ =>
        rw [hg] at h
        simp only [Option.some.injEq, Prod.mk.injEq] at h
        obtain ⟨rfl, rfl⟩ := h
        have := line_length (T := T) r
        omega
      | line h _ hm hrr hrest =>
        rw [hg] at h
        simp only [Option.some.injEq, Prod.mk.injEq] at h
        obtain ⟨rfl, rfl⟩ := h
        rw [hu _ hm] at hrr
        rw [(ih _).1 hrest, ← Option.some.inj hrr]
        rfl
    · rintro rfl
      exact .line hg (line_length r) hc (hu c hc) ((ih _).2 rfl)

/-- Reading a whole file. -/
theorem file_text (fl : ℝ → ℝ) (h0 : fl 0 = 0) {T : ℝ} (hT : 0 ≤ T) {n : Nat} (hn : n ≠ 0) (p : Nat) (w : Cx ℝ) (recs : List (Rec ℝ n))
    (hr : ∀ r ∈ recs, r.InRange) (w' : Cx ℝ) (rs : List (Rec ℝ n)) :
    ReadsText fl n (fileText T p w recs) w' rs ↔ w' = textW fl T p w ∧ rs = recs.map (textR fl T) := by
  have hw : '\n' ∉ weightText T p w := fun h => by
    rcases weightText_chars hT p w _ h with h | h | h | h | h | h <;> revert h <;> decide
  have hg1 : getline (fileText T p w recs)
      = some (digits serializationVersion, weightText T p w ++ '\n' :: (recs.map fun r => lineText T r ++ ['\n']).flatten) := by
    unfold fileText
    have := getline_eq (l := digits serializationVersion) (s := weightText T p w ++ '\n' :: (recs.map fun r => lineText T r ++ ['\n']).flatten) (by decide)
    simpa using this
  have hg2 := getline_eq (s := (recs.map fun r => lineText T r ++ ['\n']).flatten) hw
  have hv : stoi (digits serializationVersion) = some (serializationVersion : Int) := by
    rw [← intText_nat]; exact stoi_int (by decide) (by decide)
  obtain ⟨⟨c, hc⟩, hu⟩ := weight_text fl h0 hT p w (k := 1) (t := []) (Or.inl rfl)
  rw [List.append_nil] at hc hu
  constructor
  · intro h
    cases h with
    | short h _ h' =>
      rw [hg1] at h
      simp only [Option.some.injEq, Prod.mk.injEq] at h
      obtain ⟨-, rfl⟩ := h
      rw [hg2] at h'
      cases h'
    | root h _ h' hm hf hl =>
      rw [hg1] at h
      simp only [Option.some.injEq, Prod.mk.injEq] at h
      obtain ⟨-, rfl⟩ := h
      rw [hg2] at h'
      simp only [Option.some.injEq, Prod.mk.injEq] at h'
      obtain ⟨rfl, rfl⟩ := h'
      have := (hu _ hm).2
      rw [hf] at this
      exact ⟨Option.some.inj this, (lines_text fl h0 hT hn recs hr rs).1 hl⟩
  · rintro ⟨rfl, rfl⟩
    exact .root hg1 hv hg2 hc (hu c hc).2 ((lines_text fl h0 hT hn recs hr _).2 rfl)

end DD
