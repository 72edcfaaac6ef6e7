import Verif.Proofs.Regex

/-! # Text: a written weight can be matched, and in one way only -/

namespace DD

/-- Digits everywhere where there should be digits. -/
structure Dec.Ok (d : Dec) : Prop where
  ip0 : d.ip ≠ []
  ip : ∀ a ∈ d.ip, a.isDigit = true
  fp : ∀ a ∈ d.fp, a.isDigit = true
  ex0 : ∀ n ds, d.ex = some (n, ds) → ds ≠ []
  ex : ∀ n ds, d.ex = some (n, ds) → ∀ a ∈ ds, a.isDigit = true

namespace Dec

/-- The digits and the point. -/
def mant (d : Dec) : List Char := d.ip ++ (if d.fp = [] then [] else '.' :: d.fp)
/-- The exponent. -/
def expo (d : Dec) : List Char := match d.ex with
  | none => []
  | some (n, ds) => 'e' :: (if n then '-' else '+') :: ds
/-- The sign. -/
def sgn (d : Dec) : List Char := if d.neg then ['-'] else []

theorem text_eq (d : Dec) : d.text = d.sgn ++ (d.mant ++ d.expo) := by
  simp only [text, sgn, mant, expo, List.append_assoc]
  rfl

end Dec

theorem beq_dig {x a : Char} (hx : x.isDigit = true) (ha : a.isDigit = false) : (x == a) = false := by
  rw [beq_eq_false_iff_ne]; rintro rfl; rw [hx] at ha; cases ha

namespace Rx

theorem num_dec {d : Dec} (hd : d.Ok) (t : List Char) : num.M ((d.mant ++ d.expo) ++ t) t [] := by
  rw [List.append_assoc]
  refine seq_mk0 (u := d.expo ++ t) (Or.inl ?_) ?_
  · unfold Dec.mant
    rw [List.append_assoc]
    refine seq_mk0 (u := (if d.fp = [] then [] else '.' :: d.fp) ++ (d.expo ++ t)) (plus_cls.2 ⟨rfl, d.ip, rfl, hd.ip0, hd.ip⟩) ?_
    split_ifs with h
    · exact opt_none _ _
    · exact opt_some (seq_mk0 (chr_M.2 ⟨rfl, rfl⟩) (star_cls.2 ⟨rfl, d.fp, rfl, hd.fp⟩))
  · unfold Dec.expo
    rcases he : d.ex with _ | ⟨n, ds⟩
    · exact opt_none _ _
    · refine opt_some (seq_mk0 (u := (if n then '-' else '+') :: (ds ++ t)) ⟨'e', rfl, by simp, rfl⟩ (seq_mk0 (u := ds ++ t) (opt_some ?_) ?_))
      · exact ⟨_, rfl, by cases n <;> simp, rfl⟩
      · exact plus_cls.2 ⟨rfl, ds, rfl, hd.ex0 n ds he, hd.ex n ds he⟩

/-- The inner part of `real`. -/
def realIn : Rx := .seq (opt Rx.sgn) (.seq num (.nla ahead))
/-- The inner part of `imag`. -/
def imagIn : Rx := .seq (opt (chr ' ')) (.seq (opt Rx.sgn) (.seq (opt (chr ' ')) (.seq (opt num) ii)))

theorem realIn_prs {x y : Char} (hx : x.isDigit = true) (hy : y = '+' ∨ y = '-') : realIn.prs x y = false := by
  have e1 := beq_dig hx (a := '+') (by decide)
  have e2 := beq_dig hx (a := '-') (by decide)
  have e3 := beq_dig hx (a := 'e') (by decide)
  have e4 := beq_dig hx (a := 'E') (by decide)
  have e5 := beq_dig hx (a := '.') (by decide)
  rcases hy with rfl | rfl <;>
    simp [realIn, prs, fst, lst, nul, opt, Rx.sgn, num, plus, dig, chr, ee, e1, e2, e3, e4, e5]

theorem imagIn_prs {x y : Char} (hx : x.isDigit = true) (hy : y = '+' ∨ y = '-') : imagIn.prs x y = false := by
  have e1 := beq_dig hx (a := '+') (by decide)
  have e2 := beq_dig hx (a := '-') (by decide)
  have e3 := beq_dig hx (a := 'e') (by decide)
  have e4 := beq_dig hx (a := 'E') (by decide)
  have e5 := beq_dig hx (a := '.') (by decide)
  have e7 := beq_dig hx (a := 'I') (by decide)
  have e8 := beq_dig hx (a := ' ') (by decide)
  rcases hy with rfl | rfl <;>
    simp [imagIn, prs, fst, lst, nul, opt, Rx.sgn, num, plus, dig, chr, ee, ii, e1, e2, e3, e4, e5, e7, e8]

theorem realIn_lst {x : Char} (h : realIn.lst x = true) : x.isDigit = true ∨ x = '.' := by
  revert h
  simp only [realIn, lst, nul, opt, Rx.sgn, num, plus, dig, chr, ee, Bool.or_eq_true, Bool.and_eq_true, beq_iff_eq]
  simp
  tauto

theorem imagIn_lst {x : Char} (h : imagIn.lst x = true) : x = 'i' ∨ x = 'I' := by
  revert h
  simp only [imagIn, lst, nul, opt, Rx.sgn, num, plus, dig, chr, ee, ii, Bool.or_eq_true, Bool.and_eq_true, beq_iff_eq]
  simp

theorem real_inv {k : Nat} {s u : List Char} {c : Caps} (h : (real k).M s u c) :
    (u = s ∧ c = []) ∨ ∃ A, s = A ++ u ∧ c = [(k, A)] ∧ A ≠ [] ∧ Fits realIn.nul realIn.fst realIn.lst realIn.chs realIn.prs A ∧
      ¬ ∃ v d, ahead.M u v d := by
  rcases h with ⟨A, c1, rfl, h, rfl⟩ | ⟨rfl, rfl⟩
  · right
    have hc : c1 = [] := M.nocap (by rfl) h
    subst hc
    obtain ⟨w, e, f⟩ := M.fits h
    have := List.append_cancel_right e
    subst this
    refine ⟨A, rfl, rfl, ?_, f, ?_⟩
    · rintro rfl
      have := f.nul rfl
      exact absurd this (by decide)
    · obtain ⟨u1, c1, c2, -, ⟨u2, c3, c4, -, ⟨rfl, -, h⟩, -⟩, -⟩ := h
      exact h
  · left; exact ⟨rfl, rfl⟩

theorem imag_inv {k : Nat} {s u : List Char} {c : Caps} (h : (imag k).M s u c) :
    (u = s ∧ c = []) ∨ ∃ B, s = B ++ u ∧ c = [(k, B)] ∧ B ≠ [] ∧ Fits imagIn.nul imagIn.fst imagIn.lst imagIn.chs imagIn.prs B := by
  rcases h with ⟨A, c1, rfl, h, rfl⟩ | ⟨rfl, rfl⟩
  · right
    have hc : c1 = [] := M.nocap (by rfl) h
    subst hc
    obtain ⟨w, e, f⟩ := M.fits h
    have := List.append_cancel_right e
    subst this
    refine ⟨A, rfl, rfl, ?_, f⟩
    rintro rfl
    have := f.nul rfl
    exact absurd this (by decide)
  · left; exact ⟨rfl, rfl⟩

/-- What follows a weight: nothing, or a closing parenthesis. -/
def End (t : List Char) : Prop := t = [] ∨ ∃ t', t = ')' :: t'

/-- Nothing an imaginary part could start with follows. -/
theorem not_ahead {t : List Char} (ht : ∀ a ∈ t.head?, a = ')' ∨ a = '+' ∨ a = '-') : ¬ ∃ v d, ahead.M t v d := by
  rintro ⟨v, d, h⟩
  obtain ⟨w, rfl, f⟩ := h.fits
  cases w with
  | nil => exact absurd (f.nul rfl) (by decide)
  | cons a w =>
    have h1 := f.fst a w rfl
    rcases ht a (by simp) with rfl | rfl | rfl <;> exact absurd h1 (by decide)

theorem mant_last {d : Dec} (hd : d.Ok) : ∃ u x, d.mant = u ++ [x] ∧ x.isDigit = true := by
  unfold Dec.mant
  split_ifs with h
  · rcases List.eq_nil_or_concat d.ip with h1 | ⟨u, x, h1⟩
    · exact absurd h1 hd.ip0
    · rw [List.concat_eq_append] at h1
      exact ⟨u, x, by simp [h1], hd.ip x (by simp [h1])⟩
  · rcases List.eq_nil_or_concat d.fp with h1 | ⟨u, x, h1⟩
    · exact absurd h1 h
    · rw [List.concat_eq_append] at h1
      exact ⟨d.ip ++ '.' :: u, x, by simp [h1], hd.fp x (by simp [h1])⟩

theorem text_last {d : Dec} (hd : d.Ok) : ∃ u x, d.text = u ++ [x] ∧ x.isDigit = true := by
  rw [d.text_eq]
  unfold Dec.expo
  rcases he : d.ex with _ | ⟨n, ds⟩
  · obtain ⟨u, x, h, hx⟩ := mant_last hd
    exact ⟨d.sgn ++ u, x, by simp [h], hx⟩
  · rcases List.eq_nil_or_concat ds with h1 | ⟨u, x, h1⟩
    · exact absurd h1 (hd.ex0 n ds he)
    · rw [List.concat_eq_append] at h1
      exact ⟨d.sgn ++ (d.mant ++ 'e' :: (if n then '-' else '+') :: u), x, by simp [h1], hd.ex n ds he x (by simp [h1])⟩

theorem mant_chars {d : Dec} (hd : d.Ok) : ∀ a ∈ d.mant, a.isDigit = true ∨ a = '.' := by
  intro a ha
  unfold Dec.mant at ha
  rcases List.mem_append.1 ha with h | h
  · exact Or.inl (hd.ip a h)
  · split_ifs at h with h0
    · cases h
    · rcases List.mem_cons.1 h with h | h
      · exact Or.inr h
      · exact Or.inl (hd.fp a h)

theorem text_chars {d : Dec} (hd : d.Ok) : ∀ a ∈ d.text, a.isDigit = true ∨ a = '.' ∨ a = 'e' ∨ a = '-' ∨ a = '+' := by
  intro a ha
  rw [d.text_eq] at ha
  rcases List.mem_append.1 ha with h | h
  · unfold Dec.sgn at h
    split_ifs at h
    · simp at h; tauto
    · cases h
  · rcases List.mem_append.1 h with h | h
    · have := mant_chars hd a h
      tauto
    · unfold Dec.expo at h
      rcases he : d.ex with _ | ⟨n, ds⟩
      · rw [he] at h; cases h
      · rw [he] at h
        rcases List.mem_cons.1 h with h | h
        · tauto
        · rcases List.mem_cons.1 h with h | h
          · cases n <;> simp at h <;> tauto
          · exact Or.inl (hd.ex n ds he a h)

theorem text_ne {d : Dec} (hd : d.Ok) : d.text ≠ [] := by
  obtain ⟨u, x, h, -⟩ := text_last hd
  rw [h]; simp

/-- The rest of a number after a digit or the point, followed by `i`, is recognised by `ahead`. -/
theorem ahead_rest {d : Dec} (hd : d.Ok) {A X : List Char} (h : d.text = A ++ X) {u : List Char} {x : Char} (hA : A = u ++ [x])
    (hx : x.isDigit = true ∨ x = '.') (t : List Char) : ahead.M (X ++ 'i' :: t) t [] := by
  have fin : ∀ Y : List Char, (∀ a ∈ Y, a.isDigit = true) → (Rx.seq (star dig) ii).M (Y ++ 'i' :: t) t [] := fun Y hY =>
    seq_mk0 (u := 'i' :: t) (star_cls.2 ⟨rfl, Y, rfl, hY⟩) ⟨'i', rfl, by simp, rfl⟩
  have cl : ∀ Y Z : List Char, (∀ a ∈ Y, a.isDigit = true ∨ a = '.') → (star (.cls fun a => a == ' ' || a.isDigit || a == '.')).M (Y ++ Z) Z [] :=
    fun Y Z hY => star_cls.2 ⟨rfl, Y, rfl, fun a ha => by rcases hY a ha with h | h <;> simp [h]⟩
  rw [d.text_eq, ← List.append_assoc] at h
  rcases List.append_eq_append_iff.1 h with ⟨Y, hY, hE⟩ | ⟨Y, hY, hE⟩
  · -- the number is cut in the exponent
    unfold Dec.expo at hE
    rcases he : d.ex with _ | ⟨n, ds⟩
    · rw [he] at hE
      obtain ⟨rfl, rfl⟩ := List.append_eq_nil_iff.1 hE.symm
      exact seq_mk0 (cl [] _ (by simp)) (seq_mk0 (opt_none _ _) (fin [] (by simp)))
    · rw [he] at hE
      simp only at hE
      cases Y with
      | nil =>
        simp only [List.nil_append] at hE
        subst hE
        refine seq_mk0 (cl [] _ (by simp)) (seq_mk0 (u := ds ++ 'i' :: t) (opt_some (seq_mk0 ⟨'e', rfl, by simp, rfl⟩ ⟨_, rfl, ?_, rfl⟩)) (fin ds (hd.ex n ds he)))
        cases n <;> simp
      | cons y1 Y =>
        simp only [List.cons_append, List.cons.injEq] at hE
        obtain ⟨rfl, hE⟩ := hE
        cases Y with
        | nil =>
          exfalso
          rw [hY] at hA
          obtain ⟨-, h2⟩ := List.append_inj' hA rfl
          obtain rfl : 'e' = x := by simpa using h2
          rcases hx with h | h <;> revert h <;> decide
        | cons y2 Y =>
          simp only [List.cons_append, List.cons.injEq] at hE
          obtain ⟨h2, rfl⟩ := hE
          exact seq_mk0 (cl [] _ (by simp)) (seq_mk0 (opt_none _ _) (fin X (fun a ha => hd.ex n _ he a (by simp [ha]))))
  · -- in front of the exponent
    have hYc : ∀ a ∈ Y, a.isDigit = true ∨ a = '.' := by
      rcases List.append_eq_append_iff.1 hY with ⟨Z, hZ, hm⟩ | ⟨Z, hZ, hm⟩
      · exact fun a ha => mant_chars hd a (by rw [hm]; simp [ha])
      · cases Z with
        | nil => simp at hm; rw [hm]; exact mant_chars hd
        | cons z Z =>
          exfalso
          unfold Dec.sgn at hZ
          split_ifs at hZ
          · have hl := congrArg List.length hZ
            rw [hA] at hl
            simp at hl
            omega
          · rw [hA] at hZ; simp at hZ
    rw [hE, List.append_assoc]
    refine seq_mk0 (cl Y _ hYc) ?_
    unfold Dec.expo
    rcases he : d.ex with _ | ⟨n, ds⟩
    · exact seq_mk0 (opt_none _ _) (fin [] (by simp))
    · refine seq_mk0 (u := ds ++ 'i' :: t) (opt_some (seq_mk0 ⟨'e', rfl, by simp, rfl⟩ ⟨_, rfl, ?_, rfl⟩)) (fin ds (hd.ex n ds he))
      cases n <;> simp

theorem sgn_M {d : Dec} (s : List Char) : (opt Rx.sgn).M (d.sgn ++ s) s [] := by
  unfold Dec.sgn
  split_ifs
  · exact opt_some ⟨'-', rfl, by simp, rfl⟩
  · exact opt_none _ _

theorem End.head {t : List Char} (ht : End t) : ∀ a ∈ t.head?, a = ')' := by
  rcases ht with rfl | ⟨t', rfl⟩
  · simp
  · simp

theorem real_M {d : Dec} (hd : d.Ok) {k : Nat} {t : List Char} (ht : ∀ a ∈ t.head?, a = ')' ∨ a = '+' ∨ a = '-') :
    (real k).M (d.text ++ t) t [(k, d.text)] := by
  refine opt_some ⟨d.text, [], rfl, ?_, rfl⟩
  rw [d.text_eq, List.append_assoc]
  refine seq_mk0 (sgn_M _) (seq_mk0 (num_dec hd t) ⟨rfl, rfl, not_ahead ht⟩)

theorem imag_M {d : Dec} (hd : d.Ok) {k : Nat} {t p : List Char} (hp : p = [] ∨ p = ['+'] ∧ d.neg = false) :
    (imag k).M (p ++ d.text ++ ['i'] ++ t) t [(k, p ++ d.text ++ ['i'])] := by
  refine opt_some ⟨_, [], rfl, ?_, rfl⟩
  refine seq_mk0 (opt_none _ _) (seq_mk0 (u := d.mant ++ d.expo ++ 'i' :: t) ?_ (seq_mk0 (opt_none _ _)
    (seq_mk0 (u := 'i' :: t) (opt_some (num_dec hd _)) ⟨'i', rfl, by simp, rfl⟩)))
  · rw [d.text_eq]
    rcases hp with rfl | ⟨rfl, hn⟩
    · have := sgn_M (d := d) (d.mant ++ d.expo ++ 'i' :: t)
      simpa using this
    · have : d.sgn = [] := by simp [Dec.sgn, hn]
      rw [this]
      refine opt_some ⟨'+', ?_, by simp, rfl⟩
      simp

/-- A real weight. -/
theorem weight_real {d : Dec} (hd : d.Ok) {k : Nat} {t : List Char} (ht : End t) (c : Caps) :
    (weight k).M (d.text ++ t) t c ↔ c = [(k, d.text)] := by
  constructor
  · rintro ⟨u, c1, c2, h1, h2, rfl⟩
    rcases imag_inv h2 with ⟨rfl, rfl⟩ | ⟨B, rfl, rfl, hB0, fB⟩
    · rcases real_inv h1 with ⟨e, rfl⟩ | ⟨A, e, rfl, -⟩
      · exact absurd (List.append_left_eq_self.1 e.symm) (text_ne hd)
      · rw [List.append_cancel_right e]; rfl
    · exfalso
      have hi : ∃ x, x ∈ B ∧ (x = 'i' ∨ x = 'I') := by
        rcases List.eq_nil_or_concat B with h | ⟨b, x, h⟩
        · exact absurd h hB0
        · rw [List.concat_eq_append] at h
          exact ⟨x, by simp [h], imagIn_lst (fB.lst x b h)⟩
      obtain ⟨x, hx, hxi⟩ := hi
      have hm : x ∈ d.text := by
        obtain ⟨w, e, -⟩ := M.fits h1
        rw [← List.append_assoc] at e
        rw [List.append_cancel_right e]
        simp [hx]
      rcases text_chars hd x hm with h | h | h | h | h
      · rcases hxi with rfl | rfl <;> exact absurd h (by decide)
      all_goals rcases hxi with rfl | rfl <;> exact absurd h (by decide)
  · rintro rfl
    exact seq_mk (c2 := []) (real_M hd fun a ha => Or.inl (ht.head a ha)) (opt_none _ _)

/-- An imaginary weight. -/
theorem weight_imag {d : Dec} (hd : d.Ok) {k : Nat} {t : List Char} (c : Caps) :
    (weight k).M (d.text ++ ['i'] ++ t) t c ↔ c = [(k + 1, d.text ++ ['i'])] := by
  constructor
  · rintro ⟨u, c1, c2, h1, h2, rfl⟩
    rcases imag_inv h2 with ⟨rfl, rfl⟩ | ⟨B, rfl, rfl, hB0, fB⟩
    · exfalso
      rcases real_inv h1 with ⟨e, rfl⟩ | ⟨A, e, rfl, -, f, -⟩
      · have := List.append_left_eq_self.1 e.symm
        simp at this
      · have e := List.append_cancel_right e
        rcases realIn_lst (f.lst 'i' d.text e.symm) with h | h <;> revert h <;> decide
    · rcases real_inv h1 with ⟨e, rfl⟩ | ⟨A, e, rfl, hA0, f, hn⟩
      · rw [List.append_cancel_right e]; rfl
      · exfalso
        rw [← List.append_assoc] at e
        have e := List.append_cancel_right e
        rcases List.eq_nil_or_concat B with h | ⟨X, x, h⟩
        · exact hB0 h
        rw [List.concat_eq_append] at h
        subst h
        rw [← List.append_assoc] at e
        obtain ⟨e1, e2⟩ := List.append_inj' e rfl
        obtain rfl : 'i' = x := by simpa using e2
        rcases List.eq_nil_or_concat A with h | ⟨Z, z, h⟩
        · exact hA0 h
        rw [List.concat_eq_append] at h
        refine hn ⟨t, [], ?_⟩
        have := ahead_rest hd e1 h (realIn_lst (f.lst z Z h)) t
        simpa using this
  · rintro rfl
    exact seq_mk (c1 := []) (opt_none _ _) (imag_M (p := []) hd (Or.inl rfl))

/-- A weight with both parts: the imaginary one, `B`, starts with a sign. -/
theorem weight_both {d d' : Dec} (hd : d.Ok) (hd' : d'.Ok) {p : List Char} (hp : p = [] ∧ d'.neg = true ∨ p = ['+'] ∧ d'.neg = false)
    {k : Nat} {t : List Char} (c : Caps) :
    (weight k).M (d.text ++ (p ++ d'.text ++ ['i']) ++ t) t c ↔ c = [(k, d.text), (k + 1, p ++ d'.text ++ ['i'])] := by
  obtain ⟨y, B0, hB, hy⟩ : ∃ y B0, p ++ d'.text ++ ['i'] = y :: B0 ∧ (y = '+' ∨ y = '-') := by
    rcases hp with ⟨rfl, h⟩ | ⟨rfl, h⟩
    · refine ⟨'-', d'.mant ++ d'.expo ++ ['i'], ?_, Or.inr rfl⟩
      rw [d'.text_eq]; simp [Dec.sgn, h]
    · exact ⟨'+', d'.text ++ ['i'], by simp, Or.inl rfl⟩
  have hBl : ∃ B1, p ++ d'.text ++ ['i'] = B1 ++ ['i'] := ⟨p ++ d'.text, rfl⟩
  have hM : (imag (k + 1)).M (p ++ d'.text ++ ['i'] ++ t) t [(k + 1, p ++ d'.text ++ ['i'])] :=
    imag_M hd' (hp.imp (fun h => h.1) id)
  generalize p ++ d'.text ++ ['i'] = B' at *
  obtain ⟨N0, x, hN, hx⟩ := text_last hd
  constructor
  · rintro ⟨u, c1, c2, h1, h2, rfl⟩
    rcases imag_inv h2 with ⟨rfl, rfl⟩ | ⟨B, rfl, rfl, hB0, fB⟩
    · exfalso
      rcases real_inv h1 with ⟨e, rfl⟩ | ⟨A, e, rfl, -, f, -⟩
      · have := List.append_left_eq_self.1 e.symm
        rw [hB] at this
        simp at this
      · have e := List.append_cancel_right e
        obtain ⟨B1, hB1⟩ := hBl
        rcases realIn_lst (f.lst 'i' (d.text ++ B1) (by rw [← e, hB1, List.append_assoc])) with h | h <;> revert h <;> decide
    · have key : ∀ A, d.text ++ B' = A ++ B → (∀ u v, A = u ++ x :: y :: v → False) → A = d.text ∧ B = B' := by
        intro A e hA
        rcases List.append_eq_append_iff.1 e with ⟨a, ha, hb⟩ | ⟨a, ha, hb⟩
        · cases a with
          | nil => simp at ha hb; exact ⟨ha, hb.symm⟩
          | cons a1 a =>
            exfalso
            rw [hB] at hb
            simp only [List.cons_append, List.cons.injEq] at hb
            obtain ⟨rfl, -⟩ := hb
            exact hA N0 a (by rw [ha, hN]; simp)
        · rcases List.eq_nil_or_concat a with rfl | ⟨a1, z, rfl⟩
          · simp at ha hb; exact ⟨ha.symm, hb⟩
          · exfalso
            rw [List.concat_eq_append] at ha hb
            rw [hN, ← List.append_assoc] at ha
            obtain ⟨-, e2⟩ := List.append_inj' ha rfl
            obtain rfl : x = z := by simpa using e2
            have := fB.prs a1 x y B0 (by rw [hb, hB]; simp)
            rw [imagIn_prs hx hy] at this
            cases this
      rcases real_inv h1 with ⟨e, rfl⟩ | ⟨A, e, rfl, hA0, f, hn⟩
      · exfalso
        have e := List.append_cancel_right e
        obtain ⟨h, -⟩ := key [] e.symm (by simp)
        exact text_ne hd h.symm
      · rw [← List.append_assoc] at e
        obtain ⟨rfl, rfl⟩ := key A (List.append_cancel_right e) (fun u v h => by
          have := f.prs u x y v h
          rw [realIn_prs hx hy] at this
          cases this)
        rfl
  · rintro rfl
    refine seq_mk (c1 := [(k, d.text)]) (u := B' ++ t) ?_ hM
    rw [List.append_assoc]
    refine real_M hd ?_
    intro a ha
    rw [hB] at ha
    simp at ha
    subst ha
    exact Or.inr hy

end Rx

end DD
