import Verif.Proofs.TextFile
import Verif.Proofs.TextDouble
import Verif.Props.C43

/-!
# C82: the text format of serialized diagrams, character by character
-/

namespace DD

variable {fl : ℝ → ℝ} {T : ℝ}

theorem textC_plain (hT : 0 ≤ T) {p : Nat} (hp : 1 ≤ p) {x : ℝ} (h : Plain fl T p x) : textC fl T p x = x := by
  unfold textC
  rcases h with rfl | ⟨h1, ⟨k, e, hk, hx⟩, h3⟩
  · rw [if_pos (by simpa using hT)]
  · rw [if_neg (not_le.2 h1), hx, decimal_exact hp hk, ← hx, h3]

theorem textW_plain (hT : 0 ≤ T) {p : Nat} (hp : 1 ≤ p) {w : Cx ℝ} (h : PlainW fl T p w) : textW fl T p w = w := by
  unfold textW
  rw [textC_plain hT hp h.1, textC_plain hT hp h.2]

theorem textR_plain (hT : 0 ≤ T) {n : Nat} {r : Rec ℝ n} (h : ∀ i z w, r.e i = some (z, w) → PlainW fl T 16 w ∧ w ≠ 0) : textR fl T r = r := by
  have : (fun i => textE fl T (r.e i)) = r.e := by
    funext i
    rcases he : r.e i with _ | ⟨z, w⟩
    · rfl
    · obtain ⟨h1, h2⟩ := h i z w he
      have h3 : ¬ (|w.re| ≤ T ∧ |w.im| ≤ T) := by
        rintro ⟨a, b⟩
        refine h2 ?_
        have c1 : w.re = 0 := h1.1.resolve_right fun h => absurd a (not_le.2 h.1)
        have c2 : w.im = 0 := h1.2.resolve_right fun h => absurd b (not_le.2 h.1)
        ext <;> simp [c1, c2]
      show (if |w.re| ≤ T ∧ |w.im| ≤ T then none else some (z, textW fl T 16 w)) = some (z, w)
      rw [if_neg h3, textW_plain hT (by norm_num) h1]
  unfold textR
  rw [this]

theorem map_plain (hT : 0 ≤ T) {n : Nat} {recs : List (Rec ℝ n)} (h : ∀ r ∈ recs, ∀ i z w, r.e i = some (z, w) → PlainW fl T 16 w ∧ w ≠ 0) :
    recs.map (textR fl T) = recs := by
  conv_rhs => rw [← List.map_id recs]
  exact List.map_congr_left fun r hr => textR_plain hT (h r hr)

/-- The text written for any root weight and any records in the range of the types can be read - by whatever match the regular expressions admit -, and whatever
is read consists of the root weight and the records with all numbers rounded to the digits written: nodes, qubits, targets and edges are exact. -/
theorem C82_text (h0 : fl 0 = 0) (hT : 0 ≤ T) {n : Nat} (hn : n ≠ 0) {p : Nat} (hp : 1 ≤ p) (w : Cx ℝ) (recs : List (Rec ℝ n)) (hr : ∀ r ∈ recs, r.InRange) :
    (∃ w' rs, ReadsText fl n (fileText T p w recs) w' rs) ∧
    ∀ w' rs, ReadsText fl n (fileText T p w recs) w' rs → WeightRead fl T p w w' ∧ List.Forall₂ (RecRead fl T) recs rs := by
  refine ⟨⟨_, _, (file_text fl h0 hT hn p w recs hr _ _).2 ⟨rfl, rfl⟩⟩, fun w' rs h => ?_⟩
  obtain ⟨rfl, rfl⟩ := (file_text fl h0 hT hn p w recs hr _ _).1 h
  refine ⟨textW_read hp w, ?_⟩
  rw [List.forall₂_map_right_iff, List.forall₂_same]
  exact fun r _ => textR_read fl T r

/-- There is only one result. -/
theorem C82_unique (h0 : fl 0 = 0) (hT : 0 ≤ T) {n : Nat} (hn : n ≠ 0) {p : Nat} (w : Cx ℝ) (recs : List (Rec ℝ n)) (hr : ∀ r ∈ recs, r.InRange)
    {w1 w2 : Cx ℝ} {r1 r2 : List (Rec ℝ n)} (h1 : ReadsText fl n (fileText T p w recs) w1 r1) (h2 : ReadsText fl n (fileText T p w recs) w2 r2) :
    w1 = w2 ∧ r1 = r2 := by
  obtain ⟨rfl, rfl⟩ := (file_text fl h0 hT hn p w recs hr _ _).1 h1
  obtain ⟨rfl, rfl⟩ := (file_text fl h0 hT hn p w recs hr _ _).1 h2
  exact ⟨rfl, rfl⟩

/-- If the numbers have no more digits than are written, the text is read as exactly the root weight and the records. -/
theorem C82_exact (h0 : fl 0 = 0) (hT : 0 ≤ T) {n : Nat} (hn : n ≠ 0) {p : Nat} (hp : 1 ≤ p) {w : Cx ℝ} {recs : List (Rec ℝ n)} (hr : ∀ r ∈ recs, r.InRange)
    (hw : PlainW fl T p w) (hrec : ∀ r ∈ recs, ∀ i z u, r.e i = some (z, u) → PlainW fl T 16 u ∧ u ≠ 0) (w' : Cx ℝ) (rs : List (Rec ℝ n)) :
    ReadsText fl n (fileText T p w recs) w' rs ↔ w' = w ∧ rs = recs := by
  rw [file_text fl h0 hT hn p w recs hr, textW_plain hT hp hw, map_plain hT hrec]

/-- The records of a diagram are in the range of the types. -/
theorem records_inRange {n : Nat} {t : UTable (Cx ℝ) n} {order : List Nat} (hl : order.length ≤ 2 ^ 31) (hv : ∀ a ∈ order, (t.mem a).v < 128)
    {binary : Bool} : ∀ r ∈ records binary t order, r.InRange := by
  intro r hr
  obtain ⟨i, hi, rfl⟩ := List.mem_map.1 hr
  rw [List.mem_range] at hi
  have key : ∀ (e : PEdge ℝ), -1 ≤ recIdx (order.take (i + 1)) e ∧ recIdx (order.take (i + 1)) e < 2 ^ 31 := by
    intro e
    unfold recIdx
    split
    · norm_num
    · rename_i a _
      split_ifs with h
      · have h1 := List.idxOf_lt_length_of_mem h
        have h2 : (order.take (i + 1)).length ≤ order.length := by rw [List.length_take]; omega
        constructor <;> omega
      · norm_num
  have hmem : order.getD i 0 ∈ order := by
    rw [List.getD_eq_getElem?_getD, List.getElem?_eq_getElem hi]; exact List.getElem_mem hi
  refine ⟨?_, (key ⟨some _, 0⟩).2, hv _ hmem, ?_⟩
  · show (0 : Int) ≤ recIdx _ (⟨some _, 0⟩ : PEdge ℝ)
    unfold recIdx
    dsimp only
    split_ifs <;> omega
  · intro j z w h
    change (if _ then some (_, _) else none) = _ at h
    split_ifs at h
    simp only [Option.some.injEq, Prod.mk.injEq] at h
    rw [← h.1]
    exact key _

theorem records_ne {n : Nat} {t : UTable (Cx ℝ) n} {order : List Nat} : ∀ r ∈ records false t order, ∀ i z w, r.e i = some (z, w) → w ≠ 0 := by
  intro r hr j z w h
  obtain ⟨i, hi, rfl⟩ := List.mem_map.1 hr
  change (if _ then some (_, _) else none) = _ at h
  split_ifs at h with hc
  simp only [Option.some.injEq, Prod.mk.injEq] at h
  rw [← h.2]
  simpa using hc

theorem Topo.lt {n : Nat} {t : UTable (Cx ℝ) n} {m : Nat} {L : List Nat} (h : Topo t m L) : ∀ a ∈ L, (t.mem a).v < m := by
  induction h with
  | nil => simp
  | snoc h1 h2 h3 h4 h5 ih =>
    intro a ha
    rcases List.mem_append.1 ha with ha | ha
    · exact ih a ha
    · rw [List.mem_singleton.1 ha]; exact h3

theorem records_length {n : Nat} (binary : Bool) (t : UTable (Cx ℝ) n) (order : List Nat) : (records binary t order).length = order.length := by
  simp [records]

variable {P : PCfg ℝ} {h : PHist ℝ}

/-- A matrix written to a text file and read again, into whatever package with enough qubits, is the same matrix, if the numbers have no more digits than are written:
17 for the root weight, 16 for the others. -/
theorem C82_matrix (hC : P.C.Good) (hr : PReach P h) {l : Nat} {x : PEdge ℝ} (hx : Valid (h.pkg.ut .m) l x) (hx0 : x.p ≠ none ∨ x.w = 0)
    (h0 : fl 0 = 0) (hT : 0 ≤ T) (hl : l ≤ 128) (hlen : (serializeM false (h.pkg.ut .m) x).length ≤ 2 ^ 31) (hw : PlainW fl T 17 x.w)
    (hrec : ∀ r ∈ serializeM false (h.pkg.ut .m) x, ∀ i z u, r.e i = some (z, u) → PlainW fl T 16 u) :
    (∃ w rs, ReadsText fl 4 (fileText T 17 x.w (serializeM false (h.pkg.ut .m) x)) w rs) ∧
    ∀ w rs, ReadsText fl 4 (fileText T 17 x.w (serializeM false (h.pkg.ut .m) x)) w rs →
      ∀ {P' : PCfg ℝ} {h' : PHist ℝ}, P'.C.Good → PReach P' h' → l ≤ (h'.pkg.ut .m).nvars →
        ∃ r, Pkg.deserialize P' .m h'.pkg w rs = some r ∧ Valid (r.1.ut .m) l r.2 ∧
          mat (r.1.ut .m) l r.2 = mat (h.pkg.ut .m) l x ∧ Unchanged h'.pkg r.1 := by
  have hd := (hr.inv hC).wf.tab .m
  have hin : (∀ r ∈ serializeM false (h.pkg.ut .m) x, r.InRange) ∧
      ∀ r ∈ serializeM false (h.pkg.ut .m) x, ∀ i z u, r.e i = some (z, u) → PlainW fl T 16 u ∧ u ≠ 0 := by
    cases hp : x.p with
    | none =>
      have : serializeM false (h.pkg.ut .m) x = [] := by
        unfold serializeM
        have : (h.pkg.ut .m).lvl x = 0 := by simp [UTable.lvl, hp]
        rw [this]; rfl
      rw [this]; simp
    | some a =>
      obtain ⟨N, e0, hN⟩ := serializeM_order hd hx false hp
      rw [e0] at hlen hrec ⊢
      rw [records_length] at hlen
      exact ⟨records_inRange hlen fun b hb => lt_of_lt_of_le (hN.lt b hb) hl, fun r hr i z u hu => ⟨hrec r hr i z u hu, records_ne r hr i z u hu⟩⟩
  have key := C82_exact h0 hT (by norm_num) (by norm_num) hin.1 hw hin.2
  refine ⟨⟨_, _, (key _ _).2 ⟨rfl, rfl⟩⟩, ?_⟩
  intro w rs hrd P' h' hC' hr' hn
  obtain ⟨rfl, rfl⟩ := (key _ _).1 hrd
  exact C43_roundtrip hC hr hx hx0 false hC' hr' hn

/-- The same for a vector; 16 digits are written for all numbers. -/
theorem C82_vector (hC : P.C.Good) (hr : PReach P h) {l : Nat} {x : PEdge ℝ} (hx : Valid (h.pkg.ut .v) l x) (hx0 : x.p ≠ none ∨ x.w = 0)
    (h0 : fl 0 = 0) (hT : 0 ≤ T) (hl : l ≤ 128) {recs : List (Rec ℝ 2)} (hs : SerializesV false (h.pkg.ut .v) x recs) (hlen : recs.length ≤ 2 ^ 31)
    (hw : PlainW fl T 16 x.w) (hrec : ∀ r ∈ recs, ∀ i z u, r.e i = some (z, u) → PlainW fl T 16 u) :
    (∃ w rs, ReadsText fl 2 (fileText T 16 x.w recs) w rs) ∧
    ∀ w rs, ReadsText fl 2 (fileText T 16 x.w recs) w rs →
      ∀ {P' : PCfg ℝ} {h' : PHist ℝ}, P'.C.Good → PReach P' h' → l ≤ (h'.pkg.ut .v).nvars →
        ∃ r, Pkg.deserialize P' .v h'.pkg w rs = some r ∧ Valid (r.1.ut .v) l r.2 ∧
          vec (r.1.ut .v) l r.2 = vec (h.pkg.ut .v) l x ∧ Unchanged h'.pkg r.1 := by
  have hd := (hr.inv hC).wf.tab .v
  have hin : (∀ r ∈ recs, r.InRange) ∧ ∀ r ∈ recs, ∀ i z u, r.e i = some (z, u) → PlainW fl T 16 u ∧ u ≠ 0 := by
    cases hs with
    | terminal _ => simp
    | node hp hrun =>
      obtain ⟨a, hp⟩ := Option.ne_none_iff_exists'.1 hp
      obtain ⟨N, hrun', hN⟩ := Trav.runs (n := 1) hd.child (Trav.allFresh_v _) hx hp trivial (Or.inl rfl)
      rw [hrun.unique hrun'] at hlen hrec ⊢
      rw [records_length] at hlen
      exact ⟨records_inRange hlen fun b hb => lt_of_lt_of_le (hN.lt b hb) hl, fun r hr i z u hu => ⟨hrec r hr i z u hu, records_ne r hr i z u hu⟩⟩
  obtain ⟨recs', hs', hu, hrt⟩ := C44_roundtrip hC hr hx hx0 false
  obtain rfl := hu _ hs
  have key := C82_exact h0 hT (by norm_num) (by norm_num) hin.1 hw hin.2
  refine ⟨⟨_, _, (key _ _).2 ⟨rfl, rfl⟩⟩, ?_⟩
  intro w rs hrd P' h' hC' hr' hn
  obtain ⟨rfl, rfl⟩ := (key _ _).1 hrd
  exact hrt hC' hr' hn

/-- Seventeen digits are enough for numbers of type `double`: the root weight of a matrix is read exactly, unless a component is not above the tolerance. -/
theorem C82_root (hT : 2 ^ (-1022 : ℤ) ≤ T) {n : Nat} (hn : n ≠ 0) {w : Cx ℝ} (hre : ieee w.re = w.re) (him : ieee w.im = w.im)
    (hre' : w.re = 0 ∨ T < |w.re|) (him' : w.im = 0 ∨ T < |w.im|) (recs : List (Rec ℝ n)) (hr : ∀ r ∈ recs, r.InRange) (w' : Cx ℝ) (rs : List (Rec ℝ n)) :
    ReadsText ieee n (fileText T 17 w recs) w' rs → w' = w := by
  have hT0 : 0 ≤ T := (two_zpow_pos _).le.trans hT
  intro h
  obtain ⟨rfl, -⟩ := (file_text ieee ieee_zero hT0 hn 17 w recs hr _ _).1 h
  have key : ∀ x : ℝ, ieee x = x → x = 0 ∨ T < |x| → textC ieee T 17 x = x := by
    intro x h1 h2
    unfold textC
    rcases h2 with rfl | h2
    · rw [if_pos (by simpa using hT0)]
    · rw [if_neg (not_le.2 h2), decimal17 h1 (hT.trans h2.le)]
  unfold textW
  rw [key _ hre hre', key _ him him']

/-- Sixteen digits are not enough: a number between 0 and 1 of type `double` is read as a different number. -/
theorem C82_sixteen_false {n : Nat} (hn : n ≠ 0) : ∃ x : ℝ, 0 < x ∧ x < 1 ∧ ieee x = x ∧
    ∀ (T : ℝ), 0 ≤ T → T < x → ∀ (recs : List (Rec ℝ n)), (∀ r ∈ recs, r.InRange) → ∀ w' rs,
      ReadsText ieee n (fileText T 16 ⟨x, 0⟩ recs) w' rs → w' ≠ ⟨x, 0⟩ := by
  obtain ⟨x, h0, h1, h2, -, h4⟩ := decimal16_false
  refine ⟨x, h0, h1, h2, fun T hT hTx recs hr w' rs h => ?_⟩
  obtain ⟨rfl, -⟩ := (file_text ieee ieee_zero hT hn 16 _ recs hr _ _).1 h
  intro e
  have e : textC ieee T 16 x = x := congrArg Cx.re e
  unfold textC at e
  rw [if_neg (by rw [abs_of_pos h0]; exact not_le.2 hTx)] at e
  exact h4 e

/-- In a file written by hand, the imaginary unit must have a sign: `i` is read as the number 0, `+i` as the imaginary unit. -/
theorem C82_unit (h1 : fl 1 = 1) :
    ((∃ c, (Rx.weight 1).Match ['i'] c) ∧ ∀ c, (Rx.weight 1).Match ['i'] c → fromString fl (c.str 1) (c.str 2) = some 0) ∧
    (∃ c, (Rx.weight 1).Match ['+', 'i'] c) ∧ ∀ c, (Rx.weight 1).Match ['+', 'i'] c → fromString fl (c.str 1) (c.str 2) = some ⟨0, 1⟩ := by
  have n1 : ∀ (s t : List Char) (c : Caps), Rx.num.M ('i' :: s) t c ↔ False := by
    simp [Rx.opt, Rx.chr, Rx.sgn, Rx.num, Rx.plus, Rx.dig, Rx.M, show 'i'.isDigit = false by decide]
  have n2 : ∀ (s t : List Char) (c : Caps), Rx.num.M ('+' :: s) t c ↔ False := by
    simp [Rx.opt, Rx.chr, Rx.sgn, Rx.num, Rx.plus, Rx.dig, Rx.M, show '+'.isDigit = false by decide]
  have r1 : ∀ k s t c, (Rx.real k).M ('i' :: s) t c ↔ 'i' :: s = t ∧ c = [] := by
    intro k s t c
    simp [Rx.real, Rx.opt, Rx.sgn, Rx.M, n1]
  have r2 : ∀ k s t c, (Rx.real k).M ('+' :: 'i' :: s) t c ↔ '+' :: 'i' :: s = t ∧ c = [] := by
    intro k s t c
    simp [Rx.real, Rx.opt, Rx.sgn, Rx.M, n1, n2, or_and_right, exists_or]
  have e1 : ∀ c, (Rx.weight 1).Match ['i'] c ↔ c = [(2, ['i'])] := by
    intro c
    simp [Rx.Match, Rx.weight, Rx.imag, Rx.opt, Rx.chr, Rx.sgn, Rx.ii, Rx.M, r1, n1]
  have e2 : ∀ c, (Rx.weight 1).Match ['+', 'i'] c ↔ c = [(2, ['+', 'i'])] := by
    intro c
    simp [Rx.Match, Rx.weight, Rx.imag, Rx.opt, Rx.chr, Rx.sgn, Rx.ii, Rx.M, r2, n2]
    constructor
    · rintro ⟨u, c1, v, c2, c3, ⟨h1, h2, y, h3, h4⟩, rfl⟩
      rcases h1 with ⟨rfl, rfl⟩ | ⟨rfl, rfl⟩ <;> rcases h2 with ⟨h2, rfl⟩ | ⟨rfl, rfl⟩ <;> rcases h3 with h3 | ⟨h3, rfl⟩ <;> simp_all
    · rintro rfl
      exact ⟨['i'], [], ['i'], [], [], ⟨Or.inl ⟨rfl, rfl⟩, Or.inr ⟨rfl, rfl⟩, 'i', Or.inr ⟨rfl, rfl⟩, Or.inl rfl⟩, rfl⟩
  refine ⟨⟨⟨_, (e1 _).2 rfl⟩, fun c h => ?_⟩, ⟨_, (e2 _).2 rfl⟩, fun c h => ?_⟩
  · rw [(e1 c).1 h]
    simp [fromString, Caps.str]
    rfl
  · rw [(e2 c).1 h]
    have : stodR ['+', '1'] = some 1 := by
      simp [stodR, splitSign, stodFrac, stodExp, digVal, show '1'.isDigit = true by decide]
    simp [fromString, Caps.str, stod, this, h1]

end DD

namespace DD.Ex

/-- Records in the range of the types: two nodes of vectors, with a missing edge, negative and complex weights. -/
noncomputable def recs2 : List (Rec ℝ 2) :=
  [⟨0, 0, ![some (-1, ⟨1 / 3, 0⟩), some (-1, ⟨-1 / 3, 2 / 7⟩)]⟩, ⟨1, 1, ![none, some (0, ⟨0, -1⟩)]⟩]

theorem recs2_range : ∀ r ∈ recs2, r.InRange := by
  intro r hr
  simp only [recs2, List.mem_cons, List.not_mem_nil, or_false] at hr
  rcases hr with rfl | rfl
  · refine ⟨by norm_num, by norm_num, by norm_num, fun i z w h => ?_⟩
    fin_cases i <;> simp at h <;> constructor <;> omega
  · refine ⟨by norm_num, by norm_num, by norm_num, fun i z w h => ?_⟩
    fin_cases i <;> simp at h
    constructor <;> omega

/-- The hypotheses of `C82_text` are met; the edge to the terminal keeps its target and its weight up to sixteen digits. -/
example : ∃ w' rs, ReadsText ieee 2 (fileText (1 / 10 ^ 12) 16 ⟨1 / 7, 0⟩ recs2) w' rs ∧ rs.length = 2 := by
  obtain ⟨⟨w', rs, h⟩, u⟩ := C82_text (fl := ieee) (T := 1 / 10 ^ 12) (p := 16) ieee_zero (by positivity) (by norm_num) (by norm_num) ⟨1 / 7, 0⟩ recs2 recs2_range
  exact ⟨w', rs, h, by rw [← (u w' rs h).2.length_eq]; rfl⟩

/-- A matrix whose entries have few digits. -/
noncomputable def plainU : Fin 4 → Cx ℝ := ![1, ⟨3 / 4, 0⟩, 0, ⟨0, -1 / 8⟩]

theorem plainU_plain (i : Fin 4) : PlainW id (1 / 1000) 16 (plainU i) := by
  have z : Plain id (1 / 1000) 16 0 := Or.inl rfl
  fin_cases i
  · exact ⟨Or.inr ⟨by norm_num [plainU], ⟨1, 0, by norm_num, by norm_num [plainU]⟩, rfl⟩, z⟩
  · exact ⟨Or.inr ⟨by norm_num [plainU, abs_of_pos], ⟨75, -2, by norm_num, by norm_num [plainU]⟩, rfl⟩, z⟩
  · exact ⟨z, z⟩
  · exact ⟨z, Or.inr ⟨by norm_num [plainU, abs_div], ⟨-125, -3, by norm_num, by norm_num [plainU]⟩, rfl⟩⟩

/-- The hypotheses of `C82_matrix` are met by this gate: the text is read as a diagram of the same matrix. -/
example : ∃ (h : PHist ℝ) (A : PEdge ℝ) (w : Cx ℝ) (rs : List (Rec ℝ 4)) (r : Pkg ℝ × PEdge ℝ), PReach (PR ℝ) h ∧ Valid (h.pkg.ut .m) 1 A ∧
    mat (h.pkg.ut .m) 1 A = (fun a b => plainU (rc (a 0) (b 0))) ∧
    ReadsText id 4 (fileText (1 / 1000) 17 A.w (serializeM false (h.pkg.ut .m) A)) w rs ∧
    Pkg.deserialize (PR ℝ) .m h.pkg w rs = some r ∧ mat (r.1.ut .m) 1 r.2 = fun a b => plainU (rc (a 0) (b 0)) := by
  have hC := PR_good ℝ
  have hg := hC.growth
  let h0 : PHist ℝ := ⟨Pkg.init (PR ℝ) 6 1 1 ⟨0, fun _ => zeroE, 0, false, false⟩ ⟨0, fun _ => zeroE, 0, false, false⟩, fun _ => []⟩
  have r0 : PReach (PR ℝ) h0 := ⟨h0, .init 6 1 1 _ _ (by decide) (by decide) (by decide), .refl⟩
  have n0 : ∀ k, (h0.pkg.ut k).nvars = 6 := by intro k; cases k <;> rfl
  obtain ⟨q, e1, o1⟩ := makeGateDD_spec (n := 1) (t := 0) (cs := []) hg (U := plainU) (by simp) (by norm_num) (by simp) (r0.inv hC).wf (by rw [n0]; omega)
  have r1 := r0.step (PStep.makeGateDD plainU 1 [] 0 q (by norm_num) ⟨by simp, by simp, by simp⟩ e1)
  have n1 : ((q.1).ut .m).nvars = 6 := by rw [← n0 .m]; exact (o1.ext .m).nvars
  have ha : ∀ d : Fin 1 → Fin 4, amp (q.1.ut .m) 1 q.2 d = plainU (d 0) := by
    intro d
    rw [o1.val]
    simp [highVal, dx]
  have hm : mat (q.1.ut .m) 1 q.2 = fun a b => plainU (rc (a 0) (b 0)) := by
    funext a b
    exact ha _
  have hw0 : q.2.w ≠ 0 := by
    intro h
    have := ha (fun _ => 0)
    rw [amp_w_zero h] at this
    simp [plainU] at this
  obtain ⟨a, hp, hall, hv⟩ := o1.valid.exists_node hw0
  have hd := o1.wf.tab .m
  have hc : ∀ i : Fin 4, q.2.w * ((q.1.ut .m).mem a |>.e i).w = plainU i := by
    intro i
    have := ha (fun _ => i)
    rw [amp_some hp, amp_zero] at this
    exact this
  obtain ⟨j, hj, hle, -⟩ : IsNormM (fun i => ((q.1.ut .m).mem a |>.e i).w) := hd.norm a hall
  have hj0 : q.2.w = plainU j := by
    have hj : (((q.1.ut .m).mem a).e j).w = 1 := hj
    rw [← hc j, hj, mul_one]
  have hmul : (plainU j).mag2 * ((q.1.ut .m).mem a |>.e 0).w.mag2 = 1 := by
    rw [← Cx.mag2_mul, ← hj0, hc 0]; simp [plainU, Cx.mag2]
  have hw1 : q.2.w = 1 := by
    rw [hj0]
    have h1 : (((q.1.ut .m).mem a).e 0).w.mag2 ≤ 1 := hle 0
    have h0 := Cx.mag2_nonneg (((q.1.ut .m).mem a).e 0).w
    have h2 : j = 0 ∨ (plainU j).mag2 ≤ 9 / 16 := by
      fin_cases j
      · exact Or.inl rfl
      all_goals exact Or.inr (by norm_num [plainU, Cx.mag2])
    rcases h2 with rfl | h2
    · rfl
    · exfalso; nlinarith
  have hc1 : ∀ i : Fin 4, ((q.1.ut .m).mem a |>.e i).w = plainU i := fun i => by rw [← hc i, hw1, one_mul]
  have hlvl : (q.1.ut .m).lvl q.2 = 1 := o1.valid.lvl hw0
  have hser : serializeM false (q.1.ut .m) q.2 = records false (q.1.ut .m) [a] := by
    unfold serializeM
    have : (serializeMatrixF (q.1.ut .m) 1 ([], []) q.2).2 = [a] := by
      have : ∀ (L : List (Fin 4)) (s : List (Option Nat) × List Nat), (L.foldl (fun s i =>
          if ((q.1.ut .m).mem a |>.e i).p ∈ s.1 then s else serializeMatrixF (q.1.ut .m) 0 (((q.1.ut .m).mem a |>.e i).p :: s.1, s.2) ((q.1.ut .m).mem a |>.e i)) s).2 = s.2 := by
        intro L
        induction L with
        | nil => intro s; rfl
        | cons i L ih =>
          intro s
          rw [List.foldl_cons, ih]
          split_ifs <;> rfl
      unfold serializeMatrixF
      rw [hp]
      simp only [this]
      rfl
    rw [hlvl, this]
  have key := C82_matrix (fl := id) (T := 1 / 1000) hC r1 o1.valid (Or.inl (by rw [hp]; simp)) rfl (by norm_num) (by norm_num)
    (by show (serializeM false (q.1.ut .m) q.2).length ≤ _
        rw [hser, records_length]; norm_num)
    (by rw [hw1]; exact ⟨Or.inr ⟨by norm_num, ⟨1, 0, by norm_num, by norm_num⟩, rfl⟩, Or.inl rfl⟩)
    (by
      show ∀ r ∈ serializeM false (q.1.ut .m) q.2, _
      rw [hser]
      intro r hr i z u hu
      simp only [records, List.length_singleton, List.range_one, List.map_cons, List.map_nil, List.mem_singleton] at hr
      subst hr
      change (if _ then some (_, _) else none) = _ at hu
      split_ifs at hu
      simp only [Option.some.injEq, Prod.mk.injEq] at hu
      rw [← hu.2]
      have := plainU_plain i
      rw [← hc1 i] at this
      exact this)
  obtain ⟨⟨w, rs, hrd⟩, hall'⟩ := key
  obtain ⟨r, e, v, m, _⟩ := hall' w rs hrd hC r1 (by show 1 ≤ (q.1.ut .m).nvars; rw [n1]; norm_num)
  exact ⟨_, q.2, w, rs, r, r1, o1.valid, hm, hrd, e, m.trans hm⟩

end DD.Ex
