import Verif.Proofs.Ident

/-! # `makeGateDD` and `makeTwoQubitGateDD` -/

namespace DD

variable {R : Type} [Field R]

/-- A string of digits continued by zeros. -/
def dx {l : Nat} (d : Fin l → Fin 4) : Nat → Fin 4 := fun j => if h : j < l then d ⟨j, h⟩ else 0

theorem dx_lt {l : Nat} (d : Fin (l + 1) → Fin 4) {j : Nat} (h : j < l) : dx d j = dx (Fin.init d) j := by
  unfold dx; rw [dif_pos (by omega), dif_pos h]; rfl

theorem dx_last {l : Nat} (d : Fin (l + 1) → Fin 4) : dx d l = d (Fin.last l) := by
  unfold dx; rw [dif_pos (by omega)]; rfl

theorem dgd : dg 0 = True ∧ dg 1 = False ∧ dg 2 = False ∧ dg 3 = True := by simp [dg]

/-- The successor a control selects. -/
def Ctrl.dig (c : Ctrl) : Fin 4 := if c.neg then 0 else 3

/-- Value of block `i` after the lines `0 .. z - 1` below the target. -/
def lowVal (U : Fin 4 → Cx R) (cs : List Ctrl) (i : Fin 4) (z : Nat) (D : Nat → Fin 4) : Cx R :=
  if ∀ j < z, dg (D j) then
    if ∀ c ∈ cs, c.qubit < z → D c.qubit = c.dig then U i else if dg i then 1 else 0
  else 0

/-- Value after `z` lines, the target `t` among them. -/
def highVal (U : Fin 4 → Cx R) (cs : List Ctrl) (t z : Nat) (D : Nat → Fin 4) : Cx R :=
  if ∀ j < z, j ≠ t → dg (D j) then
    if ∀ c ∈ cs, c.qubit < z → D c.qubit = c.dig then U (D t) else if dg (D t) then 1 else 0
  else 0

theorem idD_eq {l : Nat} (d : Fin l → Fin 4) : (idD l d : Cx R) = if ∀ j < l, dg (dx d j) then 1 else 0 := by
  induction l with
  | zero => simp [idD]
  | succ l ih =>
    rw [idD, ih]
    have : (∀ j < l + 1, dg (dx d j)) ↔ dg (d (Fin.last l)) ∧ ∀ j < l, dg (dx (Fin.init d) j) := by
      constructor
      · intro h
        refine ⟨by rw [← dx_last d]; exact h l (by omega), fun j hj => by rw [← dx_lt d hj]; exact h j (by omega)⟩
      · rintro ⟨h1, h2⟩ j hj
        by_cases hjl : j = l
        · subst hjl; rw [dx_last]; exact h1
        · rw [dx_lt d (by omega)]; exact h2 j (by omega)
    have h0 : (if d (Fin.last l) = 0 ∨ d (Fin.last l) = 3 then (1 : Cx R) else 0) = if dg (d (Fin.last l)) then 1 else 0 := rfl
    rw [h0]
    by_cases h1 : dg (d (Fin.last l))
    · rw [if_pos h1, one_mul]
      exact if_congr (by rw [this]; exact (and_iff_right h1).symm) rfl rfl
    · rw [if_neg h1, zero_mul, if_neg (fun h => h1 (this.1 h).1)]

theorem forall_lt_succ_dx {l : Nat} {Q : Nat → Prop} {d : Fin (l + 1) → Fin 4} :
    (∀ j < l + 1, Q j → dg (dx d j)) ↔ (Q l → dg (d (Fin.last l))) ∧ ∀ j < l, Q j → dg (dx (Fin.init d) j) := by
  constructor
  · intro h
    refine ⟨fun q => by rw [← dx_last d]; exact h l (by omega) q, fun j hj q => by rw [← dx_lt d hj]; exact h j (by omega) q⟩
  · rintro ⟨h1, h2⟩ j hj q
    by_cases hjl : j = l
    · subst hjl; rw [dx_last]; exact h1 q
    · rw [dx_lt d (by omega)]; exact h2 j (by omega) q

/-- The controls that matter after one more line. -/
theorem ctrl_step {l : Nat} {cs : List Ctrl} {d : Fin (l + 1) → Fin 4} :
    (∀ c ∈ cs, c.qubit < l + 1 → dx d c.qubit = c.dig) ↔
      (∀ c ∈ cs, c.qubit = l → d (Fin.last l) = c.dig) ∧ ∀ c ∈ cs, c.qubit < l → dx (Fin.init d) c.qubit = c.dig := by
  constructor
  · intro h
    refine ⟨fun c hc e => ?_, fun c hc hl => ?_⟩
    · rw [← h c hc (by omega), e, dx_last]
    · rw [← h c hc (by omega), dx_lt d hl]
  · rintro ⟨h1, h2⟩ c hc hl
    by_cases e : c.qubit = l
    · rw [← h1 c hc e, e, dx_last]
    · rw [dx_lt d (by omega)]; exact h2 c hc (by omega)

/-- The iterator of the code stands in front of the first control on line `z` or above. -/
def AtLine (cs it : List Ctrl) (z : Nat) : Prop :=
  ∃ pre, cs = pre ++ it ∧ (∀ c ∈ pre, c.qubit < z) ∧ ∀ c ∈ it, z ≤ c.qubit

theorem AtLine.hit {cs rest : List Ctrl} {c : Ctrl} (hs : cs.Pairwise (fun a b => a.qubit < b.qubit))
    (h : AtLine cs (c :: rest) c.qubit) :
    AtLine cs rest (c.qubit + 1) ∧ ∀ c' ∈ cs, c'.qubit = c.qubit → c' = c := by
  obtain ⟨pre, h1, h2, h3⟩ := h
  have hs2 : (c :: rest).Pairwise (fun a b => a.qubit < b.qubit) := by
    rw [h1] at hs; exact (List.pairwise_append.1 hs).2.1
  have h4 := (List.pairwise_cons.1 hs2).1
  refine ⟨⟨pre ++ [c], by simp [h1], ?_, ?_⟩, ?_⟩
  · intro c' hc'
    rcases List.mem_append.1 hc' with h5 | h5
    · have := h2 c' h5; omega
    · rw [List.mem_singleton.1 h5]; omega
  · intro c' hc'; exact h4 c' hc'
  · intro c' hc' he
    rw [h1] at hc'
    rcases List.mem_append.1 hc' with h5 | h5
    · have := h2 c' h5; omega
    · rcases List.mem_cons.1 h5 with h6 | h6
      · exact h6
      · have := h4 c' h6; omega

theorem AtLine.miss {cs it : List Ctrl} {z : Nat} (hs : cs.Pairwise (fun a b => a.qubit < b.qubit))
    (h : AtLine cs it z) (hm : ∀ c rest, it = c :: rest → c.qubit ≠ z) :
    AtLine cs it (z + 1) ∧ ∀ c ∈ cs, c.qubit ≠ z := by
  obtain ⟨pre, h1, h2, h3⟩ := h
  have h4 : ∀ c ∈ it, z + 1 ≤ c.qubit := by
    cases it with
    | nil => intro c hc; simp at hc
    | cons c rest =>
      have h5 := hm c rest rfl
      have h6 := h3 c (List.mem_cons_self ..)
      have hs2 : (c :: rest).Pairwise (fun a b => a.qubit < b.qubit) := by
        rw [h1] at hs; exact (List.pairwise_append.1 hs).2.1
      have h7 := (List.pairwise_cons.1 hs2).1
      intro c' hc'
      rcases List.mem_cons.1 hc' with h8 | h8
      · subst h8; omega
      · have := h7 c' h8; omega
  refine ⟨⟨pre, h1, fun c hc => by have := h2 c hc; omega, h4⟩, ?_⟩
  intro c hc
  rw [h1] at hc
  rcases List.mem_append.1 hc with h5 | h5
  · have := h2 c h5; omega
  · have := h4 c h5; omega

theorem lowVal_plain {U : Fin 4 → Cx R} {cs : List Ctrl} {z : Nat} (hz : ∀ c ∈ cs, c.qubit ≠ z) (i : Fin 4)
    (d : Fin (z + 1) → Fin 4) :
    (if d (Fin.last z) = 0 then lowVal U cs i z (dx (Fin.init d)) else if d (Fin.last z) = 3 then
      lowVal U cs i z (dx (Fin.init d)) else 0) = lowVal U cs i (z + 1) (dx d) := by
  have h1 := forall_lt_succ_dx (Q := fun _ => True) (d := d)
  simp only [true_imp_iff] at h1
  have h2 : (∀ c ∈ cs, c.qubit = z → d (Fin.last z) = c.dig) := fun c hc e => absurd e (hz c hc)
  have h3 := ctrl_step (cs := cs) (d := d)
  have h4 : (∀ c ∈ cs, c.qubit < z + 1 → dx d c.qubit = c.dig) ↔
      ∀ c ∈ cs, c.qubit < z → dx (Fin.init d) c.qubit = c.dig := by rw [h3]; exact and_iff_right h2
  rw [show lowVal U cs i (z + 1) (dx d) = _ from rfl]
  unfold lowVal
  simp only [h1, h4]
  generalize d (Fin.last z) = x
  fin_cases x <;> simp [dgd]

theorem lowVal_ctrl {U : Fin 4 → Cx R} {cs : List Ctrl} {c : Ctrl} (hc : c ∈ cs)
    (hz : ∀ c' ∈ cs, c'.qubit = c.qubit → c' = c) (i : Fin 4) (d : Fin (c.qubit + 1) → Fin 4) :
    (if d (Fin.last c.qubit) = c.dig then lowVal U cs i c.qubit (dx (Fin.init d)) else
      if dg (d (Fin.last c.qubit)) then (if dg i then idD c.qubit (Fin.init d) else 0) else 0) =
      lowVal U cs i (c.qubit + 1) (dx d) := by
  have h1 := forall_lt_succ_dx (Q := fun _ => True) (d := d)
  simp only [true_imp_iff] at h1
  have h3 := ctrl_step (cs := cs) (d := d)
  have h2 : (∀ c' ∈ cs, c'.qubit = c.qubit → d (Fin.last c.qubit) = c'.dig) ↔ d (Fin.last c.qubit) = c.dig :=
    ⟨fun h => h c hc rfl, fun h c' h1 h2 => by rw [hz c' h1 h2]; exact h⟩
  rw [h2] at h3
  unfold lowVal
  simp only [h1, h3]
  rw [idD_eq]
  have hdg : dg c.dig := by unfold Ctrl.dig; split <;> simp [dg]
  by_cases h5 : d (Fin.last c.qubit) = c.dig
  · simp only [h5, hdg, true_and, if_true]
  · simp only [h5, false_and, if_false]
    by_cases h6 : dg (d (Fin.last c.qubit)) <;> by_cases h7 : dg i <;> simp [h6, h7]

theorem highVal_plain {U : Fin 4 → Cx R} {cs : List Ctrl} {t z : Nat} (ht : t < z) (hz : ∀ c ∈ cs, c.qubit ≠ z)
    (d : Fin (z + 1) → Fin 4) :
    (if d (Fin.last z) = 0 then highVal U cs t z (dx (Fin.init d)) else if d (Fin.last z) = 3 then
      highVal U cs t z (dx (Fin.init d)) else 0) = highVal U cs t (z + 1) (dx d) := by
  have h1 := forall_lt_succ_dx (Q := fun j => j ≠ t) (d := d)
  have hzt : z ≠ t := by omega
  simp only [hzt, ne_eq, not_false_eq_true, true_imp_iff] at h1
  have h2 : (∀ c ∈ cs, c.qubit = z → d (Fin.last z) = c.dig) := fun c hc e => absurd e (hz c hc)
  have h3 := ctrl_step (cs := cs) (d := d)
  have h4 : (∀ c ∈ cs, c.qubit < z + 1 → dx d c.qubit = c.dig) ↔
      ∀ c ∈ cs, c.qubit < z → dx (Fin.init d) c.qubit = c.dig := by rw [h3]; exact and_iff_right h2
  unfold highVal
  simp only [ne_eq, h1, h4, dx_lt d ht]
  generalize d (Fin.last z) = x
  fin_cases x <;> simp [dgd]

theorem highVal_ctrl {U : Fin 4 → Cx R} {cs : List Ctrl} {c : Ctrl} {t : Nat} (ht : t < c.qubit) (hc : c ∈ cs)
    (hz : ∀ c' ∈ cs, c'.qubit = c.qubit → c' = c) (d : Fin (c.qubit + 1) → Fin 4) :
    (if d (Fin.last c.qubit) = c.dig then highVal U cs t c.qubit (dx (Fin.init d)) else
      if dg (d (Fin.last c.qubit)) then idD c.qubit (Fin.init d) else 0) =
      highVal U cs t (c.qubit + 1) (dx d) := by
  have h1 := forall_lt_succ_dx (Q := fun j => j ≠ t) (d := d)
  have hzt : c.qubit ≠ t := by omega
  simp only [hzt, ne_eq, not_false_eq_true, true_imp_iff] at h1
  have h3 := ctrl_step (cs := cs) (d := d)
  have h2 : (∀ c' ∈ cs, c'.qubit = c.qubit → d (Fin.last c.qubit) = c'.dig) ↔ d (Fin.last c.qubit) = c.dig :=
    ⟨fun h => h c hc rfl, fun h c' h1 h2 => by rw [hz c' h1 h2]; exact h⟩
  rw [h2] at h3
  unfold highVal
  simp only [ne_eq, h1, h3, dx_lt d ht]
  rw [idD_eq]
  have hdg : dg c.dig := by unfold Ctrl.dig; split <;> simp [dg]
  by_cases h5 : d (Fin.last c.qubit) = c.dig
  · simp only [h5, hdg, true_and, if_true]
  · simp only [h5, false_and, if_false]
    by_cases h6 : dg (d (Fin.last c.qubit))
    · simp only [h6, true_and, if_true]
      have h7 : (∀ j < c.qubit, dg (dx (Fin.init d) j)) ↔
          (∀ j < c.qubit, ¬ j = t → dg (dx (Fin.init d) j)) ∧ dg (dx (Fin.init d) t) := by
        constructor
        · intro h; exact ⟨fun j hj _ => h j hj, h t ht⟩
        · rintro ⟨h8, h9⟩ j hj
          by_cases e : j = t
          · rw [e]; exact h9
          · exact h8 j hj e
      by_cases h8 : ∀ j < c.qubit, ¬ j = t → dg (dx (Fin.init d) j) <;> by_cases h9 : dg (dx (Fin.init d) t) <;>
        simp only [h7, h8, h9, and_self, and_true, and_false, true_and, false_and, if_true, if_false] <;> simp_all
    · simp [h6]

theorem highVal_target {U : Fin 4 → Cx R} {cs : List Ctrl} {t : Nat} (hz : ∀ c ∈ cs, c.qubit ≠ t)
    (d : Fin (t + 1) → Fin 4) :
    lowVal U cs (d (Fin.last t)) t (dx (Fin.init d)) = highVal U cs t (t + 1) (dx d) := by
  have h1 := forall_lt_succ_dx (Q := fun j => j ≠ t) (d := d)
  have h1' : (∀ j < t + 1, ¬ j = t → dg (dx d j)) ↔ ∀ j < t, dg (dx (Fin.init d) j) := by
    rw [show (∀ j < t + 1, ¬ j = t → dg (dx d j)) = (∀ j < t + 1, j ≠ t → dg (dx d j)) from rfl, h1]
    constructor
    · rintro ⟨_, h⟩ j hj; exact h j hj (by omega)
    · intro h; exact ⟨fun h => absurd rfl h, fun j hj _ => h j hj⟩
  have h2 : (∀ c ∈ cs, c.qubit = t → d (Fin.last t) = c.dig) := fun c hc e => absurd e (hz c hc)
  have h3 := ctrl_step (cs := cs) (d := d)
  have h4 : (∀ c ∈ cs, c.qubit < t + 1 → dx d c.qubit = c.dig) ↔
      ∀ c ∈ cs, c.qubit < t → dx (Fin.init d) c.qubit = c.dig := by rw [h3]; exact and_iff_right h2
  unfold lowVal highVal
  simp only [ne_eq, h1', h4, dx_last]

variable [LinearOrder R] [IsStrictOrderedRing R] [HasSqrt R] [LawfulSqrt R]

omit [HasSqrt R] [LawfulSqrt R] in
theorem gateEntry_val (s : Pkg R) (x : Cx R) : HasVal s .m 0 (Pkg.gateEntry x) (fun _ => x) := by
  unfold Pkg.gateEntry
  split_ifs with h
  · refine ⟨valid_zeroE _ _, fun d => ?_⟩
    show (0 : Cx R) = x
    ext
    · exact h.1.symm
    · exact h.2.symm
  · exact ⟨valid_term _ _, fun d => rfl⟩

theorem seqVal {P : PCfg R} {s : Pkg R} {k : Kind} {l n : Nat} {f : Fin n → Pkg R → Pkg R × PEdge R}
    {F : Fin n → (Fin l → Fin (ar k)) → Cx R} (h : PWF P s ∅)
    (hf : ∀ i s', PWF P s' ∅ → PExt s s' → OpSpec P ∅ s' k l (F i) (f i s')) :
    PWF P (seqFin n f s).1 ∅ ∧ PExt s (seqFin n f s).1 ∧
      ∀ i, HasVal (seqFin n f s).1 k l ((seqFin n f s).2 i) (F i) := seqOp h hf

theorem gateBelow_spec {P : PCfg R} (hC : 0 < P.C.growth) {U : Fin 4 → Cx R} {cs : List Ctrl}
    (hs : cs.Pairwise (fun a b => a.qubit < b.qubit)) {z : Nat} {s : Pkg R} {em : Fin 4 → PEdge R} {it : List Ctrl}
    (h : PWF P s ∅) (hz : z < (s.ut .m).nvars) (hem : ∀ i, HasVal s .m z (em i) (fun d => lowVal U cs i z (dx d)))
    (hit : AtLine cs it z) :
    let r := Pkg.gateBelow P z s em it
    PWF P r.1.1 ∅ ∧ PExt s r.1.1 ∧ (∀ i, HasVal r.1.1 .m (z + 1) (r.1.2 i) (fun d => lowVal U cs i (z + 1) (dx d))) ∧
      AtLine cs r.2 (z + 1) := by
  have plain : (∀ c ∈ cs, c.qubit ≠ z) →
      let q := seqFin 4 (fun i s => Pkg.makeDDNode P .m s z ![em i, zeroE, zeroE, em i] false) s
      PWF P q.1 ∅ ∧ PExt s q.1 ∧ (∀ i, HasVal q.1 .m (z + 1) (q.2 i) (fun d => lowVal U cs i (z + 1) (dx d))) := by
    intro hno
    refine seqVal h (fun i s' h' he => ?_)
    have := (hem i).ext h he
    refine (diag_spec hC false h' (by rw [(he .m).nvars]; exact hz) this this).congr (fun d => ?_)
    exact lowVal_plain hno i d
  unfold Pkg.gateBelow
  cases it with
  | nil =>
    dsimp only
    obtain ⟨m1, m2⟩ := hit.miss hs (by intro c rest e; simp at e)
    obtain ⟨p1, p2, p3⟩ := plain m2
    exact ⟨p1, p2, p3, m1⟩
  | cons c rest =>
    dsimp only
    by_cases hc : c.qubit = z
    · rw [if_pos hc]
      subst hc
      obtain ⟨m1, m2⟩ := hit.hit hs
      have hmem : c ∈ cs := by
        obtain ⟨pre, h1, _⟩ := hit
        rw [h1]; simp
      obtain ⟨q1, q2, q3⟩ := seqVal (P := P) (k := .m) (l := c.qubit + 1) (n := 4) h
        (F := fun i d => lowVal U cs i (c.qubit + 1) (dx d))
        (f := fun i s =>
          let id := if i = 0 ∨ i = 3 then Pkg.makeIdentR P s 0 c.qubit else (s, zeroE)
          Pkg.makeDDNode P .m id.1 c.qubit (if c.neg then ![em i, zeroE, zeroE, id.2] else ![id.2, zeroE, zeroE, em i]) false)
        (by
          intro i s' h' he
          have hz' : c.qubit < (s'.ut .m).nvars := by rw [(he .m).nvars]; exact hz
          have hid : OpSpec P ∅ s' .m c.qubit (fun d => if dg i then idD c.qubit d else 0)
              (if i = 0 ∨ i = 3 then Pkg.makeIdentR P s' 0 c.qubit else (s', zeroE)) := by
            by_cases hi : i = 0 ∨ i = 3
            · rw [if_pos hi]
              exact (makeIdent_spec hC h' hz'.le).congr (fun d => by rw [if_pos (show dg i from hi)])
            · rw [if_neg hi]
              exact .pure h' (valid_zeroE _ _) (fun d => by rw [if_neg (show ¬ dg i from hi), amp_zeroE])
          dsimp only
          generalize (if i = 0 ∨ i = 3 then Pkg.makeIdentR P s' 0 c.qubit else (s', zeroE)) = id at hid
          have hemi := ((hem i).ext h he).ext h' hid.ext
          have hz'' : c.qubit < (id.1.ut .m).nvars := by rw [(hid.ext .m).nvars]; exact hz'
          have key : OpSpec P ∅ id.1 .m (c.qubit + 1) (fun d => lowVal U cs i (c.qubit + 1) (dx d))
              (Pkg.makeDDNode P .m id.1 c.qubit
                (if c.neg then ![em i, zeroE, zeroE, id.2] else ![id.2, zeroE, zeroE, em i]) false) := by
            cases hn : c.neg with
            | true =>
              simp only [if_true]
              refine (diag_spec hC false hid.wf hz'' hemi hid.hasVal).congr (fun d => ?_)
              rw [← lowVal_ctrl hmem m2]
              have : c.dig = 0 := by simp [Ctrl.dig, hn]
              rw [this]
              by_cases h0 : d (Fin.last c.qubit) = 0 <;> by_cases h3 : d (Fin.last c.qubit) = 3 <;>
                simp [h0, h3, dg]
            | false =>
              simp only [Bool.false_eq_true, if_false]
              refine (diag_spec hC false hid.wf hz'' hid.hasVal hemi).congr (fun d => ?_)
              rw [← lowVal_ctrl hmem m2]
              have : c.dig = 3 := by simp [Ctrl.dig, hn]
              rw [this]
              by_cases h0 : d (Fin.last c.qubit) = 0 <;> by_cases h3 : d (Fin.last c.qubit) = 3 <;>
                simp [h0, h3, dg]
          exact ⟨key.wf, hid.ext.trans key.ext, key.valid, key.val⟩)
      exact ⟨q1, q2, q3, m1⟩
    · rw [if_neg hc]
      obtain ⟨m1, m2⟩ := hit.miss hs (by
        intro c' rest' e
        simp only [List.cons.injEq] at e
        rw [← e.1]; exact hc)
      obtain ⟨p1, p2, p3⟩ := plain m2
      exact ⟨p1, p2, p3, m1⟩

theorem gateBelowLoop_spec {P : PCfg R} (hC : 0 < P.C.growth) {U : Fin 4 → Cx R} {cs : List Ctrl}
    (hs : cs.Pairwise (fun a b => a.qubit < b.qubit)) : ∀ (z : Nat) (s : Pkg R), PWF P s ∅ → z ≤ (s.ut .m).nvars →
    let r := Pkg.gateBelowLoop P z s (fun i => Pkg.gateEntry (U i)) cs
    PWF P r.1.1 ∅ ∧ PExt s r.1.1 ∧ (∀ i, HasVal r.1.1 .m z (r.1.2 i) (fun d => lowVal U cs i z (dx d))) ∧
      AtLine cs r.2 z := by
  intro z
  induction z with
  | zero =>
    intro s h _
    refine ⟨h, PExt.refl _, ?_, ⟨[], rfl, by simp, by simp⟩⟩
    intro i
    refine (gateEntry_val s (U i)).congr (fun d => ?_)
    simp [lowVal]
  | succ z ih =>
    intro s h hz
    obtain ⟨h1, h2, h3, h4⟩ := ih s h (by omega)
    unfold Pkg.gateBelowLoop
    dsimp only
    generalize Pkg.gateBelowLoop P z s (fun i => Pkg.gateEntry (U i)) cs = r at h1 h2 h3 h4
    obtain ⟨k1, k2, k3, k4⟩ := gateBelow_spec hC hs h1 (by rw [(h2 .m).nvars]; omega) h3 h4
    exact ⟨k1, h2.trans k2, k3, k4⟩

theorem gateAbove_spec {P : PCfg R} (hC : 0 < P.C.growth) {U : Fin 4 → Cx R} {cs : List Ctrl} {t : Nat}
    (hs : cs.Pairwise (fun a b => a.qubit < b.qubit)) {z : Nat} (ht : t < z) {s : Pkg R} {e : PEdge R} {it : List Ctrl}
    (h : PWF P s ∅) (hz : z < (s.ut .m).nvars) (hem : HasVal s .m z e (fun d => highVal U cs t z (dx d)))
    (hit : AtLine cs it z) :
    let r := Pkg.gateAbove P z s e it
    OpSpec P ∅ s .m (z + 1) (fun d => highVal U cs t (z + 1) (dx d)) r.1 ∧ AtLine cs r.2 (z + 1) := by
  have plain : (∀ c ∈ cs, c.qubit ≠ z) →
      OpSpec P ∅ s .m (z + 1) (fun d => highVal U cs t (z + 1) (dx d)) (Pkg.makeDDNode P .m s z ![e, zeroE, zeroE, e] false) := by
    intro hno
    exact (diag_spec hC false h hz hem hem).congr (fun d => highVal_plain ht hno d)
  unfold Pkg.gateAbove
  cases it with
  | nil =>
    dsimp only
    obtain ⟨m1, m2⟩ := hit.miss hs (by intro c rest e; simp at e)
    exact ⟨plain m2, m1⟩
  | cons c rest =>
    dsimp only
    by_cases hc : c.qubit = z
    · rw [if_pos hc]
      subst hc
      obtain ⟨m1, m2⟩ := hit.hit hs
      have hmem : c ∈ cs := by
        obtain ⟨pre, h1, _⟩ := hit
        rw [h1]; simp
      refine ⟨?_, m1⟩
      dsimp only
      have hid := makeIdent_spec hC h hz.le
      generalize Pkg.makeIdentR P s 0 c.qubit = id at hid
      have he' := hem.ext h hid.ext
      have hz' : c.qubit < (id.1.ut .m).nvars := by rw [(hid.ext .m).nvars]; exact hz
      have key : OpSpec P ∅ id.1 .m (c.qubit + 1) (fun d => highVal U cs t (c.qubit + 1) (dx d))
          (Pkg.makeDDNode P .m id.1 c.qubit
            (if c.neg then ![e, zeroE, zeroE, id.2] else ![id.2, zeroE, zeroE, e]) false) := by
        cases hn : c.neg with
        | true =>
          simp only [if_true]
          refine (diag_spec hC false hid.wf hz' he' hid.hasVal).congr (fun d => ?_)
          rw [← highVal_ctrl ht hmem m2]
          have : c.dig = 0 := by simp [Ctrl.dig, hn]
          rw [this]
          by_cases h0 : d (Fin.last c.qubit) = 0 <;> by_cases h3 : d (Fin.last c.qubit) = 3 <;> simp [h0, h3, dg]
        | false =>
          simp only [Bool.false_eq_true, if_false]
          refine (diag_spec hC false hid.wf hz' hid.hasVal he').congr (fun d => ?_)
          rw [← highVal_ctrl ht hmem m2]
          have : c.dig = 3 := by simp [Ctrl.dig, hn]
          rw [this]
          by_cases h0 : d (Fin.last c.qubit) = 0 <;> by_cases h3 : d (Fin.last c.qubit) = 3 <;> simp [h0, h3, dg]
      exact ⟨key.wf, hid.ext.trans key.ext, key.valid, key.val⟩
    · rw [if_neg hc]
      obtain ⟨m1, m2⟩ := hit.miss hs (by
        intro c' rest' e
        simp only [List.cons.injEq] at e
        rw [← e.1]; exact hc)
      exact ⟨plain m2, m1⟩

theorem gateAboveLoop_spec {P : PCfg R} (hC : 0 < P.C.growth) {U : Fin 4 → Cx R} {cs : List Ctrl} {t : Nat}
    (hs : cs.Pairwise (fun a b => a.qubit < b.qubit)) {q0 : Nat} (ht : t < q0) : ∀ (n : Nat) (s : Pkg R) (e : PEdge R)
    (it : List Ctrl), PWF P s ∅ → q0 + n ≤ (s.ut .m).nvars → HasVal s .m q0 e (fun d => highVal U cs t q0 (dx d)) →
    AtLine cs it q0 →
    let r := Pkg.gateAboveLoop P q0 n s e it
    OpSpec P ∅ s .m (q0 + n) (fun d => highVal U cs t (q0 + n) (dx d)) r.1 ∧ AtLine cs r.2 (q0 + n) := by
  intro n
  induction n with
  | zero =>
    intro s e it h _ he hit
    exact ⟨he.op h (PExt.refl _), hit⟩
  | succ n ih =>
    intro s e it h hn he hit
    obtain ⟨h1, h2⟩ := ih s e it h (by omega) he hit
    unfold Pkg.gateAboveLoop
    dsimp only
    generalize Pkg.gateAboveLoop P q0 n s e it = r at h1 h2
    obtain ⟨k1, k2⟩ := gateAbove_spec hC hs (by omega : t < q0 + n) h1.wf (by rw [(h1.ext .m).nvars]; omega) h1.hasVal h2
    exact ⟨⟨k1.wf, h1.ext.trans k1.ext, k1.valid, k1.val⟩, k2⟩

/-- `makeGateDD` in terms of digits. -/
theorem makeGateDD_spec {P : PCfg R} (hC : 0 < P.C.growth) {U : Fin 4 → Cx R} {cs : List Ctrl} {t n : Nat}
    (hs : cs.Pairwise (fun a b => a.qubit < b.qubit)) (htn : t < n) (hct : ∀ c ∈ cs, c.qubit ≠ t) {s : Pkg R}
    (h : PWF P s ∅) (hn : n ≤ (s.ut .m).nvars) :
    ∃ r, Pkg.makeGateDD P s U n cs t = some r ∧ OpSpec P ∅ s .m n (fun d => highVal U cs t n (dx d)) r := by
  unfold Pkg.makeGateDD
  rw [if_neg (by omega)]
  refine ⟨_, rfl, ?_⟩
  obtain ⟨b1, b2, b3, b4⟩ := gateBelowLoop_spec hC (U := U) hs t s h (by omega)
  generalize Pkg.gateBelowLoop P t s (fun i => Pkg.gateEntry (U i)) cs = b at b1 b2 b3 b4
  have he := node_spec (k := .m) hC false b1 (by rw [(b2 .m).nvars]; omega) b3
  generalize Pkg.makeDDNode P .m b.1.1 t b.1.2 false = e at he
  have he' : HasVal e.1 .m (t + 1) e.2 (fun d => highVal U cs t (t + 1) (dx d)) :=
    he.hasVal.congr (fun d => highVal_target hct d)
  have hit : AtLine cs b.2 (t + 1) := by
    obtain ⟨pre, h1, h2, h3⟩ := b4
    refine ⟨pre, h1, fun c hc => by have := h2 c hc; omega, fun c hc => ?_⟩
    have h4 := h3 c hc
    have h5 := hct c (by rw [h1]; exact List.mem_append_right _ hc)
    omega
  have hnv : (e.1.ut .m).nvars = (s.ut .m).nvars := by rw [(he.ext .m).nvars, (b2 .m).nvars]
  obtain ⟨a1, a2⟩ := gateAboveLoop_spec hC hs (Nat.lt_succ_self t) (n - 1 - t) e.1 e.2 b.2 he.wf (by rw [hnv]; omega) he' hit
  have hlen : t + 1 + (n - 1 - t) = n := by omega
  rw [hlen] at a1
  exact ⟨a1.wf, b2.trans (he.ext.trans a1.ext), a1.valid, a1.val⟩

end DD
