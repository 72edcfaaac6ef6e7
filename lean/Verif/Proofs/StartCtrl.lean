import Verif.Proofs.Start
import Verif.StartSpec

/-!
# Gates with controls over the qubits `start .. start + n - 1`
-/

namespace DD

open UTable

variable {R : Type} [Field R] [LinearOrder R] [IsStrictOrderedRing R] [HasSqrt R] [LawfulSqrt R] {P : PCfg R}

/-- A node on a line without operation. -/
theorem plain_swf (hC : 0 < P.C.growth) {s : Pkg R} (h : SWF P s) {z : Nat} (hz : z < (s.ut .m).nvars) {e : PEdge R}
    (he : LvBelow (s.ut .m) z e) :
    let r := Pkg.makeDDNode P .m s z ![e, zeroE, zeroE, e] false
    SWF P r.1 ∧ SExt s r.1 ∧ LvBelow (r.1.ut .m) (z + 1) r.2 ∧
      ∀ a b : Nat → Fin 2, Pkg.valueByPath (r.1.ut .m) r.2 (fun q => rc (a q) (b q)) =
        if a z = b z then Pkg.valueByPath (s.ut .m) e (fun q => rc (a q) (b q)) else 0 := by
  have hes : ∀ i : Fin (ar .m), LvBelow (s.ut .m) z ((![e, zeroE, zeroE, e] : Fin 4 → PEdge R) i) := by
    intro i
    change Fin 4 at i
    fin_cases i
    exacts [he, LvBelow.term _ _ _, LvBelow.term _ _ _, he]
  obtain ⟨m1, m2, m3, m4⟩ := makeDDNode_swf hC h (k := .m) hz hes false
  refine ⟨m1, m2, m3, fun a b => ?_⟩
  rw [m4]
  rcases Fin.exists_fin_two.1 ⟨a z, rfl⟩ with ha | ha <;> rcases Fin.exists_fin_two.1 ⟨b z, rfl⟩ with hb | hb <;>
    simp [ha, hb, rc, Pkg.valueByPath, zeroE]

omit [IsStrictOrderedRing R] [HasSqrt R] [LawfulSqrt R] in
theorem valueByPath_entry (t : UTable (Cx R) 4) (x : Cx R) (d : Nat → Fin 4) : Pkg.valueByPath t (Pkg.gateEntry x) d = x := by
  unfold Pkg.gateEntry
  split
  · rename_i h
    obtain ⟨re, im⟩ := x
    simp only at h
    obtain ⟨rfl, rfl⟩ := h
    rfl
  · rfl

/-- The identity table is not touched. -/
theorem makeNodeWith_idTab {tr : Pkg R → PEdge R → Pkg R × PEdge R} (htr : ∀ s e, (tr s e).1.idTab = s.idTab) (k : Kind)
    (s : Pkg R) (v : Nat) (es : Fin (ar k) → PEdge R) (c : Bool) : (Pkg.makeNodeWith tr P k s v es c).1.idTab = s.idTab := by
  unfold Pkg.makeNodeWith
  dsimp only
  cases Pkg.norm k c es with
  | none => rfl
  | some q =>
    dsimp only
    split
    · unfold Pkg.checkSpecial
      dsimp only
      split
      · rfl
      · split
        · exact htr _ _
        · exact htr _ _
    · rfl

theorem transposeF_idTab : ∀ (l : Nat) (s : Pkg R) (e : PEdge R), (Pkg.transposeF P l s e).1.idTab = s.idTab := by
  intro l
  induction l with
  | zero => intro s e; rfl
  | succ l ih =>
    intro s e
    unfold Pkg.transposeF
    cases e.p with
    | none => rfl
    | some p =>
      dsimp only
      split
      · rfl
      · cases Pkg.look P.transH s.transC e with
        | some r => rfl
        | none =>
          dsimp only
          rw [makeNodeWith_idTab ih]
          have := seqFin_spec (fun s' : Pkg R => s'.idTab = s.idTab) (fun _ _ => True) (fun _ => trivial) (fun _ _ => trivial) 4
            (fun idx s' => Pkg.transposeF P l s' (((s.ut .m).mem p).e (![0, 2, 1, 3] idx)))
            (fun _ _ _ => True) (fun _ _ _ _ _ _ _ => trivial) s rfl
            (fun i s' h1 _ => ⟨(ih _ _).trans h1, trivial, trivial⟩)
          exact this.1

theorem makeDDNode_idTab (k : Kind) (s : Pkg R) (v : Nat) (es : Fin (ar k) → PEdge R) (c : Bool) :
    (Pkg.makeDDNode P k s v es c).1.idTab = s.idTab := makeNodeWith_idTab (fun _ _ => transposeF_idTab _ _ _) k s v es c

/-- The invariant together with an empty identity table. -/
def SWF0 (P : PCfg R) (s : Pkg R) : Prop := SWF P s ∧ ∀ i, s.idTab i = none

theorem identLoop_swf (hC : 0 < P.C.growth) : ∀ (n k : Nat) (s : Pkg R) (e : PEdge R), SWF0 P s → LvBelow (s.ut .m) k e →
    n + k ≤ (s.ut .m).nvars →
    let r := Pkg.identLoop P n k s e
    SWF0 P r.1 ∧ SExt s r.1 ∧ LvBelow (r.1.ut .m) (k + n) r.2 ∧
      ∀ a b : Nat → Fin 2, Pkg.valueByPath (r.1.ut .m) r.2 (fun q => rc (a q) (b q)) =
        if ∀ i, k ≤ i → i < k + n → a i = b i then Pkg.valueByPath (s.ut .m) e (fun q => rc (a q) (b q)) else 0 := by
  intro n
  induction n with
  | zero =>
    intro k s e h hb _
    exact ⟨h, .refl _, hb, fun a b => (if_pos (fun i h1 h2 => absurd h2 (by omega))).symm⟩
  | succ n ih =>
    intro k s e h hb hn
    unfold Pkg.identLoop
    dsimp only
    obtain ⟨m1, m2, m3, m4⟩ := plain_swf hC h.1 (z := k) (by omega) hb
    have m5 := makeDDNode_idTab (P := P) .m s k ![e, zeroE, zeroE, e] false
    generalize Pkg.makeDDNode P .m s k ![e, zeroE, zeroE, e] false = r at m1 m2 m3 m4 m5
    obtain ⟨i1, i2, i3, i4⟩ := ih (k + 1) r.1 r.2 ⟨m1, fun i => by rw [m5]; exact h.2 i⟩ m3 (by rw [(m2 .m).2]; omega)
    refine ⟨i1, m2.trans i2, by rwa [show k + (n + 1) = k + 1 + n by omega], fun a b => ?_⟩
    rw [i4, m4]
    by_cases h1 : ∀ i, k ≤ i → i < k + (n + 1) → a i = b i
    · rw [if_pos h1, if_pos (fun i hi hj => h1 i (by omega) (by omega)), if_pos (h1 k le_rfl (by omega))]
    · rw [if_neg h1]
      by_cases h2 : a k = b k
      · rw [if_neg]
        intro hc
        refine h1 fun i hi hj => ?_
        rcases Nat.eq_or_lt_of_le hi with rfl | hlt
        · exact h2
        · exact hc i hlt (by omega)
      · rw [if_neg h2, ite_self]

/-- `makeIdent(lo, hi - 1)` while no identity is kept. -/
theorem makeIdentR_swf (hC : 0 < P.C.growth) {s : Pkg R} (h : SWF0 P s) {lo hi : Nat} (hlo : 0 < lo) (hn : hi ≤ (s.ut .m).nvars)
    (hlh : lo ≤ hi) :
    let r := Pkg.makeIdentR P s lo hi
    SWF0 P r.1 ∧ SExt s r.1 ∧ LvBelow (r.1.ut .m) hi r.2 ∧
      ∀ a b : Nat → Fin 2, Pkg.valueByPath (r.1.ut .m) r.2 (fun q => rc (a q) (b q)) =
        if ∀ i, lo ≤ i → i < hi → a i = b i then 1 else 0 := by
  obtain ⟨m, rfl⟩ : ∃ m, hi = m + 1 := ⟨hi - 1, by omega⟩
  unfold Pkg.makeIdentR
  dsimp only
  by_cases hm : m < lo
  · rw [if_pos hm]
    refine ⟨h, .refl _, LvBelow.term _ _ _, fun a b => ?_⟩
    rw [if_pos (fun i h1 h2 => by omega)]
    rfl
  · rw [if_neg hm, if_neg (by omega), if_pos (by omega)]
    simp only [h.2 (m - 1)]
    rw [if_neg (by omega)]
    obtain ⟨m1, m2, m3, m4⟩ := plain_swf hC h.1 (z := lo) (by omega) (e := oneE) (LvBelow.term (s.ut .m) lo 1)
    have m5 := makeDDNode_idTab (P := P) .m s lo ![oneE, zeroE, zeroE, oneE] false
    generalize Pkg.makeDDNode P .m s lo ![oneE, zeroE, zeroE, oneE] false = r at m1 m2 m3 m4 m5
    obtain ⟨i1, i2, i3, i4⟩ := identLoop_swf hC (m - lo) (lo + 1) r.1 r.2 ⟨m1, fun i => by rw [m5]; exact h.2 i⟩ m3
      (by rw [(m2 .m).2]; omega)
    refine ⟨i1, m2.trans i2, by rwa [show lo + 1 + (m - lo) = m + 1 by omega] at i3, fun a b => ?_⟩
    rw [i4, m4]
    by_cases h1 : ∀ i, lo ≤ i → i < m + 1 → a i = b i
    · rw [if_pos h1, if_pos (fun i hi hj => h1 i (by omega) (by omega)), if_pos (h1 lo le_rfl (by omega))]
      rfl
    · rw [if_neg h1]
      by_cases h2 : a lo = b lo
      · rw [if_neg]
        intro hc
        refine h1 fun i hi hj => ?_
        rcases Nat.eq_or_lt_of_le hi with rfl | hlt
        · exact h2
        · exact hc i hlt (by omega)
      · rw [if_neg h2, ite_self]

/-- A node on the line of a control. -/
theorem ctrlNode_swf (hC : 0 < P.C.growth) {s : Pkg R} (h : SWF P s) {z : Nat} (hz : z < (s.ut .m).nvars) {e f : PEdge R}
    (he : LvBelow (s.ut .m) z e) (hf : LvBelow (s.ut .m) z f) (neg : Bool) :
    let r := Pkg.makeDDNode P .m s z (if neg then ![e, zeroE, zeroE, f] else ![f, zeroE, zeroE, e]) false
    SWF P r.1 ∧ SExt s r.1 ∧ LvBelow (r.1.ut .m) (z + 1) r.2 ∧
      ∀ a b : Nat → Fin 2, Pkg.valueByPath (r.1.ut .m) r.2 (fun q => rc (a q) (b q)) =
        if a z = b z then
          if b z = (if neg then 0 else 1) then Pkg.valueByPath (s.ut .m) e (fun q => rc (a q) (b q))
          else Pkg.valueByPath (s.ut .m) f (fun q => rc (a q) (b q))
        else 0 := by
  have hes : ∀ i : Fin (ar .m), LvBelow (s.ut .m) z
      ((if neg then ![e, zeroE, zeroE, f] else ![f, zeroE, zeroE, e] : Fin 4 → PEdge R) i) := by
    intro i
    change Fin 4 at i
    cases neg <;> fin_cases i
    exacts [hf, LvBelow.term _ _ _, LvBelow.term _ _ _, he, he, LvBelow.term _ _ _, LvBelow.term _ _ _, hf]
  obtain ⟨m1, m2, m3, m4⟩ := makeDDNode_swf hC h (k := .m) hz hes false
  refine ⟨m1, m2, m3, fun a b => ?_⟩
  rw [m4]
  cases neg <;> rcases Fin.exists_fin_two.1 ⟨a z, rfl⟩ with ha | ha <;> rcases Fin.exists_fin_two.1 ⟨b z, rfl⟩ with hb | hb <;>
    simp [ha, hb, rc, Pkg.valueByPath, zeroE]

theorem ctrl_swf (hC : 0 < P.C.growth) {s : Pkg R} (h : SWF0 P s) {z : Nat} (hz : z < (s.ut .m).nvars) {e f : PEdge R}
    (he : LvBelow (s.ut .m) z e) (hf : LvBelow (s.ut .m) z f) (neg : Bool) :
    let r := Pkg.makeDDNode P .m s z (if neg then ![e, zeroE, zeroE, f] else ![f, zeroE, zeroE, e]) false
    SWF0 P r.1 ∧ SExt s r.1 ∧ LvBelow (r.1.ut .m) (z + 1) r.2 ∧
      ∀ a b : Nat → Fin 2, Pkg.valueByPath (r.1.ut .m) r.2 (fun q => rc (a q) (b q)) =
        if a z = b z then
          if b z = (if neg then 0 else 1) then Pkg.valueByPath (s.ut .m) e (fun q => rc (a q) (b q))
          else Pkg.valueByPath (s.ut .m) f (fun q => rc (a q) (b q))
        else 0 := by
  obtain ⟨m1, m2, m3, m4⟩ := ctrlNode_swf hC h.1 hz he hf neg
  exact ⟨⟨m1, fun i => by rw [makeDDNode_idTab]; exact h.2 i⟩, m2, m3, m4⟩

/-- The controls are satisfied by the column bits. -/
def SatB (cs : List Ctrl) (b : Nat → Fin 2) : Prop := ∀ q ∈ cs, b q.qubit = if q.neg then 0 else 1

theorem satB_snoc {cs : List Ctrl} {c : Ctrl} {b : Nat → Fin 2} :
    SatB (cs ++ [c]) b ↔ SatB cs b ∧ b c.qubit = if c.neg then 0 else 1 := by
  unfold SatB
  simp only [List.mem_append, List.mem_singleton]
  constructor
  · exact fun h => ⟨fun q hq => h q (Or.inl hq), h c (Or.inr rfl)⟩
  · rintro ⟨h1, h2⟩ q (hq | rfl)
    · exact h1 q hq
    · exact h2

/-- The controls are in ascending order, and the iterator stands at the first one at or above line `z`. -/
structure IterAt (controls done it : List Ctrl) (z : Nat) : Prop where
  split : controls = done ++ it
  sorted : controls.Pairwise (fun x y => x.qubit < y.qubit)
  ge : ∀ q ∈ it, z ≤ q.qubit

theorem IterAt.rest_gt {controls done rest : List Ctrl} {c : Ctrl} {z : Nat} (h : IterAt controls done (c :: rest) z) :
    ∀ q ∈ rest, c.qubit < q.qubit := by
  have := h.sorted
  rw [h.split, List.pairwise_append] at this
  exact fun q hq => (List.pairwise_cons.1 this.2.1).1 q hq

theorem IterAt.pass {controls done rest : List Ctrl} {c : Ctrl} {z : Nat} (h : IterAt controls done (c :: rest) z)
    (hc : c.qubit = z) : IterAt controls (done ++ [c]) rest (z + 1) where
  split := by rw [h.split]; simp
  sorted := h.sorted
  ge q hq := by have := h.rest_gt q hq; omega

theorem IterAt.skip {controls done it : List Ctrl} {z : Nat} (h : IterAt controls done it z)
    (hc : ∀ c rest, it = c :: rest → c.qubit ≠ z) : IterAt controls done it (z + 1) where
  split := h.split
  sorted := h.sorted
  ge q hq := by
    cases it with
    | nil => simp at hq
    | cons c rest =>
      have h1 := h.ge c List.mem_cons_self
      have h2 := hc c rest rfl
      rcases List.mem_cons.1 hq with rfl | hq
      · omega
      · have := h.rest_gt q hq; omega

open Classical in
/-- Value of the edges for the four entries when the lines below `z` have been processed. -/
noncomputable def belowVal (U : Fin 4 → Cx R) (start z : Nat) (done : List Ctrl) (i : Fin 4) (a b : Nat → Fin 2) : Cx R :=
  if ∀ j, start ≤ j → j < z → a j = b j then
    if SatB done b then U i else if i = 0 ∨ i = 3 then 1 else 0
  else 0

open Classical in
theorem belowVal_plain (U : Fin 4 → Cx R) {start z : Nat} (hz : start ≤ z) (done : List Ctrl) (i : Fin 4) (a b : Nat → Fin 2) :
    (if a z = b z then belowVal U start z done i a b else 0) = belowVal U start (z + 1) done i a b := by
  unfold belowVal
  by_cases h1 : ∀ j, start ≤ j → j < z + 1 → a j = b j
  · rw [if_pos h1, if_pos (h1 z hz (by omega)), if_pos (fun j h2 h3 => h1 j h2 (by omega))]
  · rw [if_neg h1]
    by_cases h2 : a z = b z
    · rw [if_pos h2, if_neg]
      intro hc
      refine h1 fun j h3 h4 => ?_
      rcases Nat.lt_succ_iff_lt_or_eq.1 h4 with h5 | rfl
      · exact hc j h3 h5
      · exact h2
    · rw [if_neg h2]

open Classical in
theorem belowVal_ctrl (U : Fin 4 → Cx R) {start z : Nat} (hz : start ≤ z) (done : List Ctrl) {c : Ctrl} (hc : c.qubit = z) (i : Fin 4)
    (a b : Nat → Fin 2) :
    (if a z = b z then
      if b z = (if c.neg then 0 else 1) then belowVal U start z done i a b
      else if i = 0 ∨ i = 3 then if ∀ j, start ≤ j → j < z → a j = b j then 1 else 0 else 0
    else 0) = belowVal U start (z + 1) (done ++ [c]) i a b := by
  rw [← belowVal_plain U hz]
  by_cases h1 : a z = b z
  · rw [if_pos h1, if_pos h1]
    unfold belowVal
    rw [satB_snoc, hc]
    by_cases h2 : b z = (if c.neg then 0 else 1)
    · rw [if_pos h2]
      simp only [h2, and_true]
    · rw [if_neg h2]
      simp only [h2, and_false, if_false]
      by_cases h3 : i = 0 ∨ i = 3
      · rw [if_pos h3, if_pos h3]
      · rw [if_neg h3, if_neg h3, ite_self]
  · rw [if_neg h1, if_neg h1]

theorem gateBelowLoopS_ctrl (hC : 0 < P.C.growth) {start : Nat} (hst : 0 < start) (U : Fin 4 → Cx R) {controls : List Ctrl}
    (hsort : controls.Pairwise (fun x y => x.qubit < y.qubit)) (hge : ∀ q ∈ controls, start ≤ q.qubit) :
    ∀ (n : Nat) (s : Pkg R), SWF0 P s → n + start ≤ (s.ut .m).nvars →
    let r := Pkg.gateBelowLoopS P start n s (fun i => Pkg.gateEntry (U i)) controls
    SWF0 P r.1.1 ∧ SExt s r.1.1 ∧ ∃ done, IterAt controls done r.2 (start + n) ∧
      ∀ i, LvBelow (r.1.1.ut .m) (start + n) (r.1.2 i) ∧
        ∀ a b : Nat → Fin 2, Pkg.valueByPath (r.1.1.ut .m) (r.1.2 i) (fun q => rc (a q) (b q)) = belowVal U start (start + n) done i a b := by
  intro n
  induction n with
  | zero =>
    intro s h _
    refine ⟨h, .refl _, [], ⟨rfl, hsort, hge⟩, fun i => ⟨?_, fun a b => ?_⟩⟩
    · show LvBelow _ _ (Pkg.gateEntry (U i))
      unfold Pkg.gateEntry
      split <;> exact LvBelow.term _ _ _
    · unfold belowVal
      rw [if_pos (fun j h1 h2 => absurd h2 (by omega)), if_pos (show SatB [] b from fun q hq => absurd hq (by simp))]
      exact valueByPath_entry _ _ _
  | succ n ih =>
    intro s h hn
    unfold Pkg.gateBelowLoopS
    dsimp only
    obtain ⟨h1, h2, done, hit, h3⟩ := ih s h (by omega)
    generalize Pkg.gateBelowLoopS P start n s (fun i => Pkg.gateEntry (U i)) controls = r at h1 h2 hit h3
    obtain ⟨⟨s1, em⟩, it⟩ := r
    dsimp only at h1 h2 hit h3 ⊢
    have nv : start + n < (s1.ut .m).nvars := by rw [(h2 .m).2]; omega
    -- a line without control
    have hplain : ∀ g, g = seqFin 4 (fun i s' => Pkg.makeDDNode P .m s' (start + n) ![em i, zeroE, zeroE, em i] false) s1 →
        SWF0 P g.1 ∧ SExt s1 g.1 ∧ ∀ i, LvBelow (g.1.ut .m) (start + (n + 1)) (g.2 i) ∧
          ∀ a b : Nat → Fin 2, Pkg.valueByPath (g.1.ut .m) (g.2 i) (fun q => rc (a q) (b q)) = belowVal U start (start + (n + 1)) done i a b := by
      rintro g rfl
      exact seqFin_spec (SWF0 P) SExt SExt.refl (fun a b => a.trans b) 4
        (fun i s' => Pkg.makeDDNode P .m s' (start + n) ![em i, zeroE, zeroE, em i] false)
        (fun i s' e => LvBelow (s'.ut .m) (start + (n + 1)) e ∧
          ∀ a b : Nat → Fin 2, Pkg.valueByPath (s'.ut .m) e (fun q => rc (a q) (b q)) = belowVal U start (start + (n + 1)) done i a b)
        (fun i s1 s2 e he hI hQ => by
          refine ⟨hQ.1.mono (he .m).1, fun a b => ?_⟩
          rw [valueByPath_mono (hI.1.ord .m) (he .m).1 _ hQ.1]
          exact hQ.2 a b) s1 h1
        (fun i s' h4 h5 => by
          have hb := (h3 i).1.mono (h5 .m).1
          obtain ⟨m1, m2, m3, m4⟩ := plain_swf hC h4.1 (z := start + n) (by rw [(h5 .m).2]; exact nv) hb
          refine ⟨⟨m1, fun j => by rw [makeDDNode_idTab]; exact h4.2 j⟩, m2, m3, fun a b => ?_⟩
          rw [m4, valueByPath_mono (h1.1.ord .m) (h5 .m).1 _ (h3 i).1, (h3 i).2]
          exact belowVal_plain U (by omega) done i a b)
    unfold Pkg.gateBelowS
    dsimp only
    cases it with
    | nil =>
      obtain ⟨g1, g2, g3⟩ := hplain _ rfl
      exact ⟨g1, h2.trans g2, done, hit.skip (fun c rest h => by simp at h), g3⟩
    | cons c rest =>
      dsimp only
      by_cases hc : c.qubit = start + n
      · rw [if_pos hc]
        have hq := seqFin_spec (SWF0 P) SExt SExt.refl (fun a b => a.trans b) 4
          (fun i s' =>
            let id := if i = 0 ∨ i = 3 then Pkg.makeIdentR P s' start (start + n) else (s', zeroE)
            Pkg.makeDDNode P .m id.1 (start + n) (if c.neg then ![em i, zeroE, zeroE, id.2] else ![id.2, zeroE, zeroE, em i]) false)
          (fun i s' e => LvBelow (s'.ut .m) (start + (n + 1)) e ∧
            ∀ a b : Nat → Fin 2, Pkg.valueByPath (s'.ut .m) e (fun q => rc (a q) (b q)) = belowVal U start (start + (n + 1)) (done ++ [c]) i a b)
          (fun i s1 s2 e he hI hQ => by
            refine ⟨hQ.1.mono (he .m).1, fun a b => ?_⟩
            rw [valueByPath_mono (hI.1.ord .m) (he .m).1 _ hQ.1]
            exact hQ.2 a b) s1 h1
          (fun i s' h4 h5 => by
            dsimp only
            have hid : ∀ id, id = (if i = 0 ∨ i = 3 then Pkg.makeIdentR P s' start (start + n) else (s', zeroE)) →
                SWF0 P id.1 ∧ SExt s' id.1 ∧ LvBelow (id.1.ut .m) (start + n) id.2 ∧
                ∀ a b : Nat → Fin 2, Pkg.valueByPath (id.1.ut .m) id.2 (fun q => rc (a q) (b q)) =
                  if i = 0 ∨ i = 3 then if ∀ j, start ≤ j → j < start + n → a j = b j then 1 else 0 else 0 := by
              rintro id rfl
              by_cases hi : i = 0 ∨ i = 3
              · simp only [if_pos hi]
                exact makeIdentR_swf hC h4 hst (by rw [(h5 .m).2]; omega) (by omega)
              · simp only [if_neg hi]
                exact ⟨h4, .refl _, LvBelow.term _ _ _, fun a b => rfl⟩
            obtain ⟨d1, d2, d3, d4⟩ := hid _ rfl
            generalize (if i = 0 ∨ i = 3 then Pkg.makeIdentR P s' start (start + n) else (s', zeroE)) = id at d1 d2 d3 d4
            have hb := ((h3 i).1.mono (h5 .m).1).mono (d2 .m).1
            obtain ⟨m1, m2, m3, m4⟩ := ctrl_swf hC d1 (z := start + n) (by rw [(d2 .m).2, (h5 .m).2]; exact nv) hb d3 c.neg
            refine ⟨m1, d2.trans m2, m3, fun a b => ?_⟩
            rw [m4, valueByPath_mono (h1.1.ord .m) ((h5.trans d2) .m).1 _ (h3 i).1, (h3 i).2, d4]
            exact belowVal_ctrl U (by omega) done hc i a b)
        exact ⟨hq.1, h2.trans hq.2.1, done ++ [c], hit.pass hc, hq.2.2⟩
      · rw [if_neg hc]
        obtain ⟨g1, g2, g3⟩ := hplain _ rfl
        exact ⟨g1, h2.trans g2, done, hit.skip (fun c' rest' h => by
          obtain ⟨rfl, _⟩ := List.cons.inj h
          exact hc), g3⟩

open Classical in
/-- Value of the edge when the lines below `z`, which include the target, have been processed. -/
noncomputable def aboveVal (U : Fin 4 → Cx R) (start target z : Nat) (done : List Ctrl) (a b : Nat → Fin 2) : Cx R :=
  if ∀ j, start ≤ j → j < z → j ≠ target → a j = b j then
    if SatB done b then U (rc (a target) (b target)) else if a target = b target then 1 else 0
  else 0

open Classical in
theorem aboveVal_plain (U : Fin 4 → Cx R) {start target z : Nat} (hz : start ≤ z) (ht : target < z) (done : List Ctrl) (a b : Nat → Fin 2) :
    (if a z = b z then aboveVal U start target z done a b else 0) = aboveVal U start target (z + 1) done a b := by
  unfold aboveVal
  by_cases h1 : ∀ j, start ≤ j → j < z + 1 → j ≠ target → a j = b j
  · rw [if_pos h1, if_pos (h1 z hz (by omega) (by omega)), if_pos (fun j h2 h3 => h1 j h2 (by omega))]
  · rw [if_neg h1]
    by_cases h2 : a z = b z
    · rw [if_pos h2, if_neg]
      intro hc
      refine h1 fun j h3 h4 h5 => ?_
      rcases Nat.lt_succ_iff_lt_or_eq.1 h4 with h6 | rfl
      · exact hc j h3 h6 h5
      · exact h2
    · rw [if_neg h2]

open Classical in
theorem aboveVal_ctrl (U : Fin 4 → Cx R) {start target z : Nat} (hz : start ≤ z) (hst : start ≤ target) (ht : target < z) (done : List Ctrl) {c : Ctrl}
    (hc : c.qubit = z) (a b : Nat → Fin 2) :
    (if a z = b z then
      if b z = (if c.neg then 0 else 1) then aboveVal U start target z done a b
      else if ∀ j, start ≤ j → j < z → a j = b j then 1 else 0
    else 0) = aboveVal U start target (z + 1) (done ++ [c]) a b := by
  rw [← aboveVal_plain U hz ht]
  by_cases h1 : a z = b z
  · rw [if_pos h1, if_pos h1]
    unfold aboveVal
    rw [satB_snoc, hc]
    by_cases h2 : b z = (if c.neg then 0 else 1)
    · rw [if_pos h2]
      simp only [h2, and_true]
    · rw [if_neg h2]
      simp only [h2, and_false, if_false]
      by_cases h3 : ∀ j, start ≤ j → j < z → a j = b j
      · rw [if_pos h3, if_pos (fun j h4 h5 _ => h3 j h4 h5), if_pos (h3 target hst ht)]
      · rw [if_neg h3]
        by_cases h4 : a target = b target
        · rw [if_neg]
          intro hc'
          refine h3 fun j h5 h6 => ?_
          by_cases h7 : j = target
          · rw [h7]; exact h4
          · exact hc' j h5 h6 h7
        · rw [if_neg h4, ite_self]
  · rw [if_neg h1, if_neg h1]

theorem gateAboveLoopS_ctrl (hC : 0 < P.C.growth) {start target : Nat} (hst : 0 < start) (hts : start ≤ target) (U : Fin 4 → Cx R)
    {controls : List Ctrl} : ∀ (n : Nat) (s : Pkg R) (e : PEdge R) (done it : List Ctrl), SWF0 P s → n + (target + 1) ≤ (s.ut .m).nvars →
    LvBelow (s.ut .m) (target + 1) e → IterAt controls done it (target + 1) →
    (∀ a b : Nat → Fin 2, Pkg.valueByPath (s.ut .m) e (fun q => rc (a q) (b q)) = aboveVal U start target (target + 1) done a b) →
    let r := Pkg.gateAboveLoopS P start (target + 1) n s e it
    SWF0 P r.1.1 ∧ SExt s r.1.1 ∧ LvBelow (r.1.1.ut .m) (target + 1 + n) r.1.2 ∧
      ∃ done', IterAt controls done' r.2 (target + 1 + n) ∧
        ∀ a b : Nat → Fin 2, Pkg.valueByPath (r.1.1.ut .m) r.1.2 (fun q => rc (a q) (b q)) = aboveVal U start target (target + 1 + n) done' a b := by
  intro n
  induction n with
  | zero =>
    intro s e done it h _ hb hit hv
    exact ⟨h, .refl _, hb, done, hit, hv⟩
  | succ n ih =>
    intro s e done it h hn hb hit hv
    unfold Pkg.gateAboveLoopS
    dsimp only
    obtain ⟨h1, h2, h3, done', h4, h5⟩ := ih s e done it h (by omega) hb hit hv
    generalize Pkg.gateAboveLoopS P start (target + 1) n s e it = r at h1 h2 h3 h4 h5
    obtain ⟨⟨s1, e1⟩, it1⟩ := r
    dsimp only at h1 h2 h3 h4 h5 ⊢
    have nv : target + 1 + n < (s1.ut .m).nvars := by rw [(h2 .m).2]; omega
    have hplain : ∀ g, g = Pkg.makeDDNode P .m s1 (target + 1 + n) ![e1, zeroE, zeroE, e1] false →
        SWF0 P g.1 ∧ SExt s1 g.1 ∧ LvBelow (g.1.ut .m) (target + 1 + (n + 1)) g.2 ∧
          ∀ a b : Nat → Fin 2, Pkg.valueByPath (g.1.ut .m) g.2 (fun q => rc (a q) (b q)) = aboveVal U start target (target + 1 + (n + 1)) done' a b := by
      rintro g rfl
      obtain ⟨m1, m2, m3, m4⟩ := plain_swf hC h1.1 (z := target + 1 + n) nv h3
      refine ⟨⟨m1, fun j => by rw [makeDDNode_idTab]; exact h1.2 j⟩, m2, m3, fun a b => ?_⟩
      rw [m4, h5]
      exact aboveVal_plain U (by omega) (by omega) done' a b
    unfold Pkg.gateAboveS
    cases it1 with
    | nil =>
      obtain ⟨g1, g2, g3, g4⟩ := hplain _ rfl
      exact ⟨g1, h2.trans g2, g3, done', h4.skip (fun c rest h => by simp at h), g4⟩
    | cons c rest =>
      dsimp only
      by_cases hc : c.qubit = target + 1 + n
      · rw [if_pos hc]
        obtain ⟨d1, d2, d3, d4⟩ := makeIdentR_swf hC h1 hst (hi := target + 1 + n) (by omega) (by omega)
        generalize Pkg.makeIdentR P s1 start (target + 1 + n) = id at d1 d2 d3 d4
        obtain ⟨m1, m2, m3, m4⟩ := ctrl_swf hC d1 (z := target + 1 + n) (by rw [(d2 .m).2]; exact nv) (h3.mono (d2 .m).1) d3 c.neg
        refine ⟨m1, h2.trans (d2.trans m2), m3, done' ++ [c], h4.pass hc, fun a b => ?_⟩
        rw [m4, valueByPath_mono (h1.1.ord .m) (d2 .m).1 _ h3, h5, d4]
        exact aboveVal_ctrl U (by omega) hts (by omega) done' hc a b
      · rw [if_neg hc]
        obtain ⟨g1, g2, g3, g4⟩ := hplain _ rfl
        exact ⟨g1, h2.trans g2, g3, done', h4.skip (fun c' rest' h => by
          obtain ⟨rfl, _⟩ := List.cons.inj h
          exact hc), g4⟩

theorem rc_diag (x y : Fin 2) : (rc x y = 0 ∨ rc x y = 3) ↔ x = y := by
  revert x y; decide

/-- `makeGateDD` with controls while no identity is kept. -/
theorem makeGateDDS_ctrl (hC : 0 < P.C.growth) {s : Pkg R} (h : SWF0 P s) (U : Fin 4 → Cx R) {controls : List Ctrl} {n target start : Nat}
    (hst : 0 < start) (h1 : start ≤ target) (h2 : target < n + start) (hn : n + start ≤ (s.ut .m).nvars)
    (hsort : controls.Pairwise (fun x y => x.qubit < y.qubit))
    (hr : ∀ q ∈ controls, start ≤ q.qubit ∧ q.qubit < n + start ∧ q.qubit ≠ target) :
    ∃ r, Pkg.makeGateDDS P s U n controls target start = some r ∧ SWF P r.1 ∧ SExt s r.1 ∧
      ∀ a b : Nat → Fin 2, Pkg.valueByPath (r.1.ut .m) r.2 (fun q => rc (a q) (b q)) = ctrlEntryAt U n controls start target a b := by
  unfold Pkg.makeGateDDS
  rw [if_neg (by omega), max_eq_right h1]
  dsimp only
  obtain ⟨b1, b2, done, b3, b4⟩ := gateBelowLoopS_ctrl hC hst U hsort (fun q hq => (hr q hq).1) (target - start) s h (by omega)
  generalize Pkg.gateBelowLoopS P start (target - start) s (fun i => Pkg.gateEntry (U i)) controls = b at b1 b2 b3 b4
  rw [Nat.add_sub_cancel' h1] at b3 b4
  obtain ⟨m1, m2, m3, m4⟩ := makeDDNode_swf hC b1.1 (k := .m) (v := target) (es := b.1.2) (by rw [(b2 .m).2]; omega)
    (fun i => (b4 i).1) false
  have m5 := makeDDNode_idTab (P := P) .m b.1.1 target b.1.2 false
  generalize Pkg.makeDDNode P .m b.1.1 target b.1.2 false = e at m1 m2 m3 m4 m5
  have hit : IterAt controls done b.2 (target + 1) := b3.skip (fun c rest hcr => by
    refine (hr c ?_).2.2
    rw [b3.split, hcr]; simp)
  have hv : ∀ a b' : Nat → Fin 2, Pkg.valueByPath (e.1.ut .m) e.2 (fun q => rc (a q) (b' q)) = aboveVal U start target (target + 1) done a b' := by
    intro a b'
    rw [m4, (b4 _).2]
    unfold belowVal aboveVal
    have : (∀ j, start ≤ j → j < target → a j = b' j) ↔ ∀ j, start ≤ j → j < target + 1 → j ≠ target → a j = b' j :=
      ⟨fun h j x y z => h j x (by omega), fun h j x y => h j x (by omega) (by omega)⟩
    simp only [this, rc_diag]
  obtain ⟨a1, a2, a3, done', a4, a5⟩ := gateAboveLoopS_ctrl hC hst h1 U (controls := controls) (n + start - 1 - target) e.1 e.2 done b.2
    ⟨m1, fun i => by rw [m5]; exact b1.2 i⟩ (by rw [(m2 .m).2, (b2 .m).2]; omega) m3 hit hv
  refine ⟨_, rfl, a1.1, b2.trans (m2.trans a2), fun a b' => ?_⟩
  rw [a5]
  have hd : done' = controls := by
    have hs := a4.split
    have hnil : (Pkg.gateAboveLoopS P start (target + 1) (n + start - 1 - target) e.1 e.2 b.2).2 = [] := by
      refine List.eq_nil_iff_forall_not_mem.2 fun q hq => ?_
      have g1 := a4.ge q hq
      have g2 := (hr q (by rw [hs]; exact List.mem_append_right _ hq)).2.1
      omega
    rw [hnil, List.append_nil] at hs
    exact hs.symm
  rw [hd]
  unfold aboveVal ctrlEntryAt SatB
  have : (∀ j, start ≤ j → j < target + 1 + (n + start - 1 - target) → j ≠ target → a j = b' j) ↔
      ∀ i < n, start + i ≠ target → a (start + i) = b' (start + i) := by
    constructor
    · intro h i hi hne; exact h (start + i) (by omega) (by omega) hne
    · intro h j x y z
      have := h (j - start) (by omega) (by omega)
      rwa [Nat.add_sub_cancel' x] at this
  simp only [this]
  congr

end DD
