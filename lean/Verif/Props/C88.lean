import Verif.StartSpec
import Verif.Proofs.StartTwo
import Verif.Proofs.RealEx
import Verif.Props.C34

/-!
# C88: states and gates that do not start at qubit 0
-/

namespace DD

open UTable

variable {R : Type} [Field R] [LinearOrder R] [IsStrictOrderedRing R] [HasSqrt R] [LawfulSqrt R] {P : PCfg R}

/-- The loop of `makeBasisState`. -/
theorem basisLoopS_swf (hC : 0 < P.C.growth) (st : Nat → Option Basis) (start : Nat) : ∀ (n : Nat) (s : Pkg R), SWF P s →
    n + start ≤ (s.ut .v).nvars → ∀ r, Pkg.basisLoopS P st start n s = some r →
    SWF P r.1 ∧ SExt s r.1 ∧ LvBelow (r.1.ut .v) (start + n) r.2 ∧ r.2.w = 1 ∧
      ∃ b : Nat → Basis, (∀ i < n, st (start + i) = some (b i)) ∧
        ∀ d, Pkg.valueByPath (r.1.ut .v) r.2 d = ∏ i ∈ Finset.range n, basisAmp (b i) (d (start + i)) := by
  intro n
  induction n with
  | zero =>
    intro s h _ r hr
    obtain rfl : (s, oneE) = r := Option.some.inj hr
    exact ⟨h, .refl _, LvBelow.term _ _ _, rfl, fun _ => .zero, fun i hi => absurd hi (by omega), fun d => by
      simp [Pkg.valueByPath, oneE]⟩
  | succ n ih =>
    intro s h hn r hr
    unfold Pkg.basisLoopS at hr
    cases h0 : Pkg.basisLoopS P st start n s with
    | none => rw [h0] at hr; simp at hr
    | some q =>
      rw [h0] at hr
      dsimp only at hr
      cases hb : st (start + n) with
      | none => rw [hb] at hr; simp at hr
      | some b =>
        rw [hb] at hr
        dsimp only at hr
        obtain ⟨q1, q2, q3, q4, bs, q5, q6⟩ := ih s h (by omega) q h0
        rw [basisStep_eq P _ _ _ _ q4] at hr
        have hes : ∀ i : Fin (ar .v), LvBelow (q.1.ut .v) (start + n)
            ((fun i : Fin 2 => if basisAmp b i = (0 : Cx R) then zeroE else ⟨q.2.p, basisAmp b i⟩) i) := by
          intro i
          dsimp only
          split
          · exact LvBelow.term _ _ _
          · exact q3.ptr rfl
        have hm := makeDDNode_swf hC q1 (k := .v) (v := start + n) (by rw [(q2 .v).2]; omega) hes false
        have hw : (Pkg.makeDDNode P .v q.1 (start + n)
            (fun i : Fin 2 => if basisAmp b i = (0 : Cx R) then zeroE else ⟨q.2.p, basisAmp b i⟩) false).2.w = 1 := by
          apply makeDDNode_weight
          have : (fun i : Fin 2 => (if basisAmp b i = (0 : Cx R) then zeroE else (⟨q.2.p, basisAmp b i⟩ : PEdge R)).w)
              = basisAmp b := by
            funext i
            by_cases hz : basisAmp b i = (0 : Cx R)
            · rw [if_pos hz, hz]; rfl
            · rw [if_neg hz]
          have h5 : IsNormV (R := R) (basisAmp b) := basisAmp_norm _
          rw [← this] at h5
          exact h5
        obtain rfl := Option.some.inj hr
        obtain ⟨m1, m2, m3, m4⟩ := hm
        refine ⟨m1, q2.trans m2, m3, hw, fun i => if i = n then b else bs i, fun i hi => ?_, fun d => ?_⟩
        · by_cases hin : i = n
          · subst hin; simp [hb]
          · simp only [if_neg hin]; exact q5 i (by omega)
        · rw [m4 d, Finset.prod_range_succ]
          simp only [if_true]
          have hp : ∏ i ∈ Finset.range n, basisAmp (R := R) (if i = n then b else bs i) (d (start + i)) =
              ∏ i ∈ Finset.range n, basisAmp (bs i) (d (start + i)) :=
            Finset.prod_congr rfl fun i hi => by rw [if_neg (by have := Finset.mem_range.1 hi; omega)]
          rw [hp, ← q6 d]
          split
          · rename_i hz
            rw [hz, mul_zero]; rfl
          · rw [valueByPath_weight (q1.ord .v) d (q3.ptr (e' := ⟨q.2.p, basisAmp b (d (start + n))⟩) rfl),
              valueByPath_weight (q1.ord .v) d q3, q4, one_mul, mul_comm]

theorem basisLoopS_some (P : PCfg R) (st : Nat → Option Basis) (start : Nat) : ∀ (n : Nat) (s : Pkg R),
    (∀ i < n, ∃ b, st (start + i) = some b) → ∃ r, Pkg.basisLoopS P st start n s = some r := by
  intro n
  induction n with
  | zero => intro s _; exact ⟨_, rfl⟩
  | succ n ih =>
    intro s h
    obtain ⟨r, hr⟩ := ih s fun i hi => h i (by omega)
    obtain ⟨b, hb⟩ := h n (by omega)
    unfold Pkg.basisLoopS
    rw [hr, hb]
    exact ⟨_, rfl⟩

theorem basisLoopS_none (P : PCfg R) (st : Nat → Option Basis) (start : Nat) {i : Nat} (hi : st (start + i) = none) :
    ∀ (n : Nat) (s : Pkg R), i < n → Pkg.basisLoopS P st start n s = none := by
  intro n
  induction n with
  | zero => intro s h; omega
  | succ n ih =>
    intro s h
    unfold Pkg.basisLoopS
    by_cases hin : i = n
    · subst hin
      cases Pkg.basisLoopS P st start i s with
      | none => rfl
      | some r => rw [hi]
    · rw [ih s (by omega)]

/-- The lines below the target. -/
theorem gateBelowLoopS_swf (hC : 0 < P.C.growth) (start : Nat) (U : Fin 4 → Cx R) : ∀ (n : Nat) (s : Pkg R), SWF P s →
    n + start ≤ (s.ut .m).nvars →
    let r := (Pkg.gateBelowLoopS P start n s (fun i => Pkg.gateEntry (U i)) []).1
    (Pkg.gateBelowLoopS P start n s (fun i => Pkg.gateEntry (U i)) []).2 = [] ∧
    SWF P r.1 ∧ SExt s r.1 ∧ ∀ i, LvBelow (r.1.ut .m) (start + n) (r.2 i) ∧
      ∀ a b : Nat → Fin 2, Pkg.valueByPath (r.1.ut .m) (r.2 i) (fun q => rc (a q) (b q)) =
        if ∀ j < n, a (start + j) = b (start + j) then U i else 0 := by
  intro n
  induction n with
  | zero =>
    intro s h _
    refine ⟨rfl, h, .refl _, fun i => ⟨?_, fun a b => ?_⟩⟩
    · show LvBelow _ _ (Pkg.gateEntry (U i))
      unfold Pkg.gateEntry
      split <;> exact LvBelow.term _ _ _
    · rw [if_pos (fun j hj => absurd hj (by omega))]
      exact valueByPath_entry _ _ _
  | succ n ih =>
    intro s h hn
    unfold Pkg.gateBelowLoopS
    dsimp only
    obtain ⟨h0, h1, h2, h3⟩ := ih s h (by omega)
    generalize Pkg.gateBelowLoopS P start n s (fun i => Pkg.gateEntry (U i)) [] = r at h0 h1 h2 h3
    rw [h0]
    unfold Pkg.gateBelowS
    dsimp only
    have hq := seqFin_spec (SWF P) SExt SExt.refl (fun a b => a.trans b) 4
      (fun i s' => Pkg.makeDDNode P .m s' (start + n) ![r.1.2 i, zeroE, zeroE, r.1.2 i] false)
      (fun i s' e => LvBelow (s'.ut .m) (start + (n + 1)) e ∧
        ∀ a b : Nat → Fin 2, Pkg.valueByPath (s'.ut .m) e (fun q => rc (a q) (b q)) =
          if ∀ j < n + 1, a (start + j) = b (start + j) then U i else 0)
      (fun i s1 s2 e he hI hQ => by
        refine ⟨hQ.1.mono (he .m).1, fun a b => ?_⟩
        rw [valueByPath_mono (hI.ord .m) (he .m).1 _ hQ.1]
        exact hQ.2 a b) r.1.1 h1
      (fun i s' h4 h5 => by
        have hb := (h3 i).1.mono (h5 .m).1
        obtain ⟨m1, m2, m3, m4⟩ := plain_swf hC h4 (z := start + n) (by rw [(h5 .m).2, (h2 .m).2]; omega) hb
        refine ⟨m1, m2, m3, fun a b => ?_⟩
        rw [m4, valueByPath_mono (h1.ord .m) (h5 .m).1 _ (h3 i).1, (h3 i).2]
        by_cases hj : ∀ j < n, a (start + j) = b (start + j)
        · rw [if_pos hj]
          by_cases hl : a (start + n) = b (start + n)
          · rw [if_pos hl, if_pos]
            intro j hjn
            rcases Nat.lt_succ_iff_lt_or_eq.1 hjn with hj' | rfl
            · exact hj j hj'
            · exact hl
          · rw [if_neg hl, if_neg]
            intro hc
            exact hl (hc n (by omega))
        · rw [if_neg hj, ite_self, if_neg]
          intro hc
          exact hj fun j hjn => hc j (by omega))
    obtain ⟨q1, q2, q3⟩ := hq
    exact ⟨rfl, q1, h2.trans q2, fun i => q3 i⟩

/-- The lines above the target. -/
theorem gateAboveLoopS_swf (hC : 0 < P.C.growth) (start q0 : Nat) : ∀ (n : Nat) (s : Pkg R) (e : PEdge R), SWF P s →
    LvBelow (s.ut .m) q0 e → n + q0 ≤ (s.ut .m).nvars →
    let r := (Pkg.gateAboveLoopS P start q0 n s e []).1
    (Pkg.gateAboveLoopS P start q0 n s e []).2 = [] ∧ SWF P r.1 ∧ SExt s r.1 ∧ LvBelow (r.1.ut .m) (q0 + n) r.2 ∧
      ∀ a b : Nat → Fin 2, Pkg.valueByPath (r.1.ut .m) r.2 (fun q => rc (a q) (b q)) =
        if ∀ j < n, a (q0 + j) = b (q0 + j) then Pkg.valueByPath (s.ut .m) e (fun q => rc (a q) (b q)) else 0 := by
  intro n
  induction n with
  | zero =>
    intro s e h hb _
    exact ⟨rfl, h, .refl _, hb, fun a b => (if_pos (fun j hj => absurd hj (by omega))).symm⟩
  | succ n ih =>
    intro s e h hb hn
    unfold Pkg.gateAboveLoopS
    dsimp only
    obtain ⟨h0, h1, h2, h3, h4⟩ := ih s e h hb (by omega)
    generalize Pkg.gateAboveLoopS P start q0 n s e [] = r at h0 h1 h2 h3 h4
    rw [h0]
    unfold Pkg.gateAboveS
    dsimp only
    obtain ⟨m1, m2, m3, m4⟩ := plain_swf hC h1 (z := q0 + n) (by rw [(h2 .m).2]; omega) h3
    refine ⟨rfl, m1, h2.trans m2, m3, fun a b => ?_⟩
    rw [m4, h4]
    by_cases hj : ∀ j < n, a (q0 + j) = b (q0 + j)
    · rw [if_pos hj]
      by_cases hl : a (q0 + n) = b (q0 + n)
      · rw [if_pos hl, if_pos]
        intro j hjn
        rcases Nat.lt_succ_iff_lt_or_eq.1 hjn with hj' | rfl
        · exact hj j hj'
        · exact hl
      · rw [if_neg hl, if_neg]
        intro hc
        exact hl (hc n (by omega))
    · rw [if_neg hj, ite_self, if_neg]
      intro hc
      exact hj fun j hjn => hc j (by omega)

/-- `makeGateDD` without controls. -/
theorem makeGateDDS_swf (hC : 0 < P.C.growth) {s : Pkg R} (h : SWF P s) (U : Fin 4 → Cx R) {n target start : Nat}
    (h1 : start ≤ target) (h2 : target < n + start) (hn : n + start ≤ (s.ut .m).nvars) :
    ∃ r, Pkg.makeGateDDS P s U n [] target start = some r ∧ SWF P r.1 ∧ SExt s r.1 ∧
      ∀ a b : Nat → Fin 2, Pkg.valueByPath (r.1.ut .m) r.2 (fun q => rc (a q) (b q)) = gateEntryAt U n start target a b := by
  unfold Pkg.makeGateDDS
  rw [if_neg (by omega), max_eq_right h1]
  dsimp only
  obtain ⟨b0, b1, b2, b3⟩ := gateBelowLoopS_swf hC start U (target - start) s h (by omega)
  generalize Pkg.gateBelowLoopS P start (target - start) s (fun i => Pkg.gateEntry (U i)) [] = b at b0 b1 b2 b3
  obtain ⟨m1, m2, m3, m4⟩ := makeDDNode_swf hC b1 (k := .m) (v := target) (es := b.1.2) (by rw [(b2 .m).2]; omega)
    (fun i => by have := (b3 i).1; rwa [Nat.add_sub_cancel' h1] at this) false
  generalize Pkg.makeDDNode P .m b.1.1 target b.1.2 false = e at m1 m2 m3 m4
  rw [b0]
  obtain ⟨_, a1, a2, a3, a4⟩ := gateAboveLoopS_swf hC start (target + 1) (n + start - 1 - target) e.1 e.2 m1 m3
    (by rw [(m2 .m).2, (b2 .m).2]; omega)
  refine ⟨_, rfl, a1, b2.trans (m2.trans a2), fun a b' => ?_⟩
  rw [a4, m4, (b3 _).2]
  unfold gateEntryAt
  by_cases hall : ∀ i < n, start + i ≠ target → a (start + i) = b' (start + i)
  · rw [if_pos hall, if_pos, if_pos]
    · intro j hj
      exact hall j (by omega) (by omega)
    · intro j hj
      have := hall (target + 1 + j - start) (by omega) (by omega)
      rwa [Nat.add_sub_cancel' (by omega)] at this
  · rw [if_neg hall]
    by_cases hup : ∀ j < n + start - 1 - target, a (target + 1 + j) = b' (target + 1 + j)
    · rw [if_pos hup, if_neg]
      intro hlow
      refine hall fun i hi hne => ?_
      rcases Nat.lt_or_gt_of_ne hne with hlt | hgt
      · exact hlow i (by omega)
      · have := hup (start + i - (target + 1)) (by omega)
        rwa [Nat.add_sub_cancel' (by omega)] at this
    · rw [if_neg hup]

theorem SExt.same {s s' : Pkg R} (h : SWF P s) (he : SExt s s') : SameByPath s s' := by
  intro k e d hs
  refine ⟨fun b hb => ((he k).1 b (hs b hb)).1, ?_⟩
  cases hp : e.p with
  | none => unfold Pkg.valueByPath; rw [hp]
  | some a =>
    refine valueByPath_mono (h.ord k) (he k).1 d (l := ((s.ut k).mem a).v + 1) ?_
    intro b hb
    obtain rfl : a = b := by rw [hp] at hb; exact Option.some.inj hb
    exact ⟨hs a hp, Nat.lt_succ_self _⟩

theorem ofOption_ok {α : Type} {x : Option α} {r : α} (h : Pkg.SOut.ofOption x = .ok r) : x = some r := by
  cases x with
  | none => simp [Pkg.SOut.ofOption] at h
  | some a => simp only [Pkg.SOut.ofOption, SOut.ok.injEq] at h; rw [h]

theorem StartReach.swf (hC : P.C.Good) {s : Pkg R} (hs : StartReach P s) : SWF P s := by
  induction hs with
  | base hr => exact (hr.inv hC).wf.swf
  | zero _ h ih =>
    unfold Pkg.makeZeroStateS at h
    split at h
    · simp at h
    · exact (basisLoopS_swf hC.growth _ _ _ _ ih (by omega) _ (ofOption_ok h)).1
  | bits _ h ih =>
    unfold Pkg.makeBasisStateS at h
    split at h
    · simp at h
    · exact (basisLoopS_swf hC.growth _ _ _ _ ih (by omega) _ (ofOption_ok h)).1
  | states _ h ih =>
    unfold Pkg.makeBasisStatesS at h
    split at h
    · simp at h
    · split at h
      · simp at h
      · exact (basisLoopS_swf hC.growth _ _ _ _ ih (by omega) _ (ofOption_ok h)).1
  | @gate s' _ U n target start h1 h2 r h ih =>
    by_cases hn : n + start > (s'.ut .m).nvars
    · unfold Pkg.makeGateDDS at h; rw [if_pos hn] at h; simp at h
    · obtain ⟨r', e1, e2, _⟩ := makeGateDDS_swf hC.growth ih U h1 h2 (by omega)
      rw [e1] at h
      obtain rfl := Option.some.inj h
      exact e2
  | @two s' _ U n t0 t1 start ht h0 h1 h2 h3 r h ih =>
    by_cases hn : n + start > (s'.ut .m).nvars
    · unfold Pkg.makeTwoQubitGateDDS at h; rw [if_pos hn] at h; simp at h
    · obtain ⟨r', e1, e2, _⟩ := makeTwoQubitGateDDS_swf hC.growth ih U ht h0 h1 h2 h3 (by omega)
      rw [e1] at h
      obtain rfl := Option.some.inj h
      exact e2

/-- `makeBasisState` for general states: if there is an entry for each qubit up to `n + start - 1`, the diagram is the
product of the states given for the qubits `start .. n + start - 1`, whatever the digits of other qubits, and all other
diagrams keep their values. -/
theorem C88_product (hC : P.C.Good) {s : Pkg R} (hs : StartReach P s) {n start : Nat} (hn : n + start ≤ (s.ut .v).nvars)
    {state : List Basis} (hl : n + start ≤ state.length) :
    ∃ r, Pkg.makeBasisStatesS P s n state start = .ok r ∧
      (∀ d, Pkg.valueByPath (r.1.ut .v) r.2 d = ∏ i : Fin n, basisAmp (state[start + i]) (d (start + i))) ∧ SameByPath s r.1 := by
  have hsw := hs.swf hC
  obtain ⟨r, hr⟩ := basisLoopS_some P (fun p => state[p]?) start n s
    fun i hi => ⟨state[start + i]'(by omega), List.getElem?_eq_getElem (by omega)⟩
  obtain ⟨h1, h2, _, _, b, h3, h4⟩ := basisLoopS_swf hC.growth _ _ _ _ hsw hn _ hr
  refine ⟨r, ?_, fun d => ?_, h2.same hsw⟩
  · unfold Pkg.makeBasisStatesS
    rw [if_neg (by omega), if_neg (by omega), hr]; rfl
  · rw [h4 d, Finset.prod_range]
    refine Finset.prod_congr rfl fun i _ => ?_
    have := h3 i i.2
    rw [List.getElem?_eq_getElem (by omega)] at this
    rw [← Option.some.inj this]

theorem makeBasisStateS_swf (hC : 0 < P.C.growth) {s : Pkg R} (hsw : SWF P s) {n start : Nat} (hn : n + start ≤ (s.ut .v).nvars)
    {state : List Bool} (hl : n + start ≤ state.length) :
    ∃ r, Pkg.makeBasisStateS P s n state start = .ok r ∧
      (∀ d, Pkg.valueByPath (r.1.ut .v) r.2 d =
        if ∀ i : Fin n, d (start + i) = (if state[start + i] then 1 else 0) then 1 else 0) ∧ SWF P r.1 ∧ SExt s r.1 := by
  obtain ⟨r, hr⟩ := basisLoopS_some P (fun p => (state[p]?).map (fun b => if b then Basis.one else .zero)) start n s
    fun i hi => ⟨if state[start + i]'(by omega) then .one else .zero, by simp [List.getElem?_eq_getElem (show start + i < state.length by omega)]⟩
  obtain ⟨h1, h2, _, _, b, h3, h4⟩ := basisLoopS_swf hC _ _ _ _ hsw hn _ hr
  refine ⟨r, ?_, fun d => ?_, h1, h2⟩
  · unfold Pkg.makeBasisStateS
    rw [if_neg (by omega), hr]; rfl
  · rw [h4 d, Finset.prod_range]
    have hb : ∀ i : Fin n, basisAmp (R := R) (b i) (d (start + i)) = if d (start + i) = (if state[start + i] then 1 else 0) then 1 else 0 := by
      intro i
      have := h3 i i.2
      rw [List.getElem?_eq_getElem (by omega), Option.map_some] at this
      rw [← Option.some.inj this]
      cases state[start + (i : Nat)] <;> rcases Fin.exists_fin_two.1 ⟨d (start + i), rfl⟩ with hd | hd <;> simp [hd, basisAmp]
    simp only [hb]
    rw [Finset.prod_ite_zero]
    simp

/-- `makeBasisState` for bits: the value is 1 for the digits given for the qubits `start .. n + start - 1` and 0 for all
others. -/
theorem C88_basis (hC : P.C.Good) {s : Pkg R} (hs : StartReach P s) {n start : Nat} (hn : n + start ≤ (s.ut .v).nvars)
    {state : List Bool} (hl : n + start ≤ state.length) :
    ∃ r, Pkg.makeBasisStateS P s n state start = .ok r ∧
      (∀ d, Pkg.valueByPath (r.1.ut .v) r.2 d =
        if ∀ i : Fin n, d (start + i) = (if state[start + i] then 1 else 0) then 1 else 0) ∧ SameByPath s r.1 := by
  obtain ⟨r, h1, h2, _, h3⟩ := makeBasisStateS_swf hC.growth (hs.swf hC) hn hl
  exact ⟨r, h1, h2, h3.same (hs.swf hC)⟩

/-- `makeZeroState`: the value is 1 if the digits of the qubits `start .. n + start - 1` are 0, otherwise 0. -/
theorem C88_zero (hC : P.C.Good) {s : Pkg R} (hs : StartReach P s) {n start : Nat} (hn : n + start ≤ (s.ut .v).nvars) :
    ∃ r, Pkg.makeZeroStateS P s n start = .ok r ∧
      (∀ d, Pkg.valueByPath (r.1.ut .v) r.2 d = if ∀ i : Fin n, d (start + i) = 0 then 1 else 0) ∧ SameByPath s r.1 := by
  have hsw := hs.swf hC
  obtain ⟨r, hr⟩ := basisLoopS_some P (fun _ => some .zero) start n s fun i hi => ⟨_, rfl⟩
  obtain ⟨h1, h2, _, _, b, h3, h4⟩ := basisLoopS_swf hC.growth _ _ _ _ hsw hn _ hr
  refine ⟨r, ?_, fun d => ?_, h2.same hsw⟩
  · unfold Pkg.makeZeroStateS
    rw [if_neg (by omega), hr]; rfl
  · rw [h4 d, Finset.prod_range]
    have hb : ∀ i : Fin n, basisAmp (R := R) (b i) (d (start + i)) = if d (start + i) = 0 then 1 else 0 := by
      intro i
      rw [← Option.some.inj (h3 i i.2)]
      rcases Fin.exists_fin_two.1 ⟨d (start + i), rfl⟩ with hd | hd <;> simp [hd, basisAmp]
    simp only [hb]
    rw [Finset.prod_ite_zero]
    simp

/-- `makeGateDD` without controls: the diagram is the gate on the target and the identity on the other qubits of the
range, whatever the digits of qubits outside the range. -/
theorem C88_gate (hC : P.C.Good) {s : Pkg R} (hs : StartReach P s) (U : Fin 4 → Cx R) {n target start : Nat}
    (h1 : start ≤ target) (h2 : target < n + start) (hn : n + start ≤ (s.ut .m).nvars) :
    ∃ r, Pkg.makeGateDDS P s U n [] target start = some r ∧
      (∀ a b : Nat → Fin 2, Pkg.valueByPath (r.1.ut .m) r.2 (fun q => rc (a q) (b q)) = gateEntryAt U n start target a b) ∧
      SameByPath s r.1 := by
  have hsw := hs.swf hC
  obtain ⟨r, e1, _, e2, e3⟩ := makeGateDDS_swf hC.growth hsw U h1 h2 hn
  exact ⟨r, e1, e3, e2.same hsw⟩

/-- The calls throw exactly if the range does not fit the package or, for general states, if there are fewer than `n`
entries. -/
theorem C88_error (s : Pkg R) (n start : Nat) (state : List Basis) (bits : List Bool) (U : Fin 4 → Cx R) (cs : List Ctrl)
    (target : Nat) :
    (Pkg.makeZeroStateS P s n start = .error ↔ (s.ut .v).nvars < n + start) ∧
    (Pkg.makeBasisStateS P s n bits start = .error ↔ (s.ut .v).nvars < n + start) ∧
    (Pkg.makeBasisStatesS P s n state start = .error ↔ (s.ut .v).nvars < n + start ∨ state.length < n) ∧
    (Pkg.makeGateDDS P s U n cs target start = none ↔ (s.ut .m).nvars < n + start) := by
  have ho : ∀ x : Option (Pkg R × PEdge R), Pkg.SOut.ofOption x ≠ .error := by
    intro x; cases x <;> simp [Pkg.SOut.ofOption]
  refine ⟨?_, ?_, ?_, ?_⟩
  · unfold Pkg.makeZeroStateS
    by_cases h : n + start > (s.ut .v).nvars
    · rw [if_pos h]; exact iff_of_true rfl h
    · rw [if_neg h]; exact iff_of_false (ho _) h
  · unfold Pkg.makeBasisStateS
    by_cases h : n + start > (s.ut .v).nvars
    · rw [if_pos h]; exact iff_of_true rfl h
    · rw [if_neg h]; exact iff_of_false (ho _) h
  · unfold Pkg.makeBasisStatesS
    by_cases h : n + start > (s.ut .v).nvars
    · rw [if_pos h]; exact iff_of_true rfl (Or.inl h)
    · rw [if_neg h]
      by_cases h' : state.length < n
      · rw [if_pos h']; exact iff_of_true rfl (Or.inr h')
      · rw [if_neg h']; exact iff_of_false (ho _) (fun hc => hc.elim h h')
  · unfold Pkg.makeGateDDS
    by_cases h : n + start > (s.ut .m).nvars
    · rw [if_pos h]; exact iff_of_true rfl h
    · rw [if_neg h]; exact iff_of_false (by simp) h

/-- The entries are counted from qubit 0, not from `start`: the behaviour is undefined exactly if a call that does not
throw has an entry to read (`0 < n`) and the vector has fewer than `n + start` entries. -/
theorem C88_undefined (s : Pkg R) (n start : Nat) (state : List Basis) (bits : List Bool) (hn : n + start ≤ (s.ut .v).nvars) :
    (Pkg.makeBasisStatesS P s n state start = .undef ↔ 0 < n ∧ n ≤ state.length ∧ state.length < n + start) ∧
    (Pkg.makeBasisStateS P s n bits start = .undef ↔ 0 < n ∧ bits.length < n + start) := by
  have ho : ∀ x : Option (Pkg R × PEdge R), Pkg.SOut.ofOption x = .undef ↔ x = none := by
    intro x; cases x <;> simp [Pkg.SOut.ofOption]
  have key : ∀ (st : Nat → Option Basis) (L : Nat), (∀ p, st p = none ↔ L ≤ p) →
      (Pkg.basisLoopS P st start n s = none ↔ 0 < n ∧ L < n + start) := by
    intro st L hst
    constructor
    · intro h
      by_contra hc
      obtain ⟨r, hr⟩ := basisLoopS_some P st start n s (fun i hi => by
        cases hp : st (start + i) with
        | some b => exact ⟨b, rfl⟩
        | none =>
          rw [hst] at hp
          exact absurd ⟨by omega, by omega⟩ hc)
      rw [hr] at h
      simp at h
    · rintro ⟨h1, h2⟩
      exact basisLoopS_none P st start (i := n - 1) ((hst _).2 (by omega)) n s (by omega)
  constructor
  · unfold Pkg.makeBasisStatesS
    rw [if_neg (by omega)]
    by_cases h' : state.length < n
    · rw [if_pos h']; exact iff_of_false (by simp) (by omega)
    · rw [if_neg h', ho, key _ state.length (fun p => by simp)]
      omega
  · unfold Pkg.makeBasisStateS
    rw [if_neg (by omega), ho, key _ bits.length (fun p => by simp)]

/-- In particular, a description of the `n` qubits of the range itself is accepted by the check and leads to undefined
behaviour, for every `start > 0`. -/
theorem C88_length_false (s : Pkg R) {n start : Nat} (h0 : 0 < n) (h1 : 0 < start) (hn : n + start ≤ (s.ut .v).nvars) {state : List Basis}
    (hl : state.length = n) : Pkg.makeBasisStatesS P s n state start = .undef :=
  ((C88_undefined s n start state [] hn).1).2 ⟨h0, by omega, by omega⟩

/-- With `start = 0` the functions are those of C28 and C31. -/
theorem C88_default (s : Pkg R) (n : Nat) {state : List Basis} {bits : List Bool} (hl : n ≤ bits.length) (U : Fin 4 → Cx R)
    (cs : List Ctrl) {target : Nat} :
    (Pkg.makeZeroStateS P s n 0 = match Pkg.makeZeroState P s n with | none => .error | some r => .ok r) ∧
    (Pkg.makeBasisStateS P s n bits 0 = match Pkg.makeBasisState P s n bits with | none => .error | some r => .ok r) ∧
    (Pkg.makeBasisStatesS P s n state 0 = match Pkg.makeBasisStates P s n state with | none => .error | some r => .ok r) ∧
    Pkg.makeGateDDS P s U n cs target 0 = Pkg.makeGateDD P s U n cs target := by
  have key : ∀ (st : Nat → Option Basis) (st' : Nat → Basis) (m : Nat), (∀ i < m, st i = some (st' i)) →
      Pkg.basisLoopS P st 0 m s = some (Pkg.basisLoop P st' m s) := by
    intro st st' m
    induction m with
    | zero => intro _; rfl
    | succ m ih =>
      intro h
      unfold Pkg.basisLoopS Pkg.basisLoop
      rw [ih fun i hi => h i (by omega)]
      simp only [Nat.zero_add]
      rw [h m (by omega)]
  refine ⟨?_, ?_, ?_, ?_⟩
  · unfold Pkg.makeZeroStateS Pkg.makeZeroState
    rw [Nat.add_zero]
    by_cases h : n > (s.ut .v).nvars
    · rw [if_pos h, if_pos h]
    · rw [if_neg h, if_neg h, key _ (fun _ => .zero) n fun _ _ => rfl]; rfl
  · unfold Pkg.makeBasisStateS Pkg.makeBasisState
    rw [Nat.add_zero]
    by_cases h : n > (s.ut .v).nvars
    · rw [if_pos h, if_pos h]
    · rw [if_neg h, if_neg h, key _ (fun i => if bits.getD i false then .one else .zero) n fun i hi => by
        simp [List.getElem?_eq_getElem (show i < bits.length by omega), List.getD]]; rfl
  · unfold Pkg.makeBasisStatesS Pkg.makeBasisStates
    rw [Nat.add_zero]
    by_cases h : n > (s.ut .v).nvars
    · rw [if_pos h, if_pos h]
    · rw [if_neg h, if_neg h]
      by_cases h' : state.length < n
      · rw [if_pos h', if_pos h']
      · rw [if_neg h', if_neg h', key _ (fun i => state.getD i .zero) n fun i hi => by
          simp [List.getElem?_eq_getElem (show i < state.length by omega), List.getD]]; rfl
  · have hb : ∀ (m : Nat) (em : Fin 4 → PEdge R), Pkg.gateBelowLoopS P 0 m s em cs = Pkg.gateBelowLoop P m s em cs := by
      intro m em
      induction m with
      | zero => rfl
      | succ m ih =>
        unfold Pkg.gateBelowLoopS Pkg.gateBelowLoop
        rw [ih, Nat.zero_add]; rfl
    have ha : ∀ (m q0 : Nat) (s : Pkg R) (e : PEdge R) (it : List Ctrl), Pkg.gateAboveLoopS P 0 q0 m s e it = Pkg.gateAboveLoop P q0 m s e it := by
      intro m q0 s e it
      induction m with
      | zero => rfl
      | succ m ih =>
        unfold Pkg.gateAboveLoopS Pkg.gateAboveLoop
        rw [ih]; rfl
    unfold Pkg.makeGateDDS Pkg.makeGateDD
    rw [Nat.add_zero, Nat.sub_zero, Nat.zero_max, hb]
    simp only [ha]

/-- `makeGateDD` with controls, as long as the package keeps no identity (`makeIdent` with lowest qubit 0 has not been
called since the package was created or the identities were dropped): the gate acts on the target if all controls are
satisfied, and on no other qubit. The controls are sorted as in the set the function takes, and lie within the range. -/
theorem C88_controlled_partial (hC : P.C.Good) {s : Pkg R} (hs : StartReach P s) (hid : ∀ i, s.idTab i = none) (U : Fin 4 → Cx R)
    {controls : List Ctrl} {n target start : Nat} (hst : 0 < start) (h1 : start ≤ target) (h2 : target < n + start)
    (hn : n + start ≤ (s.ut .m).nvars) (hsort : controls.Pairwise (fun x y => x.qubit < y.qubit))
    (hr : ∀ q ∈ controls, start ≤ q.qubit ∧ q.qubit < n + start ∧ q.qubit ≠ target) :
    ∃ r, Pkg.makeGateDDS P s U n controls target start = some r ∧
      (∀ a b : Nat → Fin 2, Pkg.valueByPath (r.1.ut .m) r.2 (fun q => rc (a q) (b q)) = ctrlEntryAt U n controls start target a b) ∧
      SameByPath s r.1 := by
  have hsw := hs.swf hC
  obtain ⟨r, e1, _, e2, e3⟩ := makeGateDDS_ctrl hC.growth ⟨hsw, hid⟩ U hst h1 h2 hn hsort hr
  exact ⟨r, e1, e3, e2.same hsw⟩

/-- The matrix of the Pauli X gate (GateMatrixDefinitions.hpp), entries in the order of the successors of a node. -/
def xGate : Fin 4 → Cx R := ![0, 1, 1, 0]

/-- With controls the result depends on the calls made before: a controlled X gate on the qubits 1 and 2 (target 1,
control 2) built in a new package has the value 1 where the control is not satisfied and the target does not change,
whatever the digit of qubit 0; built after a call of `makeIdent(1)` it has the value 0 there if the digit of qubit 0 is
off the diagonal. -/
theorem C88_controlled_false (hC : P.C.Good) : ∃ (h h' : PHist R), PReach P h ∧ PReach P h' ∧ PStep P h h' ∧
    let a : Nat → Fin 2 := fun _ => 0
    let b : Nat → Fin 2 := fun q => if q = 0 then 1 else 0
    ctrlEntryAt (R := R) xGate 2 [⟨2, false⟩] 1 1 a b = 1 ∧
    (∃ r, Pkg.makeGateDDS P h.pkg xGate 2 [⟨2, false⟩] 1 1 = some r ∧
      Pkg.valueByPath (r.1.ut .m) r.2 (fun q => rc (a q) (b q)) = 1) ∧
    (∃ r, Pkg.makeGateDDS P h'.pkg xGate 2 [⟨2, false⟩] 1 1 = some r ∧
      Pkg.valueByPath (r.1.ut .m) r.2 (fun q => rc (a q) (b q)) = 0) := by
  let h0 : PHist R := ⟨Pkg.init P 3 1 1 ⟨0, fun _ => zeroE, 0, false, false⟩ ⟨0, fun _ => zeroE, 0, false, false⟩, fun _ => []⟩
  have r0 : PReach P h0 := ⟨h0, .init 3 1 1 _ _ (by decide) (by decide) (by decide), .refl⟩
  have st : PStep P h0 { h0 with pkg := (Pkg.makeIdent P h0.pkg 1).1 } := .makeIdent 1 (by show 1 ≤ 3; omega)
  have r1 := r0.step st
  have o := makeIdent_spec hC.growth (r0.inv hC).wf (n := 1) (by show 1 ≤ 3; omega)
  have hctrl : ctrlEntryAt (R := R) xGate 2 [⟨2, false⟩] 1 1 (fun _ => 0) (fun q => if q = 0 then 1 else 0) = 1 := by
    unfold ctrlEntryAt
    rw [if_pos, if_neg, if_pos] <;> simp
  refine ⟨h0, _, r0, r1, st, hctrl, ?_, ?_⟩
  · obtain ⟨r, e1, e2, _⟩ := C88_controlled_partial hC (.base r0) (fun i => init_idTab 3 1 1 _ _ i) xGate (controls := [⟨2, false⟩]) (n := 2)
      (target := 1) (start := 1) (by omega) (by omega) (by omega) (by show 2 + 1 ≤ 3; omega) (by simp) (by simp)
    exact ⟨r, e1, (e2 _ _).trans hctrl⟩
  · generalize hh : ({ h0 with pkg := (Pkg.makeIdent P h0.pkg 1).1 } : PHist R) = h1 at r1
    have hnv : (h1.pkg.ut .m).nvars = 3 := by
      rw [← hh]; exact (o.ext .m).nvars
    obtain ⟨e, he⟩ : ∃ e, h1.pkg.idTab 0 = some e := by
      rw [← hh]
      show ∃ e, (Pkg.makeIdent P h0.pkg 1).1.idTab 0 = some e
      unfold Pkg.makeIdent Pkg.makeIdentR
      simp [h0, init_idTab]
    have hwf := (r1.inv hC).wf
    have hid := idRel_iff.1 (hwf.idTab 0 e he)
    have hsw := hwf.swf
    have hbe : LvBelow (h1.pkg.ut .m) 1 e := by
      intro b hb
      have := hid.1
      unfold Valid at this
      rw [hb] at this
      exact ⟨this.1, by omega⟩
    have hve : ∀ d : Nat → Fin 4, d 0 = 1 → Pkg.valueByPath (h1.pkg.ut .m) e d = 0 := by
      intro d hd
      rw [valueByPath_spec (hwf.tab .m).child hid.1 d, hid.2]
      simp [idD, hd]
    unfold Pkg.makeGateDDS
    rw [if_neg (by rw [hnv]; omega)]
    refine ⟨_, rfl, ?_⟩
    have hem : ∀ i, LvBelow (h1.pkg.ut .m) 1 (Pkg.gateEntry ((xGate : Fin 4 → Cx R) i)) := by
      intro i
      unfold Pkg.gateEntry
      split <;> exact LvBelow.term _ _ _
    obtain ⟨m1, m2, m3, _⟩ := makeDDNode_swf hC.growth hsw (k := .m) (v := 1) (by rw [hnv]; omega) hem false
    have m5 := makeDDNode_idTab (P := P) .m h1.pkg 1 (fun i => Pkg.gateEntry ((xGate : Fin 4 → Cx R) i)) false
    show Pkg.valueByPath ((Pkg.gateAboveS P 1 2 (Pkg.makeDDNode P .m h1.pkg 1 (fun i => Pkg.gateEntry (xGate i)) false).1
      (Pkg.makeDDNode P .m h1.pkg 1 (fun i => Pkg.gateEntry (xGate i)) false).2 [⟨2, false⟩]).1.1.ut .m)
      (Pkg.gateAboveS P 1 2 (Pkg.makeDDNode P .m h1.pkg 1 (fun i => Pkg.gateEntry (xGate i)) false).1
      (Pkg.makeDDNode P .m h1.pkg 1 (fun i => Pkg.gateEntry (xGate i)) false).2 [⟨2, false⟩]).1.2 _ = 0
    generalize Pkg.makeDDNode P .m h1.pkg 1 (fun i => Pkg.gateEntry (xGate i)) false = g at m1 m2 m3 m5
    unfold Pkg.gateAboveS
    dsimp only
    rw [if_pos rfl]
    have hI : Pkg.makeIdentR P g.1 1 2 =
        ({ (Pkg.makeDDNode P .m g.1 1 ![e, zeroE, zeroE, e] false).1 with
          idTab := Function.update (Pkg.makeDDNode P .m g.1 1 ![e, zeroE, zeroE, e] false).1.idTab 1
            (some (Pkg.makeDDNode P .m g.1 1 ![e, zeroE, zeroE, e] false).2) },
          (Pkg.makeDDNode P .m g.1 1 ![e, zeroE, zeroE, e] false).2) := by
      unfold Pkg.makeIdentR
      dsimp only
      rw [if_neg (by omega), if_neg (by omega), if_pos (by omega)]
      simp only [Nat.sub_self, m5, he]
    rw [hI]
    obtain ⟨i1, i2, i3, i4⟩ := plain_swf hC.growth m1 (z := 1) (by rw [(m2 .m).2, hnv]; omega) (hbe.mono (m2 .m).1)
    generalize Pkg.makeDDNode P .m g.1 1 ![e, zeroE, zeroE, e] false = q at i1 i2 i3 i4
    have hq : SWF P ({ q.1 with idTab := Function.update q.1.idTab 1 (some q.2) } : Pkg R) := ⟨i1.uwf, i1.ord, i1.trans, i1.marks⟩
    obtain ⟨_, _, _, c4⟩ := ctrlNode_swf hC.growth hq (z := 2) (e := g.2) (f := q.2)
      (by show 2 < (q.1.ut .m).nvars; rw [(i2 .m).2, (m2 .m).2, hnv]; omega) (m3.mono (i2 .m).1) i3 false
    refine (c4 _ _).trans ?_
    rw [if_pos (by simp), if_neg (by simp)]
    refine (i4 _ _).trans ?_
    rw [if_pos (by simp), valueByPath_mono (hsw.ord .m) (m2 .m).1 _ hbe]
    exact hve _ (by simp [rc])

omit [LawfulSqrt R] in
/-- While the iterator points to a control in front of `c`, whatever follows does not matter, and if `c` is not on a
later line of the range, it is never passed. -/
theorem gateBelowLoopS_blocked (start : Nat) (cs1 cs2 : List Ctrl) (c : Ctrl) (em : Fin 4 → PEdge R) (s : Pkg R) : ∀ m : Nat,
    (∀ z, start ≤ z → z < start + m → (∀ q ∈ cs1, q.qubit < z) → c.qubit ≠ z) →
    let r := Pkg.gateBelowLoopS P start m s em cs1
    (∃ done, cs1 = done ++ r.2 ∧ ∀ q ∈ done, q.qubit < start + m) ∧
    Pkg.gateBelowLoopS P start m s em (cs1 ++ c :: cs2) = (r.1, r.2 ++ c :: cs2) := by
  intro m
  induction m with
  | zero => intro _; exact ⟨⟨[], rfl, by simp⟩, rfl⟩
  | succ m ih =>
    intro hz
    obtain ⟨⟨done, d1, d2⟩, d3⟩ := ih fun z z1 z2 => hz z z1 (by omega)
    unfold Pkg.gateBelowLoopS
    dsimp only
    rw [d3]
    generalize Pkg.gateBelowLoopS P start m s em cs1 = r at d1 d2 d3
    obtain ⟨r1, it⟩ := r
    dsimp only at d1 d2 ⊢
    unfold Pkg.gateBelowS
    dsimp only
    cases it with
    | nil =>
      have hne : c.qubit ≠ start + m := hz (start + m) (by omega) (by omega) fun q hq => by
        rw [d1, List.append_nil] at hq; exact d2 q hq
      refine ⟨⟨done, d1, fun q hq => by have := d2 q hq; omega⟩, ?_⟩
      simp only [List.nil_append, if_neg hne]
    | cons a it =>
      simp only [List.cons_append]
      by_cases ha : a.qubit = start + m
      · simp only [if_pos ha]
        refine ⟨⟨done ++ [a], by rw [d1]; simp, fun q hq => ?_⟩, trivial⟩
        rcases List.mem_append.1 hq with hq | hq
        · have := d2 q hq; omega
        · obtain rfl := List.mem_singleton.1 hq; omega
      · simp only [if_neg ha]
        exact ⟨⟨done, d1, fun q hq => by have := d2 q hq; omega⟩, by simp⟩

omit [LawfulSqrt R] in
theorem gateAboveLoopS_blocked (start q0 : Nat) (cs1 done0 it0 cs2 : List Ctrl) (h0 : cs1 = done0 ++ it0)
    (hd : ∀ q ∈ done0, q.qubit < q0) (c : Ctrl) (e : PEdge R) (s : Pkg R) : ∀ m : Nat,
    (∀ z, q0 ≤ z → z < q0 + m → (∀ q ∈ cs1, q.qubit < z) → c.qubit ≠ z) →
    let r := Pkg.gateAboveLoopS P start q0 m s e it0
    (∃ done, cs1 = done ++ r.2 ∧ ∀ q ∈ done, q.qubit < q0 + m) ∧
    Pkg.gateAboveLoopS P start q0 m s e (it0 ++ c :: cs2) = (r.1, r.2 ++ c :: cs2) := by
  intro m
  induction m with
  | zero => intro _; exact ⟨⟨done0, h0, by simpa using hd⟩, rfl⟩
  | succ m ih =>
    intro hz
    obtain ⟨⟨done, d1, d2⟩, d3⟩ := ih fun z z1 z2 => hz z z1 (by omega)
    unfold Pkg.gateAboveLoopS
    dsimp only
    rw [d3]
    generalize Pkg.gateAboveLoopS P start q0 m s e it0 = r at d1 d2 d3
    obtain ⟨r1, it⟩ := r
    dsimp only at d1 d2 ⊢
    unfold Pkg.gateAboveS
    dsimp only
    cases it with
    | nil =>
      have hne : c.qubit ≠ q0 + m := hz (q0 + m) (by omega) (by omega) fun q hq => by
        rw [d1, List.append_nil] at hq; exact d2 q hq
      refine ⟨⟨done, d1, fun q hq => by have := d2 q hq; omega⟩, ?_⟩
      simp only [List.nil_append, if_neg hne]
    | cons a it =>
      simp only [List.cons_append]
      by_cases ha : a.qubit = q0 + m
      · simp only [if_pos ha]
        refine ⟨⟨done ++ [a], by rw [d1]; simp, fun q hq => ?_⟩, trivial⟩
        rcases List.mem_append.1 hq with hq | hq
        · have := d2 q hq; omega
        · obtain rfl := List.mem_singleton.1 hq; omega
      · simp only [if_neg ha]
        exact ⟨⟨done, d1, fun q hq => by have := d2 q hq; omega⟩, by simp⟩

omit [LawfulSqrt R] in
/-- A control that is not met on any line after those of the controls before it hides itself and all following ones: it is
the target, below or above the range, or on the same qubit as an earlier one. -/
theorem C88_hidden_false (s : Pkg R) (U : Fin 4 → Cx R) {n target start : Nat} (ht : start ≤ target) (htn : target < n + start)
    (cs1 cs2 : List Ctrl) {c : Ctrl}
    (hc : c.qubit = target ∨ c.qubit < start ∨ n + start ≤ c.qubit ∨ ∃ q ∈ cs1, q.qubit = c.qubit) :
    Pkg.makeGateDDS P s U n (cs1 ++ c :: cs2) target start = Pkg.makeGateDDS P s U n cs1 target start := by
  unfold Pkg.makeGateDDS
  by_cases hn : n + start > (s.ut .m).nvars
  · rw [if_pos hn, if_pos hn]
  · rw [if_neg hn, if_neg hn, max_eq_right ht]
    dsimp only
    obtain ⟨⟨done, d1, d2⟩, d3⟩ := gateBelowLoopS_blocked (P := P) start cs1 cs2 c (fun i => Pkg.gateEntry (U i)) s (target - start)
      fun z z1 z2 hz => by
        rcases hc with hc | hc | hc | ⟨q, hq, hc⟩
        · omega
        · omega
        · omega
        · have := hz q hq; omega
    rw [d3]
    generalize Pkg.gateBelowLoopS P start (target - start) s (fun i => Pkg.gateEntry (U i)) cs1 = r at d1 d2 d3
    obtain ⟨r1, it⟩ := r
    dsimp only at d1 d2 ⊢
    obtain ⟨_, e3⟩ := gateAboveLoopS_blocked (P := P) start (target + 1) cs1 done it cs2 d1 (fun q hq => by have := d2 q hq; omega) c
      (Pkg.makeDDNode P .m r1.1 target r1.2 false).2 (Pkg.makeDDNode P .m r1.1 target r1.2 false).1 (n + start - 1 - target)
      fun z z1 z2 hz => by
        rcases hc with hc | hc | hc | ⟨q, hq, hc⟩
        · omega
        · omega
        · omega
        · have := hz q hq; omega
    rw [e3]

section
variable {R : Type} [Field R] [LinearOrder R] [IsStrictOrderedRing R] [HasSqrt R] {P : PCfg R}

/-- A target below the range is not rejected: the gate is built on the first qubit of the range instead. -/
theorem C88_below_false (s : Pkg R) (U : Fin 4 → Cx R) (n : Nat) (cs : List Ctrl) {target start : Nat} (ht : target < start) :
    Pkg.makeGateDDS P s U n cs target start = Pkg.makeGateDDS P s U n cs start start := by
  unfold Pkg.makeGateDDS
  simp only [show target - start = start - start by omega, show max start target = max start start by omega]

/-- A target above the range is not rejected either: the diagram is the one for the range extended up to the target. -/
theorem C88_above_false (s : Pkg R) (U : Fin 4 → Cx R) {n : Nat} (cs : List Ctrl) {target start : Nat} (ht : n + start ≤ target)
    (hn : target < (s.ut .m).nvars) (hs : start ≤ target) :
    Pkg.makeGateDDS P s U n cs target start = Pkg.makeGateDDS P s U (target + 1 - start) cs target start := by
  unfold Pkg.makeGateDDS
  rw [if_neg (by omega), if_neg (by omega)]
  have h1 : n + start - 1 - max start target = 0 := by omega
  have h2 : target + 1 - start + start - 1 - max start target = 0 := by omega
  simp only [h1, h2]

end

end DD

namespace DD.Ex

/-- The hypotheses are met, with a diagram that starts at qubit 2 of a package in which other diagrams have been built. -/
example : ∃ s : Pkg ℝ, StartReach (PR ℝ) s ∧ (∀ k, (s.ut k).nvars = 6) := by
  obtain ⟨h, x, y, A, B, hr, hn, vx, vy, vA, vB, hx, hA, ax, ay, aA, aB, wx, wy, wA, wB⟩ := setup (R := ℝ)
  have hC := PR_good ℝ
  have hsw := (hr.inv hC).wf.swf
  obtain ⟨r, hr1⟩ := basisLoopS_some (PR ℝ) (fun _ => some .zero) 2 3 h.pkg fun i hi => ⟨_, rfl⟩
  obtain ⟨_, h2, _⟩ := basisLoopS_swf hC.growth _ _ _ _ hsw (by rw [hn]; omega) _ hr1
  refine ⟨r.1, .zero (.base hr) (n := 3) (start := 2) (r := r) ?_, fun k => by rw [(h2 k).2, hn]⟩
  unfold Pkg.makeZeroStateS
  rw [if_neg (by rw [hn]; omega), hr1]; rfl

/-- A gate with two controls in a new package. -/
example : ∃ s : Pkg ℝ, StartReach (PR ℝ) s ∧ (∀ i, s.idTab i = none) ∧ 3 + 2 ≤ (s.ut .m).nvars ∧
    ([⟨2, true⟩, ⟨4, false⟩] : List Ctrl).Pairwise (fun x y => x.qubit < y.qubit) ∧
    ∀ q ∈ ([⟨2, true⟩, ⟨4, false⟩] : List Ctrl), 2 ≤ q.qubit ∧ q.qubit < 3 + 2 ∧ q.qubit ≠ 3 := by
  let h0 : PHist ℝ := ⟨Pkg.init (PR ℝ) 6 1 1 ⟨0, fun _ => zeroE, 0, false, false⟩ ⟨0, fun _ => zeroE, 0, false, false⟩, fun _ => []⟩
  have r0 : PReach (PR ℝ) h0 := ⟨h0, .init 6 1 1 _ _ (by decide) (by decide) (by decide), .refl⟩
  exact ⟨h0.pkg, .base r0, fun i => init_idTab 6 1 1 _ _ i, by show 5 ≤ 6; omega, by simp, by simp⟩

end DD.Ex
