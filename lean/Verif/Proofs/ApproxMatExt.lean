import Verif.Model.ApproxMat
import Verif.Proofs.ApproxAdd

/-! # Making nodes of matrices and transposing lose nothing -/

namespace DD

open Pkg UTable JState

variable {R : Type} [Field R] [LinearOrder R] [IsStrictOrderedRing R] [FloorRing R] {J : JCfg R} {τ : R}
variable {s s' s'' : JState R} [HasSqrt R]

omit [HasSqrt R] in
theorem Grow.knM (g : Grow J s s') {v : Nat} {e : PtrEdge} (h : s.KnM J τ v e) : s'.KnM J τ v e := by
  refine ⟨g.liveC h.1, fun b hb => ?_, h.2.2⟩
  obtain ⟨h1, h2⟩ := h.2.1 b hb
  refine ⟨g.all .m b h1, ?_⟩
  rw [(g.rel.node .m b h1 (g.all .m b h1)).2]; exact h2

omit [HasSqrt R] in
theorem knM_known {v : Nat} {e : PtrEdge} (h : s.KnM J τ v e) : ∀ x ∈ ptrRefs .m e, s.Known J x :=
  known_ptr.2 ⟨h.1, fun b hb => (h.2.1 b hb).1⟩

/-- A step that concerns the nodes of matrices only. -/
theorem TInv.matStep (hJ : J.Good) (hτ : 0 ≤ τ) (h : TInv J τ s) (x : UHist (CNum Loc) NK.m.ar)
    (hst : JStep J (· = τ) s { s with tab := Function.update s.tab .m x })
    (hall : ∀ a ∈ (s.tab .m).tab.all, a ∈ x.tab.all) (hnv : x.tab.nvars = (s.tab .m).tab.nvars)
    (hm : ∀ a ∈ x.tab.all, a ∈ (s.tab .m).tab.all ∨
      ∀ i, ({ s with tab := Function.update s.tab .m x } : JState R).KnM J τ (x.tab.mem a).v ((x.tab.mem a).e i)) :
    TInv J τ { s with tab := Function.update s.tab .m x } ∧ Grow J s { s with tab := Function.update s.tab .m x } := by
  obtain ⟨pin, hi⟩ := h.reach.inv hJ (zero_tol hτ)
  have ha := hst.agree hJ (zero_tol hτ) hi
  have htab : ({ s with tab := Function.update s.tab .m x } : JState R).tab .m = x :=
    Function.update_self (β := fun k : NK => UHist (CNum Loc) k.ar) NK.m _ s.tab
  exact ⟨h.keep hJ hτ (h.reach.step hst) ha (fun a ha => Or.inl ha) (fun a ha => by rw [htab] at ha ⊢; exact hm a ha)
      (fun i k hs => Or.inl hs) (fun i k hs => Or.inl hs) (fun i k hs => Or.inl hs) (fun i k hs => Or.inl hs),
    .ofTab x ha hall hnv⟩

theorem takeM_grow (hJ : J.Good) (hτ : 0 ≤ τ) (h : TInv J τ s) : TInv J τ (s.takeM J) ∧ Grow J s (s.takeM J) := by
  obtain ⟨pin, hi⟩ := h.reach.inv hJ (zero_tol hτ)
  obtain ⟨_, _, _, hall, _, hnv, _⟩ := getNode_spec hJ.U.growth ((hi.tab .m).inv hJ.U).uwf
  exact h.matStep hJ hτ _ (.take .m) (fun a ha => by dsimp only; rw [hall]; exact ha) hnv
    (fun a ha => Or.inl (by dsimp only at ha; rwa [hall] at ha))

theorem takeBackM_grow (hJ : J.Good) (hτ : 0 ≤ τ) (h : TInv J τ s) : TInv J τ (s.takeBackM J) ∧ Grow J s (s.takeBackM J) := by
  obtain ⟨pin, hi⟩ := h.reach.inv hJ (zero_tol hτ)
  obtain ⟨_, _, _, hall, _, hnv, _⟩ := getNode_spec hJ.U.growth ((hi.tab .m).inv hJ.U).uwf
  exact h.matStep hJ hτ _ (.takeBack .m) (fun a ha => by
    show a ∈ ((s.tab .m).tab.getNode J.U).1.all
    rw [hall]; exact ha) hnv (fun a ha => Or.inl (by
    have : a ∈ ((s.tab .m).tab.getNode J.U).1.all := ha
    rwa [hall] at this))

theorem markM_grow (hJ : J.Good) (hτ : 0 ≤ τ) (h : TInv J τ s) (a : Nat) (ident symm : Bool) :
    TInv J τ (s.markM a ident symm) ∧ Grow J s (s.markM a ident symm) :=
  h.matStep hJ hτ _ (.mark .m a ident symm) (fun _ ha => ha) rfl (fun _ ha => Or.inl ha)

/-- The specification of `transpose` as far as making nodes needs it. -/
def TrJ (J : JCfg R) (τ : R) (tr : JState R → PtrEdge → JState R × PtrEdge) (l : Nat) : Prop :=
  ∀ s v a, v ≤ l → TInv J τ s → s.KnM J τ v a → TInv J τ (tr s a).1 ∧ Grow J s (tr s a).1 ∧ (tr s a).1.KnM J τ v (tr s a).2

theorem specialM_grow (hJ : J.Good) (hτ : 0 ≤ τ) {tr : JState R → PtrEdge → JState R × PtrEdge} {l : Nat} (ht : TrJ J τ tr l)
    (h : TInv J τ s) {a : Nat} (ha : a ∈ (s.tab .m).tab.all) (hl : ((s.tab .m).tab.mem a).v ≤ l) :
    TInv J τ (s.specialM J tr a) ∧ Grow J s (s.specialM J tr a) := by
  obtain ⟨pin, hi⟩ := h.reach.inv hJ (zero_tol hτ)
  have m0 := markM_grow hJ hτ h a false false
  have k1 : (s.markM a false false).KnM J τ ((s.tab .m).tab.mem a).v (((s.tab .m).tab.mem a).e (1 : Fin 4)) :=
    m0.2.knM (h.kidsM a ha (1 : Fin 4))
  have t := ht _ _ _ hl m0.1 k1
  unfold JState.specialM
  dsimp only
  split_ifs
  · exact m0
  · exact ⟨t.1, m0.2.trans t.2.1⟩
  · obtain ⟨m1, m2⟩ := markM_grow hJ hτ t.1 a ((tr (s.markM a false false) (((s.tab .m).tab.mem a).e (1 : Fin 4))).1.identM
        (((s.tab .m).tab.mem a).e (0 : Fin 4)).p && decide ((((s.tab .m).tab.mem a).e (1 : Fin 4)).w = CNum.zero) &&
        decide ((((s.tab .m).tab.mem a).e (2 : Fin 4)).w = CNum.zero) && decide ((((s.tab .m).tab.mem a).e (0 : Fin 4)).w = CNum.one) &&
        decide ((((s.tab .m).tab.mem a).e (3 : Fin 4)).w = CNum.one) &&
        (tr (s.markM a false false) (((s.tab .m).tab.mem a).e (1 : Fin 4))).1.identM (((s.tab .m).tab.mem a).e (3 : Fin 4)).p) true
    exact ⟨m1, (m0.2.trans t.2.1).trans m2⟩

variable [LawfulSqrt R]

/-- Making a node: the edges of the node found or made are close to those asked for. -/
theorem nodeM_grow (hJ : J.Good) (hτ : 0 ≤ τ) {tr : JState R → PtrEdge → JState R × PtrEdge} {v : Nat} (ht : TrJ J τ tr v)
    (h : TInv J τ s) (hl : v < (s.tab .m).tab.nvars) {es : Fin 4 → PtrEdge} (hv : ∀ i, s.KnM J τ v (es i)) :
    TInv J τ (s.nodeM J tr v es).1 ∧ Grow J s (s.nodeM J tr v es).1 ∧
    (s.nodeM J tr v es).2 ∈ ((s.nodeM J tr v es).1.tab .m).tab.all ∧
    (((s.nodeM J tr v es).1.tab .m).tab.mem (s.nodeM J tr v es).2).v = v ∧
    ∀ i : Fin 4, ((((s.nodeM J tr v es).1.tab .m).tab.mem (s.nodeM J tr v es).2).e i).p = (es i).p ∧
      mag ((s.nodeM J tr v es).1.ct.cval J.C ((((s.nodeM J tr v es).1.tab .m).tab.mem (s.nodeM J tr v es).2).e i).w -
        s.ct.cval J.C (es i).w) ≤ 2 * τ := by
  obtain ⟨pin, hi⟩ := h.reach.inv hJ (zero_tol hτ)
  set x : UHist (CNum Loc) NK.m.ar :=
    { s.tab .m with tab := ((s.tab .m).tab.mkNodeBy (s.sameEdges J) (J.H .m) J.U v es false false).1 } with hx
  set s1 : JState R := { s with tab := Function.update s.tab .m x } with hs1
  have hst : JStep J (· = τ) s s1 :=
    .mk .m v es false false hl (fun i b hb => ⟨((hv i).2.1 b hb).1, by have := ((hv i).2.1 b hb).2; omega⟩) (fun i => knM_known (hv i))
  have htab : s1.tab .m = x := Function.update_self (β := fun k : NK => UHist (CNum Loc) k.ar) NK.m _ s.tab
  obtain ⟨_, hnv, _, hm, _, _, _, hlv, hsame, hcase⟩ :=
    mkNodeBy_spec (sameEdges_refl J s) hJ.U.growth ((hi.tab .m).inv hJ.U).uwf v es false false hl
  set q := (s.nodeM J tr v es).2 with hq
  have hq' : ((s.tab .m).tab.mkNodeBy (s.sameEdges J) (J.H .m) J.U v es false false).2 = q := rfl
  rw [hq'] at hcase hlv hsame
  have hall : ∀ a ∈ (s.tab .m).tab.all, a ∈ x.tab.all := by
    intro a ha
    rcases hcase with ⟨_, h2⟩ | ⟨_, h2, _⟩
    · rw [hx, h2]; exact ha
    · exact h2.symm.mem_iff.1 (List.mem_cons_of_mem _ ha)
  have hqa : q ∈ (s1.tab .m).tab.all := by
    rw [htab]
    rcases hcase with ⟨h1, h2⟩ | ⟨_, h2, _⟩
    · rw [hx, h2]; exact h1
    · exact h2.symm.mem_iff.1 List.mem_cons_self
  have g0 : Grow J s s1 := .ofTab x (hst.agree hJ (zero_tol hτ) hi) hall hnv
  obtain ⟨i1, g1⟩ := h.matStep hJ hτ x hst hall hnv (by
    intro a ha'
    rcases hcase with ⟨_, h2⟩ | ⟨h1, h2, h3, _⟩
    · left; rw [hx] at ha'; dsimp only at ha'; rwa [h2] at ha'
    · rcases List.mem_cons.1 (h2.mem_iff.1 ha') with h4 | h4
      · right
        subst h4
        rw [hx]
        dsimp only
        rw [h3]
        exact fun i => g0.knM (hv i)
      · exact Or.inl h4)
  have lv1 : ((s1.tab .m).tab.mem q).v = v := by rw [htab]; exact hlv
  have e1 : ∀ i : Fin 4, (((s1.tab .m).tab.mem q).e i).p = (es i).p ∧
      mag (s1.ct.cval J.C (((s1.tab .m).tab.mem q).e i).w - s.ct.cval J.C (es i).w) ≤ 2 * τ := by
    intro i
    rw [htab]
    unfold JState.sameEdges at hsame
    have hs := of_decide_eq_true hsame i
    refine ⟨hs.1, ?_⟩
    have hsw := hs.2
    unfold NumEnv.eqC at hsw
    rw [Bool.and_eq_true] at hsw
    have comp : ∀ p p' : TPtr Loc, (⟨.zero, .one, s.ct.tol⟩ : NumEnv Loc R).eqP (s.ct.value J.C) p p' = true →
        |p.val (s.ct.value J.C) - p'.val (s.ct.value J.C)| ≤ τ := by
      intro p p' hp
      unfold NumEnv.eqP NumEnv.eqV at hp
      simp only [Bool.or_eq_true, decide_eq_true_eq] at hp
      rw [h.tol hJ hτ] at hp
      rcases hp with rfl | hp | hp
      · rw [sub_self, abs_zero]; exact hτ
      · rw [hp, sub_self, abs_zero]; exact hτ
      · exact hp
    exact mag_of_comp hτ (comp _ _ hsw.1) (comp _ _ hsw.2)
  have key : ∀ s2 : JState R, TInv J τ s2 → Grow J s1 s2 → TInv J τ s2 ∧ Grow J s s2 ∧ q ∈ (s2.tab .m).tab.all ∧
      ((s2.tab .m).tab.mem q).v = v ∧ ∀ i : Fin 4, (((s2.tab .m).tab.mem q).e i).p = (es i).p ∧
      mag (s2.ct.cval J.C (((s2.tab .m).tab.mem q).e i).w - s.ct.cval J.C (es i).w) ≤ 2 * τ := by
    intro s2 i2 g2
    have hn := g2.rel.node .m q hqa (g2.all .m q hqa)
    refine ⟨i2, g1.trans g2, g2.all .m q hqa, by rw [hn.2]; exact lv1, fun i => ?_⟩
    obtain ⟨pin1, hi1⟩ := i1.reach.inv hJ (zero_tol hτ)
    have hl := hi1.nodes .m q hqa i
    rw [hn.1, g2.cval hl]
    exact e1 i
  have hdef : (s.nodeM J tr v es).1 = if q = ((s.tab .m).tab.getNode J.U).2 then s1.specialM J tr q else s1 := rfl
  rw [hdef]
  split_ifs
  · obtain ⟨i2, g2⟩ := specialM_grow hJ hτ ht i1 hqa lv1.le
    exact key _ i2 g2
  · exact key _ i1 (.refl _)

/-- A loop over the successors. -/
theorem seqFin_grow {β : Type} : ∀ (n : Nat) (f : Fin n → JState R → JState R × β) (P : JState R → Fin n → β → Prop) (s0 : JState R),
    (∀ i s, TInv J τ s → Grow J s0 s → TInv J τ (f i s).1 ∧ Grow J s (f i s).1 ∧ P (f i s).1 i (f i s).2) →
    (∀ s s' i b, Grow J s s' → P s i b → P s' i b) → ∀ s, TInv J τ s → Grow J s0 s →
    TInv J τ (seqFin n f s).1 ∧ Grow J s (seqFin n f s).1 ∧ ∀ i, P (seqFin n f s).1 i ((seqFin n f s).2 i) := by
  intro n
  induction n with
  | zero => intro f P s0 _ _ s h g; exact ⟨h, .refl _, fun i => i.elim0⟩
  | succ n ih =>
    intro f P s0 hf hm s h g
    obtain ⟨a1, a2, a3⟩ := hf 0 s h g
    obtain ⟨b1, b2, b3⟩ := ih (fun i => f i.succ) (fun s i b => P s i.succ b) s0 (fun i s => hf i.succ s)
      (fun s s' i b => hm s s' i.succ b) (f 0 s).1 a1 (g.trans a2)
    refine ⟨b1, a2.trans b2, fun i => ?_⟩
    refine Fin.cases ?_ (fun j => ?_) i
    · exact hm _ _ _ _ b2 a3
    · exact b3 j

omit [IsStrictOrderedRing R] [HasSqrt R] [LawfulSqrt R] in
theorem zeroV_congr {t t' : CTab R} (h : t'.tol = t.tol) (z : Cx R) : t'.zeroV z = t.zeroV z := by
  unfold CTab.zeroV CTab.approxZero; rw [h]

omit [IsStrictOrderedRing R] [HasSqrt R] [LawfulSqrt R] in
theorem oneV_congr {t t' : CTab R} (h : t'.tol = t.tol) (z : Cx R) : t'.oneV z = t.oneV z := by
  unfold CTab.oneV CTab.approxOne CTab.approxEq CTab.approxZero; rw [h]

omit [IsStrictOrderedRing R] [HasSqrt R] [LawfulSqrt R] in
theorem divV_congr {t t' : CTab R} (h : t'.tol = t.tol) (fl : R → R) (a b : Cx R) : t'.divV fl a b = t.divV fl a b := by
  unfold CTab.divV CTab.eqV CTab.oneV CTab.approxOne CTab.approxEq CTab.approxZero; rw [h]

/-- A successor after division by the largest weight. -/
def KidOk (J : JCfg R) (τ : R) (t : CTab R) (v : Nat) (m : Fin 4) (z : Fin 4 → Cx R) (p : Fin 4 → Option Nat) (s : JState R) (i : Fin 4)
    (e : PtrEdge) : Prop :=
  s.KnM J τ v e ∧ (i = m → e = ⟨p i, CNum.one⟩) ∧ (i ≠ m → t.zeroV (z i) = true → e = ⟨none, CNum.zero⟩) ∧
  (i ≠ m → t.zeroV (z i) = false → e.p = p i ∧
    mag (s.ct.cval J.C e.w - t.divV J.fl (if t.oneV (z i) then ⟨1, 0⟩ else z i) (z m)) ≤ 3 / 2 * τ)

omit [LawfulSqrt R] in
theorem Grow.kidOk (g : Grow J s s') {t : CTab R} {v : Nat} {m : Fin 4} {z : Fin 4 → Cx R} {p : Fin 4 → Option Nat} {i : Fin 4}
    {e : PtrEdge} (h : KidOk J τ t v m z p s i e) : KidOk J τ t v m z p s' i e := by
  obtain ⟨h1, h2, h3, h4⟩ := h
  refine ⟨g.knM h1, h2, h3, fun hi hz => ?_⟩
  rw [g.cval h1.1]
  exact h4 hi hz

theorem kids_grow (hJ : J.Good) (hτ : 0 ≤ τ) (h : TInv J τ s) {v : Nat} {m : Fin 4} {z : Fin 4 → Cx R} {p : Fin 4 → Option Nat}
    (hp : ∀ i b, p i = some b → b ∈ (s.tab .m).tab.all ∧ ((s.tab .m).tab.mem b).v + 1 = v)
    (hp0 : ∀ i, p i = none → τ < 1 → v = 0 ∨ s.ct.zeroV (z i) = true) (hm : s.ct.zeroV (z m) = false) :
    let k := seqFin 4 (fun i => kidM J m (z m) i (p i) (z i)) s
    TInv J τ k.1 ∧ Grow J s k.1 ∧ ∀ i, KidOk J τ s.ct v m z p k.1 i (k.2 i) := by
  refine seqFin_grow 4 _ (KidOk J τ s.ct v m z p) s (fun i s' h' g => ?_) (fun _ _ _ _ g hk => g.kidOk hk) s h (.refl _)
  have htol : s'.ct.tol = s.ct.tol := (h'.tol hJ hτ).trans (h.tol hJ hτ).symm
  have kp : s.ct.zeroV (z i) = false → ∀ w, s'.ct.LiveC J.C w → s'.KnM J τ v ⟨p i, w⟩ := fun hz w hw =>
    ⟨hw, fun b hb => by
      obtain ⟨h1, h2⟩ := hp i b hb
      refine ⟨g.all .m b h1, ?_⟩
      rw [(g.rel.node .m b h1 (g.all .m b h1)).2]; exact h2, fun hb ht => by
      rcases hp0 i hb ht with h1 | h1
      · exact Or.inl h1
      · rw [hz] at h1; simp at h1⟩
  unfold JState.kidM
  by_cases h1 : i = m
  · rw [if_pos h1]
    refine ⟨h', .refl _, kp (by rw [h1]; exact hm) _ ⟨trivial, trivial⟩, fun _ => rfl, fun h3 => absurd h1 h3, fun h3 => absurd h1 h3⟩
  rw [if_neg h1, zeroV_congr htol, oneV_congr htol, divV_congr htol]
  by_cases h2 : s.ct.zeroV (z i) = true
  · rw [if_pos h2]
    exact ⟨h', .refl _, ⟨⟨trivial, trivial⟩, fun b hb => by simp at hb, fun _ _ => Or.inr rfl⟩, fun h3 => absurd h3 h1, fun _ _ => rfl,
      fun _ h3 => by rw [h2] at h3; simp at h3⟩
  · rw [if_neg h2]
    obtain ⟨l1, l2, l3, l4⟩ := lookupC_grow hJ hτ h' (s.ct.divV J.fl (if s.ct.oneV (z i) then ⟨1, 0⟩ else z i) (z m))
    refine ⟨l1, l2, ?_, fun h3 => absurd h3 h1, fun _ h3 => absurd h3 h2, fun _ _ => ⟨rfl, l4⟩⟩
    have := l2.knM (kp (by simpa using h2) CNum.one ⟨trivial, trivial⟩)
    refine ⟨l3, this.2.1, fun hb ht => Or.inl ?_⟩
    rcases hp0 i hb ht with h3 | h3
    · exact h3
    · exact absurd h3 h2

theorem argmax_spec (t : CTab R) {fl : R → R} (hr : RndOk fl t.tol) (z : Fin 4 → Cx R) :
    (t.argmax fl z = none → ∀ i, t.zeroV (z i) = true) ∧
    ∀ m, t.argmax fl z = some m → t.zeroV (z m) = false ∧ ∀ i, t.zeroV (z i) = false → 
      (z i).mag2 ≤ (z m).mag2 + t.tol * (26 / 25 + 1 / 50 * (z m).mag2) := by
  obtain ⟨ε, η, hR⟩ := hr
  have hτ := hR.pos
  have e0 := hR.nn
  have e1 := hR.one
  have e2 := hR.tol
  have e3 := hR.eta1
  have big : ∀ x : R, ¬ t.tol < fl x → x ≤ 101 / 100 * t.tol := by
    intro x hx
    push Not at hx
    have he := hR.err x
    by_contra hn
    push Not at hn
    have x0 : 0 ≤ x := by linarith
    rw [abs_of_nonneg x0, abs_le] at he
    have := mul_le_mul_of_nonneg_right (by linarith : ε ≤ 1 / 1000) x0
    linarith [he.1]
  have up : ∀ x : R, t.tol < fl x → 0 ≤ x := by
    intro x hx
    have he := hR.err x
    by_contra hn
    push Not at hn
    rw [abs_of_neg hn, abs_le] at he
    have := mul_le_mul_of_nonneg_right (by linarith : ε ≤ 1 / 1000) (by linarith : 0 ≤ -x)
    linarith [he.2]
  have key : ∀ (L : List (Fin 4)) (S : Fin 4 → Prop) (m : Option (Fin 4)),
      (match m with
        | none => ∀ i, S i → t.zeroV (z i) = true
        | some j => t.zeroV (z j) = false ∧ ∀ i, S i → t.zeroV (z i) = false → mag2F fl (z i) ≤ mag2F fl (z j) + 101 / 100 * t.tol) →
      match L.foldl (t.larger fl z) m with
        | none => ∀ i, S i ∨ i ∈ L → t.zeroV (z i) = true
        | some j => t.zeroV (z j) = false ∧ ∀ i, S i ∨ i ∈ L → t.zeroV (z i) = false → mag2F fl (z i) ≤ mag2F fl (z j) + 101 / 100 * t.tol := by
    intro L
    induction L with
    | nil => intro S m hm; simpa using hm
    | cons a L ih =>
      intro S m hm
      rw [List.foldl_cons]
      have := ih (fun i => S i ∨ i = a) (t.larger fl z m a) ?_
      · have e : ∀ i, ((S i ∨ i = a) ∨ i ∈ L) ↔ (S i ∨ i ∈ a :: L) := by
          intro i; rw [List.mem_cons]; tauto
        simpa only [e] using this
      · unfold CTab.larger
        by_cases hz : t.zeroV (z a) = true
        · rw [if_pos hz]
          cases m with
          | none =>
            rintro i (hi | rfl)
            · exact hm i hi
            · exact hz
          | some j =>
            refine ⟨hm.1, ?_⟩
            rintro i (hi | rfl) h0
            · exact hm.2 i hi h0
            · rw [hz] at h0; simp at h0
        · rw [if_neg hz]
          have hz' : t.zeroV (z a) = false := by simpa using hz
          cases m with
          | none =>
            refine ⟨hz', ?_⟩
            rintro i (hi | rfl) h0
            · rw [hm i hi] at h0; simp at h0
            · linarith
          | some j =>
            by_cases hgt : t.tol < fl (mag2F fl (z a) - mag2F fl (z j))
            · simp only [if_pos hgt]
              refine ⟨hz', ?_⟩
              rintro i (hi | rfl) h0
              · have := hm.2 i hi h0; have := up _ hgt; linarith
              · linarith
            · simp only [if_neg hgt]
              refine ⟨hm.1, ?_⟩
              rintro i (hi | rfl) h0
              · exact hm.2 i hi h0
              · have := big _ hgt; linarith
  have k := key [0, 1, 2, 3] (fun _ => False) none (fun i hi => hi.elim)
  have hall : ∀ i : Fin 4, i ∈ ([0, 1, 2, 3] : List (Fin 4)) := by decide
  constructor
  · intro h i
    unfold CTab.argmax at h
    rw [h] at k
    exact k i (Or.inr (hall i))
  · intro m h
    unfold CTab.argmax at h
    rw [h] at k
    refine ⟨k.1, fun i hi => ?_⟩
    have h1 := k.2 i (Or.inr (hall i)) hi
    have h2 := hR.mag2 (nzV_mag (by rw [hi]; simp))
    have h3 := hR.mag2 (nzV_mag (by rw [k.1]; simp))
    rw [abs_le] at h2 h3
    set x := (z i).mag2
    set y := (z m).mag2
    have y0 : 0 ≤ y := Cx.mag2_nonneg _
    have h4 : (1 - 6 * ε) * x ≤ (1 + 6 * ε) * y + 101 / 100 * t.tol := by linarith [h2.1, h3.2]
    by_contra hn
    push Not at hn
    have h5 := mul_le_mul_of_nonneg_left hn.le (by linarith : 0 ≤ 1 - 6 * ε)
    have h6 : 0 ≤ t.tol * y := mul_nonneg hτ y0
    have h7 : 1000 * ε * y ≤ t.tol * y := mul_le_mul_of_nonneg_right e2 y0
    have h8 : ε * (t.tol * (26 / 25 + 1 / 50 * y)) ≤ 1 / 1000 * (t.tol * (26 / 25 + 1 / 50 * y)) :=
      mul_le_mul_of_nonneg_right (by linarith) (by positivity)
    have h9 : (1 - 6 * ε) * (y + t.tol * (26 / 25 + 1 / 50 * y)) ≤ (1 + 6 * ε) * y + 101 / 100 * t.tol := h5.trans h4
    have h10 : t.tol * (2 / 100) + t.tol * y * (5 / 1000) ≤ 0 := by linarith
    have h11 : t.tol = 0 := by linarith
    have h12 : ε = 0 := by linarith
    rw [h11, zero_mul, add_zero] at hn
    rw [h11, h12] at h4
    linarith

/-- Making a node without slots. -/
theorem makeN_grow (hJ : J.Good) (hτ : 0 ≤ τ) {tr : JState R → PtrEdge → JState R × PtrEdge} {v : Nat} (ht : TrJ J τ tr v)
    (h : TInv J τ s) (hl : v < (s.tab .m).tab.nvars) {es : Fin 4 → PtrEdge} (hv : ∀ i, s.KnM J τ v (es i)) :
    TInv J τ (s.makeN J tr v es).1 ∧ Grow J s (s.makeN J tr v es).1 ∧ (s.makeN J tr v es).1.KnM J τ (v + 1) (s.makeN J tr v es).2 := by
  unfold JState.makeN
  cases ha : s.ct.argmax J.fl (fun i => s.ct.cval J.C (es i).w) with
  | none =>
    obtain ⟨a1, a2⟩ := takeBackM_grow hJ hτ h
    exact ⟨a1, a2, ⟨trivial, trivial⟩, fun b hb => by simp at hb, fun _ _ => Or.inr rfl⟩
  | some m =>
    dsimp only
    obtain ⟨k1, k2, k3⟩ := kids_grow hJ hτ h (v := v) (m := m) (z := fun i => s.ct.cval J.C (es i).w) (p := fun i => (es i).p)
      (fun i => (hv i).2.1) (fun i hp ht => by
        rcases (hv i).2.2 hp ht with h0 | h0
        · exact Or.inl h0
        · right
          rw [h0, cval_zero]
          exact zeroV_zero (by rw [h.tol hJ hτ]; exact hτ)) ((argmax_spec s.ct (h.ok hJ hτ) _).2 m ha).1
    obtain ⟨n1, n2, n3, n4, _⟩ := nodeM_grow hJ hτ ht k1 (by rw [k2.nvars .m]; exact hl) (fun i => (k3 i).1)
    exact ⟨n1, k2.trans n2, (k2.trans n2).liveC (hv m).1, fun b hb => by
      simp only [Option.some.injEq] at hb
      subst hb
      exact ⟨n3, by rw [n4]⟩, fun hb => by simp at hb⟩

theorem trIns_grow (hJ : J.Good) (hτ : 0 ≤ τ) (h : TInv J τ s) {a r : PtrEdge} {v c : Nat} (ha : s.KnM J τ v a) (hac : a.p = some c)
    (hr : s.KnM J τ (((s.tab .m).tab.mem c).v + 1) r) : TInv J τ (s.trIns J a r) ∧ Grow J s (s.trIns J a r) := by
  obtain ⟨pin, hi⟩ := h.reach.inv hJ (zero_tol hτ)
  have hst : JStep J (· = τ) s (s.trIns J a r) := by
    refine .insert .matrixTranspose (trKey a) (.ptr .m r) (.cons rfl .nil) rfl ?_ (knM_known hr) (fun e => by cases e)
    intro x hx
    simp only [trKey, List.mem_cons, List.not_mem_nil, or_false] at hx
    subst hx
    exact knM_known ha
  have hag := hst.agree hJ (zero_tol hτ) hi
  refine ⟨h.keep hJ hτ (h.reach.step hst) hag (fun a ha => Or.inl ha) (fun a ha => Or.inl ha) (fun i k hs => Or.inl hs) (fun i k hs => ?_)
      (fun i k hs => Or.inl hs) (fun i k hs => Or.inl hs),
    ⟨hag, fun _ a ha => ha, fun l hl => hl, fun _ => rfl⟩⟩
  have hc : (s.trIns J a r).cache .matrixTranspose =
      (s.cache .matrixTranspose).insert (J.h .matrixTranspose) (trKey a) (.ptr .m r) :=
    Function.update_self (β := fun _ : CK => Cache (CKey R) (CArg R)) CK.matrixTranspose _ s.cache
  rw [hc] at hs
  simp only [Cache.insert] at hs
  split_ifs at hs with h1
  · right
    simp only [Option.some.injEq] at hs
    subst hs
    refine ⟨a, r, c, rfl, hac, (ha.2.1 c hac).1, fun b hb => ⟨(hr.2.1 b hb).1, ?_⟩, fun hb ht => ?_⟩
    · have := (hr.2.1 b hb).2
      show ((s.tab .m).tab.mem b).v = ((s.tab .m).tab.mem c).v
      omega
    · rcases hr.2.2 hb ht with h0 | h0
      · omega
      · exact h0
  · exact Or.inl hs

theorem trLook_hit (hJ : J.Good) (hτ : 0 ≤ τ) (h : TInv J τ s) {a r : PtrEdge} {v : Nat} (ha : s.KnM J τ v a)
    (hh : s.trLook J a = some r) : s.KnM J τ v r := by
  obtain ⟨pin, hi⟩ := h.reach.inv hJ (zero_tol hτ)
  unfold JState.trLook Cache.lookup at hh
  cases hs : (s.cache .matrixTranspose).slot (J.h .matrixTranspose (trKey a)) with
  | none => rw [hs] at hh; simp at hh
  | some kr =>
    rw [hs] at hh
    obtain ⟨a', r', c, rfl, hc, _, hb, hb0⟩ := h.tr _ _ hs
    obtain ⟨_, _, _, _, h5, _⟩ := hi.cache _ _ _ _ hs
    have kn := known_ptr.1 (h5 (by simp))
    simp only [Bool.and_true] at hh
    split_ifs at hh with hsame
    · simp only [Option.some.injEq] at hh
      subst hh
      simp only [trKey, sameKey1, sameE, Bool.and_eq_true, decide_eq_true_eq] at hsame
      rw [hsame.1] at hc
      refine ⟨kn.1, fun b hr => ⟨kn.2 b hr, ?_⟩, fun hp ht => Or.inr (hb0 hp ht)⟩
      rw [(hb b hr).2]
      exact (ha.2.1 c hc).2

omit [LawfulSqrt R] in
/-- Looking up zero. -/
theorem lookupC_zero (hJ : J.Good) (hτ : 0 ≤ τ) (h : TInv J τ s) : (s.lookupC J 0).2 = CNum.zero := by
  have key : ∀ t : CTab R, 0 ≤ t.tol → t.lookupSigned J.C 0 = ({ t with lookups := t.lookups + 1, hits := t.hits + 1 }, ⟨false, .zero⟩) := by
    intro t ht
    unfold CTab.lookupSigned
    rw [if_neg (lt_irrefl _)]
    unfold CTab.lookup
    dsimp only
    rw [if_pos (by unfold CTab.approxZero; simpa using ht)]
  have ht : 0 ≤ s.ct.tol := by rw [h.tol hJ hτ]; exact hτ
  show (s.ct.lookupC J.C 0).2 = _
  unfold CTab.lookupC
  dsimp only
  show (⟨(s.ct.lookupSigned J.C 0).2, ((s.ct.lookupSigned J.C 0).1.lookupSigned J.C 0).2⟩ : CNum Loc) = _
  rw [key _ ht, key _ (by exact ht)]
  rfl

theorem mulV_zero_left (t : CTab R) (fl : R → R) (h0 : 0 ≤ t.tol) (h1 : t.tol < 1) (b : Cx R) : t.mulV fl 0 b = 0 := by
  unfold CTab.mulV
  split_ifs with h2 h3 h4
  · exfalso
    unfold CTab.oneV CTab.approxOne CTab.approxEq CTab.approxZero at h2
    simp only [Bool.and_eq_true, decide_eq_true_eq, Bool.or_eq_true] at h2
    have : (0 : Cx R).re = 0 := rfl
    rw [this] at h2
    rcases h2 with ⟨h2 | h2, _⟩ <;> simp at h2
    linarith
  · rfl
  · rfl
  · exfalso
    simp only [Bool.or_eq_true, not_or] at h4
    exact h4.1 (zeroV_zero h0)

theorem transposeF_grow (hJ : J.Good) (hτ : 0 ≤ τ) : ∀ l, TrJ J τ (JState.transposeF J l) l := by
  intro l
  induction l with
  | zero =>
    intro s v a hv h ha
    rw [JState.transposeF.eq_def]
    dsimp only
    cases hp : a.p with
    | none => exact ⟨h, .refl _, ha⟩
    | some n => have := (ha.2.1 n hp).2; omega
  | succ l ih =>
    intro s v a hv h ha
    rw [JState.transposeF.eq_def]
    dsimp only
    cases hp : a.p with
    | none => exact ⟨h, .refl _, ha⟩
    | some n =>
      dsimp only
      split_ifs with hsym
      · exact ⟨h, .refl _, ha⟩
      · cases hc : s.trLook J a with
        | some r => exact ⟨h, .refl _, trLook_hit hJ hτ h ha hc⟩
        | none =>
          dsimp only
          obtain ⟨pin, hi⟩ := h.reach.inv hJ (zero_tol hτ)
          obtain ⟨hn, hlv⟩ := ha.2.1 n hp
          have hvl : ((s.tab .m).tab.mem n).v ≤ l := by omega
          have hnv : ((s.tab .m).tab.mem n).v < (s.tab .m).tab.nvars := (((hi.tab .m).inv hJ.U).uwf.mem_bucket hn).1
          have kid : ∀ i : Fin 4, s.KnM J τ ((s.tab .m).tab.mem n).v (((s.tab .m).tab.mem n).e i) := fun i => h.kidsM n hn i
          obtain ⟨q1, q2, q3⟩ := seqFin_grow 4 (fun i s' => JState.transposeF J l s' (((s.tab .m).tab.mem n).e (![0, 2, 1, 3] i : Fin 4)))
            (fun s' i e => s'.KnM J τ ((s.tab .m).tab.mem n).v e) s
            (fun i s' h' g => ih s' _ _ hvl h' (g.knM (kid _))) (fun s s' i b g hk => g.knM hk) s h (.refl _)
          have ht : TrJ J τ (JState.transposeF J l) ((s.tab .m).tab.mem n).v := fun s v a hv => ih s v a (hv.trans hvl)
          obtain ⟨r1, r2, r3⟩ := makeN_grow hJ hτ ht q1 (by rw [q2.nvars .m]; exact hnv) q3
          set q := seqFin 4 (fun i s' => JState.transposeF J l s' (((s.tab .m).tab.mem n).e (![0, 2, 1, 3] i : Fin 4))) s
          set r := makeN J (JState.transposeF J l) q.1 ((s.tab .m).tab.mem n).v q.2
          obtain ⟨c1, c2, c3, _⟩ := lookupC_grow hJ hτ r1 (r.1.ct.mulV J.fl (r.1.ct.cval J.C r.2.w) (r.1.ct.cval J.C a.w))
          set c := r.1.lookupC J (r.1.ct.mulV J.fl (r.1.ct.cval J.C r.2.w) (r.1.ct.cval J.C a.w))
          have g := (q2.trans r2).trans c2
          have hlvc := (g.rel.node .m n hn (g.all .m n hn)).2
          have k : c.1.KnM J τ (((s.tab .m).tab.mem n).v + 1) ⟨r.2.p, c.2⟩ := by
            refine ⟨c3, (c2.knM r3).2.1, fun hp ht => Or.inr ?_⟩
            rcases r3.2.2 hp ht with h0 | h0
            · omega
            · show (r.1.lookupC J (r.1.ct.mulV J.fl (r.1.ct.cval J.C r.2.w) (r.1.ct.cval J.C a.w))).2 = _
              have ht' := r1.tol hJ hτ
              rw [h0, cval_zero, mulV_zero_left _ _ (by rw [ht']; exact hτ) (by rw [ht']; exact ht), lookupC_zero hJ hτ r1]
          obtain ⟨t1, t2⟩ := trIns_grow hJ hτ c1 (g.knM ha) hp (r := ⟨r.2.p, c.2⟩) (by rw [hlvc]; exact k)
          refine ⟨t1, g.trans t2, ?_⟩
          have k2 := t2.knM k
          rw [hlv] at k2
          exact k2

end DD
