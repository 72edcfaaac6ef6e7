import Verif.Model.Reduce
import Verif.Proofs.Mul

/-! # Reduction of ancillary and garbage qubits -/

namespace DD

variable {R : Type} [Field R] [LinearOrder R] [IsStrictOrderedRing R]

/-! ## What a reduction does to the values -/

section values
variable {n : Nat}

/-- `d'` contributes to entry `d` of the reduced diagram: at a marked qubit according to `τ`, elsewhere the digits agree. -/
def Hit (mk : Nat → Bool) (τ : Fin n → Fin n → Bool) {l : Nat} (d d' : Fin l → Fin n) : Prop :=
  ∀ i : Fin l, if mk i then τ (d i) (d' i) = true else d' i = d i

instance (mk : Nat → Bool) (τ : Fin n → Fin n → Bool) {l : Nat} (d d' : Fin l → Fin n) : Decidable (Hit mk τ d d') := by
  unfold Hit; infer_instance

/-- The values after a reduction. -/
def redSum (mk : Nat → Bool) (τ : Fin n → Fin n → Bool) (l : Nat) (F : (Fin l → Fin n) → Cx R) (d : Fin l → Fin n) : Cx R :=
  ∑ d', if Hit mk τ d d' then F d' else 0

/-- What happens to the digit of one qubit. -/
def hit1 (mk : Nat → Bool) (τ : Fin n → Fin n → Bool) (l : Nat) (i j : Fin n) : Prop :=
  if mk l then τ i j = true else j = i

instance (mk : Nat → Bool) (τ : Fin n → Fin n → Bool) (l : Nat) (i j : Fin n) : Decidable (hit1 mk τ l i j) := by
  unfold hit1; infer_instance

theorem hit_snoc {mk : Nat → Bool} {τ : Fin n → Fin n → Bool} {l : Nat} (d d' : Fin l → Fin n) (i j : Fin n) :
    Hit mk τ (Fin.snoc (α := fun _ => Fin n) d i) (Fin.snoc (α := fun _ => Fin n) d' j) ↔
      Hit mk τ d d' ∧ hit1 mk τ l i j := by
  unfold Hit hit1
  constructor
  · intro h
    refine ⟨fun x => ?_, ?_⟩
    · have := h x.castSucc
      simpa only [Fin.snoc_castSucc, Fin.val_castSucc] using this
    · have := h (Fin.last l)
      simpa only [Fin.snoc_last, Fin.val_last] using this
  · intro h x
    refine Fin.lastCases ?_ (fun x => ?_) x
    · simpa only [Fin.snoc_last, Fin.val_last] using h.2
    · simpa only [Fin.snoc_castSucc, Fin.val_castSucc] using h.1 x

theorem redSum_snoc {mk : Nat → Bool} {τ : Fin n → Fin n → Bool} {l : Nat} (F : (Fin (l + 1) → Fin n) → Cx R)
    (d : Fin l → Fin n) (i : Fin n) :
    redSum mk τ (l + 1) F (Fin.snoc (α := fun _ => Fin n) d i) =
      ∑ j, if hit1 mk τ l i j then redSum mk τ l (fun d' => F (Fin.snoc (α := fun _ => Fin n) d' j)) d else 0 := by
  unfold redSum
  rw [sum_snoc]
  refine Finset.sum_congr rfl fun j _ => ?_
  by_cases h : hit1 mk τ l i j
  · simp only [hit_snoc, h, and_true, if_true]
  · simp only [hit_snoc, h, and_false, if_false, Finset.sum_const_zero]

theorem redSum_zero {mk : Nat → Bool} {τ : Fin n → Fin n → Bool} (F : (Fin 0 → Fin n) → Cx R) (d : Fin 0 → Fin n) :
    redSum mk τ 0 F d = F d := by
  unfold redSum
  rw [sum_zero, if_pos (show Hit mk τ d Fin.elim0 from fun i => i.elim0)]
  congr 1
  funext i; exact i.elim0

theorem redSum_smul {mk : Nat → Bool} {τ : Fin n → Fin n → Bool} {l : Nat} (c : Cx R) (F : (Fin l → Fin n) → Cx R)
    (d : Fin l → Fin n) : redSum mk τ l (fun d => c * F d) d = c * redSum mk τ l F d := by
  unfold redSum
  rw [Finset.mul_sum]
  exact Finset.sum_congr rfl fun j _ => by split_ifs <;> simp

/-- Nothing is marked. -/
theorem redSum_none {mk : Nat → Bool} {τ : Fin n → Fin n → Bool} {l : Nat} (h : ∀ i, i < l → mk i = false)
    (F : (Fin l → Fin n) → Cx R) (d : Fin l → Fin n) : redSum mk τ l F d = F d := by
  unfold redSum
  have : ∀ d', Hit mk τ d d' ↔ d' = d := by
    intro d'
    unfold Hit
    constructor
    · intro hh
      funext i
      have := hh i
      rw [h i i.isLt] at this
      simpa using this
    · rintro rfl i
      rw [h i i.isLt]; simp
  simp only [this]
  rw [Finset.sum_ite_eq' Finset.univ d F, if_pos (Finset.mem_univ _)]

/-- A reduction of zero is zero. -/
theorem redSum_of_zero {mk : Nat → Bool} {τ : Fin n → Fin n → Bool} {l : Nat} {F : (Fin l → Fin n) → Cx R} (h : ∀ d, F d = 0)
    (d : Fin l → Fin n) : redSum mk τ l F d = 0 := by
  unfold redSum
  exact Finset.sum_eq_zero fun d' _ => by rw [h]; simp

theorem redSum_congr {mk : Nat → Bool} {τ : Fin n → Fin n → Bool} {l : Nat} {F G : (Fin l → Fin n) → Cx R} (h : ∀ d, F d = G d)
    (d : Fin l → Fin n) : redSum mk τ l F d = redSum mk τ l G d := by
  rw [funext h]

end values

variable [HasSqrt R] [LawfulSqrt R]

/-! ## The loop over the successors -/

omit [HasSqrt R] [LawfulSqrt R] in
theorem redLoop_spec {P : PCfg R} {s : Pkg R} {k : Kind} {l n : Nat} {rec : Pkg R → PEdge R → Pkg R × PEdge R}
    {es : Fin n → PEdge R} {V : PEdge R → ((Fin l → Fin (ar k)) → Cx R) → Prop} (h : PWF P s ∅)
    (hes : ∀ i, Valid (s.ut k) l (es i))
    (hrec : ∀ i s', PWF P s' ∅ → PExt s s' → ∃ f, V (es i) f ∧ OpSpec P ∅ s' k l f (rec s' (es i))) :
    PWF P (Pkg.redLoop rec s es).1 ∅ ∧ PExt s (Pkg.redLoop rec s es).1 ∧
      ∀ i, Valid ((Pkg.redLoop rec s es).1.ut k) l ((Pkg.redLoop rec s es).2 i) ∧
        (((es i).p = none ∧ (Pkg.redLoop rec s es).2 i = es i) ∨
          ∃ j, (es j).p = (es i).p ∧ (es i).p ≠ none ∧
            V (es j) (amp ((Pkg.redLoop rec s es).1.ut k) l ((Pkg.redLoop rec s es).2 i))) := by
  let C : Pkg R → Fin n → PEdge R → Prop := fun s' i e =>
    Valid (s'.ut k) l e ∧ (((es i).p = none ∧ e = es i) ∨
      ∃ j, (es j).p = (es i).p ∧ (es i).p ≠ none ∧ V (es j) (amp (s'.ut k) l e))
  have hC : ∀ {s1 s2 : Pkg R}, PWF P s1 ∅ → PExt s1 s2 → ∀ {i e}, C s1 i e → C s2 i e := by
    intro s1 s2 h1 h12 i e hc
    refine ⟨hc.1.mono (h12.le k), hc.2.imp_right ?_⟩
    rintro ⟨j, hj, hn, hV⟩
    refine ⟨j, hj, hn, ?_⟩
    rwa [show amp (s2.ut k) l e = amp (s1.ut k) l e from funext (amp_mono (h12.le k) (h1.tab k).child hc.1)]
  have main : ∀ (L : List (Fin n)) (st : Pkg R × (Fin n → Option (PEdge R))), PWF P st.1 ∅ → PExt s st.1 →
      (∀ i e, st.2 i = some e → C st.1 i e) →
      PWF P (L.foldl (Pkg.redStep rec es) st).1 ∅ ∧ PExt s (L.foldl (Pkg.redStep rec es) st).1 ∧
        (∀ i e, (L.foldl (Pkg.redStep rec es) st).2 i = some e → C (L.foldl (Pkg.redStep rec es) st).1 i e) ∧
        (∀ i, (i ∈ L ∨ (st.2 i).isSome) → ((L.foldl (Pkg.redStep rec es) st).2 i).isSome) := by
    intro L
    induction L with
    | nil =>
      intro st h1 h2 h3
      exact ⟨h1, h2, h3, fun i hi => hi.resolve_left (by simp)⟩
    | cons x L ih =>
      intro st h1 h2 h3
      rw [List.foldl_cons]
      have hst : PWF P (Pkg.redStep rec es st x).1 ∅ ∧ PExt s (Pkg.redStep rec es st x).1 ∧
          (∀ i e, (Pkg.redStep rec es st x).2 i = some e → C (Pkg.redStep rec es st x).1 i e) ∧
          (∀ i, (i = x ∨ (st.2 i).isSome) → ((Pkg.redStep rec es st x).2 i).isSome) := by
        unfold Pkg.redStep
        by_cases hx : (st.2 x).isSome
        · rw [if_pos hx]
          exact ⟨h1, h2, h3, fun i hi => hi.elim (fun e => e ▸ hx) id⟩
        · rw [if_neg hx]
          cases hp : (es x).p with
          | none =>
            dsimp only
            refine ⟨h1, h2, ?_, ?_⟩
            · intro i e hie
              by_cases hix : i = x
              · subst hix
                rw [Function.update_self, Option.some.injEq] at hie
                subst hie
                exact ⟨(hes i).mono (h2.le k), Or.inl ⟨hp, rfl⟩⟩
              · rw [Function.update_of_ne hix] at hie
                exact h3 i e hie
            · intro i hi
              by_cases hix : i = x
              · subst hix; simp
              · rw [Function.update_of_ne hix]; exact hi.resolve_left hix
          | some b =>
            dsimp only
            obtain ⟨f, hV, ho⟩ := hrec x st.1 h1 h2
            refine ⟨ho.wf, h2.trans ho.ext, ?_, ?_⟩
            · intro i e hie
              split_ifs at hie with hc
              · rw [Option.some.injEq] at hie
                subst hie
                have hpi : (es x).p = (es i).p := by
                  rcases hc with rfl | hc
                  · rfl
                  · rw [hp]; exact hc.2.symm
                refine ⟨ho.valid, Or.inr ⟨x, hpi, ?_, ?_⟩⟩
                · rw [← hpi, hp]; simp
                · rwa [show amp ((rec st.1 (es x)).1.ut k) l (rec st.1 (es x)).2 = f from funext ho.val]
              · exact hC h1 ho.ext (h3 i e hie)
            · intro i hi
              split_ifs with hc
              · rfl
              · exact hi.resolve_left (fun e => hc (Or.inl e))
      obtain ⟨a1, a2, a3, a4⟩ := hst
      obtain ⟨b1, b2, b3, b4⟩ := ih _ a1 a2 a3
      refine ⟨b1, b2, b3, ?_⟩
      intro i hi
      apply b4
      rcases hi with hi | hi
      · rcases List.mem_cons.1 hi with rfl | hi
        · exact Or.inr (a4 i (Or.inl rfl))
        · exact Or.inl hi
      · exact Or.inr (a4 i (Or.inr hi))
  obtain ⟨m1, m2, m3, m4⟩ := main (List.finRange n) (s, fun _ => none) h (PExt.refl _) (fun i e hie => by simp at hie)
  refine ⟨m1, m2, ?_⟩
  intro i
  obtain ⟨e, he⟩ := Option.isSome_iff_exists.1 (m4 i (Or.inl (List.mem_finRange i)))
  have hq : (Pkg.redLoop rec s es).2 i = e := by
    unfold Pkg.redLoop
    dsimp only
    rw [he]; rfl
  rw [hq]
  exact m3 i e he

/-! ## What happens at a marked qubit -/

/-- The middle part of a recursive reduction: up to a factor, which is one if the weight of the edge is one or zero or the
qubit is not marked, it
does at level `l` what `τ` says. -/
def StepSpec (P : PCfg R) (k : Kind) (mk : Nat → Bool) (τ : Fin (ar k) → Fin (ar k) → Bool)
    (step : Pkg R → Nat → PEdge R → Pkg R × PEdge R) : Prop :=
  ∀ (l : Nat) (s : Pkg R) (f : PEdge R), PWF P s ∅ → Valid (s.ut k) (l + 1) f → l < (s.ut k).nvars →
    ∃ c : Cx R, (mk l = false ∨ f.w = 1 ∨ f.w = 0 → c = 1) ∧
      (c = f.w⁻¹ ∨ ∀ d, amp (s.ut k) (l + 1) f d = ∑ j, if hit1 mk τ l (d (Fin.last l)) j then
        amp (s.ut k) (l + 1) f (Fin.snoc (α := fun _ => Fin (ar k)) (Fin.init d) j) else 0) ∧
      OpSpec P ∅ s k (l + 1) (fun d => c * ∑ j, if hit1 mk τ l (d (Fin.last l)) j then
        amp (s.ut k) (l + 1) f (Fin.snoc (α := fun _ => Fin (ar k)) (Fin.init d) j) else 0) (step s l f)

omit [HasSqrt R] [LawfulSqrt R] in
theorem hit1_false {n : Nat} {mk : Nat → Bool} {τ : Fin n → Fin n → Bool} {l : Nat} (h : mk l = false) {M : Type}
    [AddCommMonoid M] (i : Fin n) (g : Fin n → M) : (∑ j, if hit1 mk τ l i j then g j else 0) = g i := by
  unfold hit1
  simp only [h]
  simp

theorem StepSpec.mk' {P : PCfg R} {k : Kind} {mk : Nat → Bool} {τ : Fin (ar k) → Fin (ar k) → Bool}
    {step : Pkg R → Nat → PEdge R → Pkg R × PEdge R} (hz : ∀ s l f, f.p = none → step s l f = (s, f))
    (hn : ∀ s l f b, f.p = some b → ((s.ut k).mem b).v = l → mk l = false → step s l f = (s, f))
    (hs : ∀ (l : Nat) (s : Pkg R) (f : PEdge R) b, PWF P s ∅ → f.p = some b → b ∈ (s.ut k).all → ((s.ut k).mem b).v = l →
      l < (s.ut k).nvars → mk l = true → f.w ≠ 0 →
      (step s l f = (s, f) ∧ ∀ i d, amp (s.ut k) l (((s.ut k).mem b).e i) d =
          ∑ j, if τ i j then amp (s.ut k) l (((s.ut k).mem b).e j) d else 0) ∨
        OpSpec P ∅ s k (l + 1) (fun d => ∑ j, if τ (d (Fin.last l)) j then
          amp (s.ut k) l (((s.ut k).mem b).e j) (Fin.init d) else 0) (step s l f)) :
    StepSpec P k mk τ step := by
  intro l s f h hv hl
  cases hp : f.p with
  | none =>
    have hw : f.w = 0 := ((valid_none hp).1 hv).resolve_left (by omega)
    have hval : ∀ d, amp (s.ut k) (l + 1) f d = ∑ j, if hit1 mk τ l (d (Fin.last l)) j then
        amp (s.ut k) (l + 1) f (Fin.snoc (α := fun _ => Fin (ar k)) (Fin.init d) j) else 0 := by
      intro d
      rw [amp_w_zero hw]
      exact (Finset.sum_eq_zero fun j _ => by rw [amp_w_zero hw]; simp).symm
    refine ⟨1, fun _ => rfl, Or.inr hval, ?_⟩
    rw [hz s l f hp]
    exact .pure h hv (fun d => by rw [one_mul]; exact hval d)
  | some b =>
    obtain ⟨hb, hbl, hw⟩ := (valid_some hp).1 hv
    have hbl : ((s.ut k).mem b).v = l := by omega
    cases hm : mk l with
    | false =>
      refine ⟨1, fun _ => rfl, Or.inr fun d => by rw [hit1_false hm, Fin.snoc_init_self], ?_⟩
      rw [hn s l f b hp hbl hm]
      refine .pure h hv (fun d => ?_)
      rw [one_mul, hit1_false hm, Fin.snoc_init_self]
    | true =>
      have hval : ∀ (d : Fin (l + 1) → Fin (ar k)), (∑ j, if hit1 mk τ l (d (Fin.last l)) j then
          amp (s.ut k) (l + 1) f (Fin.snoc (α := fun _ => Fin (ar k)) (Fin.init d) j) else 0) =
          f.w * ∑ j, if τ (d (Fin.last l)) j then amp (s.ut k) l (((s.ut k).mem b).e j) (Fin.init d) else 0 := by
        intro d
        rw [Finset.mul_sum]
        refine Finset.sum_congr rfl fun j _ => ?_
        unfold hit1
        rw [amp_snoc hp]
        simp only [hm, if_true]
        split_ifs <;> simp
      rcases hs l s f b h hp hb hbl hl hm hw with ⟨h1, h2⟩ | h1
      · refine ⟨1, fun _ => rfl, Or.inr fun d => by rw [hval, ← h2, amp_some hp], ?_⟩
        rw [h1]
        refine .pure h hv (fun d => ?_)
        rw [one_mul, hval, ← h2, amp_some hp]
      · refine ⟨f.w⁻¹, ?_, Or.inl rfl, h1.congr (fun d => ?_)⟩
        · rintro (h1 | h1 | h1)
          · simp at h1
          · rw [h1, inv_one]
          · exact absurd h1 hw
        · rw [hval, ← mul_assoc, inv_mul_cancel₀ hw, one_mul]

/-- Columns (rows) with a one at the qubit are dropped. -/
def ancTau (regular : Bool) (i j : Fin 4) : Bool :=
  if regular then i == j && (i == 0 || i == 2) else i == j && (i == 0 || i == 1)

theorem ancStep_spec {P : PCfg R} (hC : 0 < P.C.growth) (mask : List Bool) (regular : Bool) :
    StepSpec P .m (fun i => mask.getD i false) (ancTau regular) (Pkg.ancStep P mask regular) := by
  refine StepSpec.mk' ?_ ?_ ?_
  · intro s l f hp
    unfold Pkg.ancStep; rw [hp]
  · intro s l f b hp hb hm
    unfold Pkg.ancStep; rw [hp]
    dsimp only at hm ⊢
    rw [hb, hm]; rfl
  · intro l s f b h hp hb hbl hl hm hw
    have hch := fun i => (h.tab .m).childAt hb hbl i
    unfold Pkg.ancStep
    rw [hp]
    dsimp only at hm ⊢
    rw [hbl, hm, if_pos rfl]
    cases regular with
    | true =>
      rw [if_pos rfl]
      split_ifs with ht
      · right
        refine (makeDDNode_spec (k := .m) hC false h hl noX ?_).congr ?_
        · intro i; fin_cases i
          · exact hch 0
          · exact valid_zeroE _ _
          · exact hch 2
          · exact valid_zeroE _ _
        · intro d
          change amp (s.ut .m) l _ _ = ∑ j : Fin 4, _
          rw [Fin.sum_univ_four]
          generalize d (Fin.last l) = i
          change Fin 4 at i
          fin_cases i <;> simp [ancTau]
      · left
        have h1 : (((s.ut .m).mem b).e 1).w = 0 := by by_contra hc; exact ht (Or.inl hc)
        have h3 : (((s.ut .m).mem b).e 3).w = 0 := by by_contra hc; exact ht (Or.inr hc)
        refine ⟨rfl, ?_⟩
        intro i d
        change _ = ∑ j : Fin 4, _
        rw [Fin.sum_univ_four]
        change Fin 4 at i
        fin_cases i <;> simp [ancTau, amp_w_zero h1, amp_w_zero h3]
    | false =>
      rw [if_neg (by simp)]
      split_ifs with ht
      · right
        refine (makeDDNode_spec (k := .m) hC false h hl noX ?_).congr ?_
        · intro i; fin_cases i
          · exact hch 0
          · exact hch 1
          · exact valid_zeroE _ _
          · exact valid_zeroE _ _
        · intro d
          change amp (s.ut .m) l _ _ = ∑ j : Fin 4, _
          rw [Fin.sum_univ_four]
          generalize d (Fin.last l) = i
          change Fin 4 at i
          fin_cases i <;> simp [ancTau]
      · left
        have h1 : (((s.ut .m).mem b).e 2).w = 0 := by by_contra hc; exact ht (Or.inl hc)
        have h3 : (((s.ut .m).mem b).e 3).w = 0 := by by_contra hc; exact ht (Or.inr hc)
        refine ⟨rfl, ?_⟩
        intro i d
        change _ = ∑ j : Fin 4, _
        rw [Fin.sum_univ_four]
        change Fin 4 at i
        fin_cases i <;> simp [ancTau, amp_w_zero h1, amp_w_zero h3]

theorem sumEdges_spec {P : PCfg R} (hC : 0 < P.C.growth) {k : Kind} {l : Nat} {s : Pkg R} {x y : PEdge R} (h : PWF P s ∅)
    (hx : Valid (s.ut k) l x) (hy : Valid (s.ut k) l y) :
    OpSpec P ∅ s k l (fun d => amp (s.ut k) l x d + amp (s.ut k) l y d) (Pkg.sumEdges P k s x y) := by
  unfold Pkg.sumEdges
  by_cases h1 : x.w = 0 ∧ y.w ≠ 0
  · rw [if_pos h1]
    exact .pure h hy (fun d => by rw [amp_w_zero h1.1, zero_add])
  · rw [if_neg h1]
    by_cases h2 : y.w ≠ 0
    · rw [if_pos h2]; exact add_spec hC h hx hy
    · rw [if_neg h2]
      push Not at h2
      exact .pure h hx (fun d => by rw [amp_w_zero h2, add_zero])

/-- The two entries of a vector that differ in the qubit are added. -/
def garbTauV (i _j : Fin 2) : Bool := i == 0

theorem garbStepV_spec {P : PCfg R} (hC : 0 < P.C.growth) (mask : List Bool) :
    StepSpec P .v (fun i => mask.getD i false) garbTauV (Pkg.garbStepV P mask) := by
  refine StepSpec.mk' ?_ ?_ ?_
  · intro s l f hp
    unfold Pkg.garbStepV; rw [hp]
  · intro s l f b hp hb hm
    unfold Pkg.garbStepV; rw [hp]
    dsimp only at hm ⊢
    rw [hb, hm]; rfl
  · intro l s f b h hp hb hbl hl hm hw
    have hch := fun i => (h.tab .v).childAt hb hbl i
    unfold Pkg.garbStepV
    rw [hp]
    dsimp only at hm ⊢
    rw [hbl, hm, if_pos rfl]
    split_ifs with ht
    · right
      have hg := sumEdges_spec hC h (hch 0) (hch 1)
      generalize Pkg.sumEdges P .v s _ _ = g at hg
      have hm := makeDDNode_spec (k := .v) (v := l) (es := ![g.2, zeroE]) hC false hg.wf
        (by rw [(hg.ext .v).nvars]; exact hl) noX (by
        intro i; fin_cases i
        · exact hg.valid
        · exact valid_zeroE _ _)
      refine ⟨hm.wf, hg.ext.trans hm.ext, hm.valid, fun d => ?_⟩
      rw [hm.val]
      change amp (g.1.ut .v) l _ _ = ∑ j : Fin 2, _
      rw [Fin.sum_univ_two]
      generalize d (Fin.last l) = i
      change Fin 2 at i
      fin_cases i
      · simp only [garbTauV, Fin.zero_eta, Matrix.cons_val_zero, hg.val]; simp
      · simp [garbTauV]
    · left
      push Not at ht
      refine ⟨rfl, ?_⟩
      intro i d
      change _ = ∑ j : Fin 2, _
      rw [Fin.sum_univ_two]
      change Fin 2 at i
      fin_cases i <;> simp [garbTauV, amp_w_zero ht]

/-- The two entries of a matrix that differ in the row (column) bit of the qubit are added. -/
def garbTauM (regular : Bool) (i j : Fin 4) : Bool :=
  if regular then (i == 0 && (j == 0 || j == 2)) || (i == 1 && (j == 1 || j == 3))
  else (i == 0 && (j == 0 || j == 1)) || (i == 2 && (j == 2 || j == 3))

theorem garbStepM_spec {P : PCfg R} (hC : 0 < P.C.growth) (mask : List Bool) (regular : Bool) :
    StepSpec P .m (fun i => mask.getD i false) (garbTauM regular) (Pkg.garbStepM P mask regular) := by
  refine StepSpec.mk' ?_ ?_ ?_
  · intro s l f hp
    unfold Pkg.garbStepM; rw [hp]
  · intro s l f b hp hb hm
    unfold Pkg.garbStepM; rw [hp]
    dsimp only at hm ⊢
    rw [hb, hm]; rfl
  · intro l s f b h hp hb hbl hl hm hw
    have hch := fun i => (h.tab .m).childAt hb hbl i
    unfold Pkg.garbStepM
    rw [hp]
    dsimp only at hm ⊢
    rw [hbl, hm, if_pos rfl]
    cases regular with
    | true =>
      rw [if_pos rfl]
      split_ifs with ht
      · right
        have hg := sumEdges_spec hC h (hch 0) (hch 2)
        generalize Pkg.sumEdges P .m s _ _ = g at hg
        have hh := sumEdges_spec hC hg.wf ((hch 1).mono (hg.ext.le .m)) ((hch 3).mono (hg.ext.le .m))
        generalize Pkg.sumEdges P .m g.1 _ _ = x at hh
        have hm := makeDDNode_spec (k := .m) (v := l) (es := ![g.2, x.2, zeroE, zeroE]) hC false hh.wf
          (by rw [(hh.ext .m).nvars, (hg.ext .m).nvars]; exact hl) noX (by
          intro i; fin_cases i
          · exact hg.valid.mono (hh.ext.le .m)
          · exact hh.valid
          · exact valid_zeroE _ _
          · exact valid_zeroE _ _)
        refine ⟨hm.wf, (hg.ext.trans hh.ext).trans hm.ext, hm.valid, fun d => ?_⟩
        rw [hm.val]
        change amp (x.1.ut .m) l _ _ = ∑ j : Fin 4, _
        rw [Fin.sum_univ_four]
        generalize d (Fin.last l) = i
        change Fin 4 at i
        fin_cases i
        · have h1 := amp_mono (hh.ext.le .m) (hg.wf.tab .m).child hg.valid (Fin.init d)
          simp only [Fin.zero_eta, Matrix.cons_val_zero, garbTauM]
          rw [h1, hg.val]; simp
        · have h1 := amp_mono (hg.ext.le .m) (h.tab .m).child (hch 1) (Fin.init d)
          have h3 := amp_mono (hg.ext.le .m) (h.tab .m).child (hch 3) (Fin.init d)
          change amp (x.1.ut .m) l x.2 (Fin.init d) = _
          rw [hh.val, h1, h3]; simp [garbTauM]
        · simp [garbTauM]
        · simp [garbTauM]
      · left
        have h1 : (((s.ut .m).mem b).e 2).w = 0 := by by_contra hc; exact ht (Or.inl hc)
        have h3 : (((s.ut .m).mem b).e 3).w = 0 := by by_contra hc; exact ht (Or.inr hc)
        refine ⟨rfl, ?_⟩
        intro i d
        change _ = ∑ j : Fin 4, _
        rw [Fin.sum_univ_four]
        change Fin 4 at i
        fin_cases i <;> simp [garbTauM, amp_w_zero h1, amp_w_zero h3]
    | false =>
      rw [if_neg (by simp)]
      split_ifs with ht
      · right
        have hg := sumEdges_spec hC h (hch 0) (hch 1)
        generalize Pkg.sumEdges P .m s _ _ = g at hg
        have hh := sumEdges_spec hC hg.wf ((hch 2).mono (hg.ext.le .m)) ((hch 3).mono (hg.ext.le .m))
        generalize Pkg.sumEdges P .m g.1 _ _ = x at hh
        have hm := makeDDNode_spec (k := .m) (v := l) (es := ![g.2, zeroE, x.2, zeroE]) hC false hh.wf
          (by rw [(hh.ext .m).nvars, (hg.ext .m).nvars]; exact hl) noX (by
          intro i; fin_cases i
          · exact hg.valid.mono (hh.ext.le .m)
          · exact valid_zeroE _ _
          · exact hh.valid
          · exact valid_zeroE _ _)
        refine ⟨hm.wf, (hg.ext.trans hh.ext).trans hm.ext, hm.valid, fun d => ?_⟩
        rw [hm.val]
        change amp (x.1.ut .m) l _ _ = ∑ j : Fin 4, _
        rw [Fin.sum_univ_four]
        generalize d (Fin.last l) = i
        change Fin 4 at i
        fin_cases i
        · have h1 := amp_mono (hh.ext.le .m) (hg.wf.tab .m).child hg.valid (Fin.init d)
          simp only [Fin.zero_eta, Matrix.cons_val_zero, garbTauM]
          rw [h1, hg.val]; simp
        · simp [garbTauM]
        · have h1 := amp_mono (hg.ext.le .m) (h.tab .m).child (hch 2) (Fin.init d)
          have h3 := amp_mono (hg.ext.le .m) (h.tab .m).child (hch 3) (Fin.init d)
          change amp (x.1.ut .m) l x.2 (Fin.init d) = _
          rw [hh.val, h1, h3]; simp [garbTauM]
        · simp [garbTauM]
      · left
        have h1 : (((s.ut .m).mem b).e 1).w = 0 := by by_contra hc; exact ht (Or.inl hc)
        have h3 : (((s.ut .m).mem b).e 3).w = 0 := by by_contra hc; exact ht (Or.inr hc)
        refine ⟨rfl, ?_⟩
        intro i d
        change _ = ∑ j : Fin 4, _
        rw [Fin.sum_univ_four]
        change Fin 4 at i
        fin_cases i <;> simp [garbTauM, amp_w_zero h1, amp_w_zero h3]

/-! ## The recursive functions -/

section recursion
variable {P : PCfg R} {k : Kind} {mk : Nat → Bool} {τ : Fin (ar k) → Fin (ar k) → Bool}
  {step : Pkg R → Nat → PEdge R → Pkg R × PEdge R}

/-- The last lines of the recursive functions keep diagrams valid. -/
theorem clamp_spec {clamp : Bool} {s s' : Pkg R} {l : Nat} {g : PEdge R} {F : (Fin l → Fin (ar k)) → Cx R}
    (h : OpSpec P ∅ s k l F (s', g)) {w : Cx R} (hw : w ≠ 0) :
    ∃ c : Cx R, (clamp = false ∨ (g.w * w).mag2 ≤ 1 → c = w) ∧ OpSpec P ∅ s k l (fun d => c * F d)
      (s', ⟨g.p, if clamp && decide (1 < (g.w * w).mag2) then 1 else g.w * w⟩) := by
  have hv : Valid (s'.ut k) l g := h.valid
  have hval : ∀ d, amp (s'.ut k) l g d = F d := h.val
  by_cases hc : (clamp && decide (1 < (g.w * w).mag2)) = true
  · rw [if_pos hc]
    simp only [Bool.and_eq_true, decide_eq_true_eq] at hc
    have hg : g.w ≠ 0 := by
      intro h0
      rw [h0, zero_mul] at hc
      have : (0 : Cx R).mag2 = 0 := by simp [Cx.mag2]
      rw [this] at hc
      exact absurd hc.2 (not_lt.2 zero_le_one)
    refine ⟨g.w⁻¹, ?_, h.wf, h.ext, hv.reweight hg one_ne_zero, fun d => ?_⟩
    · rintro (h1 | h1)
      · rw [h1] at hc; simp at hc
      · exact absurd hc.2 (not_lt.2 h1)
    · rw [← hval d]
      change amp (s'.ut k) l ⟨g.p, 1⟩ d = _
      rw [amp_eq_smul (s'.ut k) l g, ← mul_assoc, inv_mul_cancel₀ hg, one_mul]
  · rw [if_neg hc]
    refine ⟨w, fun _ => rfl, h.wf, h.ext, ?_, fun d => ?_⟩
    · change Valid (s'.ut k) l ⟨g.p, g.w * w⟩
      rw [mul_comm]; exact hv.scale hw
    · change amp (s'.ut k) l ⟨g.p, g.w * w⟩ d = _
      rw [mul_comm, amp_smul]
      change w * amp (s'.ut k) l g d = _
      rw [hval]

/-- A reduction always gives a valid diagram. -/
theorem reduceF_valid (hC : 0 < P.C.growth) (hstep : StepSpec P k mk τ step) (clamp : Bool) (lb : Nat) : ∀ (l : Nat) (s : Pkg R)
    (e : PEdge R), PWF P s ∅ → Valid (s.ut k) l e → ∃ f, OpSpec P ∅ s k l f (Pkg.reduceF P k clamp step lb l s e) := by
  intro l
  induction l with
  | zero => intro s e h hv; exact ⟨_, .pure h hv (fun _ => rfl)⟩
  | succ l ih =>
    intro s e h hv
    unfold Pkg.reduceF
    cases hp : e.p with
    | none => exact ⟨_, .pure h hv (fun _ => rfl)⟩
    | some a =>
      dsimp only
      obtain ⟨ha, hl, hw⟩ := (valid_some hp).1 hv
      have hl : ((s.ut k).mem a).v = l := by omega
      have hnv : l < (s.ut k).nvars := by rw [← hl]; exact ((h.tab k).uwf.mem_bucket ha).1
      rw [hl]
      by_cases hlb : l < lb
      · rw [if_pos hlb]; exact ⟨_, .pure h hv (fun _ => rfl)⟩
      · rw [if_neg hlb]
        have hch := fun i => (h.tab k).childAt ha hl i
        obtain ⟨q1, q2, q3⟩ := redLoop_spec (V := fun _ _ => True) h hch (rec := Pkg.reduceF P k clamp step lb l) (by
          intro i s' hs' he
          obtain ⟨f, hf⟩ := ih s' _ hs' ((hch i).mono (he.le k))
          exact ⟨f, trivial, hf⟩)
        generalize Pkg.redLoop (Pkg.reduceF P k clamp step lb l) s _ = q at q1 q2 q3 ⊢
        have hm := makeDDNode_spec hC false q1 (by rw [(q2 k).nvars]; exact hnv) noX (fun i => (q3 i).1)
        generalize Pkg.makeDDNode P k q.1 l q.2 false = f at hm ⊢
        obtain ⟨c, _, _, hs⟩ := hstep l f.1 f.2 hm.wf hm.valid (by rw [(hm.ext k).nvars, (q2 k).nvars]; exact hnv)
        generalize step f.1 l f.2 = g at hs ⊢
        obtain ⟨c', _, hc⟩ := clamp_spec (clamp := clamp) hs hw
        exact ⟨_, hc.wf, (q2.trans hm.ext).trans hc.ext, hc.valid, hc.val⟩

/-- What has to be known of a class `G` of diagrams (given by weight and values) for a reduction to be exact on it. -/
structure RedOK (P : PCfg R) (k : Kind) (clamp : Bool) (mk : Nat → Bool) (τ : Fin (ar k) → Fin (ar k) → Bool) (lb : Nat)
    (G : (l : Nat) → Cx R → ((Fin l → Fin (ar k)) → Cx R) → Prop) : Prop where
  low : ∀ i, i < lb → mk i = false
  child : ∀ {t : UTable (Cx R) (ar k)} {l : Nat} {e : PEdge R} {a : Nat}, DDWF (P.uH k) t → Valid t (l + 1) e → e.p = some a →
    lb ≤ l → G (l + 1) e.w (amp t (l + 1) e) → ∀ i, G l ((t.mem a).e i).w (amp t l ((t.mem a).e i))
  share : ∀ {t : UTable (Cx R) (ar k)} {l : Nat} {e : PEdge R} {a : Nat}, DDWF (P.uH k) t → Valid t (l + 1) e → e.p = some a →
    lb ≤ l → G (l + 1) e.w (amp t (l + 1) e) → ∀ i j, ((t.mem a).e i).p = ((t.mem a).e j).p → ((t.mem a).e i).p ≠ none →
      ((t.mem a).e i).w = ((t.mem a).e j).w
  first : ∀ {t t' : UTable (Cx R) (ar k)} {l : Nat} {e x : PEdge R} {a : Nat}, DDWF (P.uH k) t → Valid t (l + 1) e →
    e.p = some a → lb ≤ l → G (l + 1) e.w (amp t (l + 1) e) → mk l = true → DDWF (P.uH k) t' → Le t t' → Valid t' (l + 1) x →
    (∀ d i, amp t' (l + 1) x (Fin.snoc (α := fun _ => Fin (ar k)) d i) = redSum mk τ l (amp t l ((t.mem a).e i)) d) →
      x.w = 1 ∨ x.w = 0
  bound : ∀ {t t' : UTable (Cx R) (ar k)} {l : Nat} {e x : PEdge R}, clamp = true → DDWF (P.uH k) t → Valid t (l + 1) e →
    lb ≤ l → G (l + 1) e.w (amp t (l + 1) e) → DDWF (P.uH k) t' → Valid t' (l + 1) x →
    (∀ d, amp t' (l + 1) x d = redSum mk τ (l + 1) (amp t (l + 1) e) d) → x.w.mag2 ≤ 1

theorem reduceF_exact (hC : 0 < P.C.growth) (hstep : StepSpec P k mk τ step) {clamp : Bool} {lb : Nat}
    {G : (l : Nat) → Cx R → ((Fin l → Fin (ar k)) → Cx R) → Prop} (hG : RedOK P k clamp mk τ lb G) : ∀ (l : Nat) (s : Pkg R)
    (e : PEdge R), PWF P s ∅ → Valid (s.ut k) l e → G l e.w (amp (s.ut k) l e) →
    OpSpec P ∅ s k l (redSum mk τ l (amp (s.ut k) l e)) (Pkg.reduceF P k clamp step lb l s e) := by
  intro l
  induction l with
  | zero => intro s e h hv _; exact .pure h hv (fun d => (redSum_zero _ d).symm)
  | succ l ih =>
    intro s e h hv hg
    unfold Pkg.reduceF
    cases hp : e.p with
    | none =>
      have hw : e.w = 0 := ((valid_none hp).1 hv).resolve_left (by omega)
      exact .pure h hv (fun d => by rw [amp_w_zero hw, redSum_of_zero (fun d => amp_w_zero hw d)])
    | some a =>
      dsimp only
      obtain ⟨ha, hl, hw⟩ := (valid_some hp).1 hv
      have hl : ((s.ut k).mem a).v = l := by omega
      have hnv : l < (s.ut k).nvars := by rw [← hl]; exact ((h.tab k).uwf.mem_bucket ha).1
      rw [hl]
      by_cases hlb : l < lb
      · rw [if_pos hlb]; exact .pure h hv (fun d => (redSum_none (fun i hi => hG.low i (by omega)) _ d).symm)
      · rw [if_neg hlb]
        have hlb : lb ≤ l := by omega
        have hch := fun i => (h.tab k).childAt ha hl i
        obtain ⟨q1, q2, q3⟩ := redLoop_spec (V := fun x f => ∀ i, x = ((s.ut k).mem a).e i →
            ∀ d, f d = redSum mk τ l (amp (s.ut k) l (((s.ut k).mem a).e i)) d) h hch
          (rec := Pkg.reduceF P k clamp step lb l) (by
          intro i s' hs' he
          have hamp : amp (s'.ut k) l (((s.ut k).mem a).e i) = amp (s.ut k) l (((s.ut k).mem a).e i) :=
            funext (amp_mono (he.le k) (h.tab k).child (hch i))
          have := ih s' (((s.ut k).mem a).e i) hs' ((hch i).mono (he.le k))
            (by rw [hamp]; exact hG.child (h.tab k) hv hp hlb hg i)
          rw [hamp] at this
          exact ⟨_, fun j hj d => by rw [← hj], this⟩)
        generalize Pkg.redLoop (Pkg.reduceF P k clamp step lb l) s _ = q at q1 q2 q3 ⊢
        have hq : ∀ i d, amp (q.1.ut k) l (q.2 i) d = redSum mk τ l (amp (s.ut k) l (((s.ut k).mem a).e i)) d := by
          intro i d
          rcases (q3 i).2 with ⟨h1, h2⟩ | ⟨j, h1, h2, h3⟩
          · rw [h2]
            rcases Nat.eq_zero_or_pos l with rfl | hpos
            · rw [redSum_zero]; rfl
            · have hw0 := ((valid_none h1).1 (hch i)).resolve_left (by omega)
              rw [amp_w_zero hw0, redSum_of_zero (fun d => amp_w_zero hw0 d)]
          · refine h3 i ?_ d
            have := hG.share (h.tab k) hv hp hlb hg j i h1 (by rw [h1]; exact h2)
            generalize ((s.ut k).mem a).e j = x at this h1
            generalize ((s.ut k).mem a).e i = y at this h1
            cases x; cases y; simp_all
        have hm := makeDDNode_spec hC false q1 (by rw [(q2 k).nvars]; exact hnv) noX (fun i => (q3 i).1)
        generalize Pkg.makeDDNode P k q.1 l q.2 false = f at hm ⊢
        have hf : ∀ d i, amp (f.1.ut k) (l + 1) f.2 (Fin.snoc (α := fun _ => Fin (ar k)) d i) =
            redSum mk τ l (amp (s.ut k) l (((s.ut k).mem a).e i)) d := by
          intro d i
          rw [hm.val, Fin.snoc_last, Fin.init_snoc]
          exact hq i d
        obtain ⟨c, hc1, _, hs⟩ := hstep l f.1 f.2 hm.wf hm.valid (by rw [(hm.ext k).nvars, (q2 k).nvars]; exact hnv)
        -- the values are right, up to the factor
        have hred : ∀ d i, (∑ j, if hit1 mk τ l i j then
            amp (f.1.ut k) (l + 1) f.2 (Fin.snoc (α := fun _ => Fin (ar k)) d j) else 0) * e.w =
            redSum mk τ (l + 1) (amp (s.ut k) (l + 1) e) (Fin.snoc (α := fun _ => Fin (ar k)) d i) := by
          intro d i
          rw [redSum_snoc, Finset.sum_mul]
          refine Finset.sum_congr rfl fun j _ => ?_
          split_ifs with hh
          · rw [hf, mul_comm, ← redSum_smul]
            exact redSum_congr (fun d => (amp_snoc hp d j).symm) d
          · rw [zero_mul]
        have hc : c = 1 := by
          apply hc1
          by_cases hmk : mk l = true
          · exact Or.inr (hG.first (h.tab k) hv hp hlb hg hmk (hm.wf.tab k) ((q2.trans hm.ext).le k) hm.valid hf)
          · exact Or.inl (by simpa using hmk)
        subst hc
        generalize step f.1 l f.2 = g at hs ⊢
        obtain ⟨c', hc', ho⟩ := clamp_spec (clamp := clamp) hs hw
        have hcw : c' = e.w := by
          apply hc'
          cases hcl : clamp with
          | false => exact Or.inl rfl
          | true =>
            right
            refine hG.bound (t := s.ut k) (t' := g.1.ut k) (l := l) (x := ⟨g.2.p, g.2.w * e.w⟩) hcl (h.tab k) hv hlb hg
              (hs.wf.tab k) (by rw [mul_comm]; exact hs.valid.scale hw) ?_
            rw [forall_snoc]
            intro d i
            rw [← hred, mul_comm g.2.w, amp_smul]
            change e.w * amp (g.1.ut k) (l + 1) g.2 _ = _
            rw [hs.val, one_mul, Fin.snoc_last, Fin.init_snoc, mul_comm]
        subst hcw
        refine ⟨ho.wf, (q2.trans hm.ext).trans ho.ext, ho.valid, ?_⟩
        rw [forall_snoc]
        intro d i
        rw [ho.val, one_mul, Fin.snoc_last, Fin.init_snoc, mul_comm, hred]

end recursion

/-! ## Diagrams with entries 0 and c -/

section flat
variable {k : Kind}

/-- At most one entry is different from zero. -/
def AtMost1 {l n : Nat} (F : (Fin l → Fin n) → Cx R) : Prop := ∀ d d', F d ≠ 0 → F d' ≠ 0 → d = d'

omit [HasSqrt R] [LawfulSqrt R] in
/-- If all entries of a matrix are zero or `c`, then the weight of the edge is zero or `c`; for vectors only if at most one
entry is different from zero. -/
theorem root_w {H : (Fin (ar k) → PEdge R) → Nat} {t : UTable (Cx R) (ar k)} (h : DDWF H t) : ∀ {l : Nat} {e : PEdge R} {c : Cx R},
    Valid t l e → (∀ d, amp t l e d = 0 ∨ amp t l e d = c) → (k = .v → AtMost1 (amp t l e)) → e.w = 0 ∨ e.w = c := by
  intro l
  induction l with
  | zero => intro e c hv hF _; exact hF Fin.elim0
  | succ l ih =>
    intro e c hv hF h1
    by_cases hw : e.w = 0
    · exact Or.inl hw
    · right
      obtain ⟨a, hp, ha, hl⟩ := hv.exists_node hw
      have hch := fun i => h.childAt ha hl i
      have hone : ∃ j, ((t.mem a).e j).w = 1 := by
        have hn := h.norm a ha
        cases k with
        | m => obtain ⟨j, hj, _⟩ := hn; exact ⟨j, hj⟩
        | v =>
          rcases hn with hn | hn | ⟨n0, n1, _⟩
          · exact ⟨1, hn.2⟩
          · exact ⟨0, hn.1⟩
          · obtain ⟨d0, hd0⟩ := h.exists_ne (hch 0) n0
            obtain ⟨d1, hd1⟩ := h.exists_ne (hch 1) n1
            have := h1 rfl (Fin.snoc (α := fun _ => Fin (ar .v)) d0 0) (Fin.snoc (α := fun _ => Fin (ar .v)) d1 1)
              (by rw [amp_snoc hp]; exact mul_ne_zero hw hd0) (by rw [amp_snoc hp]; exact mul_ne_zero hw hd1)
            exact absurd (snoc_inj.1 this).2 (by decide)
      obtain ⟨j, hj⟩ := hone
      have := ih (c := c / e.w) (hch j) (fun d => by
        have := hF (Fin.snoc (α := fun _ => Fin (ar k)) d j)
        rw [amp_snoc hp] at this
        rcases this with h0 | h0
        · exact Or.inl ((mul_eq_zero.1 h0).resolve_left hw)
        · right; rw [eq_div_iff hw, mul_comm]; exact h0) (fun hk d d' hd hd' => by
        have := h1 hk (Fin.snoc (α := fun _ => Fin (ar k)) d j) (Fin.snoc (α := fun _ => Fin (ar k)) d' j)
          (by rw [amp_snoc hp]; exact mul_ne_zero hw hd) (by rw [amp_snoc hp]; exact mul_ne_zero hw hd')
        exact (snoc_inj.1 this).1)
      rw [hj] at this
      have := this.resolve_left one_ne_zero
      rw [eq_div_iff hw, one_mul] at this
      exact this

variable {n : Nat} {mk : Nat → Bool} {τ : Fin n → Fin n → Bool}

/-- No two entries that are different from zero are added. -/
def NoSum (mk : Nat → Bool) (τ : Fin n → Fin n → Bool) {l : Nat} (F : (Fin l → Fin n) → Cx R) : Prop :=
  ∀ d d' d'', Hit mk τ d d' → Hit mk τ d d'' → F d' ≠ 0 → F d'' ≠ 0 → d' = d''

/-- Properties of the three reductions. -/
structure TauOK (τ : Fin n → Fin n → Bool) : Prop where
  inj : ∀ i i' j, τ i j = true → τ i' j = true → i = i'
  all : (∀ i j, τ i j = true → i = j) ∨ ∀ j, ∃ i, τ i j = true

omit [HasSqrt R] [LawfulSqrt R] in
theorem NoSum.redSum {l : Nat} {F : (Fin l → Fin n) → Cx R} (h : NoSum mk τ F) (d : Fin l → Fin n) :
    redSum mk τ l F d = 0 ∨ ∃ d', Hit mk τ d d' ∧ F d' ≠ 0 ∧ DD.redSum mk τ l F d = F d' := by
  by_cases hd : ∃ d', Hit mk τ d d' ∧ F d' ≠ 0
  · obtain ⟨d', h1, h2⟩ := hd
    refine Or.inr ⟨d', h1, h2, ?_⟩
    unfold DD.redSum
    rw [Finset.sum_eq_single d', if_pos h1]
    · intro b _ hb
      split_ifs with hh
      · by_contra hc; exact hb (h d b d' hh h1 hc h2)
      · rfl
    · intro hn; exact absurd (Finset.mem_univ _) hn
  · left
    unfold DD.redSum
    refine Finset.sum_eq_zero fun d' _ => ?_
    split_ifs with hh
    · by_contra hc; exact hd ⟨d', hh, hc⟩
    · rfl

theorem Hit.inj (ht : TauOK τ) {l : Nat} {d d' d'' : Fin l → Fin n} (h : Hit mk τ d d'') (h' : Hit mk τ d' d'') : d = d' := by
  funext i
  have h1 := h i
  have h2 := h' i
  split_ifs at h1 h2 with hm
  · exact ht.inj _ _ _ h1 h2
  · exact h1.symm.trans h2

omit [HasSqrt R] [LawfulSqrt R] in
theorem NoSum.block (ht : TauOK τ) {l : Nat} {F : (Fin (l + 1) → Fin n) → Cx R} (h : NoSum mk τ F) {w : Cx R} {G : (Fin l → Fin n) → Cx R}
    {i : Fin n} (hF : ∀ d, F (Fin.snoc (α := fun _ => Fin n) d i) = w * G d) (hw : F = F → w ≠ 0) : NoSum mk τ G := by
  have hw := hw rfl
  by_cases hdiag : ∀ i j, τ i j = true → i = j
  · intro d d' d'' h1 h2 _ _
    funext x
    have h1 := h1 x
    have h2 := h2 x
    split_ifs at h1 h2
    · exact (hdiag _ _ h1).symm.trans (hdiag _ _ h2)
    · exact h1.trans h2.symm
  · have hall := ht.all.resolve_left hdiag
    obtain ⟨i0, hi0⟩ : ∃ i0, hit1 mk τ l i0 i := by
      unfold hit1
      cases mk l with
      | true => exact hall i
      | false => exact ⟨i, rfl⟩
    intro d d' d'' h1 h2 h3 h4
    have := h (Fin.snoc (α := fun _ => Fin n) d i0) (Fin.snoc (α := fun _ => Fin n) d' i) (Fin.snoc (α := fun _ => Fin n) d'' i)
      ((hit_snoc _ _ _ _).2 ⟨h1, hi0⟩) ((hit_snoc _ _ _ _).2 ⟨h2, hi0⟩) (by rw [hF]; exact mul_ne_zero hw h3)
      (by rw [hF]; exact mul_ne_zero hw h4)
    exact (snoc_inj.1 this).1

omit [HasSqrt R] [LawfulSqrt R] in
theorem AtMost1.redSum (ht : TauOK τ) {l : Nat} {F : (Fin l → Fin n) → Cx R} (h : AtMost1 F) (hn : NoSum mk τ F) :
    AtMost1 (redSum mk τ l F) := by
  intro d d' hd hd'
  obtain ⟨x, h1, h2, _⟩ := (hn.redSum d).resolve_left hd
  obtain ⟨y, h3, h4, _⟩ := (hn.redSum d').resolve_left hd'
  have := h x y h2 h4
  subst this
  exact h1.inj ht h3

end flat

/-- The class of diagrams whose entries are zero or `c`. -/
def FlatG (k : Kind) (clamp : Bool) (mk : Nat → Bool) (τ : Fin (ar k) → Fin (ar k) → Bool) (l : Nat) (w : Cx R)
    (F : (Fin l → Fin (ar k)) → Cx R) : Prop :=
  (∀ d, F d = 0 ∨ F d = w) ∧ NoSum mk τ F ∧ (k = .v → AtMost1 F) ∧ (clamp = true → w.mag2 ≤ 1)

omit [HasSqrt R] [LawfulSqrt R] in
theorem FlatG.children {k : Kind} {clamp : Bool} {mk : Nat → Bool} {τ : Fin (ar k) → Fin (ar k) → Bool} (ht : TauOK τ)
    {H : (Fin (ar k) → PEdge R) → Nat} {t : UTable (Cx R) (ar k)} {l a : Nat} {e : PEdge R} (h : DDWF H t) (hv : Valid t (l + 1) e) (hp : e.p = some a)
    (hg : FlatG k clamp mk τ (l + 1) e.w (amp t (l + 1) e)) (i : Fin (ar k)) :
    (∀ d, amp t l ((t.mem a).e i) d = 0 ∨ amp t l ((t.mem a).e i) d = 1) ∧
    (((t.mem a).e i).w = 0 ∨ ((t.mem a).e i).w = 1) ∧ FlatG k clamp mk τ l ((t.mem a).e i).w (amp t l ((t.mem a).e i)) := by
  obtain ⟨ha, hl, hw⟩ := (valid_some hp).1 hv
  have hl : (t.mem a).v = l := by omega
  obtain ⟨g1, g2, g3, g4⟩ := hg
  have hF : ∀ d, amp t l ((t.mem a).e i) d = 0 ∨ amp t l ((t.mem a).e i) d = 1 := by
    intro d
    have := g1 (Fin.snoc (α := fun _ => Fin (ar k)) d i)
    rw [amp_snoc hp] at this
    rcases this with h0 | h0
    · exact Or.inl ((mul_eq_zero.1 h0).resolve_left hw)
    · exact Or.inr (mul_left_cancel₀ hw (by rw [h0, mul_one]))
  have h1 : k = .v → AtMost1 (amp t l ((t.mem a).e i)) := by
    intro hk d d' hd hd'
    have := g3 hk (Fin.snoc (α := fun _ => Fin (ar k)) d i) (Fin.snoc (α := fun _ => Fin (ar k)) d' i)
      (by rw [amp_snoc hp]; exact mul_ne_zero hw hd) (by rw [amp_snoc hp]; exact mul_ne_zero hw hd')
    exact (snoc_inj.1 this).1
  have hwi := root_w h (h.childAt ha hl i) hF h1
  refine ⟨hF, hwi, ?_, ?_, h1, ?_⟩
  · intro d
    rcases hwi with h0 | h0
    · exact Or.inl (amp_w_zero h0 d)
    · rw [h0]; exact hF d
  · exact g2.block ht (fun d => amp_snoc hp d i) (fun _ => hw)
  · intro _
    rcases hwi with h0 | h0 <;> rw [h0] <;> simp [Cx.mag2]

omit [HasSqrt R] [LawfulSqrt R] in
theorem flat_ok {P : PCfg R} {k : Kind} (clamp : Bool) {mk : Nat → Bool} {τ : Fin (ar k) → Fin (ar k) → Bool} (ht : TauOK τ)
    {lb : Nat} (hlb : ∀ i, i < lb → mk i = false) : RedOK P k clamp mk τ lb (FlatG k clamp mk τ) where
  low := hlb
  child := fun h hv hp _ hg i => (hg.children ht h hv hp i).2.2
  share := by
    intro t l e a h hv hp _ hg i j hij hne
    obtain ⟨ha, hl, hw⟩ := (valid_some hp).1 hv
    have hl : (t.mem a).v = l := by omega
    have key : ∀ i, ((t.mem a).e i).p ≠ none → ((t.mem a).e i).w = 1 := by
      intro i hi
      refine (hg.children ht h hv hp i).2.1.resolve_left ?_
      intro h0
      exact hi ((h.childAt ha hl i).p_none h0)
    rw [key i hne, key j (by rw [← hij]; exact hne)]
  first := by
    intro t t' l e x a h hv hp _ hg _ h' _ hx hval
    have hch := fun i => hg.children ht h hv hp i
    obtain ⟨ha, hl, hw⟩ := (valid_some hp).1 hv
    refine (root_w h' hx ?_ ?_).symm
    · rw [forall_snoc]
      intro d i
      rw [hval]
      rcases (hch i).2.2.2.1.redSum d with h0 | ⟨d', _, h1, h2⟩
      · exact Or.inl h0
      · rw [h2]; exact (hch i).1 d'
    · intro hk
      have key : ∀ d i, amp t' (l + 1) x (Fin.snoc (α := fun _ => Fin (ar k)) d i) ≠ 0 →
          ∃ d', Hit mk τ d d' ∧ amp t (l + 1) e (Fin.snoc (α := fun _ => Fin (ar k)) d' i) ≠ 0 := by
        intro d i hne
        rw [hval] at hne
        obtain ⟨d', h1, h2, _⟩ := ((hch i).2.2.2.1.redSum d).resolve_left hne
        exact ⟨d', h1, by rw [amp_snoc hp]; exact mul_ne_zero hw h2⟩
      have main : ∀ d i d' i', amp t' (l + 1) x (Fin.snoc (α := fun _ => Fin (ar k)) d i) ≠ 0 →
          amp t' (l + 1) x (Fin.snoc (α := fun _ => Fin (ar k)) d' i') ≠ 0 → d = d' ∧ i = i' := by
        intro d i d' i' h1 h2
        obtain ⟨y, y1, y2⟩ := key d i h1
        obtain ⟨z, z1, z2⟩ := key d' i' h2
        obtain ⟨e1, e2⟩ := snoc_inj.1 (hg.2.2.1 hk _ _ y2 z2)
        subst e1
        exact ⟨y1.inj ht z1, e2⟩
      intro D D' h1 h2
      rw [← Fin.snoc_init_self (α := fun _ => Fin (ar k)) D] at h1 ⊢
      rw [← Fin.snoc_init_self (α := fun _ => Fin (ar k)) D'] at h2 ⊢
      exact snoc_inj.2 (main _ _ _ _ h1 h2)
  bound := by
    intro t t' l e x hcl h hv _ hg h' hx hval
    obtain ⟨g1, g2, g3, g4⟩ := hg
    have := root_w (c := e.w) h' hx (fun d => by
      rw [hval]
      rcases g2.redSum d with h0 | ⟨d', _, h1, h2⟩
      · exact Or.inl h0
      · rw [h2]; exact g1 d') (fun hk => by
      rw [funext hval]; exact (g3 hk).redSum ht g2)
    rcases this with h0 | h0
    · rw [h0]; simp [Cx.mag2]
    · rw [h0]; exact g4 hcl

theorem anc_tau (regular : Bool) : TauOK (ancTau regular) := by
  cases regular <;> exact ⟨by decide, by decide⟩
theorem garb_tauM (regular : Bool) : TauOK (garbTauM regular) := by
  cases regular <;> exact ⟨by decide, by decide⟩
theorem garb_tauV : TauOK garbTauV := ⟨by decide, by decide⟩

/-! ## A single ancilla -/

/-- No two blocks of the matrix that are quadrants of the same larger block are different multiples of each other, for
blocks of at least two rows and down to quadrants on the qubits below `lb`. -/
def NoMult {n : Nat} (lb : Nat) : (l : Nat) → ((Fin l → Fin n) → Cx R) → Prop
  | 0, _ => True
  | l + 1, F => l < lb ∨ ((∀ i, NoMult lb l (fun d => F (Fin.snoc (α := fun _ => Fin n) d i))) ∧
    (0 < l → ∀ i j (c : Cx R), c ≠ 0 → (∀ d, F (Fin.snoc (α := fun _ => Fin n) d i) = c * F (Fin.snoc (α := fun _ => Fin n) d j)) →
      ∀ d, F (Fin.snoc (α := fun _ => Fin n) d i) = F (Fin.snoc (α := fun _ => Fin n) d j)))

omit [HasSqrt R] [LawfulSqrt R] in
theorem NoMult.scale {n lb : Nat} : ∀ {l : Nat} {F : (Fin l → Fin n) → Cx R} {c : Cx R}, c ≠ 0 →
    NoMult lb l (fun d => c * F d) → NoMult lb l F := by
  intro l
  induction l with
  | zero => intro F c _ _; trivial
  | succ l ih =>
    intro F c hc h
    rcases h with h | ⟨h1, h2⟩
    · exact Or.inl h
    · refine Or.inr ⟨fun i => ih hc (h1 i), fun hl i j c' hc' he d => ?_⟩
      have := h2 hl i j c' hc' (fun d => by dsimp only; rw [he]; ring) d
      exact mul_left_cancel₀ hc this

omit [HasSqrt R] [LawfulSqrt R] in
theorem single_ok {P : PCfg R} {k : Kind} {mk : Nat → Bool} {τ : Fin (ar k) → Fin (ar k) → Bool} {lb : Nat}
    (hlb : ∀ i, mk i = true → i = lb) : RedOK P k false mk τ lb (fun l _ F => NoMult lb l F) where
  low := fun i hi => by
    cases h : mk i with
    | false => rfl
    | true => exact absurd (hlb i h) (by omega)
  child := by
    intro t l e a h hv hp hl hg i
    obtain ⟨_, _, hw⟩ := (valid_some hp).1 hv
    rcases hg with hg | hg
    · omega
    · have := hg.1 i
      simp only [amp_snoc hp] at this
      exact this.scale hw
  share := by
    intro t l e a h hv hp hl hg i j hij hne
    obtain ⟨ha, hal, hw⟩ := (valid_some hp).1 hv
    have hal : (t.mem a).v = l := by omega
    have hch := fun i => h.childAt ha hal i
    rcases hg with hg | hg
    · omega
    · have hl0 : 0 < l := by
        rcases Nat.eq_zero_or_pos l with rfl | h0
        · exact absurd (hch i).term hne
        · exact h0
      have hne' : ((t.mem a).e j).p ≠ none := by rw [← hij]; exact hne
      have hwi : ((t.mem a).e i).w ≠ 0 := fun h0 => hne ((hch i).p_none h0)
      have hwj : ((t.mem a).e j).w ≠ 0 := fun h0 => hne' ((hch j).p_none h0)
      have := hg.2 hl0 i j (((t.mem a).e i).w / ((t.mem a).e j).w) (div_ne_zero hwi hwj) (fun d => by
        rw [amp_snoc hp, amp_snoc hp, amp_eq_smul _ _ ((t.mem a).e i), amp_eq_smul _ _ ((t.mem a).e j), hij]
        field_simp)
      have : (t.mem a).e i = (t.mem a).e j := h.canonical (hch i) (hch j) (fun d => by
        have := this d
        rw [amp_snoc hp, amp_snoc hp] at this
        exact mul_left_cancel₀ hw this)
      rw [this]
  first := by
    intro t t' l e x a h hv hp hl hg hm h' hle hx hval
    left
    obtain ⟨ha, hal, hw⟩ := (valid_some hp).1 hv
    have hll := hlb l hm
    have hva : Valid t (l + 1) ⟨some a, 1⟩ := ⟨ha, hal, one_ne_zero⟩
    have : x = ⟨some a, 1⟩ := by
      refine h'.canonical hx (hva.mono hle) ?_
      rw [forall_snoc]
      intro d i
      rw [hval, amp_mono hle h.child hva, amp_snoc rfl, one_mul]
      refine redSum_none (fun i hi => ?_) _ d
      cases hmi : mk i with
      | false => rfl
      | true => exact absurd (hlb i hmi) (by omega)
    rw [this]
  bound := fun h => by simp at h

/-! ## Where the recursion goes wrong -/

omit [LinearOrder R] [IsStrictOrderedRing R] [HasSqrt R] [LawfulSqrt R] in
/-- Successors with the same node get the same result. -/
theorem redLoop_copies {n : Nat} {rec : Pkg R → PEdge R → Pkg R × PEdge R} {s : Pkg R} {es : Fin n → PEdge R} {i j : Fin n}
    (hij : (es i).p = (es j).p) (hne : (es i).p ≠ none) : (Pkg.redLoop rec s es).2 i = (Pkg.redLoop rec s es).2 j := by
  have main : ∀ (L : List (Fin n)) (st : Pkg R × (Fin n → Option (PEdge R))), L.Pairwise (· < ·) →
      (∀ j, j ∉ L → (st.2 j).isSome) →
      (∀ i j, (es i).p = (es j).p → (es i).p ≠ none → (st.2 i).isSome → st.2 i = st.2 j) →
      ∀ i j, (es i).p = (es j).p → (es i).p ≠ none →
        (L.foldl (Pkg.redStep rec es) st).2 i = (L.foldl (Pkg.redStep rec es) st).2 j := by
    intro L
    induction L with
    | nil => intro st _ h1 h2 i j hij hne; exact h2 i j hij hne (h1 i (by simp))
    | cons x L ih =>
      intro st hL h1 h2
      rw [List.foldl_cons]
      obtain ⟨hx, hL⟩ := List.pairwise_cons.1 hL
      refine ih _ hL ?_ ?_
      · intro j hj
        unfold Pkg.redStep
        by_cases hsx : (st.2 x).isSome
        · rw [if_pos hsx]
          by_cases hjx : j = x
          · rw [hjx]; exact hsx
          · exact h1 j (by simp [hjx, hj])
        · rw [if_neg hsx]
          cases hp : (es x).p with
          | none =>
            dsimp only
            by_cases hjx : j = x
            · rw [hjx]; simp
            · rw [Function.update_of_ne hjx]; exact h1 j (by simp [hjx, hj])
          | some b =>
            dsimp only
            split_ifs with hc
            · rfl
            · exact h1 j (by simp [hj]; exact fun e => hc (Or.inl e))
      · intro i j hij hne
        unfold Pkg.redStep
        by_cases hsx : (st.2 x).isSome
        · rw [if_pos hsx]; exact h2 i j hij hne
        · rw [if_neg hsx]
          -- earlier successors are handled and have another node
          have hlt : ∀ y, (es y).p = (es x).p → (es x).p ≠ none → y = x ∨ x < y := by
            intro y hy hn
            by_contra hc
            push Not at hc
            have hyx : y < x := lt_of_le_of_ne hc.2 hc.1
            have hys := h1 y (by
              intro hm
              rcases List.mem_cons.1 hm with e | hm
              · exact hc.1 e
              · exact absurd (hx y hm) (not_lt.2 hyx.le))
            apply hsx
            rw [← h2 y x hy (by rw [hy]; exact hn) hys]; exact hys
          cases hp : (es x).p with
          | none =>
            dsimp only
            have hix : i ≠ x := fun e => hne (by rw [e]; exact hp)
            have hjx : j ≠ x := fun e => hne (by rw [hij, e]; exact hp)
            rw [Function.update_of_ne hix, Function.update_of_ne hjx]
            exact h2 i j hij hne
          | some b =>
            dsimp only
            have key : ∀ y, (y = x ∨ (x < y ∧ (es y).p = some b)) ↔ (es y).p = some b := by
              intro y
              constructor
              · rintro (rfl | h)
                · exact hp
                · exact h.2
              · intro hy
                rcases hlt y (by rw [hy, hp]) (by rw [hp]; simp) with h | h
                · exact Or.inl h
                · exact Or.inr ⟨h, hy⟩
            intro hs
            have ki := key i
            have kj := key j
            rw [hij] at ki
            by_cases hc : (es j).p = some b
            · simp only [ki.2 hc, kj.2 hc, hij, if_true]
            · rw [if_neg (fun x => hc (ki.1 (by rw [← hij]; exact x)))] at hs
              rw [if_neg (fun x => hc (ki.1 (by rw [← hij]; exact x))), if_neg (fun x => hc (kj.1 x))]
              exact h2 i j hij hne hs
  unfold Pkg.redLoop
  dsimp only
  rw [main (List.finRange n) (s, fun _ => none) (List.pairwise_lt_finRange n) (fun j hj => absurd (List.mem_finRange j) hj)
    (fun i j _ _ h => by simp at h) i j hij hne]

section wrong
variable {P : PCfg R} {k : Kind} {mk : Nat → Bool} {τ : Fin (ar k) → Fin (ar k) → Bool}
  {step : Pkg R → Nat → PEdge R → Pkg R × PEdge R}

/-- If the highest qubit is not marked, then successors with the same node have the same values in the result, whatever
their weights were. -/
theorem reduceF_copies (hC : 0 < P.C.growth) (hstep : StepSpec P k mk τ step) (clamp : Bool) {lb l : Nat} {s : Pkg R}
    {e : PEdge R} {a : Nat} (h : PWF P s ∅) (hv : Valid (s.ut k) (l + 1) e) (hp : e.p = some a) (hlb : lb ≤ l) (hmk : mk l = false)
    {i j : Fin (ar k)} (hij : (((s.ut k).mem a).e i).p = (((s.ut k).mem a).e j).p) (hne : (((s.ut k).mem a).e i).p ≠ none)
    (d : Fin l → Fin (ar k)) :
    amp ((Pkg.reduceF P k clamp step lb (l + 1) s e).1.ut k) (l + 1) (Pkg.reduceF P k clamp step lb (l + 1) s e).2
        (Fin.snoc (α := fun _ => Fin (ar k)) d i) =
      amp ((Pkg.reduceF P k clamp step lb (l + 1) s e).1.ut k) (l + 1) (Pkg.reduceF P k clamp step lb (l + 1) s e).2
        (Fin.snoc (α := fun _ => Fin (ar k)) d j) := by
  obtain ⟨ha, hl, hw⟩ := (valid_some hp).1 hv
  have hl : ((s.ut k).mem a).v = l := by omega
  have hnv : l < (s.ut k).nvars := by rw [← hl]; exact ((h.tab k).uwf.mem_bucket ha).1
  have hch := fun i => (h.tab k).childAt ha hl i
  unfold Pkg.reduceF
  rw [hp]
  dsimp only
  rw [hl, if_neg (by omega)]
  have hcp := redLoop_copies (rec := Pkg.reduceF P k clamp step lb l) (s := s) hij hne
  obtain ⟨q1, q2, q3⟩ := redLoop_spec (V := fun _ _ => True) h hch (rec := Pkg.reduceF P k clamp step lb l) (by
    intro i s' hs' he
    obtain ⟨f, hf⟩ := reduceF_valid hC hstep clamp lb l s' _ hs' ((hch i).mono (he.le k))
    exact ⟨f, trivial, hf⟩)
  generalize Pkg.redLoop (Pkg.reduceF P k clamp step lb l) s _ = q at q1 q2 q3 hcp ⊢
  have hm := makeDDNode_spec hC false q1 (by rw [(q2 k).nvars]; exact hnv) noX (fun i => (q3 i).1)
  generalize Pkg.makeDDNode P k q.1 l q.2 false = f at hm ⊢
  obtain ⟨c, hc, _, hs⟩ := hstep l f.1 f.2 hm.wf hm.valid (by rw [(hm.ext k).nvars, (q2 k).nvars]; exact hnv)
  generalize step f.1 l f.2 = g at hs ⊢
  obtain ⟨c', _, ho⟩ := clamp_spec (clamp := clamp) hs hw
  rw [ho.val, ho.val]
  simp only [hit1_false hmk, Fin.snoc_init_self]
  rw [hm.val, hm.val]
  simp only [Fin.snoc_last, Fin.init_snoc]
  rw [hcp]

/-- One level of the recursion, given that it is right below. -/
theorem reduceF_node (hC : 0 < P.C.growth) (hstep : StepSpec P k mk τ step) {lb l : Nat} {s : Pkg R}
    {e : PEdge R} {a : Nat} (h : PWF P s ∅) (hv : Valid (s.ut k) (l + 1) e) (hp : e.p = some a) (hlb : lb ≤ l)
    (hrec : ∀ i s', PWF P s' ∅ → PExt s s' → OpSpec P ∅ s' k l (redSum mk τ l (amp (s.ut k) l (((s.ut k).mem a).e i)))
      (Pkg.reduceF P k false step lb l s' (((s.ut k).mem a).e i)))
    (hshare : ∀ i j, (((s.ut k).mem a).e i).p = (((s.ut k).mem a).e j).p → (((s.ut k).mem a).e i).p ≠ none →
      (((s.ut k).mem a).e i).w = (((s.ut k).mem a).e j).w) :
    ∃ (t' : UTable (Cx R) (ar k)) (x : PEdge R) (c : Cx R), DDWF (P.uH k) t' ∧ Valid t' (l + 1) x ∧
      (∀ d i, amp t' (l + 1) x (Fin.snoc (α := fun _ => Fin (ar k)) d i) =
        redSum mk τ l (amp (s.ut k) l (((s.ut k).mem a).e i)) d) ∧
      (c = x.w⁻¹ ∨ ∀ d, amp t' (l + 1) x d = ∑ j, if hit1 mk τ l (d (Fin.last l)) j then
        amp t' (l + 1) x (Fin.snoc (α := fun _ => Fin (ar k)) (Fin.init d) j) else 0) ∧
      OpSpec P ∅ s k (l + 1) (fun d => c * redSum mk τ (l + 1) (amp (s.ut k) (l + 1) e) d)
        (Pkg.reduceF P k false step lb (l + 1) s e) := by
  obtain ⟨ha, hl, hw⟩ := (valid_some hp).1 hv
  have hl : ((s.ut k).mem a).v = l := by omega
  have hnv : l < (s.ut k).nvars := by rw [← hl]; exact ((h.tab k).uwf.mem_bucket ha).1
  have hch := fun i => (h.tab k).childAt ha hl i
  unfold Pkg.reduceF
  rw [hp]
  dsimp only
  rw [hl, if_neg (by omega)]
  obtain ⟨q1, q2, q3⟩ := redLoop_spec (V := fun x f => ∀ i, x = ((s.ut k).mem a).e i →
      ∀ d, f d = redSum mk τ l (amp (s.ut k) l (((s.ut k).mem a).e i)) d) h hch
    (rec := Pkg.reduceF P k false step lb l) (fun i s' hs' he => ⟨_, fun j hj d => by rw [← hj], hrec i s' hs' he⟩)
  generalize Pkg.redLoop (Pkg.reduceF P k false step lb l) s _ = q at q1 q2 q3 ⊢
  have hq : ∀ i d, amp (q.1.ut k) l (q.2 i) d = redSum mk τ l (amp (s.ut k) l (((s.ut k).mem a).e i)) d := by
    intro i d
    rcases (q3 i).2 with ⟨h1, h2⟩ | ⟨j, h1, h2, h3⟩
    · rw [h2]
      rcases Nat.eq_zero_or_pos l with rfl | hpos
      · rw [redSum_zero]; rfl
      · have hw0 := ((valid_none h1).1 (hch i)).resolve_left (by omega)
        rw [amp_w_zero hw0, redSum_of_zero (fun d => amp_w_zero hw0 d)]
    · refine h3 i ?_ d
      have := hshare j i h1 (by rw [h1]; exact h2)
      generalize ((s.ut k).mem a).e j = x at this h1
      generalize ((s.ut k).mem a).e i = y at this h1
      cases x; cases y; simp_all
  have hm := makeDDNode_spec hC false q1 (by rw [(q2 k).nvars]; exact hnv) noX (fun i => (q3 i).1)
  generalize Pkg.makeDDNode P k q.1 l q.2 false = f at hm ⊢
  have hf : ∀ d i, amp (f.1.ut k) (l + 1) f.2 (Fin.snoc (α := fun _ => Fin (ar k)) d i) =
      redSum mk τ l (amp (s.ut k) l (((s.ut k).mem a).e i)) d := by
    intro d i
    rw [hm.val, Fin.snoc_last, Fin.init_snoc]
    exact hq i d
  obtain ⟨c, _, hc2, hs⟩ := hstep l f.1 f.2 hm.wf hm.valid (by rw [(hm.ext k).nvars, (q2 k).nvars]; exact hnv)
  refine ⟨f.1.ut k, f.2, c, hm.wf.tab k, hm.valid, hf, hc2, ?_⟩
  generalize step f.1 l f.2 = g at hs ⊢
  obtain ⟨c', hc', ho⟩ := clamp_spec (clamp := false) hs hw
  have hcw := hc' (Or.inl rfl)
  subst hcw
  refine ⟨ho.wf, (q2.trans hm.ext).trans ho.ext, ho.valid, ?_⟩
  rw [forall_snoc]
  intro d i
  rw [ho.val, Fin.snoc_last, Fin.init_snoc, redSum_snoc, mul_left_comm, Finset.mul_sum]
  congr 1
  refine Finset.sum_congr rfl fun j _ => ?_
  split_ifs with hh
  · rw [hf, ← redSum_smul]
    exact redSum_congr (fun d => (amp_snoc hp d j).symm) d
  · rw [mul_zero]

omit [HasSqrt R] [LawfulSqrt R] in
/-- On one qubit a reduction is right. -/
theorem one_ok : RedOK P k false mk τ 0 (fun l _ _ => l ≤ 1) where
  low := fun i hi => by omega
  child := by intro t l e a h hv hp hl hg i; omega
  share := by
    intro t l e a h hv hp hl hg i j hij hne
    have hl0 : l = 0 := by omega
    subst hl0
    obtain ⟨ha, hal, hw⟩ := (valid_some hp).1 hv
    exact absurd (h.childAt ha (l := 0) (by omega) i).term hne
  first := by
    intro t t' l e x a h hv hp hl hg hm h' hle hx hval
    have hl0 : l = 0 := by omega
    subst hl0
    obtain ⟨ha, hal, hw⟩ := (valid_some hp).1 hv
    left
    have hva : Valid t (0 + 1) ⟨some a, 1⟩ := ⟨ha, hal, one_ne_zero⟩
    have : x = ⟨some a, 1⟩ := by
      refine h'.canonical hx (hva.mono hle) ?_
      rw [forall_snoc]
      intro d i
      rw [hval, amp_mono hle h.child hva, amp_snoc rfl, one_mul, redSum_zero]
    rw [this]
  bound := fun h => by simp at h

end wrong

omit [HasSqrt R] [LawfulSqrt R] in
/-- Diagrams that are multiples of each other have the same node. -/
theorem DDWF.same_node {k : Kind} {H : (Fin (ar k) → PEdge R) → Nat} {t : UTable (Cx R) (ar k)} (hd : DDWF H t) {l : Nat} {x y : PEdge R} (hx : Valid t l x)
    (hy : Valid t l y) {c : Cx R} (hc : c ≠ 0) (hxy : ∀ d, amp t l y d = c * amp t l x d) : y.p = x.p := by
  have := hd.canonical hy (Valid.scale (p := x.p) (w := x.w) hx hc) (fun d => by rw [hxy, amp_smul])
  rw [this]

/-! ## The functions -/

section top
variable {P : PCfg R} {k : Kind} {mk : Nat → Bool} {τ : Fin (ar k) → Fin (ar k) → Bool}
  {step : Pkg R → Nat → PEdge R → Pkg R × PEdge R}

theorem reduce_valid (hC : 0 < P.C.growth) (hstep : StepSpec P k mk τ step) (clamp : Bool) (lb : Nat) {l : Nat} {s : Pkg R}
    {e : PEdge R} (h : PWF P s ∅) (hv : Valid (s.ut k) l e) :
    ∃ f, OpSpec P ∅ s k l f (Pkg.reduceF P k clamp step lb (s.lv k e) s e) := by
  by_cases hw : e.w = 0
  · have he := hv.eq_zeroE hw
    subst he
    exact ⟨_, .pure h hv (fun _ => rfl)⟩
  · have : s.lv k e = l := hv.lvl hw
    rw [this]
    exact reduceF_valid hC hstep clamp lb l s e h hv

theorem reduce_exact (hC : 0 < P.C.growth) (hstep : StepSpec P k mk τ step) {clamp : Bool} {lb : Nat}
    {G : (l : Nat) → Cx R → ((Fin l → Fin (ar k)) → Cx R) → Prop} (hG : RedOK P k clamp mk τ lb G) {l : Nat} {s : Pkg R}
    {e : PEdge R} (h : PWF P s ∅) (hv : Valid (s.ut k) l e) (hg : G l e.w (amp (s.ut k) l e)) :
    OpSpec P ∅ s k l (redSum mk τ l (amp (s.ut k) l e)) (Pkg.reduceF P k clamp step lb (s.lv k e) s e) := by
  by_cases hw : e.w = 0
  · have he := hv.eq_zeroE hw
    subst he
    exact .pure h hv (fun d => by rw [amp_zeroE, redSum_of_zero (fun d => amp_zeroE _ _ d)])
  · have : s.lv k e = l := hv.lvl hw
    rw [this]
    exact reduceF_exact hC hstep hG l s e h hv hg

end top

end DD
