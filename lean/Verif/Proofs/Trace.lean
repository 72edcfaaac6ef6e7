import Verif.Proofs.Gate
import Verif.Proofs.State

/-! # `partialTrace`, `trace`, `deleteEdge` -/

namespace DD

variable {R : Type} [Field R]

/-- Number of qubits below `l` that are kept. -/
def keep (E : Nat → Bool) : Nat → Nat
  | 0 => 0
  | l + 1 => if E l then keep E l else keep E l + 1

/-- Number of qubits below `l` that are eliminated. -/
def elimd (E : Nat → Bool) : Nat → Nat
  | 0 => 0
  | l + 1 => if E l then elimd E l + 1 else elimd E l

theorem keep_add_elimd (E : Nat → Bool) (l : Nat) : keep E l + elimd E l = l := by
  induction l with
  | zero => rfl
  | succ l ih => unfold keep elimd; split_ifs <;> omega

theorem keep_le (E : Nat → Bool) (l : Nat) : keep E l ≤ l := by have := keep_add_elimd E l; omega

/-- Value of the partial trace along the digits `D` of the kept qubits. -/
def tv (E : Nat → Bool) (t : UTable (Cx R) 4) : Nat → PEdge R → (Nat → Fin 4) → Cx R
  | 0, e, _ => e.w
  | l + 1, e, D =>
    match e.p with
    | none => e.w
    | some a =>
      if E l then e.w * (tv E t l ((t.mem a).e 0) D + tv E t l ((t.mem a).e 3) D)
      else e.w * tv E t l ((t.mem a).e (D (keep E l))) D

theorem tv_zero {E : Nat → Bool} {t : UTable (Cx R) 4} {l : Nat} {e : PEdge R} (h : e.w = 0) (D : Nat → Fin 4) :
    tv E t l e D = 0 := by
  cases l with
  | zero => exact h
  | succ l =>
    unfold tv
    cases e.p with
    | none => exact h
    | some a => dsimp only; split_ifs <;> rw [h, zero_mul]

theorem tv_node {E : Nat → Bool} {t : UTable (Cx R) 4} {l : Nat} {e : PEdge R} {a : Nat} (h : e.p = some a)
    (D : Nat → Fin 4) : tv E t (l + 1) e D =
      if E l then e.w * (tv E t l ((t.mem a).e 0) D + tv E t l ((t.mem a).e 3) D)
      else e.w * tv E t l ((t.mem a).e (D (keep E l))) D := by
  rw [tv, h]

theorem tv_mono {E : Nat → Bool} {t t' : UTable (Cx R) 4} (h : Le t t') (hc : Children t) : ∀ {l : Nat} {e : PEdge R},
    Valid t l e → ∀ D, tv E t' l e D = tv E t l e D := by
  intro l
  induction l with
  | zero => intro e _ D; rfl
  | succ l ih =>
    intro e hv D
    unfold tv
    cases hp : e.p with
    | none => rfl
    | some a =>
      obtain ⟨v1, v2, v3⟩ := (valid_some hp).1 hv
      have hva : (t.mem a).v = l := by omega
      have hch : ∀ q, Valid t l ((t.mem a).e q) := fun q => by have := hc a v1 q; rwa [hva] at this
      dsimp only
      rw [(h a v1).2.2, ih (hch 0), ih (hch 3), ih (hch _)]

theorem tv_smul {E : Nat → Bool} {t : UTable (Cx R) 4} {l : Nat} (e : PEdge R) (D : Nat → Fin 4) :
    tv E t l e D = e.w * tv E t l ⟨e.p, 1⟩ D := by
  cases l with
  | zero => show e.w = e.w * 1; ring
  | succ l =>
    unfold tv
    cases e.p with
    | none => show e.w = e.w * 1; ring
    | some a => dsimp only; split_ifs <;> ring

/-- Only the digits below `keep E l` matter. -/
theorem tv_congr {E : Nat → Bool} {t : UTable (Cx R) 4} : ∀ {l : Nat} {e : PEdge R} {D D' : Nat → Fin 4},
    (∀ j < keep E l, D j = D' j) → tv E t l e D = tv E t l e D' := by
  intro l
  induction l with
  | zero => intros; rfl
  | succ l ih =>
    intro e D D' h
    unfold tv
    cases e.p with
    | none => rfl
    | some a =>
      dsimp only
      by_cases hE : E l
      · have h' : ∀ j < keep E l, D j = D' j := fun j hj => h j (by unfold keep; rw [if_pos hE]; exact hj)
        rw [if_pos hE, if_pos hE, ih h', ih h']
      · have h' : ∀ j < keep E l + 1, D j = D' j := fun j hj => h j (by unfold keep; rw [if_neg hE]; exact hj)
        rw [if_neg hE, if_neg hE, h' _ (Nat.lt_succ_self _), ih (fun j hj => h' j (by omega))]

/-- Without elimination the partial trace is the diagram itself. -/
theorem tv_none {E : Nat → Bool} {t : UTable (Cx R) 4} : ∀ {l : Nat} {e : PEdge R}, (∀ j < l, E j = false) →
    keep E l = l ∧ ∀ d : Fin l → Fin 4, tv E t l e (dx d) = amp t l e d := by
  intro l
  induction l with
  | zero => intro e _; exact ⟨rfl, fun d => rfl⟩
  | succ l ih =>
    intro e h
    have hl : ¬ E l = true := by rw [h l (by omega)]; decide
    have hk : keep E l = l := (ih (e := e) (fun j hj => h j (by omega))).1
    refine ⟨by unfold keep; rw [if_neg hl, hk], fun d => ?_⟩
    unfold tv amp
    cases e.p with
    | none => rfl
    | some a =>
      dsimp only
      rw [if_neg hl, hk, dx_last]
      congr 1
      rw [← (ih (fun j hj => h j (by omega))).2]
      exact tv_congr (fun j hj => dx_lt d (by omega))

/-- The closed form: a sum over the assignments of the eliminated qubits. -/
theorem tv_sum {E : Nat → Bool} {t : UTable (Cx R) 4} (hc : Children t) : ∀ {l : Nat} {e : PEdge R}, Valid t l e →
    ∀ D, tv E t l e D =
    ∑ x : Fin l → Fin 2, if ∀ i : Fin l, E i = false → x i = 0 then
      amp t l e (fun i => if E i then rc (x i) (x i) else D (keep E i)) else 0 := by
  intro l
  induction l with
  | zero => intro e _ D; rw [sum_zero, if_pos (fun i => i.elim0)]; rfl
  | succ l ih =>
    intro e hv D
    by_cases hw : e.w = 0
    · rw [tv_zero hw, Finset.sum_eq_zero]
      intro x _
      rw [amp_w_zero hw]; simp
    · obtain ⟨a, hp, v1, hva⟩ := hv.exists_node hw
      have hch : ∀ q, Valid t l ((t.mem a).e q) := fun q => by have := hc a v1 q; rwa [hva] at this
      have hcond : ∀ (b : Fin 2) (x : Fin l → Fin 2),
          (∀ i : Fin (l + 1), E i = false → (Fin.snoc (α := fun _ => Fin 2) x b : Fin (l + 1) → Fin 2) i = 0) ↔
            (E l = false → b = 0) ∧ ∀ i : Fin l, E i = false → x i = 0 := by
        intro b x
        constructor
        · intro h
          refine ⟨fun hE => ?_, fun i hE => ?_⟩
          · have := h (Fin.last l) hE; rwa [Fin.snoc_last] at this
          · have := h i.castSucc hE; rwa [Fin.snoc_castSucc] at this
        · rintro ⟨h1, h2⟩ i
          refine Fin.lastCases ?_ (fun j => ?_) i
          · intro hE; rw [Fin.snoc_last]; exact h1 hE
          · intro hE; rw [Fin.snoc_castSucc]; exact h2 j hE
      have hamp : ∀ (b : Fin 2) (x : Fin l → Fin 2),
          amp t (l + 1) e (fun i => if E i then rc ((Fin.snoc (α := fun _ => Fin 2) x b : Fin (l + 1) → Fin 2) i)
            ((Fin.snoc (α := fun _ => Fin 2) x b : Fin (l + 1) → Fin 2) i) else D (keep E i)) =
          e.w * amp t l ((t.mem a).e (if E l then rc b b else D (keep E l)))
            (fun i => if E i then rc (x i) (x i) else D (keep E i)) := by
        intro b x
        rw [amp_some hp]
        simp only [Fin.snoc_last, Fin.val_last]
        congr 2
        funext i
        simp only [Fin.init, Fin.snoc_castSucc, Fin.val_castSucc]
      rw [sum_snoc]
      simp only [hcond, hamp]
      unfold tv
      rw [hp]
      dsimp only
      rw [Fin.sum_univ_two]
      by_cases hE : E l
      · rw [if_pos hE, ih (hch 0), ih (hch 3), mul_add, Finset.mul_sum, Finset.mul_sum]
        congr 1
        · refine Finset.sum_congr rfl (fun x _ => ?_)
          simp only [hE, Bool.true_eq_false, false_imp_iff, true_and, if_true, show rc 0 0 = 0 from rfl]
          split_ifs <;> ring
        · refine Finset.sum_congr rfl (fun x _ => ?_)
          simp only [hE, Bool.true_eq_false, false_imp_iff, true_and, if_true, show rc 1 1 = 3 from rfl]
          split_ifs <;> ring
      · have hE' : E l = false := by simpa using hE
        rw [if_neg hE, ih (hch _), Finset.mul_sum]
        have : ∑ x : Fin l → Fin 2, (if (E l = false → (1 : Fin 2) = 0) ∧ ∀ i : Fin l, E i = false → x i = 0 then
            e.w * amp t l ((t.mem a).e (if E l then rc 1 1 else D (keep E l)))
              (fun i => if E i then rc (x i) (x i) else D (keep E i)) else 0) = 0 :=
          Finset.sum_eq_zero (fun x _ => by rw [if_neg]; intro h; exact absurd (h.1 hE') (by decide))
        rw [this, add_zero]
        refine Finset.sum_congr rfl (fun x _ => ?_)
        simp only [hE', implies_true, true_and, Bool.false_eq_true, if_false]
        split_ifs <;> ring

variable [LinearOrder R] [IsStrictOrderedRing R] [HasSqrt R] [LawfulSqrt R]

omit [HasSqrt R] [LawfulSqrt R] in
/-- Multiplying a weight into a diagram. -/
theorem HasVal.scale {s : Pkg R} {k : Kind} {l : Nat} {e : PEdge R} {f : (Fin l → Fin (ar k)) → Cx R}
    (h : HasVal s k l e f) {c : Cx R} (hc : c ≠ 0) : HasVal s k l ⟨e.p, e.w * c⟩ (fun d => f d * c) := by
  refine ⟨?_, fun d => ?_⟩
  · rw [mul_comm]; exact Valid.scale (w := e.w) h.1 hc
  · show _ = f d * c
    rw [← h.2 d, mul_comm e.w, amp_smul, mul_comm]

/-- The recursion of `partialTrace`. -/
theorem traceF_spec {P : PCfg R} (hC : 0 < P.C.growth) (elim : List Bool) :
    let E := fun i => elim.getD i false
    ∀ (l : Nat) (s : Pkg R) (a : PEdge R) (done : Nat), PWF P s ∅ → Valid (s.ut .m) l a → l ≤ (s.ut .m).nvars →
      ((∀ i < l, E i = true) ∨ elim.count true = done + elimd E l) →
      OpSpec P ∅ s .m (keep E l) (fun d => tv E (s.ut .m) l a (dx d)) (Pkg.traceF P elim l s a done) := by
  intro E l
  induction l with
  | zero =>
    intro s a done h hv _ _
    unfold Pkg.traceF
    have hp := hv.term
    by_cases hw : a.w = 0
    · rw [if_pos hw]; exact .pure h (valid_zeroE _ _) (fun d => by rw [amp_zeroE, tv_zero hw])
    · rw [if_neg hw]
      have key : OpSpec P ∅ s .m (keep E 0) (fun d => tv E (s.ut .m) 0 a (dx d)) (s, a) :=
        .pure h hv (fun d => by rfl)
      split
      · exact key
      · rw [hp]; exact key
  | succ l ih =>
    intro s a done h hv hn hcnt
    unfold Pkg.traceF
    by_cases hw : a.w = 0
    · rw [if_pos hw]; exact .pure h (valid_zeroE _ _) (fun d => by rw [amp_zeroE, tv_zero hw])
    · rw [if_neg hw]
      by_cases hnone : elim.all (fun b => !b) = true
      · rw [if_pos hnone]
        have hE : ∀ j, E j = false := by
          intro j
          show elim.getD j false = false
          rw [List.getD_eq_getElem?_getD]
          cases hj : elim[j]? with
          | none => rfl
          | some b =>
            have := List.all_eq_true.1 hnone b (List.mem_of_getElem? hj)
            simpa using this
        have ht := tv_none (E := E) (t := s.ut .m) (l := l + 1) (e := a) (fun j _ => hE j)
        have gen : ∀ m, m = l + 1 → OpSpec P ∅ s .m m (fun d => tv E (s.ut .m) (l + 1) a (dx d)) (s, a) := by
          rintro m rfl
          exact .pure h hv (fun d => (ht.2 d).symm)
        exact gen _ ht.1
      · rw [if_neg hnone]
        obtain ⟨p, hp, v1, hva⟩ := hv.exists_node hw
        have hch : ∀ q, Valid (s.ut .m) l (((s.ut .m).mem p).e q) := fun q => by
          have := (h.tab .m).child p v1 q; rwa [hva] at this
        rw [hp]
        dsimp only
        rw [hva]
        by_cases hE : E l = true
        · rw [if_pos (show elim.getD l false = true from hE)]
          have hk : keep E (l + 1) = keep E l := by show (if E l then _ else _) = _; rw [if_pos hE]
          rw [hk]
          have hcnt' : (∀ i < l, E i = true) ∨ elim.count true = done + 1 + elimd E l := by
            rcases hcnt with hc | hc
            · exact Or.inl (fun i hi => hc i (by omega))
            · right; rw [hc]; show done + (if E l then _ else _) = _; rw [if_pos hE]; omega
          have h0 := ih s _ (done + 1) h (hch 0) (by omega) hcnt'
          generalize Pkg.traceF P elim l s (((s.ut .m).mem p).e 0) (done + 1) = t0 at h0
          have h1 := add_spec hC h0.wf (valid_zeroE _ _) h0.valid
          generalize Pkg.add P .m t0.1 zeroE t0.2 = r1 at h1
          have x1 := h0.ext.trans h1.ext
          have h2 := ih r1.1 _ (done + 1) h1.wf ((hch 3).mono (x1.le .m)) (by rw [(x1 .m).nvars]; omega) hcnt'
          generalize Pkg.traceF P elim l r1.1 (((s.ut .m).mem p).e 3) (done + 1) = t1 at h2
          have h1' := h1.hasVal.ext h1.wf h2.ext
          have h3 := add_spec hC h2.wf h1'.1 h2.valid
          generalize Pkg.add P .m t1.1 r1.2 t1.2 = r at h3
          have h4 := h3.hasVal.scale hw
          refine (h4.op h3.wf (x1.trans (h2.ext.trans h3.ext))).congr (fun d => ?_)
          rw [h1'.2 d, h2.val d]
          beta_reduce
          rw [amp_zeroE, h0.val d, tv_mono (x1.le .m) (h.tab .m).child (hch 3), tv_node hp, if_pos hE]
          ring
        · rw [if_neg (show ¬ elim.getD l false = true from hE)]
          have hk : keep E (l + 1) = keep E l + 1 := by show (if E l then _ else _) = _; rw [if_neg hE]
          rw [hk]
          have hc : elim.count true = done + elimd E l := by
            rcases hcnt with hc | hc
            · exact absurd (hc l (by omega)) hE
            · rw [hc]; show done + (if E l then _ else _) = _; rw [if_neg hE]
          have hadj : l - (elim.count true - done) = keep E l := by
            have := keep_add_elimd E l; omega
          rw [hadj]
          obtain ⟨q1, q2, q3⟩ := seqVal (P := P) (k := .m) (l := keep E l) (n := 4) h
            (F := fun i d => tv E (s.ut .m) l (((s.ut .m).mem p).e i) (dx d))
            (f := fun i s' => Pkg.traceF P elim l s' (((s.ut .m).mem p).e i) done)
            (fun i s' h' he => (ih s' _ done h' ((hch i).mono (he.le .m)) (by rw [(he .m).nvars]; omega) (Or.inr hc)).congr
              (fun d => tv_mono (he.le .m) (h.tab .m).child (hch i) _))
          generalize seqFin 4 (fun i s' => Pkg.traceF P elim l s' (((s.ut .m).mem p).e i) done) s = q at q1 q2 q3
          have h2 := node_spec (k := .m) hC false q1 (v := keep E l)
            (by rw [(q2 .m).nvars]; have := keep_le E l; omega) q3
          generalize Pkg.makeDDNode P .m q.1 (keep E l) q.2 false = r at h2
          have h4 := h2.hasVal.scale hw
          refine (h4.op h2.wf (q2.trans h2.ext)).congr (fun d => ?_)
          rw [tv_node hp, if_neg hE, dx_last, mul_comm]
          congr 1
          exact tv_congr (fun j hj => (dx_lt d hj).symm)

/-- Value after removing the edges `idx` of the nodes of qubit `v`. -/
def delD {n : Nat} (t : UTable (Cx R) n) (v : Nat) (idx : Fin n) (l : Nat) (e : PEdge R) (d : Fin l → Fin n) : Cx R :=
  if h : v < l then (if d ⟨v, h⟩ = idx then 0 else amp t l e d) else amp t l e d

omit [LinearOrder R] [IsStrictOrderedRing R] [HasSqrt R] [LawfulSqrt R] in
theorem delD_mono {n : Nat} {t t' : UTable (Cx R) n} {v : Nat} {idx : Fin n} {l : Nat} {e : PEdge R} (h : Le t t')
    (hc : Children t) (hv : Valid t l e) (d : Fin l → Fin n) : delD t' v idx l e d = delD t v idx l e d := by
  unfold delD; rw [amp_mono h hc hv]

/-- The association list of `deleteEdge` is right. -/
def DelOK (k : Kind) (v : Nat) (idx : Fin (ar k)) (s : Pkg R) (m : List (Nat × PEdge R)) : Prop :=
  ∀ a r, m.lookup a = some r → a ∈ (s.ut k).all ∧
    HasVal s k (((s.ut k).mem a).v + 1) r (delD (s.ut k) v idx (((s.ut k).mem a).v + 1) ⟨some a, 1⟩)

omit [HasSqrt R] [LawfulSqrt R] in
theorem DelOK.ext {P : PCfg R} {k : Kind} {v : Nat} {idx : Fin (ar k)} {s s' : Pkg R} {m : List (Nat × PEdge R)}
    (h : DelOK k v idx s m) (hw : PWF P s ∅) (he : PExt s s') : DelOK k v idx s' m := by
  intro a r har
  obtain ⟨h1, h2⟩ := h a r har
  obtain ⟨h3, h4, h5⟩ := he.le k a h1
  refine ⟨h3, ?_⟩
  rw [h4]
  refine (h2.ext hw he).congr (fun d => ?_)
  exact (delD_mono (he.le k) (hw.tab k).child (valid_node h1 rfl) d).symm

omit [LinearOrder R] [IsStrictOrderedRing R] [HasSqrt R] [LawfulSqrt R] in
theorem delD_smul {n : Nat} {t : UTable (Cx R) n} {v : Nat} {idx : Fin n} {l : Nat} (e : PEdge R) (d : Fin l → Fin n) :
    delD t v idx l e d = delD t v idx l ⟨e.p, 1⟩ d * e.w := by
  unfold delD
  rw [amp_eq_smul t l e]
  split_ifs <;> ring

/-- The recursion of `deleteEdge`. -/
theorem deleteF_spec {P : PCfg R} (hC : 0 < P.C.growth) (k : Kind) (v : Nat) (idx : Fin (ar k)) :
    ∀ (l : Nat) (s : Pkg R × List (Nat × PEdge R)) (e : PEdge R), PWF P s.1 ∅ → DelOK k v idx s.1 s.2 →
      Valid (s.1.ut k) l e → l ≤ (s.1.ut k).nvars →
      let r := Pkg.deleteF P k v idx l s e
      OpSpec P ∅ s.1 k l (delD (s.1.ut k) v idx l e) (r.1.1, r.2) ∧ DelOK k v idx r.1.1 r.1.2 := by
  intro l
  induction l with
  | zero =>
    intro s e h hm hv _
    unfold Pkg.deleteF
    exact ⟨.pure h hv (fun d => by unfold delD; rw [dif_neg (by omega)]), hm⟩
  | succ l ih =>
    intro s e h hm hv hn
    unfold Pkg.deleteF
    cases hp : e.p with
    | none =>
      have hw : e.w = 0 := by
        rcases (valid_none hp).1 hv with h0 | h0
        · omega
        · exact h0
      dsimp only
      refine ⟨.pure h hv (fun d => ?_), hm⟩
      unfold delD
      rw [amp_w_zero hw]; split_ifs <;> rfl
    | some a =>
      obtain ⟨v1, v2, hw⟩ := (valid_some hp).1 hv
      have hva : ((s.1.ut k).mem a).v = l := by omega
      have hch : ∀ q, Valid (s.1.ut k) l (((s.1.ut k).mem a).e q) := fun q => by
        have := (h.tab k).child a v1 q; rwa [hva] at this
      have hnode : Valid (s.1.ut k) (l + 1) ⟨some a, 1⟩ := valid_node v1 hva
      dsimp only
      cases hl : s.2.lookup a with
      | some r =>
        dsimp only
        have h2 := (hm a r hl).2
        rw [hva] at h2
        refine ⟨((h2.scale hw).op h (PExt.refl _)).congr (fun d => ?_), hm⟩
        rw [delD_smul e, hp]
      | none =>
        dsimp only
        rw [hva]
        -- the new edges
        have key : ∃ q : (Pkg R × List (Nat × PEdge R)) × (Fin (ar k) → PEdge R),
            q = (if l = v then (s, fun i => if i = idx then zeroE else ((s.1.ut k).mem a).e i)
              else seqFin (ar k) (fun i s' => Pkg.deleteF P k v idx l s' (((s.1.ut k).mem a).e i)) s) ∧
            PWF P q.1.1 ∅ ∧ PExt s.1 q.1.1 ∧ DelOK k v idx q.1.1 q.1.2 ∧
            ∀ i, HasVal q.1.1 k l (q.2 i) (fun d => if l = v ∧ i = idx then 0 else
              delD (s.1.ut k) v idx l (((s.1.ut k).mem a).e i) d) := by
          refine ⟨_, rfl, ?_⟩
          by_cases hlv : l = v
          · rw [if_pos hlv]
            refine ⟨h, PExt.refl _, hm, fun i => ?_⟩
            by_cases hi : i = idx
            · dsimp only
              rw [if_pos hi]
              refine (hasVal_zero _ _ _).congr (fun d => ?_)
              rw [if_pos ⟨hlv, hi⟩]
            · dsimp only
              rw [if_neg hi]
              refine ⟨hch i, fun d => ?_⟩
              beta_reduce
              rw [if_neg (fun h => hi h.2)]
              unfold delD
              rw [dif_neg (by omega)]
          · rw [if_neg hlv]
            obtain ⟨⟨q1, q4⟩, q2, q3⟩ := seqFin_spec (fun s' : Pkg R × List (Nat × PEdge R) => PWF P s'.1 ∅ ∧ DelOK k v idx s'.1 s'.2)
              (fun s s' => PExt s.1 s'.1) (fun s => PExt.refl _) (fun h h' => h.trans h') (ar k)
              (fun i s' => Pkg.deleteF P k v idx l s' (((s.1.ut k).mem a).e i))
              (fun i s' b => HasVal s'.1 k l b (delD (s.1.ut k) v idx l (((s.1.ut k).mem a).e i)))
              (fun i s1 s2 b h12 h1 hb => hb.ext h1.1 h12) s ⟨h, hm⟩ (fun i s' hs' he => by
                obtain ⟨r1, r2⟩ := ih s' (((s.1.ut k).mem a).e i) hs'.1 hs'.2 ((hch i).mono (he.le k))
                  (by rw [(he k).nvars]; omega)
                refine ⟨⟨r1.wf, r2⟩, r1.ext, r1.hasVal.congr (fun d => ?_)⟩
                exact delD_mono (he.le k) (h.tab k).child (hch i) d)
            refine ⟨q1, q2, q4, fun i => (q3 i).congr (fun d => ?_)⟩
            rw [if_neg (fun h => hlv h.1)]
        obtain ⟨q, hq, q1, q2, q3, q4⟩ := key
        rw [← hq]
        have h2 := node_spec hC false q1 (by rw [(q2 k).nvars]; omega) q4
        generalize Pkg.makeDDNode P k q.1.1 l q.2 false = r at h2
        have hval : HasVal r.1 k (l + 1) r.2 (delD (s.1.ut k) v idx (l + 1) ⟨some a, 1⟩) := by
          refine h2.hasVal.congr (fun d => ?_)
          unfold delD
          rw [amp_some (e := (⟨some a, 1⟩ : PEdge R)) rfl, one_mul]
          by_cases hlv : l = v
          · subst hlv
            rw [dif_pos (Nat.lt_succ_self l)]
            have : (⟨l, Nat.lt_succ_self l⟩ : Fin (l + 1)) = Fin.last l := rfl
            rw [this]
            by_cases hi : d (Fin.last l) = idx
            · rw [if_pos hi, if_pos ⟨rfl, hi⟩]
            · rw [if_neg hi, if_neg (fun h => hi h.2), dif_neg (by omega)]
          · rw [if_neg (fun h => hlv h.1)]
            by_cases hvl : v < l
            · rw [dif_pos hvl, dif_pos (by omega)]; rfl
            · rw [dif_neg hvl, dif_neg (by omega)]
        have hext := q2.trans h2.ext
        refine ⟨((hval.scale hw).op h2.wf hext).congr (fun d => ?_), ?_⟩
        · rw [delD_smul e, hp]
        · intro b rb hb
          rw [List.lookup_cons] at hb
          by_cases hba : b == a
          · rw [hba] at hb
            simp only [Option.some.injEq] at hb
            subst hb
            have : b = a := by simpa using hba
            subst this
            obtain ⟨k1, k2, k3⟩ := hext.le k b v1
            refine ⟨k1, ?_⟩
            rw [k2, hva]
            exact hval.congr (fun d => (delD_mono (hext.le k) (h.tab k).child hnode d).symm)
          · rw [Bool.not_eq_true] at hba
            rw [hba] at hb
            exact (q3.ext q1 h2.ext) b rb hb

/-- `deleteEdge`. -/
theorem deleteEdge_spec {P : PCfg R} (hC : 0 < P.C.growth) {k : Kind} {v : Nat} {idx : Fin (ar k)} {s : Pkg R} {l : Nat}
    {e : PEdge R} (h : PWF P s ∅) (hv : Valid (s.ut k) l e) (hn : l ≤ (s.ut k).nvars) :
    OpSpec P ∅ s k l (delD (s.ut k) v idx l e) (Pkg.deleteEdge P k s e v idx) := by
  unfold Pkg.deleteEdge
  dsimp only
  by_cases hw : e.w = 0
  · have he := hv.eq_zeroE hw
    subst he
    have hlv : s.lv k zeroE = 0 := rfl
    rw [hlv]
    unfold Pkg.deleteF
    exact .pure h hv (fun d => by unfold delD; rw [amp_zeroE]; split_ifs <;> rfl)
  · have hlv : s.lv k e = l := hv.lvl hw
    rw [hlv]
    exact (deleteF_spec hC k v idx l (s, []) e h (fun a r har => by simp at har) hv hn).1

end DD
