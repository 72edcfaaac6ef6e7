import Verif.Proofs.PWF

/-! # `makeDDNode` and `transpose` -/

namespace DD

open UTable

variable {R : Type} [Field R]

@[simp] theorem Pkg.setUt_same (s : Pkg R) (k : Kind) (t : UTable (Cx R) (ar k)) : (s.setUt k t).ut k = t := by
  simp [Pkg.setUt]

theorem Pkg.setUt_ne (s : Pkg R) {k k' : Kind} (h : k' ≠ k) (t : UTable (Cx R) (ar k)) :
    (s.setUt k t).ut k' = s.ut k' := by
  simp [Pkg.setUt, h]

theorem PExt.setUt {s : Pkg R} {k : Kind} {t : UTable (Cx R) (ar k)} (h : TExt (s.ut k) t) : PExt s (s.setUt k t) := by
  intro k'
  by_cases hk : k' = k
  · subst hk; rw [Pkg.setUt_same]; exact h
  · rw [Pkg.setUt_ne s hk]; exact TExt.refl _

section tables
variable {n : Nat}

theorem getNode_active (C : UCfg) (t : UTable (Cx R) n) :
    (t.getNode C).1.active = t.active ∧ (t.getNode C).1.activeNodeCount = t.activeNodeCount := by
  unfold getNode
  split
  · exact ⟨rfl, rfl⟩
  · dsimp only; split <;> exact ⟨rfl, rfl⟩

theorem lookup_active [LinearOrder R] (H : (Fin n → PEdge R) → Nat) (t : UTable (Cx R) n) (a : Nat) :
    (t.lookup H a).1.active = t.active ∧ (t.lookup H a).1.activeNodeCount = t.activeNodeCount := by
  unfold lookup
  dsimp only
  split
  · split <;> exact ⟨rfl, rfl⟩
  · exact ⟨rfl, rfl⟩

end tables

section insert
variable [LinearOrder R] [IsStrictOrderedRing R] {k : Kind} {H : (Fin (ar k) → PEdge R) → Nat} {C : UCfg}

/-- `getNode` without a subsequent insertion. -/
theorem getNode_DDWF (hC : 0 < C.growth) {t : UTable (Cx R) (ar k)} (h : DDWF H t) :
    DDWF H (t.getNode C).1 ∧ TExt t (t.getNode C).1 ∧ (t.getNode C).1.all = t.all := by
  obtain ⟨g1, g2, g3, g4, g5, g6, g7, g8, g9, g10⟩ := getNode_spec hC h.uwf
  refine ⟨⟨g1, ?_, ?_⟩, ⟨g6, g7, ?_, ?_, (getNode_active C t).1, (getNode_active C t).2⟩, g4⟩
  · intro a ha i
    rw [g4] at ha
    rw [g8]
    refine (h.child a ha i).mono ?_
    intro b hb; rw [g4, g8]; exact ⟨hb, rfl, rfl⟩
  · intro a ha; rw [g4] at ha; rw [g8]; exact h.norm a ha
  · intro a ha; rw [g4, g8]; exact ⟨ha, rfl⟩
  · intro a ha hna; rw [g4] at ha; exact absurd ha hna

/-- `getNode` followed by `returnNode`. -/
theorem getReturn_DDWF (hC : 0 < C.growth) {t : UTable (Cx R) (ar k)} (h : DDWF H t) :
    DDWF H ((t.getNode C).1.returnNode (t.getNode C).2) ∧ TExt t ((t.getNode C).1.returnNode (t.getNode C).2) ∧
      ((t.getNode C).1.returnNode (t.getNode C).2).all = t.all := by
  obtain ⟨g1, g2, _⟩ := getNode_spec hC h.uwf
  obtain ⟨h1, h2, h3⟩ := getNode_DDWF hC h
  refine ⟨⟨returnNode_spec g1 g2, ?_, h1.norm⟩, ?_, h3⟩
  · intro a ha i
    refine (h1.child a ha i).mono ?_
    intro b hb; exact ⟨hb, rfl, rfl⟩
  · exact ⟨h2.nvars, h2.nbucket, h2.old, h2.new, h2.active, h2.activeCount⟩

/-- Fetching a cell, filling it with normalised edges and looking it up. -/
theorem insert_DDWF (hC : 0 < C.growth) {t : UTable (Cx R) (ar k)} (h : DDWF H t) {v : Nat} (hv : v < t.nvars)
    {es : Fin (ar k) → PEdge R} (hes : ∀ i, Valid t v (es i)) (hn : IsNorm k (fun i => (es i).w)) (g) (hg : t.getNode C = g)
    (l) (hl : (g.1.setMem g.2 ⟨v, es, (g.1.mem g.2).ref, false, false⟩).lookup H g.2 = l) :
    DDWF H l.1 ∧ TExt t l.1 ∧ l.2 ∈ l.1.all ∧ (l.1.mem l.2).v = v ∧ (l.1.mem l.2).e = es ∧
      (l.2 ≠ g.2 → ∀ a ∈ l.1.all, a ∈ t.all) ∧
      (l.2 = g.2 → l.2 ∉ t.all ∧ (l.1.mem l.2).ident = false ∧ (l.1.mem l.2).symm = false ∧
        ∀ a ∈ l.1.all, a = l.2 ∨ a ∈ t.all) := by
  have hgs := getNode_spec (C := C) hC h.uwf
  rw [hg] at hgs
  obtain ⟨g1, g2, g3, g4, g5, g6, g7, g8, g9, g10⟩ := hgs
  have hact := getNode_active C t
  rw [hg] at hact
  generalize ht2 : g.1.setMem g.2 ⟨v, es, (g.1.mem g.2).ref, false, false⟩ = t2 at hl
  have t2all : t2.all = t.all := by rw [← ht2]; exact g4
  have t2mem : ∀ a ∈ t.all, t2.mem a = t.mem a := by
    intro a ha
    have : a ≠ g.2 := fun e => g3 (e ▸ ha)
    rw [← ht2]
    simp [UTable.setMem, this, g8]
  have t2a : t2.mem g.2 = ⟨v, es, 0, false, false⟩ := by
    rw [← ht2]; simp [UTable.setMem, g10]
  have huwf2 : UWF H t2 := by rw [← ht2]; exact g1.setMem g2.2.1 _ g10
  have hfr : Fresh t2 g.2 := by rw [← ht2]; exact g2
  have hv2 : (t2.mem g.2).v < t2.nvars := by
    rw [t2a, ← ht2]; show v < g.1.nvars; rw [g6]; exact hv
  have hls := lookup_spec huwf2 hfr hv2
  have hla := lookup_active H t2 g.2
  rw [hl] at hls hla
  obtain ⟨l1, l2, l3, l4, l5, l6, l7, l8⟩ := hls
  have t2nv : t2.nvars = t.nvars := by rw [← ht2]; exact g6
  have t2nb : t2.nbucket = t.nbucket := by rw [← ht2]; exact g7
  have lact : l.1.active = t.active ∧ l.1.activeNodeCount = t.activeNodeCount := by
    refine ⟨hla.1.trans ?_, hla.2.trans ?_⟩
    · rw [← ht2]; exact hact.1
    · rw [← ht2]; exact hact.2
  have lold : ∀ a ∈ t.all, a ∈ l.1.all ∧ l.1.mem a = t.mem a := by
    intro a ha
    refine ⟨?_, by rw [l2]; exact t2mem a ha⟩
    rcases l8 with ⟨_, _, h8⟩ | ⟨_, h8, _⟩
    · rw [h8, t2all]; exact ha
    · rw [h8.mem_iff, t2all]; exact List.mem_cons_of_mem _ ha
  have lnew : ∀ a ∈ l.1.all, a ∉ t.all → a = g.2 ∧ l.2 = g.2 := by
    intro a ha hna
    rcases l8 with ⟨_, _, h8⟩ | ⟨h9, h8, _⟩
    · rw [h8, t2all] at ha; exact absurd ha hna
    · rw [h8.mem_iff, t2all] at ha
      rcases List.mem_cons.1 ha with ha | ha
      · exact ⟨ha, h9⟩
      · exact absurd ha hna
  have hle : Le t l.1 := by
    intro a ha
    obtain ⟨h1, h2⟩ := lold a ha
    exact ⟨h1, by rw [h2], by rw [h2]⟩
  have hlm : (l.1.mem l.2).v = v ∧ (l.1.mem l.2).e = es := by
    rw [l2, l6, l7, t2a]; exact ⟨rfl, rfl⟩
  have lmg : l.1.mem g.2 = ⟨v, es, 0, false, false⟩ := by rw [l2]; exact t2a
  refine ⟨⟨l1, ?_, ?_⟩, ⟨l3.trans t2nv, l4.trans t2nb, lold, ?_, lact.1, lact.2⟩, ?_, hlm.1, hlm.2, ?_, ?_⟩
  · intro a ha i
    by_cases hm : a ∈ t.all
    · rw [(lold a hm).2]; exact (h.child a hm i).mono hle
    · obtain ⟨rfl, _⟩ := lnew a ha hm
      rw [lmg]; exact (hes i).mono hle
  · intro a ha
    by_cases hm : a ∈ t.all
    · rw [(lold a hm).2]; exact h.norm a hm
    · obtain ⟨rfl, _⟩ := lnew a ha hm
      rw [lmg]; exact hn
  · intro a ha hm
    obtain ⟨rfl, _⟩ := lnew a ha hm
    rw [lmg]
  · rcases l8 with ⟨h9, _, h8⟩ | ⟨h9, h8, _⟩
    · rw [h8]; exact h9
    · rw [h8.mem_iff, h9]; exact List.mem_cons_self
  · intro hne a ha
    by_contra hna
    exact hne (lnew a ha hna).2
  · intro he
    refine ⟨by rw [he]; exact g3, by rw [he, lmg], by rw [he, lmg], ?_⟩
    intro a ha
    by_cases hm : a ∈ t.all
    · exact Or.inr hm
    · left; rw [he]; exact (lnew a ha hm).1

end insert

section values
variable [LinearOrder R] [IsStrictOrderedRing R]

/-- Value of an edge to a node with normalised edges. -/
theorem NormSpec.amp {k : Kind} {es es' : Fin (ar k) → PEdge R} {w : Cx R} (h : NormSpec k es w es')
    {t : UTable (Cx R) (ar k)} {a : Nat} (he : (t.mem a).e = es') {l : Nat} (d : Fin l → Fin (ar k)) (i : Fin (ar k)) :
    amp t (l + 1) ⟨some a, w⟩ (Fin.snoc (α := fun _ => Fin (ar k)) d i) = DD.amp t l (es i) d := by
  rw [amp_snoc rfl, he]
  by_cases hz : (es i).w = 0
  · have : (es' i).w = 0 := by
      have := h.value i
      rw [hz] at this
      exact (mul_eq_zero.1 this).resolve_left h.ne
    rw [amp_w_zero this, amp_w_zero hz, mul_zero]
  · have h1 := h.value i
    have h2 := h.ptr i hz
    have : es i = ⟨(es' i).p, w * (es' i).w⟩ := by
      rw [h2, h1]
    rw [this, amp_smul]

theorem NormSpec.valid {k : Kind} [HasSqrt R] [LawfulSqrt R] {cached : Bool} {es es' : Fin (ar k) → PEdge R} {w : Cx R}
    (h : Pkg.norm k cached es = some (w, es')) {t : UTable (Cx R) (ar k)} {l : Nat} (he : ∀ i, Valid t l (es i)) (i) :
    Valid t l (es' i) := by
  have hn := norm_spec h
  by_cases hz : (es i).w = 0
  · rcases norm_zero h i hz with h1 | h1
    · rw [h1]; exact valid_zeroE _ _
    · rw [h1]; exact he i
  · have h1 := hn.value i
    have h2 := hn.ptr i hz
    have h3 : (es' i).w ≠ 0 := by
      intro hc; rw [hc, mul_zero] at h1; exact hz h1.symm
    have := (he i).reweight hz h3
    rw [← h2] at this
    exact this

end values

section blocks
variable [LinearOrder R] [IsStrictOrderedRing R]

theorem mat_w_zero {t : UTable (Cx R) 4} {l : Nat} {e : PEdge R} (h : e.w = 0) : mat t l e = 0 := by
  funext r c; exact amp_w_zero h _

theorem mat_smul {t : UTable (Cx R) 4} {l : Nat} (e : PEdge R) : mat t l e = e.w • mat t l ⟨e.p, 1⟩ := by
  funext r c; exact amp_eq_smul t l e _

/-- Blocks of the matrix of a node. -/
theorem mat_block {t : UTable (Cx R) 4} {l a : Nat} {e : PEdge R} (hp : e.p = some a) (r c : Fin l → Fin 2) (i j : Fin 2) :
    mat t (l + 1) e (Fin.snoc (α := fun _ => Fin 2) r i) (Fin.snoc (α := fun _ => Fin 2) c j) =
      e.w * mat t l ((t.mem a).e (rc i j)) r c := by
  have : (fun x : Fin (l + 1) => rc (Fin.snoc (α := fun _ => Fin 2) r i x) (Fin.snoc (α := fun _ => Fin 2) c j x)) =
      Fin.snoc (α := fun _ => Fin 4) (fun x => rc (r x) (c x)) (rc i j) := by
    funext x
    refine Fin.lastCases ?_ ?_ x
    · simp
    · intro y; simp
  unfold mat
  rw [this, amp_snoc hp]

theorem forall_snoc {l : Nat} {α : Type} {Q : (Fin (l + 1) → α) → Prop} :
    (∀ d, Q d) ↔ ∀ (d : Fin l → α) (i : α), Q (Fin.snoc (α := fun _ => α) d i) := by
  constructor
  · intro h d i; exact h _
  · intro h d
    have := h (Fin.init d) (d (Fin.last l))
    rwa [Fin.snoc_init_self] at this

theorem snoc_inj {l : Nat} {α : Type} {d d' : Fin l → α} {i j : α} :
    (Fin.snoc (α := fun _ => α) d i : Fin (l + 1) → α) = Fin.snoc (α := fun _ => α) d' j ↔ d = d' ∧ i = j := by
  constructor
  · intro h
    refine ⟨?_, ?_⟩
    · have := congrArg Fin.init h
      rwa [Fin.init_snoc, Fin.init_snoc] at this
    · have := congrFun h (Fin.last l)
      simpa using this
  · rintro ⟨rfl, rfl⟩; rfl

theorem mat_ext_blocks {l : Nat} {A B : Matrix (Fin (l + 1) → Fin 2) (Fin (l + 1) → Fin 2) (Cx R)} :
    A = B ↔ ∀ r c (i j : Fin 2), A (Fin.snoc (α := fun _ => Fin 2) r i) (Fin.snoc (α := fun _ => Fin 2) c j) =
      B (Fin.snoc (α := fun _ => Fin 2) r i) (Fin.snoc (α := fun _ => Fin 2) c j) := by
  constructor
  · rintro rfl r c i j; rfl
  · intro h
    funext r c
    have := h (Fin.init r) (Fin.init c) (r (Fin.last l)) (c (Fin.last l))
    rwa [Fin.snoc_init_self, Fin.snoc_init_self] at this

/-- Symmetry of a node in terms of its successors. -/
theorem node_symm_iff {t : UTable (Cx R) 4} {l a : Nat} :
    (mat t (l + 1) ⟨some a, 1⟩).transpose = mat t (l + 1) ⟨some a, 1⟩ ↔
      (mat t l ((t.mem a).e 0)).transpose = mat t l ((t.mem a).e 0) ∧
      (mat t l ((t.mem a).e 3)).transpose = mat t l ((t.mem a).e 3) ∧
      (mat t l ((t.mem a).e 1)).transpose = mat t l ((t.mem a).e 2) := by
  rw [mat_ext_blocks]
  simp only [Matrix.transpose_apply, mat_block (e := ⟨some a, 1⟩) (a := a) rfl, one_mul]
  constructor
  · intro h
    refine ⟨?_, ?_, ?_⟩
    · funext r c; exact h r c 0 0
    · funext r c; exact h r c 1 1
    · funext r c; exact h r c 1 0
  · rintro ⟨h1, h2, h3⟩ r c i j
    fin_cases i <;> fin_cases j
    · exact congrFun (congrFun h1 r) c
    · have := congrFun (congrFun h3 c) r
      exact this.symm
    · exact congrFun (congrFun h3 r) c
    · exact congrFun (congrFun h2 r) c

/-- Identity nodes in terms of their successors. -/
theorem node_ident_iff {t : UTable (Cx R) 4} {l a : Nat} :
    mat t (l + 1) ⟨some a, 1⟩ = 1 ↔ mat t l ((t.mem a).e 0) = 1 ∧ mat t l ((t.mem a).e 3) = 1 ∧
      mat t l ((t.mem a).e 1) = 0 ∧ mat t l ((t.mem a).e 2) = 0 := by
  rw [mat_ext_blocks]
  simp only [mat_block (e := ⟨some a, 1⟩) (a := a) rfl, one_mul, Matrix.one_apply, snoc_inj]
  constructor
  · intro h
    refine ⟨?_, ?_, ?_, ?_⟩
    · funext r c; have := h r c 0 0; simp [rc] at this; simp [Matrix.one_apply, this]
    · funext r c; have := h r c 1 1; simp [rc] at this; simp [Matrix.one_apply, this]
    · funext r c; have := h r c 0 1; simp [rc] at this; simp [this]
    · funext r c; have := h r c 1 0; simp [rc] at this; simp [this]
  · rintro ⟨h1, h2, h3, h4⟩ r c i j
    fin_cases i <;> fin_cases j
    · simpa [Matrix.one_apply, rc] using congrFun (congrFun h1 r) c
    · simpa [rc] using congrFun (congrFun h3 r) c
    · simpa [rc] using congrFun (congrFun h4 r) c
    · simpa [Matrix.one_apply, rc] using congrFun (congrFun h2 r) c

theorem mat_apply_ne {t : UTable (Cx R) 4} (H : (Fin 4 → PEdge R) → Nat) (h : DDWF (k := .m) H t) {l : Nat} {e : PEdge R}
    (hv : Valid t l e) (hz : mat t l e = 0) : e.w = 0 := by
  apply h.w_zero hv
  intro d
  have := congrFun (congrFun hz (fun i => ![0, 0, 1, 1] (d i))) (fun i => ![0, 1, 0, 1] (d i))
  have h2 : (fun i => rc (![0, 0, 1, 1] (d i)) (![0, 1, 0, 1] (d i))) = d := by
    funext i
    have : ∀ x : Fin 4, rc (![0, 0, 1, 1] x) (![0, 1, 0, 1] x) = x := by decide
    exact this _
  unfold mat at this
  rw [h2] at this
  exact this

/-- The weight of an edge that represents a multiple of the identity is the factor. -/
theorem DDWF.ident_weight {H : (Fin 4 → PEdge R) → Nat} {t : UTable (Cx R) 4} (h : DDWF (k := .m) H t) :
    ∀ {l : Nat} {e : PEdge R} {c : Cx R}, Valid t l e → mat t l e = c • 1 → e.w = c := by
  intro l
  induction l with
  | zero =>
    intro e c _ he
    have := congrFun (congrFun he Fin.elim0) Fin.elim0
    have h1 : mat t 0 e Fin.elim0 Fin.elim0 = e.w := rfl
    rw [h1] at this
    simpa using this
  | succ l ih =>
    intro e c hv he
    by_cases hc : c = 0
    · subst hc
      rw [zero_smul] at he
      exact mat_apply_ne H h hv he
    · have hw : e.w ≠ 0 := by
        intro hw
        rw [mat_w_zero hw] at he
        have := congrFun (congrFun he (fun _ => 0)) (fun _ => 0)
        simp at this
        exact hc this.symm
      obtain ⟨a, hp, ha, hl⟩ := hv.exists_node hw
      have hb : ∀ r c' (i j : Fin 2), e.w * mat t l ((t.mem a).e (rc i j)) r c' =
          (c • (1 : Matrix (Fin (l + 1) → Fin 2) (Fin (l + 1) → Fin 2) (Cx R)))
            (Fin.snoc (α := fun _ => Fin 2) r i) (Fin.snoc (α := fun _ => Fin 2) c' j) := by
        intro r c' i j; rw [← mat_block hp, he]
      have hdiag : ∀ i : Fin 2, mat t l ((t.mem a).e (rc i i)) = (c / e.w) • 1 := by
        intro i
        funext r c'
        have := hb r c' i i
        rw [Matrix.smul_apply, Matrix.one_apply] at this ⊢
        simp only [snoc_inj, and_true, smul_eq_mul] at this ⊢
        rw [div_mul_eq_mul_div, ← this, mul_div_cancel_left₀ _ hw]
      have hoff : ∀ i j : Fin 2, i ≠ j → mat t l ((t.mem a).e (rc i j)) = 0 := by
        intro i j hij
        funext r c'
        have := hb r c' i j
        rw [Matrix.smul_apply, Matrix.one_apply] at this
        simp only [snoc_inj, hij, and_false, if_false, smul_eq_mul, mul_zero] at this
        exact (mul_eq_zero.1 this).resolve_left hw
      have w0 := ih (h.childAt ha hl (rc 0 0)) (hdiag 0)
      have w3 := ih (h.childAt ha hl (rc 1 1)) (hdiag 1)
      have w1 := mat_apply_ne H h (h.childAt ha hl (rc 0 1)) (hoff 0 1 (by decide))
      have w2 := mat_apply_ne H h (h.childAt ha hl (rc 1 0)) (hoff 1 0 (by decide))
      change ((t.mem a).e 0).w = _ at w0
      change ((t.mem a).e 3).w = _ at w3
      change ((t.mem a).e 1).w = _ at w1
      change ((t.mem a).e 2).w = _ at w2
      obtain ⟨j, hj, -, -⟩ := h.norm a ha
      have key : c / e.w = 1 := by
        fin_cases j
        · exact w0.symm.trans hj
        · exact absurd (w1.symm.trans hj) (by simp)
        · exact absurd (w2.symm.trans hj) (by simp)
        · exact w3.symm.trans hj
      field_simp at key
      exact key.symm

end blocks

section marks
variable [LinearOrder R] [IsStrictOrderedRing R]

/-- `isSymmetric` tells whether the matrix of an edge is symmetric. -/
theorem PWF.isSymm_iff {P : PCfg R} {s : Pkg R} {X : Set Nat} (h : PWF P s X) {l : Nat} {e : PEdge R}
    (hv : Valid (s.ut .m) l e) (hX : ∀ x ∈ X, l ≤ ((s.ut .m).mem x).v) :
    s.isSymm e = true ↔ (mat (s.ut .m) l e).transpose = mat (s.ut .m) l e := by
  unfold Pkg.isSymm
  cases hp : e.p with
  | none =>
    simp only [true_iff]
    rw [valid_none hp] at hv
    rcases hv with rfl | hw
    · funext r c
      rw [Matrix.transpose_apply, Subsingleton.elim r c]
    · rw [mat_w_zero hw]; rfl
  | some a =>
    dsimp only
    rw [valid_some hp] at hv
    obtain ⟨ha, hl, hw⟩ := hv
    rw [mat_smul e, hp, Matrix.transpose_smul]
    have hsm : ∀ A B : Matrix (Fin l → Fin 2) (Fin l → Fin 2) (Cx R), e.w • A = e.w • B ↔ A = B := by
      intro A B
      constructor
      · intro hab
        funext r c
        have := congrFun (congrFun hab r) c
        simp only [Matrix.smul_apply, smul_eq_mul] at this
        exact mul_left_cancel₀ hw this
      · rintro rfl; rfl
    rw [hsm]
    subst hl
    constructor
    · exact h.marks.symm a ha
    · refine h.marks.symmC a ha ?_
      intro hx
      have := hX a hx
      omega

/-- Together with weight one, `isIdentity` tells whether the matrix of an edge is the identity. -/
theorem PWF.isIdent_iff {P : PCfg R} {s : Pkg R} {X : Set Nat} (h : PWF P s X) {l : Nat} {e : PEdge R}
    (hv : Valid (s.ut .m) l e) (hX : ∀ x ∈ X, l ≤ ((s.ut .m).mem x).v) :
    (s.isIdent e = true ∧ e.w = 1) ↔ mat (s.ut .m) l e = 1 := by
  have hone : mat (s.ut .m) l e = 1 → e.w = 1 := by
    intro he
    refine (h.tab .m).ident_weight hv ?_
    rw [he, one_smul]
  unfold Pkg.isIdent
  cases hp : e.p with
  | none =>
    simp only [true_and]
    refine ⟨?_, hone⟩
    intro hw
    rw [valid_none hp, hw] at hv
    rcases hv with rfl | hw'
    · funext r c
      have h1 : mat (s.ut .m) 0 e r c = e.w := rfl
      rw [h1, hw, Subsingleton.elim r c, Matrix.one_apply_eq]
    · exact absurd hw' one_ne_zero
  | some a =>
    dsimp only
    rw [valid_some hp] at hv
    obtain ⟨ha, hl, hw⟩ := hv
    subst hl
    constructor
    · rintro ⟨h1, h2⟩
      rw [mat_smul e, hp, h2, one_smul]
      exact h.marks.ident a ha h1
    · intro he
      have h1 := hone he
      refine ⟨h.marks.identC a ha ?_ ?_, h1⟩
      · intro hx
        have := hX a hx
        omega
      · rw [mat_smul e, hp, h1, one_smul] at he
        exact he

/-- Adding unmarked nodes under construction. -/
theorem Marks.extend {t t' : UTable (Cx R) 4} {X Y : Set Nat} (h : Marks t X) (hc : Children t) (he : TExt t t')
    (hXY : ∀ x ∈ X, x ∈ Y)
    (hnew : ∀ a ∈ t'.all, a ∉ t.all → a ∈ Y ∧ (t'.mem a).symm = false ∧ (t'.mem a).ident = false) : Marks t' Y := by
  have hm1 : ∀ a ∈ t.all, (NodeSymm t' a ↔ NodeSymm t a) := fun a ha => nodeSymm_mono he.le hc ha
  have hm2 : ∀ a ∈ t.all, (NodeIdent t' a ↔ NodeIdent t a) := fun a ha => nodeIdent_mono he.le hc ha
  refine ⟨?_, ?_, ?_, ?_⟩
  · intro a ha hs
    by_cases hold : a ∈ t.all
    · rw [(he.old a hold).2] at hs
      rw [hm1 a hold]; exact h.symm a hold hs
    · rw [(hnew a ha hold).2.1] at hs; simp at hs
  · intro a ha hs
    by_cases hold : a ∈ t.all
    · rw [(he.old a hold).2] at hs
      rw [hm2 a hold]; exact h.ident a hold hs
    · rw [(hnew a ha hold).2.2] at hs; simp at hs
  · intro a ha hx hs
    by_cases hold : a ∈ t.all
    · rw [(he.old a hold).2]
      rw [hm1 a hold] at hs
      exact h.symmC a hold (fun hc => hx (hXY a hc)) hs
    · exact absurd (hnew a ha hold).1 hx
  · intro a ha hx hs
    by_cases hold : a ∈ t.all
    · rw [(he.old a hold).2]
      rw [hm2 a hold] at hs
      exact h.identC a hold (fun hc => hx (hXY a hc)) hs
    · exact absurd (hnew a ha hold).1 hx

/-- What the function `tr` used for the marks has to do on edges of level `l`. -/
def TrSpec (P : PCfg R) (l : Nat) (tr : Pkg R → PEdge R → Pkg R × PEdge R) : Prop :=
  ∀ s X e, PWF P s X → (∀ x ∈ X, x ∈ (s.ut .m).all ∧ l ≤ ((s.ut .m).mem x).v) → Valid (s.ut .m) l e →
    PWF P (tr s e).1 X ∧ PExt s (tr s e).1 ∧ Valid ((tr s e).1.ut .m) l (tr s e).2 ∧
    mat ((tr s e).1.ut .m) l (tr s e).2 = (mat (s.ut .m) l e).transpose

/-- Changing the marks of a stored node only. -/
theorem setMarks_PWF {P : PCfg R} {s : Pkg R} {X Y : Set Nat} (h : PWF P s X) {a : Nat} (ha : a ∈ (s.ut .m).all)
    (sy id : Bool)
    (hsy : sy = true ↔ NodeSymm (s.ut .m) a) (hid : id = true ↔ NodeIdent (s.ut .m) a)
    (hXY : ∀ x ∈ X, x = a ∨ x ∈ Y) :
    PWF P (s.setUt .m ((s.ut .m).setMem a { (s.ut .m).mem a with symm := sy, ident := id })) Y := by
  set t := s.ut .m with ht
  set t' := t.setMem a { t.mem a with symm := sy, ident := id } with ht'
  have hall : t'.all = t.all := rfl
  have hmv : ∀ b, (t'.mem b).v = (t.mem b).v ∧ (t'.mem b).e = (t.mem b).e ∧ (t'.mem b).ref = (t.mem b).ref := by
    intro b
    by_cases hb : b = a
    · subst hb; simp [ht', UTable.setMem]
    · simp [ht', UTable.setMem, hb]
  have hle : Le t t' := fun b hb => ⟨hb, (hmv b).1, (hmv b).2.1⟩
  have hw := (h.tab .m).uwf
  have hch := (h.tab .m).child
  have hm1 : ∀ a ∈ t.all, (NodeSymm t' a ↔ NodeSymm t a) := fun a ha => nodeSymm_mono hle hch ha
  have hm2 : ∀ a ∈ t.all, (NodeIdent t' a ↔ NodeIdent t a) := fun a ha => nodeIdent_mono hle hch ha
  have hne : ∀ b, b ≠ a → t'.mem b = t.mem b := by
    intro b hb; simp [ht', UTable.setMem, hb]
  have hs : (t'.mem a).symm = sy ∧ (t'.mem a).ident = id := by simp [ht', UTable.setMem]
  have hdd : DDWF (k := .m) (P.uH .m) t' := by
    refine ⟨⟨hw.nb, hw.nodup, hw.availNodup, hw.disj, hw.allLt, hw.availLt, hw.brkLe, hw.szPos, ?_, ?_, hw.count, ?_⟩,
      ?_, ?_⟩
    · intro v k b hb
      rw [(hmv b).1, (hmv b).2.1]; exact hw.bucket v k b hb
    · intro b hb c hc
      rw [(hmv b).1, (hmv b).2.1, (hmv c).1, (hmv c).2.1]; exact hw.uniq b hb c hc
    · intro b hb; rw [(hmv b).2.2]; exact hw.refZero b hb
    · intro b hb i
      rw [(hmv b).1, (hmv b).2.1]; exact (hch b hb i).mono hle
    · intro b hb
      rw [(hmv b).2.1]; exact (h.tab .m).norm b hb
  refine h.transfer ?_ ?_ ?_ rfl rfl rfl rfl rfl rfl rfl
  · intro k
    cases k with
    | v => rw [Pkg.setUt_ne s (by decide)]; exact h.tab .v
    | m => rw [Pkg.setUt_same]; exact hdd
  · rw [Pkg.setUt_same]
    refine ⟨?_, ?_, ?_, ?_⟩
    · intro b hb hsb
      rw [hm1 b hb]
      by_cases hba : b = a
      · subst hba; rw [hs.1] at hsb; exact hsy.1 hsb
      · rw [hne b hba] at hsb; exact h.marks.symm b hb hsb
    · intro b hb hsb
      rw [hm2 b hb]
      by_cases hba : b = a
      · subst hba; rw [hs.2] at hsb; exact hid.1 hsb
      · rw [hne b hba] at hsb; exact h.marks.ident b hb hsb
    · intro b hb hx hm
      rw [hm1 b hb] at hm
      by_cases hba : b = a
      · subst hba; rw [hs.1]; exact hsy.2 hm
      · rw [hne b hba]
        refine h.marks.symmC b hb (fun hc => ?_) hm
        rcases hXY b hc with h1 | h1
        · exact hba h1
        · exact hx h1
    · intro b hb hx hm
      rw [hm2 b hb] at hm
      by_cases hba : b = a
      · subst hba; rw [hs.2]; exact hid.2 hm
      · rw [hne b hba]
        refine h.marks.identC b hb (fun hc => ?_) hm
        rcases hXY b hc with h1 | h1
        · exact hba h1
        · exact hx h1
  · intro k
    cases k with
    | v => rw [Pkg.setUt_ne s (by decide)]; exact Le.refl _
    | m => rw [Pkg.setUt_same]; exact hle

/-- A state in which only the marks of the node `a` may differ. -/
def SameBut (a : Nat) (s s' : Pkg R) : Prop :=
  (∀ k, k ≠ .m → s'.ut k = s.ut k) ∧ (s'.ut .m).all = (s.ut .m).all ∧
  (s'.ut .m).nvars = (s.ut .m).nvars ∧ (s'.ut .m).nbucket = (s.ut .m).nbucket ∧
  (s'.ut .m).active = (s.ut .m).active ∧ (s'.ut .m).activeNodeCount = (s.ut .m).activeNodeCount ∧
  (∀ b, b ≠ a → (s'.ut .m).mem b = (s.ut .m).mem b) ∧
  ((s'.ut .m).mem a).v = ((s.ut .m).mem a).v ∧ ((s'.ut .m).mem a).e = ((s.ut .m).mem a).e ∧
  ((s'.ut .m).mem a).ref = ((s.ut .m).mem a).ref

theorem checkSpecial_spec {P : PCfg R} {tr : Pkg R → PEdge R → Pkg R × PEdge R} {s : Pkg R} {X : Set Nat} {a v : Nat}
    (h : PWF P s (insert a X)) (hX : ∀ x ∈ X, x ∈ (s.ut .m).all ∧ v < ((s.ut .m).mem x).v) (ha : a ∈ (s.ut .m).all)
    (hav : ((s.ut .m).mem a).v = v) (hid : ((s.ut .m).mem a).ident = false) (hsy : ((s.ut .m).mem a).symm = false)
    (htr : TrSpec P v tr) :
    PWF P (Pkg.checkSpecial tr s a) X ∧ ∃ s1, PExt s s1 ∧ SameBut a s1 (Pkg.checkSpecial tr s a) := by
  have hX' : ∀ x ∈ insert a X, x ∈ (s.ut .m).all ∧ v ≤ ((s.ut .m).mem x).v := by
    intro x hx
    rcases hx with rfl | hx
    · exact ⟨ha, hav.ge⟩
    · exact ⟨(hX x hx).1, (hX x hx).2.le⟩
  have hch := fun i => (h.tab .m).childAt ha hav i
  have sameRefl : ∀ s : Pkg R, SameBut a s s := fun s =>
    ⟨fun _ _ => rfl, rfl, rfl, rfl, rfl, rfl, fun _ _ => rfl, rfl, rfl, rfl⟩
  -- a state in which the flags stay false
  have hfalse : ∀ s1 : Pkg R, PWF P s1 (insert a X) → PExt s s1 →
      ¬ (mat (s.ut .m) (v + 1) ⟨some a, 1⟩).transpose = mat (s.ut .m) (v + 1) ⟨some a, 1⟩ → PWF P s1 X := by
    intro s1 h1 he hns
    have hma := (he .m).old a ha
    have hmm : mat (s1.ut .m) (v + 1) ⟨some a, 1⟩ = mat (s.ut .m) (v + 1) ⟨some a, 1⟩ :=
      mat_mono (he.le .m) (h.tab .m).child ⟨ha, by rw [hav], one_ne_zero⟩
    refine h1.transfer h1.tab ?_ (fun k => Le.refl _) rfl rfl rfl rfl rfl rfl rfl
    refine ⟨h1.marks.symm, h1.marks.ident, ?_, ?_⟩
    · intro b hb hx hm
      by_cases hba : b = a
      · subst hba
        rw [nodeSymm_at ((congrArg Node.v hma.2).trans hav), hmm] at hm
        exact absurd hm hns
      · exact h1.marks.symmC b hb (fun hc => hc.elim hba hx) hm
    · intro b hb hx hm
      by_cases hba : b = a
      · subst hba
        rw [nodeIdent_at ((congrArg Node.v hma.2).trans hav), hmm] at hm
        rw [hm] at hns
        exact absurd Matrix.transpose_one hns
      · exact h1.marks.identC b hb (fun hc => hc.elim hba hx) hm
  have s0 := h.isSymm_iff (hch 0) (fun x hx => (hX' x hx).2)
  have s3 := h.isSymm_iff (hch 3) (fun x hx => (hX' x hx).2)
  unfold Pkg.checkSpecial
  dsimp only
  by_cases hc : (!s.isSymm (((s.ut .m).mem a).e 0) || !s.isSymm (((s.ut .m).mem a).e 3)) = true
  · rw [if_pos hc]
    refine ⟨hfalse s h (PExt.refl _) ?_, s, PExt.refl _, sameRefl _⟩
    intro hs
    rw [node_symm_iff] at hs
    rw [s0.2 hs.1, s3.2 hs.2.1] at hc
    simp at hc
  · rw [if_neg hc]
    simp only [Bool.or_eq_true, Bool.not_eq_true', not_or, Bool.not_eq_false] at hc
    obtain ⟨t1, t2, t3, t4⟩ := htr s (insert a X) _ h hX' (hch 1)
    have hma := (t2 .m).old a ha
    generalize hrr : tr s (((s.ut .m).mem a).e 1) = rr at t1 t2 t3 t4 hma
    have e2 : mat (rr.1.ut .m) v (((s.ut .m).mem a).e 2) = mat (s.ut .m) v (((s.ut .m).mem a).e 2) :=
      mat_mono (t2.le .m) (h.tab .m).child (hch 2)
    by_cases hne : rr.2 ≠ ((s.ut .m).mem a).e 2
    · rw [if_pos hne]
      refine ⟨hfalse rr.1 t1 t2 ?_, rr.1, t2, sameRefl _⟩
      intro hs
      rw [node_symm_iff] at hs
      apply hne
      refine (t1.tab .m).canonical t3 ((hch 2).mono (t2.le .m)) ?_
      intro d
      have := t4.trans (hs.2.2.trans e2.symm)
      have h1 := congrFun (congrFun this (fun i => ![0, 0, 1, 1] (d i))) (fun i => ![0, 1, 0, 1] (d i))
      have h2 : (fun i => rc (![0, 0, 1, 1] (d i)) (![0, 1, 0, 1] (d i))) = d := by
        funext i
        have : ∀ x : Fin 4, rc (![0, 0, 1, 1] x) (![0, 1, 0, 1] x) = x := by decide
        exact this _
      unfold mat at h1
      rw [h2] at h1
      exact h1
    · rw [if_neg hne]
      push Not at hne
      have hmv : ((rr.1.ut .m).mem a).v = v := by rw [hma.2]; exact hav
      have hme : ((rr.1.ut .m).mem a).e = ((s.ut .m).mem a).e := by rw [hma.2]
      have hsymm : (mat (s.ut .m) (v + 1) ⟨some a, 1⟩).transpose = mat (s.ut .m) (v + 1) ⟨some a, 1⟩ := by
        rw [node_symm_iff]
        refine ⟨s0.1 hc.1, s3.1 hc.2, ?_⟩
        rw [← e2, ← hne]
        exact t4.symm
      have hX1 : ∀ x ∈ insert a X, v ≤ ((rr.1.ut .m).mem x).v := by
        intro x hx
        rw [((t2 .m).old x (hX' x hx).1).2]
        exact (hX' x hx).2
      have i0 := t1.isIdent_iff ((hch 0).mono (t2.le .m)) hX1
      have i3 := t1.isIdent_iff ((hch 3).mono (t2.le .m)) hX1
      have hmm : mat (rr.1.ut .m) (v + 1) ⟨some a, 1⟩ = mat (s.ut .m) (v + 1) ⟨some a, 1⟩ :=
        mat_mono (t2.le .m) (h.tab .m).child ⟨ha, by rw [hav], one_ne_zero⟩
      refine ⟨?_, rr.1, t2, ?_⟩
      · refine setMarks_PWF t1 hma.1 true _ ?_ ?_ ?_
        · simp only [true_iff]
          rw [nodeSymm_at hmv, hmm]; exact hsymm
        · rw [nodeIdent_at hmv, node_ident_iff, hme, ← i0, ← i3]
          have z1 : mat (rr.1.ut .m) v (((s.ut .m).mem a).e 1) = 0 ↔ (((s.ut .m).mem a).e 1).w = 0 :=
            ⟨mat_apply_ne _ (t1.tab .m) ((hch 1).mono (t2.le .m)), mat_w_zero⟩
          have z2 : mat (rr.1.ut .m) v (((s.ut .m).mem a).e 2) = 0 ↔ (((s.ut .m).mem a).e 2).w = 0 :=
            ⟨mat_apply_ne _ (t1.tab .m) ((hch 2).mono (t2.le .m)), mat_w_zero⟩
          rw [z1, z2]
          simp only [Bool.and_eq_true, decide_eq_true_eq]
          tauto
        · intro x hx; exact hx
      · refine ⟨fun k hk => Pkg.setUt_ne _ hk _, ?_⟩
        rw [Pkg.setUt_same]
        refine ⟨rfl, rfl, rfl, rfl, rfl, ?_, ?_, ?_, ?_⟩
        · intro b hb; simp [UTable.setMem, hb]
        · simp [UTable.setMem]
        · simp [UTable.setMem]
        · simp [UTable.setMem]

variable [HasSqrt R] [LawfulSqrt R]

/-- What an operation that returns a diagram over `l` qubits of kind `k` with value `f` guarantees. -/
structure OpSpec (P : PCfg R) (X : Set Nat) (s : Pkg R) (k : Kind) (l : Nat) (f : (Fin l → Fin (ar k)) → Cx R)
    (r : Pkg R × PEdge R) : Prop where
  wf : PWF P r.1 X
  ext : PExt s r.1
  valid : Valid (r.1.ut k) l r.2
  val : ∀ d, amp (r.1.ut k) l r.2 d = f d

/-- Replacing the table of kind `k` by an extension keeps the state well formed. -/
theorem setUt_PWF {P : PCfg R} {s : Pkg R} {X Y : Set Nat} {k : Kind} {t' : UTable (Cx R) (ar k)} (h : PWF P s X)
    (hd : DDWF (P.uH k) t') (he : TExt (s.ut k) t') (hXY : ∀ x ∈ X, x ∈ Y)
    (hnew : k = .m → ∀ a ∈ t'.all, a ∉ (s.ut k).all → a ∈ Y ∧ (t'.mem a).symm = false ∧ (t'.mem a).ident = false) :
    PWF P (s.setUt k t') Y := by
  have hext := PExt.setUt (s := s) he
  refine h.transfer ?_ ?_ (fun k' => hext.le k') rfl rfl rfl rfl rfl rfl rfl
  · intro k'
    by_cases hk : k' = k
    · subst hk; rw [Pkg.setUt_same]; exact hd
    · rw [Pkg.setUt_ne s hk]; exact h.tab k'
  · cases k with
    | m =>
      rw [Pkg.setUt_same]
      exact h.marks.extend (h.tab .m).child he hXY (hnew rfl)
    | v =>
      rw [Pkg.setUt_ne s (by decide)]
      exact h.marks.extend (h.tab .m).child (TExt.refl _) hXY (fun a ha hna => absurd ha hna)

/-- `makeDDNode`. -/
theorem makeNodeWith_spec {P : PCfg R} (hC : 0 < P.C.growth) {tr : Pkg R → PEdge R → Pkg R × PEdge R} {s : Pkg R}
    {X : Set Nat} {k : Kind} {v : Nat} {es : Fin (ar k) → PEdge R} (cached : Bool) (h : PWF P s X)
    (hv : v < (s.ut k).nvars) (hX : ∀ x ∈ X, x ∈ (s.ut .m).all ∧ v < ((s.ut .m).mem x).v) (htr : TrSpec P v tr)
    (hes : ∀ i, Valid (s.ut k) v (es i)) :
    OpSpec P X s k (v + 1) (fun d => amp (s.ut k) v (es (d (Fin.last v))) (Fin.init d))
      (Pkg.makeNodeWith tr P k s v es cached) := by
  unfold Pkg.makeNodeWith
  dsimp only
  cases hn : Pkg.norm k cached es with
  | none =>
    rw [norm_none] at hn
    dsimp only
    have hdd : DDWF (P.uH k) (if cached = true then ((s.ut k).getNode P.C).1
        else ((s.ut k).getNode P.C).1.returnNode ((s.ut k).getNode P.C).2) ∧
        TExt (s.ut k) (if cached = true then ((s.ut k).getNode P.C).1
        else ((s.ut k).getNode P.C).1.returnNode ((s.ut k).getNode P.C).2) ∧
        (if cached = true then ((s.ut k).getNode P.C).1
        else ((s.ut k).getNode P.C).1.returnNode ((s.ut k).getNode P.C).2).all = (s.ut k).all := by
      split
      · exact getNode_DDWF hC (h.tab k)
      · exact getReturn_DDWF hC (h.tab k)
    generalize (if cached = true then ((s.ut k).getNode P.C).1
        else ((s.ut k).getNode P.C).1.returnNode ((s.ut k).getNode P.C).2) = t' at hdd
    refine ⟨?_, PExt.setUt hdd.2.1, valid_zeroE _ _, ?_⟩
    · refine setUt_PWF h hdd.1 hdd.2.1 (fun _ hx => hx) ?_
      intro _ a ha hna
      rw [hdd.2.2] at ha
      exact absurd ha hna
    · intro d
      rw [amp_zeroE, amp_w_zero (hn _)]
  | some we =>
    obtain ⟨w, es'⟩ := we
    have hns := norm_spec hn
    have hes' := NormSpec.valid hn hes
    dsimp only
    generalize hg : (s.ut k).getNode P.C = g
    generalize hl : (g.1.setMem g.2 ⟨v, es', (g.1.mem g.2).ref, false, false⟩).lookup (P.uH k) g.2 = l
    obtain ⟨i1, i2, i3, i4, i5, i6, i7⟩ := insert_DDWF hC (h.tab k) hv hes' hns.norm g hg l hl
    -- value and validity in any later state that keeps the node
    have fin : ∀ s' : Pkg R, PWF P s' X → PExt s s' → l.2 ∈ (s'.ut k).all → ((s'.ut k).mem l.2).v = v →
        ((s'.ut k).mem l.2).e = es' →
        OpSpec P X s k (v + 1) (fun d => amp (s.ut k) v (es (d (Fin.last v))) (Fin.init d)) (s', ⟨some l.2, w⟩) := by
      intro s' h1 h2 h3 h4 h5
      refine ⟨h1, h2, ⟨h3, by rw [h4], hns.ne⟩, ?_⟩
      rw [forall_snoc]
      intro d i
      rw [hns.amp h5, Fin.snoc_last, Fin.init_snoc]
      exact amp_mono (h2.le k) (h.tab k).child (hes i) d
    have hext := PExt.setUt (s := s) i2
    by_cases hc : l.2 = g.2 ∧ k = .m
    · rw [if_pos hc]
      obtain ⟨hc1, rfl⟩ := hc
      obtain ⟨j1, j2, j3, j4⟩ := i7 hc1
      have h3 : PWF P (s.setUt .m l.1) (insert l.2 X) := by
        refine setUt_PWF h i1 i2 (fun _ hx => Or.inr hx) ?_
        intro _ a ha hna
        rcases j4 a ha with rfl | ha'
        · exact ⟨Or.inl rfl, j3, j2⟩
        · exact absurd ha' hna
      have hX3 : ∀ x ∈ X, x ∈ ((s.setUt .m l.1).ut .m).all ∧ v < (((s.setUt .m l.1).ut .m).mem x).v := by
        intro x hx
        obtain ⟨x1, x2⟩ := hX x hx
        have := (hext .m).old x x1
        exact ⟨this.1, by rw [this.2]; exact x2⟩
      obtain ⟨c1, s1, c2, c3⟩ := checkSpecial_spec (tr := tr) (a := l.2) (v := v) h3 hX3
        (by rw [Pkg.setUt_same]; exact i3) (by rw [Pkg.setUt_same]; exact i4) (by rw [Pkg.setUt_same]; exact j2)
        (by rw [Pkg.setUt_same]; exact j3) htr
      obtain ⟨b0, b1, b2, b3, b4, b5, b6, b7, b8, b9⟩ := c3
      have ha1 := (c2 .m).old l.2 (by rw [Pkg.setUt_same]; exact i3)
      rw [Pkg.setUt_same] at ha1
      have hse := hext.trans c2
      refine fin _ c1 ?_ ?_ ?_ ?_
      · intro k'
        cases k' with
        | v => rw [b0 .v (by decide)]; exact hse .v
        | m =>
          have hm := hse .m
          refine ⟨b2.trans hm.nvars, b3.trans hm.nbucket, ?_, ?_, b4.trans hm.active, b5.trans hm.activeCount⟩
          · intro a ha
            have hne : a ≠ l.2 := fun e => j1 (e ▸ ha)
            rw [b1, b6 a hne]; exact hm.old a ha
          · intro a ha hna
            rw [b1] at ha
            by_cases hal : a = l.2
            · subst hal; rw [b9]; exact hm.new _ ha hna
            · rw [b6 a hal]; exact hm.new a ha hna
      · rw [b1]; exact ha1.1
      · rw [b7, ha1.2]; exact i4
      · rw [b8, ha1.2]; exact i5
    · rw [if_neg hc]
      refine fin _ ?_ hext (by rw [Pkg.setUt_same]; exact i3) (by rw [Pkg.setUt_same]; exact i4)
        (by rw [Pkg.setUt_same]; exact i5)
      refine setUt_PWF h i1 i2 (fun _ hx => hx) ?_
      intro hk a ha hna
      exact absurd (i6 (fun e => hc ⟨e, hk⟩) a ha) hna

/-- Evaluating several operations one after the other. -/
theorem seqOp {P : PCfg R} {X : Set Nat} {s : Pkg R} {k : Kind} {l n : Nat} {f : Fin n → Pkg R → Pkg R × PEdge R}
    {F : Fin n → (Fin l → Fin (ar k)) → Cx R} (h : PWF P s X)
    (hf : ∀ i s', PWF P s' X → PExt s s' → OpSpec P X s' k l (F i) (f i s')) :
    PWF P (seqFin n f s).1 X ∧ PExt s (seqFin n f s).1 ∧
      ∀ i, Valid ((seqFin n f s).1.ut k) l ((seqFin n f s).2 i) ∧
        ∀ d, amp ((seqFin n f s).1.ut k) l ((seqFin n f s).2 i) d = F i d := by
  refine seqFin_spec (fun s' => PWF P s' X) PExt PExt.refl (fun h h' => h.trans h') n f
    (fun i s' b => Valid (s'.ut k) l b ∧ ∀ d, amp (s'.ut k) l b d = F i d) ?_ s h ?_
  · intro i s1 s2 b h12 h1 hb
    refine ⟨hb.1.mono (h12.le k), fun d => ?_⟩
    rw [amp_mono (h12.le k) (h1.tab k).child hb.1]; exact hb.2 d
  · intro i s' hs' he
    have := hf i s' hs' he
    exact ⟨this.wf, this.ext, this.valid, this.val⟩

/-- Row and column bits exchanged. -/
def swapD {l : Nat} (d : Fin l → Fin 4) : Fin l → Fin 4 := fun i => ![0, 2, 1, 3] (d i)

/-- The digits of a row and a column, and back. -/
theorem rc_surj {l : Nat} (d : Fin l → Fin 4) :
    (fun i => rc (![0, 0, 1, 1] (d i)) (![0, 1, 0, 1] (d i))) = d := by
  funext i
  have : ∀ x : Fin 4, rc (![0, 0, 1, 1] x) (![0, 1, 0, 1] x) = x := by decide
  exact this _

theorem swapD_rc {l : Nat} (r c : Fin l → Fin 2) : swapD (fun i => rc (r i) (c i)) = fun i => rc (c i) (r i) := by
  funext i
  have : ∀ x y : Fin 2, ![0, 2, 1, 3] (rc x y) = rc y x := by decide
  exact this _ _

theorem swapD_snoc {l : Nat} (d : Fin l → Fin 4) (i : Fin 4) :
    swapD (Fin.snoc (α := fun _ => Fin 4) d i) = Fin.snoc (α := fun _ => Fin 4) (swapD d) (![0, 2, 1, 3] i) := by
  funext x
  refine Fin.lastCases ?_ ?_ x
  · simp [swapD]
  · intro y; simp [swapD]

omit [LinearOrder R] [IsStrictOrderedRing R] [HasSqrt R] [LawfulSqrt R] in
theorem mat_ext_amp {t t' : UTable (Cx R) 4} {l : Nat} {x y : PEdge R} :
    mat t l x = mat t' l y ↔ ∀ d, amp t l x d = amp t' l y d := by
  constructor
  · intro h d
    have := congrFun (congrFun h (fun i => ![0, 0, 1, 1] (d i))) (fun i => ![0, 1, 0, 1] (d i))
    unfold mat at this
    rw [rc_surj] at this
    exact this
  · intro h; funext r c; exact h _

omit [LinearOrder R] [IsStrictOrderedRing R] [HasSqrt R] [LawfulSqrt R] in
theorem mat_transpose_iff {t t' : UTable (Cx R) 4} {l : Nat} {x y : PEdge R} :
    mat t l x = (mat t' l y).transpose ↔ ∀ d, amp t l x d = amp t' l y (swapD d) := by
  constructor
  · intro h d
    have := congrFun (congrFun h (fun i => ![0, 0, 1, 1] (d i))) (fun i => ![0, 1, 0, 1] (d i))
    rw [Matrix.transpose_apply] at this
    unfold mat at this
    rw [rc_surj] at this
    rw [this]
    conv_rhs => rw [← rc_surj d]
    rw [swapD_rc]
  · intro h; funext r c
    rw [Matrix.transpose_apply]
    unfold mat
    rw [h, swapD_rc]

theorem transposeF_spec {P : PCfg R} (hC : 0 < P.C.growth) : ∀ l, TrSpec P l (Pkg.transposeF P l) := by
  intro l
  induction l with
  | zero =>
    intro s X e h _ hv
    refine ⟨h, PExt.refl _, hv, ?_⟩
    funext r c
    rw [Matrix.transpose_apply, Subsingleton.elim r c]; rfl
  | succ l ih =>
    intro s X e h hX hv
    have triv : (mat (s.ut .m) (l + 1) e).transpose = mat (s.ut .m) (l + 1) e →
        PWF P s X ∧ PExt s s ∧ Valid (s.ut .m) (l + 1) e ∧
        mat (s.ut .m) (l + 1) e = (mat (s.ut .m) (l + 1) e).transpose := fun he => ⟨h, PExt.refl _, hv, he.symm⟩
    unfold Pkg.transposeF
    cases hp : e.p with
    | none =>
      apply triv
      rw [valid_none hp] at hv
      rw [mat_w_zero (hv.resolve_left (by omega))]; rfl
    | some a =>
      dsimp only
      have hv' := hv
      rw [valid_some hp] at hv'
      obtain ⟨ha, hl, hw⟩ := hv'
      have hl' : ((s.ut .m).mem a).v = l := by omega
      by_cases hs : ((s.ut .m).mem a).symm = true
      · rw [if_pos hs]
        apply triv
        rw [mat_smul e, hp, Matrix.transpose_smul, (nodeSymm_at hl').1 (h.marks.symm a ha hs)]
      · rw [if_neg hs]
        cases hk : Pkg.look P.transH s.transC e with
        | some r =>
          obtain ⟨l', h1, h2, h3⟩ := h.transC.look hk
          have := hv.level h1 hw
          subst this
          exact ⟨h, PExt.refl _, h2, h3⟩
        | none =>
          dsimp only
          have hch := fun i => (h.tab .m).childAt ha hl' i
          obtain ⟨q1, q2, q3⟩ := seqOp (k := .m) (l := l) (n := 4)
            (f := fun idx s' => Pkg.transposeF P l s' (((s.ut .m).mem a).e (![0, 2, 1, 3] idx)))
            (F := fun idx d => amp (s.ut .m) l (((s.ut .m).mem a).e (![0, 2, 1, 3] idx)) (swapD d)) h (by
              intro i s' hs' he
              obtain ⟨t1, t2, t3, t4⟩ := ih s' X (((s.ut .m).mem a).e (![0, 2, 1, 3] i)) hs' (by
                intro x hx
                obtain ⟨x1, x2⟩ := hX x hx
                have := (he .m).old x x1
                exact ⟨this.1, by rw [this.2]; omega⟩) ((hch _).mono (he.le .m))
              refine ⟨t1, t2, t3, ?_⟩
              rw [mat_transpose_iff] at t4
              intro d
              rw [t4 d]
              exact amp_mono (he.le .m) (h.tab .m).child (hch _) _)
          generalize seqFin 4 (fun idx s' => Pkg.transposeF P l s' (((s.ut .m).mem a).e (![0, 2, 1, 3] idx))) s = q
            at q1 q2 q3
          have hX2 : ∀ x ∈ X, x ∈ (q.1.ut .m).all ∧ l < ((q.1.ut .m).mem x).v := by
            intro x hx
            obtain ⟨x1, x2⟩ := hX x hx
            have := (q2 .m).old x x1
            exact ⟨this.1, by rw [this.2]; omega⟩
          have hnv : l < (q.1.ut .m).nvars := by
            rw [(q2 .m).nvars, ← hl']
            exact ((h.tab .m).uwf.mem_bucket ha).1
          rw [hl']
          have hm := makeNodeWith_spec (k := .m) hC false q1 hnv hX2 ih (fun i => (q3 i).1)
          generalize Pkg.makeNodeWith (Pkg.transposeF P l) P .m q.1 l q.2 false = r at hm
          have hext := q2.trans hm.ext
          have hres : Valid (r.1.ut .m) (l + 1) ⟨r.2.p, r.2.w * e.w⟩ := by
            rw [mul_comm]; exact hm.valid.scale hw
          have hmat : mat (r.1.ut .m) (l + 1) ⟨r.2.p, r.2.w * e.w⟩ = (mat (s.ut .m) (l + 1) e).transpose := by
            rw [mat_transpose_iff, forall_snoc]
            intro d i
            rw [mul_comm, amp_smul, swapD_snoc, amp_snoc hp]
            have := hm.val (Fin.snoc (α := fun _ => Fin 4) d i)
            rw [Fin.snoc_last, Fin.init_snoc, (q3 i).2] at this
            change amp (r.1.ut .m) (l + 1) r.2 _ = _ at this
            rw [this]
          refine ⟨⟨hm.wf.tab, hm.wf.marks, hm.wf.addC, hm.wf.mulC, hm.wf.kronC, hm.wf.innerC, ?_, hm.wf.conjC,
            hm.wf.idTab⟩, hext, hres, hmat⟩
          refine hm.wf.transC.insert _ ⟨l + 1, hv.mono (hext.le .m), hres, ?_⟩
          rw [hmat]
          congr 1
          exact (mat_mono (hext.le .m) (h.tab .m).child hv).symm

/-- `makeDDNode` on valid edges of level `v`. -/
theorem makeDDNode_spec {P : PCfg R} (hC : 0 < P.C.growth) {s : Pkg R} {X : Set Nat} {k : Kind} {v : Nat}
    {es : Fin (ar k) → PEdge R} (cached : Bool) (h : PWF P s X) (hv : v < (s.ut k).nvars)
    (hX : ∀ x ∈ X, x ∈ (s.ut .m).all ∧ v < ((s.ut .m).mem x).v) (hes : ∀ i, Valid (s.ut k) v (es i)) :
    OpSpec P X s k (v + 1) (fun d => amp (s.ut k) v (es (d (Fin.last v))) (Fin.init d))
      (Pkg.makeDDNode P k s v es cached) :=
  makeNodeWith_spec hC cached h hv hX (transposeF_spec hC v) hes

end marks

end DD
