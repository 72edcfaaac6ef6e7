import Verif.Proofs.MakeNode

/-! # `add` and `conjugateTranspose` -/

namespace DD

variable {R : Type} [Field R] [LinearOrder R] [IsStrictOrderedRing R] [HasSqrt R] [LawfulSqrt R]

/-- The set of nodes under construction is empty outside of `makeDDNode`. -/
theorem noX {s : Pkg R} {v : Nat} : ∀ x ∈ (∅ : Set Nat), x ∈ (s.ut .m).all ∧ v < ((s.ut .m).mem x).v :=
  fun _ hx => hx.elim

/-- An operation that does not change the state. -/
theorem OpSpec.pure {P : PCfg R} {s : Pkg R} {k : Kind} {l : Nat} {f : (Fin l → Fin (ar k)) → Cx R} {e : PEdge R}
    (h : PWF P s ∅) (hv : Valid (s.ut k) l e) (ha : ∀ d, amp (s.ut k) l e d = f d) : OpSpec P ∅ s k l f (s, e) :=
  ⟨h, PExt.refl _, hv, ha⟩

theorem OpSpec.congr {P : PCfg R} {X : Set Nat} {s : Pkg R} {k : Kind} {l : Nat} {f g : (Fin l → Fin (ar k)) → Cx R}
    {r : Pkg R × PEdge R} (h : OpSpec P X s k l f r) (hfg : ∀ d, f d = g d) : OpSpec P X s k l g r :=
  ⟨h.wf, h.ext, h.valid, fun d => (h.val d).trans (hfg d)⟩

theorem addChild_spec {P : PCfg R} {s : Pkg R} {k : Kind} {l : Nat} {x : PEdge R} (h : PWF P s ∅)
    (hx : Valid (s.ut k) (l + 1) x) (hw : x.w ≠ 0) (i : Fin (ar k)) :
    Valid (s.ut k) l (Pkg.addChild s k x l i) ∧
      ∀ d, amp (s.ut k) l (Pkg.addChild s k x l i) d =
        amp (s.ut k) (l + 1) x (Fin.snoc (α := fun _ => Fin (ar k)) d i) := by
  obtain ⟨a, hp, ha, hl⟩ := hx.exists_node hw
  have hch := (h.tab k).childAt ha hl i
  unfold Pkg.addChild
  rw [hp]
  dsimp only
  rw [if_pos hl]
  by_cases hz : (((s.ut k).mem a).e i).w ≠ 0
  · rw [if_pos hz]
    refine ⟨?_, fun d => ?_⟩
    · rw [mul_comm]; exact hch.scale hw
    · rw [mul_comm, amp_smul, amp_snoc hp]
  · rw [if_neg hz]
    push Not at hz
    refine ⟨hch, fun d => ?_⟩
    rw [amp_snoc hp, amp_w_zero hz, mul_zero]

theorem add2F_spec {P : PCfg R} (hC : 0 < P.C.growth) {k : Kind} : ∀ (l : Nat) (s : Pkg R) (x y : PEdge R), PWF P s ∅ →
    Valid (s.ut k) l x → Valid (s.ut k) l y →
    OpSpec P ∅ s k l (fun d => amp (s.ut k) l x d + amp (s.ut k) l y d) (Pkg.add2F P k l s x y) := by
  intro l
  induction l with
  | zero =>
    intro s x y h hx hy
    unfold Pkg.add2F
    dsimp only
    have hpx := hx.term
    have hpy := hy.term
    split_ifs with h1 h2 h3 h4 h5
    · exact .pure h (valid_zeroE _ _) (fun d => by rw [amp_w_zero h1, amp_w_zero h2]; simp)
    · exact .pure h hy (fun d => by rw [amp_w_zero h1]; simp)
    · exact .pure h hx (fun d => by rw [amp_w_zero h3]; simp)
    · refine .pure h (valid_zeroE _ _) (fun d => ?_)
      rw [amp_zeroE]; exact h5.symm
    · rw [hpy]
      exact .pure h (valid_term _ _) (fun d => rfl)
    · exact absurd (hpx.trans hpy.symm) h4
  | succ l ih =>
    intro s x y h hx hy
    unfold Pkg.add2F
    dsimp only
    split_ifs with h1 h2 h3 h4 h5
    · exact .pure h (valid_zeroE _ _) (fun d => by rw [amp_w_zero h1, amp_w_zero h2]; simp)
    · exact .pure h hy (fun d => by rw [amp_w_zero h1]; simp)
    · exact .pure h hx (fun d => by rw [amp_w_zero h3]; simp)
    · refine .pure h (valid_zeroE _ _) (fun d => ?_)
      rw [amp_eq_smul _ _ x, amp_eq_smul _ _ y, h4, ← add_mul, h5]; simp
    · refine .pure h (hy.reweight h3 h5) (fun d => ?_)
      rw [amp_eq_smul _ _ x, amp_eq_smul _ _ y, h4, ← add_mul, amp_eq_smul]
    · cases hk : Pkg.look (P.addH k) (s.addC k) (x, y) with
      | some r =>
        dsimp only
        obtain ⟨l', a1, a2, a3, a4⟩ := (h.addC k).look hk
        have hl := hx.level a1 h1
        subst hl
        split_ifs with hr
        · refine .pure h (valid_zeroE _ _) (fun d => ?_)
          rw [← a4 d, amp_w_zero hr, amp_zeroE]
        · exact .pure h a3 a4
      | none =>
        dsimp only
        have hlv : max (s.lv k x) (s.lv k y) - 1 = l := by
          unfold Pkg.lv
          rw [hx.lvl h1, hy.lvl h3]; simp
        rw [hlv]
        obtain ⟨q1, q2, q3⟩ := seqOp (k := k) (l := l)
          (f := fun i s' => Pkg.add2F P k l s' (Pkg.addChild s k x l i) (Pkg.addChild s k y l i))
          (F := fun i d => amp (s.ut k) (l + 1) x (Fin.snoc (α := fun _ => Fin (ar k)) d i) +
            amp (s.ut k) (l + 1) y (Fin.snoc (α := fun _ => Fin (ar k)) d i)) h (by
            intro i s' hs' he
            obtain ⟨x1, x2⟩ := addChild_spec h hx h1 i
            obtain ⟨y1, y2⟩ := addChild_spec h hy h3 i
            refine (ih s' _ _ hs' (x1.mono (he.le k)) (y1.mono (he.le k))).congr (fun d => ?_)
            rw [amp_mono (he.le k) (h.tab k).child x1, amp_mono (he.le k) (h.tab k).child y1, x2, y2])
        generalize seqFin (ar k) (fun i s' => Pkg.add2F P k l s' (Pkg.addChild s k x l i) (Pkg.addChild s k y l i)) s = q
          at q1 q2 q3
        have hnv : l < (q.1.ut k).nvars := by
          obtain ⟨a, hp, ha, hl⟩ := hx.exists_node h1
          rw [(q2 k).nvars, ← hl]
          exact ((h.tab k).uwf.mem_bucket ha).1
        have hm := makeDDNode_spec hC true q1 hnv noX (fun i => (q3 i).1)
        generalize Pkg.makeDDNode P k q.1 l q.2 true = r at hm
        have hext := q2.trans hm.ext
        have hval : ∀ d, amp (r.1.ut k) (l + 1) r.2 d = amp (s.ut k) (l + 1) x d + amp (s.ut k) (l + 1) y d := by
          rw [forall_snoc]
          intro d i
          rw [hm.val, Fin.snoc_last, Fin.init_snoc, (q3 i).2]
        refine ⟨⟨hm.wf.tab, hm.wf.marks, ?_, hm.wf.mulC, hm.wf.kronC, hm.wf.innerC, hm.wf.transC, hm.wf.conjC,
          hm.wf.idTab⟩, hext, hm.valid, hval⟩
        intro k'
        by_cases hkk : k' = k
        · subst hkk
          dsimp only
          rw [Function.update_self]
          refine (hm.wf.addC k').insert _ ⟨l + 1, hx.mono (hext.le k'), hy.mono (hext.le k'), hm.valid, fun d => ?_⟩
          rw [hval, amp_mono (hext.le k') (h.tab k').child hx, amp_mono (hext.le k') (h.tab k').child hy]
        · dsimp only
          rw [Function.update_of_ne hkk]
          exact hm.wf.addC k'

/-- `add` of two diagrams of the same number of qubits. -/
theorem add_spec {P : PCfg R} (hC : 0 < P.C.growth) {k : Kind} {l : Nat} {s : Pkg R} {x y : PEdge R} (h : PWF P s ∅)
    (hx : Valid (s.ut k) l x) (hy : Valid (s.ut k) l y) :
    OpSpec P ∅ s k l (fun d => amp (s.ut k) l x d + amp (s.ut k) l y d) (Pkg.add P k s x y) := by
  unfold Pkg.add
  by_cases hxw : x.w = 0
  · unfold Pkg.add2F
    rw [if_pos hxw]
    split_ifs with hyw
    · exact .pure h (valid_zeroE _ _) (fun d => by rw [amp_w_zero hxw, amp_w_zero hyw]; simp)
    · exact .pure h hy (fun d => by rw [amp_w_zero hxw]; simp)
  · have : max (s.lv k x) (s.lv k y) = l := by
      unfold Pkg.lv; rw [hx.lvl hxw]; exact max_eq_left hy.lvl_le
    rw [this]
    exact add2F_spec hC l s x y h hx hy

theorem transpose_spec {P : PCfg R} (hC : 0 < P.C.growth) {l : Nat} {s : Pkg R} {a : PEdge R} (h : PWF P s ∅)
    (ha : Valid (s.ut .m) l a) :
    OpSpec P ∅ s .m l (fun d => amp (s.ut .m) l a (swapD d)) (Pkg.transpose P s a) := by
  unfold Pkg.transpose
  by_cases hw : a.w = 0
  · have hp := ha.p_none hw
    have : Pkg.transposeF P (s.lv .m a) s a = (s, a) := by
      unfold Pkg.transposeF
      cases s.lv .m a with
      | zero => rfl
      | succ n => simp only [hp]
    rw [this]
    exact .pure h ha (fun d => by rw [amp_w_zero hw, amp_w_zero hw])
  · have : s.lv .m a = l := ha.lvl hw
    rw [this]
    obtain ⟨t1, t2, t3, t4⟩ := transposeF_spec hC l s ∅ a h (fun _ hx => hx.elim) ha
    exact ⟨t1, t2, t3, fun d => by rw [mat_transpose_iff] at t4; exact t4 d⟩

omit [LinearOrder R] [IsStrictOrderedRing R] [HasSqrt R] [LawfulSqrt R] in
theorem mat_conjTranspose_iff {t t' : UTable (Cx R) 4} {l : Nat} {x y : PEdge R} :
    mat t l x = (mat t' l y).transpose.map Cx.conj ↔ ∀ d, amp t l x d = (amp t' l y (swapD d)).conj := by
  constructor
  · intro h d
    have := congrFun (congrFun h (fun i => ![0, 0, 1, 1] (d i))) (fun i => ![0, 1, 0, 1] (d i))
    rw [Matrix.map_apply, Matrix.transpose_apply] at this
    unfold mat at this
    rw [rc_surj] at this
    rw [this]
    conv_rhs => rw [← rc_surj d]
    rw [swapD_rc]
  · intro h; funext r c
    rw [Matrix.map_apply, Matrix.transpose_apply]
    unfold mat
    rw [h, swapD_rc]

theorem conj_ne_zero {a : Cx R} (h : a ≠ 0) : a.conj ≠ 0 := by
  intro hc; apply h; rw [← Cx.conj_conj a, hc, Cx.conj_zero]

theorem conjTransposeF_spec {P : PCfg R} (hC : 0 < P.C.growth) : ∀ (l : Nat) (s : Pkg R) (e : PEdge R), PWF P s ∅ →
    Valid (s.ut .m) l e →
    OpSpec P ∅ s .m l (fun d => (amp (s.ut .m) l e (swapD d)).conj) (Pkg.conjTransposeF P l s e) := by
  intro l
  induction l with
  | zero =>
    intro s e h hv
    unfold Pkg.conjTransposeF
    rw [hv.term]
    exact .pure h (valid_term _ _) (fun d => rfl)
  | succ l ih =>
    intro s e h hv
    unfold Pkg.conjTransposeF
    cases hp : e.p with
    | none =>
      rw [valid_none hp] at hv
      have hw := hv.resolve_left (by omega)
      dsimp only
      rw [hw, Cx.conj_zero]
      refine .pure h (valid_zeroE _ _) (fun d => ?_)
      rw [amp_w_zero hw, Cx.conj_zero]; rfl
    | some a =>
      dsimp only
      have hv' := hv
      rw [valid_some hp] at hv'
      obtain ⟨ha, hl, hw⟩ := hv'
      have hl' : ((s.ut .m).mem a).v = l := by omega
      cases hk : Pkg.look P.conjH s.conjC e with
      | some r =>
        obtain ⟨l', h1, h2, h3⟩ := h.conjC.look hk
        have := hv.level h1 hw
        subst this
        rw [mat_conjTranspose_iff] at h3
        exact .pure h h2 h3
      | none =>
        dsimp only
        have hch := fun i => (h.tab .m).childAt ha hl' i
        obtain ⟨q1, q2, q3⟩ := seqOp (k := .m) (l := l) (n := 4)
          (f := fun idx s' => Pkg.conjTransposeF P l s' (((s.ut .m).mem a).e (![0, 2, 1, 3] idx)))
          (F := fun idx d => (amp (s.ut .m) l (((s.ut .m).mem a).e (![0, 2, 1, 3] idx)) (swapD d)).conj) h (by
            intro i s' hs' he
            refine (ih s' (((s.ut .m).mem a).e (![0, 2, 1, 3] i)) hs' ((hch _).mono (he.le .m))).congr (fun d => ?_)
            rw [amp_mono (he.le .m) (h.tab .m).child (hch _)])
        generalize seqFin 4 (fun idx s' => Pkg.conjTransposeF P l s' (((s.ut .m).mem a).e (![0, 2, 1, 3] idx))) s = q
          at q1 q2 q3
        have hnv : l < (q.1.ut .m).nvars := by
          rw [(q2 .m).nvars, ← hl']
          exact ((h.tab .m).uwf.mem_bucket ha).1
        rw [hl']
        have hm := makeDDNode_spec (k := .m) hC false q1 hnv noX (fun i => (q3 i).1)
        generalize Pkg.makeDDNode P .m q.1 l q.2 false = r at hm
        have hext := q2.trans hm.ext
        have hres : Valid (r.1.ut .m) (l + 1) ⟨r.2.p, r.2.w * e.w.conj⟩ := by
          rw [mul_comm]; exact hm.valid.scale (conj_ne_zero hw)
        have hval : ∀ d, amp (r.1.ut .m) (l + 1) ⟨r.2.p, r.2.w * e.w.conj⟩ d =
            (amp (s.ut .m) (l + 1) e (swapD d)).conj := by
          rw [forall_snoc]
          intro d i
          rw [mul_comm, amp_smul, swapD_snoc, amp_snoc hp, Cx.conj_mul]
          have := hm.val (Fin.snoc (α := fun _ => Fin 4) d i)
          rw [Fin.snoc_last, Fin.init_snoc, (q3 i).2] at this
          change amp (r.1.ut .m) (l + 1) r.2 _ = _ at this
          rw [this]
        refine ⟨⟨hm.wf.tab, hm.wf.marks, hm.wf.addC, hm.wf.mulC, hm.wf.kronC, hm.wf.innerC, hm.wf.transC, ?_,
          hm.wf.idTab⟩, hext, hres, hval⟩
        refine hm.wf.conjC.insert _ ⟨l + 1, hv.mono (hext.le .m), hres, ?_⟩
        rw [mat_conjTranspose_iff]
        intro d
        rw [hval, amp_mono (hext.le .m) (h.tab .m).child hv]

theorem conjugateTranspose_spec {P : PCfg R} (hC : 0 < P.C.growth) {l : Nat} {s : Pkg R} {a : PEdge R} (h : PWF P s ∅)
    (ha : Valid (s.ut .m) l a) :
    OpSpec P ∅ s .m l (fun d => (amp (s.ut .m) l a (swapD d)).conj) (Pkg.conjugateTranspose P s a) := by
  unfold Pkg.conjugateTranspose
  by_cases hw : a.w = 0
  · have hp := ha.p_none hw
    have : Pkg.conjTransposeF P (s.lv .m a) s a = (s, ⟨none, a.w.conj⟩) := by
      unfold Pkg.conjTransposeF
      cases s.lv .m a with
      | zero => simp only [hp]
      | succ n => simp only [hp]
    rw [this, hw, Cx.conj_zero]
    exact .pure h (valid_zeroE _ _) (fun d => by rw [amp_w_zero hw, Cx.conj_zero]; exact amp_zeroE _ _ _)
  · have : s.lv .m a = l := ha.lvl hw
    rw [this]
    exact conjTransposeF_spec hC l s a h ha

end DD
