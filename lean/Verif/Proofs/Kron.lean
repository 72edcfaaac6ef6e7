import Verif.Proofs.Mul

/-! # `kronecker` and `innerProduct` -/

namespace DD

variable {R : Type} [Field R]

theorem lowD_snoc {n a b : Nat} (d : Fin (b + a) → Fin n) (i : Fin n) :
    lowD (a := a + 1) (Fin.snoc (α := fun _ => Fin n) d i : Fin (b + a + 1) → Fin n) = lowD d := by
  funext x
  show (Fin.snoc (α := fun _ => Fin n) d i : Fin (b + a + 1) → Fin n) (Fin.castAdd a x).castSucc = _
  rw [Fin.snoc_castSucc]; rfl

theorem highD_snoc {n a b : Nat} (d : Fin (b + a) → Fin n) (i : Fin n) :
    highD (a := a + 1) (Fin.snoc (α := fun _ => Fin n) d i : Fin (b + a + 1) → Fin n) =
      Fin.snoc (α := fun _ => Fin n) (highD d) i := by
  funext x
  refine Fin.lastCases ?_ ?_ x
  · show (Fin.snoc (α := fun _ => Fin n) d i : Fin (b + a + 1) → Fin n) (Fin.last (b + a)) = _
    rw [Fin.snoc_last, Fin.snoc_last]
  · intro y
    show (Fin.snoc (α := fun _ => Fin n) d i : Fin (b + a + 1) → Fin n) (Fin.natAdd b y).castSucc = _
    rw [Fin.snoc_castSucc, Fin.snoc_castSucc]; rfl

/-- Entries of the identity matrix, by successor. -/
def idD : (l : Nat) → (Fin l → Fin 4) → Cx R
  | 0, _ => 1
  | l + 1, d => (if d (Fin.last l) = 0 ∨ d (Fin.last l) = 3 then 1 else 0) * idD l (Fin.init d)

theorem one_apply_rc {l : Nat} (r c : Fin l → Fin 2) :
    (1 : Matrix (Fin l → Fin 2) (Fin l → Fin 2) (Cx R)) r c = idD l (fun i => rc (r i) (c i)) := by
  induction l with
  | zero => rw [Subsingleton.elim r c, Matrix.one_apply_eq]; rfl
  | succ l ih =>
    have hr : r = Fin.snoc (α := fun _ => Fin 2) (Fin.init r) (r (Fin.last l)) := (Fin.snoc_init_self r).symm
    have hc : c = Fin.snoc (α := fun _ => Fin 2) (Fin.init c) (c (Fin.last l)) := (Fin.snoc_init_self c).symm
    have h1 : ∀ x y : Fin 2, (rc x y = 0 ∨ rc x y = 3) ↔ x = y := by decide
    show _ = (if rc (r (Fin.last l)) (c (Fin.last l)) = 0 ∨ rc (r (Fin.last l)) (c (Fin.last l)) = 3 then (1 : Cx R) else 0) *
      idD l (fun i => rc (Fin.init r i) (Fin.init c i))
    rw [← ih, Matrix.one_apply, Matrix.one_apply]
    simp only [h1]
    conv_lhs => rw [hr, hc]
    simp only [snoc_inj]
    by_cases h2 : r (Fin.last l) = c (Fin.last l) <;> by_cases h3 : Fin.init r = Fin.init c <;> simp [h2, h3]

variable [LinearOrder R] [IsStrictOrderedRing R]

theorem mat_one_iff {t : UTable (Cx R) 4} {l : Nat} {e : PEdge R} : mat t l e = 1 ↔ ∀ d, amp t l e d = idD l d := by
  constructor
  · intro h d
    have := congrFun (congrFun h (fun i => ![0, 0, 1, 1] (d i))) (fun i => ![0, 1, 0, 1] (d i))
    rw [one_apply_rc] at this
    unfold mat at this
    rw [rc_surj] at this
    exact this
  · intro h
    funext r c
    rw [one_apply_rc]
    exact h _

/-- The weight of a node whose diagonal blocks are the same edge and whose other blocks are zero is that of the edge. -/
theorem DDWF.diag_weight {H : (Fin 4 → PEdge R) → Nat} {t : UTable (Cx R) 4} (h : DDWF (k := .m) H t) {l : Nat}
    {e r : PEdge R} (he : Valid t l e) (hr : Valid t (l + 1) r)
    (hv : ∀ d i, amp t (l + 1) r (Fin.snoc (α := fun _ => Fin 4) d i) = amp t l ((![e, zeroE, zeroE, e] : Fin 4 → PEdge R) i) d) :
    r.w = e.w := by
  by_cases hw : r.w = 0
  · have : e.w = 0 := h.w_zero he (fun d => by
      have := hv d 0
      rw [amp_w_zero hw] at this
      exact this.symm)
    rw [hw, this]
  · obtain ⟨a, hp, ha, hl⟩ := hr.exists_node hw
    have hch := fun i => h.childAt ha hl i
    have hb : ∀ i, (⟨((t.mem a).e i).p, r.w * ((t.mem a).e i).w⟩ : PEdge R) = (![e, zeroE, zeroE, e] : Fin 4 → PEdge R) i := by
      intro i
      refine h.canonical (l := l) ((hch i).scale hw) ?_ (fun d => ?_)
      · fin_cases i
        · exact he
        · exact valid_zeroE _ _
        · exact valid_zeroE _ _
        · exact he
      · rw [← hv, amp_snoc hp, amp_smul]
    have hww : ∀ i, r.w * ((t.mem a).e i).w = ((![e, zeroE, zeroE, e] : Fin 4 → PEdge R) i).w := fun i => by rw [← hb i]
    have h0 : r.w * ((t.mem a).e 0).w = e.w := hww 0
    have h1 : ((t.mem a).e 1).w = 0 := (mul_eq_zero.1 (hww 1)).resolve_left hw
    have h2 : ((t.mem a).e 2).w = 0 := (mul_eq_zero.1 (hww 2)).resolve_left hw
    have h3 : r.w * ((t.mem a).e 3).w = e.w := hww 3
    have h03 : ((t.mem a).e 0).w = ((t.mem a).e 3).w := mul_left_cancel₀ hw (h0.trans h3.symm)
    obtain ⟨j, hj, hle, hlt⟩ := (h.norm a ha : IsNormM _)
    have : ((t.mem a).e 0).w = 1 := by
      fin_cases j
      · exact hj
      · exact absurd (h1.symm.trans hj) (by simp)
      · exact absurd (h2.symm.trans hj) (by simp)
      · exact h03.trans hj
    rw [← h0, this, mul_one]

variable [HasSqrt R] [LawfulSqrt R]

theorem identOnTop_spec {P : PCfg R} (hC : 0 < P.C.growth) : ∀ (n l : Nat) (s : Pkg R) (e : PEdge R),
    PWF P s ∅ → Valid (s.ut .m) l e → e.w ≠ 0 → l + n ≤ (s.ut .m).nvars →
    OpSpec P ∅ s .m (l + n) (fun d => idD n (highD d) * amp (s.ut .m) l e (lowD d)) (Pkg.identOnTop P n s e) ∧
      (Pkg.identOnTop P n s e).2.w = e.w := by
  -- one step at the top: the recursion of `identOnTop` goes from the bottom, so generalise over it
  have step : ∀ (l : Nat) (s : Pkg R) (e : PEdge R), PWF P s ∅ → Valid (s.ut .m) l e → e.w ≠ 0 → l < (s.ut .m).nvars →
      OpSpec P ∅ s .m (l + 1) (fun d => amp (s.ut .m) l ((![e, zeroE, zeroE, e] : Fin 4 → PEdge R) (d (Fin.last l))) (Fin.init d))
        (Pkg.makeDDNode P .m s (s.lv .m e) ![e, zeroE, zeroE, e] false) ∧
      (Pkg.makeDDNode P .m s (s.lv .m e) ![e, zeroE, zeroE, e] false).2.w = e.w := by
    intro l s e h he hw hn
    have hlv : s.lv .m e = l := by unfold Pkg.lv; exact he.lvl hw
    rw [hlv]
    have hm := makeDDNode_spec (k := .m) hC false h hn noX (es := ![e, zeroE, zeroE, e]) (by
      intro i
      fin_cases i
      · exact he
      · exact valid_zeroE _ _
      · exact valid_zeroE _ _
      · exact he)
    refine ⟨hm, ?_⟩
    refine (hm.wf.tab .m).diag_weight (he.mono (hm.ext.le .m)) hm.valid (fun d i => ?_)
    rw [hm.val, Fin.snoc_last, Fin.init_snoc]
    fin_cases i
    · exact (amp_mono (hm.ext.le .m) (h.tab .m).child he d).symm
    · show amp (s.ut .m) l zeroE d = amp _ l zeroE d
      rw [amp_zeroE, amp_zeroE]
    · show amp (s.ut .m) l zeroE d = amp _ l zeroE d
      rw [amp_zeroE, amp_zeroE]
    · exact (amp_mono (hm.ext.le .m) (h.tab .m).child he d).symm
  intro n
  induction n with
  | zero =>
    intro l s e h he hw hn
    exact ⟨.pure h he (fun d => by simp [idD]; rfl), rfl⟩
  | succ n ih =>
    intro l s e h he hw hn
    unfold Pkg.identOnTop
    dsimp only
    obtain ⟨h1, h2⟩ := step l s e h he hw (by omega)
    generalize Pkg.makeDDNode P .m s (s.lv .m e) ![e, zeroE, zeroE, e] false = r at h1 h2
    obtain ⟨h3, h4⟩ := ih (l + 1) r.1 r.2 h1.wf h1.valid (by rw [h2]; exact hw) (by rw [(h1.ext .m).nvars]; omega)
    generalize Pkg.identOnTop P n r.1 r.2 = q at h3 h4
    refine ⟨?_, h4.trans h2⟩
    have hlen : l + 1 + n = l + (n + 1) := by omega
    have hval : ∀ d : Fin (l + 1 + n) → Fin 4, amp (q.1.ut .m) (l + 1 + n) q.2 d =
        idD n (highD d) * ((if d ⟨l, by omega⟩ = 0 ∨ d ⟨l, by omega⟩ = 3 then 1 else 0) *
          amp (s.ut .m) l e (fun i => d ⟨i, by omega⟩)) := by
      intro d
      rw [h3.val, h1.val]
      congr 1
      show amp (s.ut .m) l ((![e, zeroE, zeroE, e] : Fin 4 → PEdge R) (d ⟨l, by omega⟩)) (fun i => d ⟨i, by omega⟩) = _
      generalize d ⟨l, by omega⟩ = x
      generalize (fun i : Fin l => d ⟨i, by omega⟩) = y
      fin_cases x
      · simp
      · simp
      · simp
      · simp
    have hid : ∀ d : Fin (l + 1 + n) → Fin 4, idD n (highD d) *
        (if d ⟨l, by omega⟩ = 0 ∨ d ⟨l, by omega⟩ = 3 then 1 else 0) =
        (idD (n + 1) (fun i : Fin (n + 1) => d ⟨l + i, by omega⟩) : Cx R) := by
      have key : ∀ (n : Nat) (f : Fin (n + 1) → Fin 4), (idD n (fun i => f i.succ) : Cx R) *
          (if f 0 = 0 ∨ f 0 = 3 then 1 else 0) = idD (n + 1) f := by
        intro n
        induction n with
        | zero => intro f; show (1 : Cx R) * _ = _ * 1; rw [mul_comm]; rfl
        | succ n ih2 =>
          intro f
          show (if f (Fin.last n).succ = 0 ∨ f (Fin.last n).succ = 3 then (1 : Cx R) else 0) *
            idD n (fun i => f i.castSucc.succ) * _ = (if f (Fin.last (n + 1)) = 0 ∨ f (Fin.last (n + 1)) = 3 then 1 else 0) *
              idD (n + 1) (Fin.init f)
          rw [← ih2 (Fin.init f), mul_assoc]
          rfl
      intro d
      rw [← key]
      congr 2
      funext i
      show d _ = d _
      congr 1
      ext
      simp
      omega
    -- move to the length of the statement
    obtain ⟨w1, w2, w3, -⟩ := h3
    have hv3 := w3
    have conv : ∀ m (hm : m = l + 1 + n), Valid (q.1.ut .m) m q.2 ∧ ∀ d : Fin m → Fin 4, amp (q.1.ut .m) m q.2 d =
        idD (n + 1) (fun i : Fin (n + 1) => d ⟨l + i, by omega⟩) * amp (s.ut .m) l e (fun i => d ⟨i, by omega⟩) := by
      intro m hm
      subst hm
      refine ⟨w3, fun d => ?_⟩
      rw [hval, ← hid, mul_assoc]
    obtain ⟨c1, c2⟩ := conv (l + (n + 1)) (by omega)
    exact ⟨w1, h1.ext.trans w2, c1, c2⟩


theorem kron2F_spec {P : PCfg R} (hC : 0 < P.C.growth) {k : Kind} {ly : Nat} : ∀ (lx : Nat) (s : Pkg R) (x y : PEdge R),
    PWF P s ∅ → Valid (s.ut k) lx x → Valid (s.ut k) ly y → ly + lx ≤ (s.ut k).nvars →
    OpSpec P ∅ s k (ly + lx) (fun d => kamp (s.ut k) lx x (highD d) * amp (s.ut k) ly y (lowD d))
      (Pkg.kron2F P k lx s x y) := by
  have kz : ∀ {t : UTable (Cx R) (ar k)} {l : Nat} {x : PEdge R} (d), Valid t l x → x.w = 0 → kamp t l x d = 0 := by
    intro t l x d hv h
    cases k with
    | v => exact amp_w_zero h d
    | m =>
      show kampM t l x d = 0
      cases l with
      | zero => exact h
      | succ l => rw [kampM, hv.p_none h]; exact h
  intro lx
  induction lx with
  | zero =>
    intro s x y h hx hy _
    unfold Pkg.kron2F
    split_ifs with h0
    · refine .pure h (valid_zeroE _ _) (fun d => ?_)
      rw [amp_zeroE]
      rcases h0 with h0 | h0
      · rw [kz _ hx h0, zero_mul]
      · rw [amp_w_zero h0, mul_zero]
    · push Not at h0
      rw [hx.term]
      dsimp only
      refine .pure h (hy.scale h0.1) (fun d => ?_)
      rw [amp_smul]
      have : kamp (s.ut k) 0 x (highD d) = x.w := by cases k <;> rfl
      rw [this]
      rfl
  | succ lx ih =>
    intro s x y h hx hy hn
    unfold Pkg.kron2F
    by_cases h0 : x.w = 0 ∨ y.w = 0
    · rw [if_pos h0]
      refine .pure h (valid_zeroE _ _) (fun d => ?_)
      rw [amp_zeroE]
      rcases h0 with h0 | h0
      · rw [kz _ hx h0, zero_mul]
      · rw [amp_w_zero h0, mul_zero]
    · rw [if_neg h0]
      push Not at h0
      obtain ⟨hxw, hyw⟩ := h0
      obtain ⟨a, hp, ha, hl⟩ := hx.exists_node hxw
      simp only [hp]
      -- inserting a result
      have fin : ∀ r : Pkg R × PEdge R,
          OpSpec P ∅ s k (ly + (lx + 1)) (fun d => kamp (s.ut k) (lx + 1) x (highD d) * amp (s.ut k) ly y (lowD d)) r →
          OpSpec P ∅ s k (ly + (lx + 1)) (fun d => kamp (s.ut k) (lx + 1) x (highD d) * amp (s.ut k) ly y (lowD d))
            ({ r.1 with kronC := Function.update r.1.kronC k ((r.1.kronC k).insert (P.kronH k) (x, y) r.2) }, r.2) := by
        intro r hr
        refine ⟨?_, hr.ext, hr.valid, hr.val⟩
        refine ⟨hr.wf.tab, hr.wf.marks, hr.wf.addC, hr.wf.mulC, ?_, hr.wf.innerC, hr.wf.transC, hr.wf.conjC, hr.wf.idTab⟩
        intro k'
        by_cases hkk : k' = k
        · subst hkk
          dsimp only
          rw [Function.update_self]
          refine (hr.wf.kronC k').insert _ ⟨lx + 1, ly, hx.mono (hr.ext.le k'), hy.mono (hr.ext.le k'), hr.valid, fun d => ?_⟩
          rw [hr.val, kamp_mono (hr.ext.le k') (h.tab k').child hx, amp_mono (hr.ext.le k') (h.tab k').child hy]
        · dsimp only
          rw [Function.update_of_ne hkk]
          exact hr.wf.kronC k'
      cases hk : Pkg.look (P.kronH k) (s.kronC k) (x, y) with
      | some r =>
        dsimp only
        obtain ⟨l1, l2, a1, a2, a3, a4⟩ := (h.kronC k).look hk
        have e1 := hx.level a1 hxw
        have e2 := hy.level a2 hyw
        subst e1 e2
        split_ifs with hr
        · refine .pure h (valid_zeroE _ _) (fun d => ?_)
          rw [amp_zeroE, ← a4, amp_w_zero hr]
        · exact .pure h a3 a4
      | none =>
        dsimp only
        by_cases hid : k = .m ∧ ((s.ut k).mem a).ident = true
        · obtain ⟨rfl, hid⟩ := hid
          rw [if_pos ⟨rfl, hid⟩]
          have hni := (nodeIdent_at hl).1 (h.marks.ident a ha hid)
          rw [hl]
          obtain ⟨h1, h2⟩ := identOnTop_spec hC (lx + 1) ly s y h hy hyw hn
          generalize Pkg.identOnTop P (lx + 1) s y = r at h1 h2
          have h3 : (⟨r.2.p, y.w⟩ : PEdge R) = r.2 := by rw [← h2]
          rw [h3]
          refine fin r (h1.congr (fun d => ?_))
          congr 1
          show _ = kampM (s.ut .m) (lx + 1) x (highD d)
          rw [kampM, hp]
          dsimp only
          rw [if_pos hni, mat_one_iff.1 hni]
        · rw [if_neg hid]
          have hlv : s.lv k y + ((s.ut k).mem a).v = ly + lx := by
            unfold Pkg.lv; rw [hy.lvl hyw, hl]
          rw [hlv]
          have hch := fun i => (h.tab k).childAt ha hl i
          obtain ⟨q1, q2, q3⟩ := seqOp (k := k) (l := ly + lx) (n := ar k)
            (f := fun i s' => Pkg.kron2F P k lx s' (((s.ut k).mem a).e i) y)
            (F := fun i d => kamp (s.ut k) lx (((s.ut k).mem a).e i) (highD d) * amp (s.ut k) ly y (lowD d)) h (by
              intro i s' hs' he
              refine (ih s' _ y hs' ((hch i).mono (he.le k)) (hy.mono (he.le k)) (by rw [(he k).nvars]; omega)).congr
                (fun d => ?_)
              rw [kamp_mono (he.le k) (h.tab k).child (hch i), amp_mono (he.le k) (h.tab k).child hy])
          generalize seqFin (ar k) (fun i s' => Pkg.kron2F P k lx s' (((s.ut k).mem a).e i) y) s = q at q1 q2 q3
          have hm := makeDDNode_spec hC true q1 (v := ly + lx) (by rw [(q2 k).nvars]; omega) noX (fun i => (q3 i).1)
          generalize Pkg.makeDDNode P k q.1 (ly + lx) q.2 true = r at hm
          refine fin (r.1, ⟨r.2.p, r.2.w * x.w⟩) ⟨hm.wf, q2.trans hm.ext, ?_, ?_⟩
          · rw [mul_comm]; exact hm.valid.scale hxw
          · show ∀ d : Fin (ly + lx + 1) → Fin (ar k), amp (r.1.ut k) (ly + lx + 1) ⟨r.2.p, r.2.w * x.w⟩ d = _
            rw [forall_snoc]
            intro d i
            rw [mul_comm, amp_smul, highD_snoc, lowD_snoc]
            show x.w * amp (r.1.ut k) (ly + lx + 1) r.2 _ = _
            rw [hm.val, Fin.snoc_last, Fin.init_snoc, (q3 i).2, ← mul_assoc]
            congr 1
            cases k with
            | v => exact (amp_snoc hp _ _).symm
            | m =>
              show x.w * kampM (s.ut .m) lx _ _ = kampM (s.ut .m) (lx + 1) x _
              rw [kampM, hp]
              dsimp only
              rw [if_neg, Fin.snoc_last, Fin.init_snoc]
              intro hni
              exact hid ⟨rfl, h.marks.identC a ha (fun h => h) ((nodeIdent_at hl).2 hni)⟩

theorem kronecker_spec {P : PCfg R} (hC : 0 < P.C.growth) {k : Kind} {lx ly : Nat} {s : Pkg R} {x y : PEdge R}
    (h : PWF P s ∅) (hx : Valid (s.ut k) lx x) (hy : Valid (s.ut k) ly y) (hn : ly + lx ≤ (s.ut k).nvars) :
    OpSpec P ∅ s k (ly + lx) (fun d => kamp (s.ut k) lx x (highD d) * amp (s.ut k) ly y (lowD d))
      (Pkg.kronecker P k s x y) := by
  unfold Pkg.kronecker
  by_cases h0 : x.w = 0
  · have h1 := kron2F_spec hC lx s x y h hx hy hn
    have h2 : ∀ l, Pkg.kron2F P k l s x y = (s, zeroE) := by
      intro l; unfold Pkg.kron2F; rw [if_pos (Or.inl h0)]
    rw [h2] at h1 ⊢; exact h1
  · have : s.lv k x = lx := by unfold Pkg.lv; exact hx.lvl h0
    rw [this]
    exact kron2F_spec hC lx s x y h hx hy hn

/-- The result of the inner product and the state after it. -/
structure InnerSpec (P : PCfg R) (s : Pkg R) (v : Cx R) (r : Pkg R × Cx R) : Prop where
  wf : PWF P r.1 ∅
  ut : r.1.ut = s.ut
  val : r.2 = v

theorem innerF_spec {P : PCfg R} : ∀ (l : Nat) (s : Pkg R) (x y : PEdge R),
    PWF P s ∅ → Valid (s.ut .v) l x → Valid (s.ut .v) l y →
    InnerSpec P s (∑ j, (amp (s.ut .v) l ⟨x.p, x.w.conj⟩ j).conj * amp (s.ut .v) l y j) (Pkg.innerF P l s x y) := by
  intro l
  induction l with
  | zero =>
    intro s x y h hx hy
    unfold Pkg.innerF
    dsimp only
    split_ifs with h1
    · refine ⟨h, rfl, ?_⟩
      rw [sum_zero]
      show 0 = x.w.conj.conj * y.w
      rw [Cx.conj_conj]
      rcases h1 with h1 | h1 <;> simp [h1]
    · refine ⟨h, rfl, ?_⟩
      rw [sum_zero]
      show x.w * y.w = x.w.conj.conj * y.w
      rw [Cx.conj_conj]
  | succ l ih =>
    intro s x y h hx hy
    have hfac : ∑ j, (amp (s.ut .v) (l + 1) ⟨x.p, x.w.conj⟩ j).conj * amp (s.ut .v) (l + 1) y j =
        (∑ j, (amp (s.ut .v) (l + 1) ⟨x.p, 1⟩ j).conj * amp (s.ut .v) (l + 1) ⟨y.p, 1⟩ j) * x.w * y.w := by
      rw [mul_assoc, mul_comm _ (x.w * y.w), Finset.mul_sum]
      refine Finset.sum_congr rfl (fun j _ => ?_)
      rw [amp_eq_smul _ _ ⟨x.p, x.w.conj⟩, amp_eq_smul _ _ y, Cx.conj_mul, Cx.conj_conj]
      ring
    unfold Pkg.innerF
    dsimp only
    by_cases h1 : x.w = 0 ∨ y.w = 0
    · rw [if_pos h1]
      refine ⟨h, rfl, ?_⟩
      rw [hfac]
      rcases h1 with h1 | h1 <;> simp [h1]
    · rw [if_neg h1]
      push Not at h1
      obtain ⟨hxw, hyw⟩ := h1
      have hkx := hx.reweight hxw (one_ne_zero (α := Cx R))
      have hky := hy.reweight hyw (one_ne_zero (α := Cx R))
      cases hk : Pkg.look P.innerH s.innerC (⟨x.p, 1⟩, ⟨y.p, 1⟩) with
      | some r =>
        dsimp only
        obtain ⟨l', a1, a2, a3⟩ := h.innerC.look hk
        have hl := hkx.level a1 one_ne_zero
        subst hl
        exact ⟨h, rfl, by rw [hfac, ← a3]⟩
      | none =>
        dsimp only
        obtain ⟨a, hpa, ha, hla⟩ := hx.exists_node hxw
        obtain ⟨b, hpb, hb, hlb⟩ := hy.exists_node hyw
        have hcl : ∀ i, Pkg.innerChildL s x l i = ⟨(((s.ut .v).mem a).e i).p, (((s.ut .v).mem a).e i).w.conj⟩ := by
          intro i; unfold Pkg.innerChildL; rw [hpa]; dsimp only; rw [if_pos hla]
        simp only [hcl, mulChild_eq hpb hlb]
        have hcx := fun i => (h.tab .v).childAt ha hla i
        have hcy := fun i => (h.tab .v).childAt hb hlb i
        have hcx' : ∀ i, Valid (s.ut .v) l ⟨(((s.ut .v).mem a).e i).p, (((s.ut .v).mem a).e i).w.conj⟩ := by
          intro i
          by_cases hz : (((s.ut .v).mem a).e i).w = 0
          · rw [hz, (hcx i).p_none hz]; exact Or.inr (by simp)
          · exact (hcx i).reweight hz (conj_ne_zero hz)
        have hseq := seqFin_spec (fun s' => PWF P s' ∅) (fun s s' : Pkg R => s'.ut = s.ut) (fun _ => rfl)
          (fun h h' => h'.trans h) 2
          (fun i s' => Pkg.innerF P l s' ⟨(((s.ut .v).mem a).e i).p, (((s.ut .v).mem a).e i).w.conj⟩ (((s.ut .v).mem b).e i))
          (fun i _ z => z = ∑ j, (amp (s.ut .v) l (((s.ut .v).mem a).e i) j).conj * amp (s.ut .v) l (((s.ut .v).mem b).e i) j)
          (fun _ _ _ _ _ _ h => h) s h (by
            intro i s' hs' he
            have h1 := ih s' ⟨(((s.ut .v).mem a).e i).p, (((s.ut .v).mem a).e i).w.conj⟩ (((s.ut .v).mem b).e i) hs'
              (by rw [he]; exact hcx' i) (by rw [he]; exact hcy i)
            refine ⟨h1.wf, h1.ut, ?_⟩
            rw [h1.val, he, Cx.conj_conj])
        generalize seqFin 2 (fun i s' => Pkg.innerF P l s' ⟨(((s.ut .v).mem a).e i).p, (((s.ut .v).mem a).e i).w.conj⟩
          (((s.ut .v).mem b).e i)) s = q at hseq
        obtain ⟨q1, q2, q3⟩ := hseq
        have hsum : (0 + q.2 0 + q.2 1 : Cx R) =
            ∑ j, (amp (s.ut .v) (l + 1) ⟨x.p, 1⟩ j).conj * amp (s.ut .v) (l + 1) ⟨y.p, 1⟩ j := by
          rw [sum_snoc, Fin.sum_univ_two, q3 0, q3 1, zero_add]
          congr 1 <;> refine Finset.sum_congr rfl (fun j _ => ?_) <;>
            rw [amp_snoc (e := ⟨x.p, 1⟩) hpa, amp_snoc (e := ⟨y.p, 1⟩) hpb, one_mul, one_mul]
        refine ⟨?_, q2, by rw [hfac, hsum]⟩
        refine ⟨q1.tab, q1.marks, q1.addC, q1.mulC, q1.kronC, ?_, q1.transC, q1.conjC, q1.idTab⟩
        refine q1.innerC.insert _ ⟨l + 1, ?_, ?_, ?_⟩
        · rw [q2]; exact hkx
        · rw [q2]; exact hky
        · rw [q2]; exact hsum

theorem innerProduct_spec {P : PCfg R} {l : Nat} {s : Pkg R} {x y : PEdge R}
    (h : PWF P s ∅) (hx : Valid (s.ut .v) l x) (hy : Valid (s.ut .v) l y) :
    InnerSpec P s (∑ j, (amp (s.ut .v) l x j).conj * amp (s.ut .v) l y j) (Pkg.innerProduct P s x y) := by
  unfold Pkg.innerProduct
  split_ifs with h0
  · refine ⟨h, rfl, ?_⟩
    symm
    refine Finset.sum_eq_zero (fun j _ => ?_)
    rcases h0 with h0 | h0
    · rw [amp_w_zero h0]; simp
    · rw [amp_w_zero h0]; simp
  · push Not at h0
    have : max (s.lv .v x) (s.lv .v y) = l := by
      unfold Pkg.lv; rw [hx.lvl h0.1, hy.lvl h0.2]; simp
    rw [this]
    have h1 := innerF_spec l s ⟨x.p, x.w.conj⟩ y h (hx.reweight h0.1 (conj_ne_zero h0.1)) hy
    rw [Cx.conj_conj] at h1
    exact h1

end DD
