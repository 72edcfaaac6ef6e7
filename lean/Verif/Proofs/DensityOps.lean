import Verif.Model.DensityHist
import Verif.Proofs.Mul
import Verif.Proofs.UHist

/-! # Operations on density matrix diagrams without flags -/

namespace DD
open UTable

variable {R : Type} [Field R] [LinearOrder R] [IsStrictOrderedRing R]

/-- The hash function of the density matrix table as long as no node has temporary flags. -/
def DCfg.hash (D : DCfg R) : (Fin 4 → FEdge R) → Nat := fun e => D.uH (fun i => (e i, .none))

/-- Entries of the table for products. -/
def DMulRel (nodes : DKind → UTable (Cx R) 4) (x : DKey) (r : PEdge R) : Prop :=
  ∃ l, Valid (nodes x.1.1) l ⟨x.1.2.1, 1⟩ ∧ Valid (nodes x.2.1) l ⟨x.2.2.1, 1⟩ ∧ Valid (nodes .d) l r ∧
    ∀ d, amp (nodes .d) l r d = mulAmp (k := .m) (nodes x.1.1) (nodes x.2.1) l ⟨x.1.2.1, 1⟩ ⟨x.2.2.1, 1⟩ d

theorem DMulRel.mono {n n' : DKind → UTable (Cx R) 4} (h : ∀ k, Le (n k) (n' k)) (hc : ∀ k, Children (n k)) {x r} (hr : DMulRel n x r) :
    DMulRel n' x r := by
  obtain ⟨l, h1, h2, h3, h4⟩ := hr
  refine ⟨l, h1.mono (h _), h2.mono (h _), h3.mono (h _), fun d => ?_⟩
  rw [amp_mono (h _) (hc _) h3, mulAmp_mono (k := .m) (h _) (hc _) (h _) (hc _) h1 h2]; exact h4 d

/-- Well-formed states without flags. -/
structure DWF (D : DCfg R) (s : DState R) : Prop where
  tmp : ∀ a, s.tmp a = .none
  dm : ∀ a, s.dm a = false
  clean : ∀ a ∈ s.dt.all, ∀ i, ((s.dt.mem a).e i).w.2 = .none
  uwf : UWF D.hash s.dt
  child : Children s.dt.plain
  norm : ∀ a ∈ s.dt.all, IsNorm .m (fun i => ((s.dt.plain.mem a).e i).w)
  pkg : PWF D.P s.pkg ∅
  addC : CacheOK s.addC (AddRel s.dt.plain)
  mulC : CacheOK s.mulC (DMulRel s.nodes)

theorem DWF.nodes {D : DCfg R} {s : DState R} (h : DWF D s) (k : DKind) : Children (s.nodes k) := by
  cases k with
  | d => exact h.child
  | m => exact (h.pkg.tab .m).child

/-- `s'` is `s` with further nodes. -/
structure DExt (D : DCfg R) (s s' : DState R) : Prop where
  pkg : PExt s.pkg s'.pkg
  le : Le s.dt.plain s'.dt.plain
  nvars : s'.dt.nvars = s.dt.nvars
  inv : ∀ L wr, UInv D.hash D.P.C ⟨s.dt, L, wr⟩ → UInv D.hash D.P.C ⟨s'.dt, L, wr⟩

theorem DExt.refl (D : DCfg R) (s : DState R) : DExt D s s := ⟨PExt.refl _, Le.refl _, rfl, fun _ _ h => h⟩

theorem DExt.trans {D : DCfg R} {s s' s'' : DState R} (h : DExt D s s') (h' : DExt D s' s'') : DExt D s s'' :=
  ⟨h.pkg.trans h'.pkg, h.le.trans h'.le, h'.nvars.trans h.nvars, fun L wr hi => h'.inv L wr (h.inv L wr hi)⟩

theorem DExt.nodes {D : DCfg R} {s s' : DState R} (h : DExt D s s') (k : DKind) : Le (s.nodes k) (s'.nodes k) := by
  cases k with
  | d => exact h.le
  | m => exact h.pkg.le .m

/-- What a function on density matrix diagrams has to do: keep the state well formed, only add nodes, and return a diagram with the values `f`. -/
structure DOpS (D : DCfg R) (s : DState R) (l : Nat) (f : (Fin l → Fin 4) → Cx R) (r : DState R × PEdge R) : Prop where
  wf : DWF D r.1
  ext : DExt D s r.1
  valid : Valid r.1.dt.plain l r.2
  val : ∀ d, amp r.1.dt.plain l r.2 d = f d

theorem DOpS.pure {D : DCfg R} {s : DState R} {l : Nat} {f : (Fin l → Fin 4) → Cx R} {e : PEdge R} (h : DWF D s) (hv : Valid s.dt.plain l e)
    (ha : ∀ d, amp s.dt.plain l e d = f d) : DOpS D s l f (s, e) := ⟨h, DExt.refl _ _, hv, ha⟩

theorem DOpS.congr {D : DCfg R} {s : DState R} {l : Nat} {f g : (Fin l → Fin 4) → Cx R} {r : DState R × PEdge R} (h : DOpS D s l f r)
    (hfg : ∀ d, f d = g d) : DOpS D s l g r := ⟨h.wf, h.ext, h.valid, fun d => (h.val d).trans (hfg d)⟩

variable [HasSqrt R]

/-! ## Flags play no role -/

omit [LinearOrder R] [IsStrictOrderedRing R] [HasSqrt R] in
theorem DState.applyDm_none (s : DState R) {x : DOp R} (hx : x.f = .none) : s.applyDm x = s := by
  unfold DState.applyDm; rw [hx]; rfl

omit [LinearOrder R] [IsStrictOrderedRing R] [HasSqrt R] in
theorem DState.revertDm_none {s : DState R} (h : ∀ a, s.tmp a = .none) (k : DKind) (p : Option Nat) : s.revertDm k p = s := by
  unfold DState.revertDm
  split
  · rw [h]; rfl
  · rfl

omit [LinearOrder R] [IsStrictOrderedRing R] [HasSqrt R] in
theorem DState.flagsOf_none {s : DState R} (h : ∀ a, s.tmp a = .none) (k : DKind) (p : Option Nat) : s.flagsOf k p = .none := by
  unfold DState.flagsOf
  split
  · exact h _
  · rfl

omit [LinearOrder R] [IsStrictOrderedRing R] [HasSqrt R] in
theorem DOp.align_none {x : DOp R} (hx : x.f = .none) : x.align = x := by
  unfold DOp.align; rw [hx]; rfl

/-! ## Nodes -/

omit [HasSqrt R] in
theorem DState.makeNode_eq [HasSqrt R] {D : DCfg R} {s : DState R} (ht : ∀ a, s.tmp a = .none) (hd : ∀ a, s.dm a = false) (v : Nat)
    (es : Fin 4 → PEdge R) (cached : Bool) :
    DState.makeNode D s v es cached false = match Pkg.normM es with
      | none => ({ s with dt := if cached then (s.dt.getNode D.P.C).1 else (s.dt.getNode D.P.C).1.returnNode (s.dt.getNode D.P.C).2 }, zeroE)
      | some (w, es') =>
        let r := s.dt.mkNode D.hash D.P.C v (fun i => FEdge.plain (es' i)) false false
        ({ s with dt := r.1 }, ⟨some r.2, w⟩) := by
  have h1 : Function.update s.tmp (s.dt.getNode D.P.C).2 .none = s.tmp := by
    funext a; by_cases ha : a = (s.dt.getNode D.P.C).2
    · subst ha; rw [Function.update_self, ht]
    · rw [Function.update_of_ne ha]
  have h2 : Function.update s.dm (s.dt.getNode D.P.C).2 false = s.dm := by
    funext a; by_cases ha : a = (s.dt.getNode D.P.C).2
    · subst ha; rw [Function.update_self, hd]
    · rw [Function.update_of_ne ha]
  unfold DState.makeNode
  dsimp only
  rw [h1, h2]
  cases Pkg.normM es with
  | none => rfl
  | some q =>
    obtain ⟨w, es'⟩ := q
    dsimp only
    unfold UTable.mkNode UTable.lookup UTable.key
    dsimp only
    have hfl : ∀ p, DState.flagsOf { s with tmp := s.tmp, dm := s.dm } .d p = .none := fun p => DState.flagsOf_none ht _ p
    simp only [hfl, ht, hd, and_true]
    have hm : ((s.dt.getNode D.P.C).1.setMem (s.dt.getNode D.P.C).2
        ⟨v, fun i => FEdge.plain (es' i), ((s.dt.getNode D.P.C).1.mem (s.dt.getNode D.P.C).2).ref, false, false⟩).mem (s.dt.getNode D.P.C).2 =
        ⟨v, fun i => FEdge.plain (es' i), ((s.dt.getNode D.P.C).1.mem (s.dt.getNode D.P.C).2).ref, false, false⟩ := by
      simp [UTable.setMem]
    rw [hm]
    dsimp only
    unfold DCfg.hash
    beta_reduce
    generalize List.find? _ _ = F
    cases F <;> rfl

theorem DWF.transfer {D : DCfg R} {s s' : DState R} (h : DWF D s) (hext : DExt D s s') (htmp : s'.tmp = s.tmp) (hdm : s'.dm = s.dm)
    (hclean : ∀ a ∈ s'.dt.all, ∀ i, ((s'.dt.mem a).e i).w.2 = .none) (huwf : UWF D.hash s'.dt) (hchild : Children s'.dt.plain)
    (hnorm : ∀ a ∈ s'.dt.all, IsNorm .m (fun i => ((s'.dt.plain.mem a).e i).w)) (hpkg : PWF D.P s'.pkg ∅) (ha : s'.addC = s.addC)
    (hm : s'.mulC = s.mulC) : DWF D s' where
  tmp a := by rw [htmp]; exact h.tmp a
  dm a := by rw [hdm]; exact h.dm a
  clean := hclean
  uwf := huwf
  child := hchild
  norm := hnorm
  pkg := hpkg
  addC := by rw [ha]; exact h.addC.mono fun _ _ hr => hr.mono hext.le h.child
  mulC := by rw [hm]; exact h.mulC.mono fun _ _ hr => hr.mono hext.nodes h.nodes

/-- Tables with the same stored nodes. -/
theorem DWF.cells {D : DCfg R} {s : DState R} (h : DWF D s) {t : UTable (Cx R × DFlags) 4} (hw : UWF D.hash t) (ha : t.all = s.dt.all)
    (hm : t.mem = s.dt.mem) (hn : t.nvars = s.dt.nvars) (hi : ∀ L wr, UInv D.hash D.P.C ⟨s.dt, L, wr⟩ → UInv D.hash D.P.C ⟨t, L, wr⟩) :
    DWF D { s with dt := t } ∧ DExt D s { s with dt := t } := by
  have hall : t.plain.all = s.dt.plain.all := ha
  have hmem : t.plain.mem = s.dt.plain.mem := by unfold UTable.plain; dsimp only; rw [hm]
  have hle : Le s.dt.plain t.plain := fun a h' => ⟨hall ▸ h', by rw [hmem], by rw [hmem]⟩
  have hext : DExt D s { s with dt := t } := ⟨PExt.refl _, hle, hn, hi⟩
  refine ⟨h.transfer hext rfl rfl ?_ hw ?_ ?_ h.pkg rfl rfl, hext⟩
  · intro a h' i
    dsimp only at h' ⊢
    rw [ha] at h'; rw [hm]; exact h.clean a h' i
  · intro a h' i
    dsimp only at h' ⊢
    rw [hall] at h'; rw [hmem]; exact (h.child a h' i).mono hle
  · intro a h'
    dsimp only at h' ⊢
    rw [ha] at h'; rw [hmem]; exact h.norm a h'

/-- `makeDDNode` for density matrix nodes. -/
theorem DState.makeNode_spec {D : DCfg R} (hC : D.P.C.Good) {s : DState R} {v : Nat} {es : Fin 4 → PEdge R} (cached : Bool) (h : DWF D s)
    (hv : v < s.dt.nvars) (hes : ∀ i, Valid s.dt.plain v (es i)) :
    DOpS D s (v + 1) (fun d => amp s.dt.plain v (es (d (Fin.last v))) (Fin.init d)) (DState.makeNode D s v es cached false) := by
  rw [DState.makeNode_eq h.tmp h.dm]
  cases hn : Pkg.normM es with
  | none =>
    rw [normM_none] at hn
    have ht := getNode_spec hC.growth h.uwf
    obtain ⟨g1, g2, g3, g4, g5, g6, g7, g8, g9, g10⟩ := ht
    dsimp only
    have hwe : DWF D { s with dt := if cached then (s.dt.getNode D.P.C).1 else (s.dt.getNode D.P.C).1.returnNode (s.dt.getNode D.P.C).2 } ∧
        DExt D s { s with dt := if cached then (s.dt.getNode D.P.C).1 else (s.dt.getNode D.P.C).1.returnNode (s.dt.getNode D.P.C).2 } := by
      cases cached with
      | true => exact h.cells g1 g4 g8 g6 (fun L wr hi => hi.take hC)
      | false => exact h.cells (returnNode_spec g1 g2) g4 g8 g6 (fun L wr hi => hi.takeBack hC)
    refine ⟨hwe.1, hwe.2, valid_zeroE _ _, fun d => ?_⟩
    rw [amp_zeroE, amp_w_zero (hn _)]
  | some q =>
    obtain ⟨w, es'⟩ := q
    obtain ⟨hns, hz⟩ := normM_spec hn
    dsimp only
    obtain ⟨w1, w2, w3, hm, ha1, ha2, _, hv', he', hcase⟩ :=
      mkNode_spec hC.growth h.uwf v (fun i => FEdge.plain (es' i)) false false hv
    have hinv : ∀ L wr, UInv D.hash D.P.C ⟨s.dt, L, wr⟩ →
        UInv D.hash D.P.C ⟨(s.dt.mkNode D.hash D.P.C v (fun i => FEdge.plain (es' i)) false false).1, L, wr⟩ := by
      intro L wr hi
      refine UStep.inv hC hi (UStep.mk _ v _ false false hv ?_)
      intro i b hb
      change (es' i).p = some b at hb
      by_cases hw : (es i).w = 0
      · rw [hz i hw] at hb; cases hb
      · rw [hns.ptr i hw] at hb
        have := (valid_some hb).1 (hes i)
        refine ⟨this.1, ?_⟩
        have h2 := this.2.1
        change (s.dt.mem b).v + 1 = v at h2
        dsimp only
        omega
    generalize s.dt.mkNode D.hash D.P.C v (fun i => FEdge.plain (es' i)) false false = r at *
    have hsub : ∀ a ∈ s.dt.all, a ∈ r.1.all := by
      intro a ha
      rcases hcase with ⟨_, h2⟩ | ⟨_, h2, _⟩
      · rwa [h2]
      · exact h2.symm.mem_iff.1 (List.mem_cons_of_mem _ ha)
    have hr2 : r.2 ∈ r.1.all := by
      rcases hcase with ⟨h1, h2⟩ | ⟨_, h2, _⟩
      · rwa [h2]
      · exact h2.symm.mem_iff.1 List.mem_cons_self
    have hold : ∀ a ∈ r.1.all, a ∈ s.dt.all ∨ a = r.2 := by
      intro a ha
      rcases hcase with ⟨_, h2⟩ | ⟨h1, h2, h3, _⟩
      · left; rwa [h2] at ha
      · rcases List.mem_cons.1 (h2.mem_iff.1 ha) with h4 | h4
        · exact Or.inr h4
        · exact Or.inl h4
    have hpm : ∀ a ∈ s.dt.all, r.1.plain.mem a = s.dt.plain.mem a := by
      intro a ha
      unfold UTable.plain; dsimp only; rw [hm a ha]
    have hle : Le s.dt.plain r.1.plain := fun a ha => ⟨hsub a ha, by rw [hpm a ha], by rw [hpm a ha]⟩
    have hre : ∀ i, (r.1.plain.mem r.2).e i = es' i := by
      intro i
      show (⟨((r.1.mem r.2).e i).p, ((r.1.mem r.2).e i).w.1⟩ : PEdge R) = _
      rw [he']; rfl
    have hrv : (r.1.plain.mem r.2).v = v := hv'
    have hext : DExt D s { s with dt := r.1 } := ⟨PExt.refl _, hle, w2, hinv⟩
    have hes' : ∀ i, Valid r.1.plain v (es' i) := by
      intro i
      by_cases hw : (es i).w = 0
      · rw [hz i hw]; exact valid_zeroE _ _
      · have h1 := (hes i).mono hle
        have hp := hns.ptr i hw
        have hw' : (es' i).w ≠ 0 := by
          intro h0
          have := hns.value i
          rw [h0, mul_zero] at this
          exact hw this.symm
        have := h1.reweight hw hw'
        rw [← hp] at this
        exact this
    refine ⟨h.transfer hext rfl rfl ?_ w1 ?_ ?_ h.pkg rfl rfl, hext, ?_, fun d => ?_⟩
    · intro a ha i
      dsimp only at ha ⊢
      rcases hold a ha with h1 | rfl
      · rw [hm a h1]; exact h.clean a h1 i
      · rw [he']; rfl
    · intro a ha i
      dsimp only at ha ⊢
      rcases hold a ha with h1 | rfl
      · rw [hpm a h1]; exact (h.child a h1 i).mono hle
      · rw [hrv, hre]; exact hes' i
    · intro a ha
      dsimp only at ha ⊢
      rcases hold a ha with h1 | rfl
      · rw [hpm a h1]; exact h.norm a h1
      · simp only [hre]; exact hns.norm
    · exact ⟨hr2, by rw [hrv], hns.ne⟩
    · rw [amp_some rfl, hre]
      dsimp only
      rw [amp_eq_smul, ← mul_assoc, hns.value, ← amp_mono hle h.child (hes _), amp_eq_smul _ _ (es _)]
      by_cases hw : (es (d (Fin.last v))).w = 0
      · rw [hw]; simp
      · rw [hns.ptr _ hw]

/-! ## Addition -/

omit [LinearOrder R] [IsStrictOrderedRing R] [HasSqrt R] in
theorem DState.addChild_eq [LinearOrder R] [IsStrictOrderedRing R] {s : DState R} {l a : Nat} {x : PEdge R} (hp : x.p = some a)
    (hl : (s.dt.mem a).v = l) (hcl : ∀ i, ((s.dt.mem a).e i).w.2 = .none) (i : Fin 4) :
    s.addChild x l i = .ofD (if ((s.dt.plain.mem a).e i).w ≠ 0 then ⟨((s.dt.plain.mem a).e i).p, ((s.dt.plain.mem a).e i).w * x.w⟩
      else (s.dt.plain.mem a).e i) := by
  unfold DState.addChild
  rw [hp]
  dsimp only
  rw [if_pos hl]
  have h1 : (DOp.ofF ((s.dt.mem a).e i)) = DOp.ofD ((s.dt.plain.mem a).e i) := by
    unfold DOp.ofF DOp.ofD
    rw [hcl i]; rfl
  rw [h1]
  by_cases hz : ((s.dt.plain.mem a).e i).w ≠ 0
  · rw [if_pos hz, if_pos (by exact hz)]; rfl
  · rw [if_neg hz, if_neg (by exact hz)]

theorem DState.addChild_spec {D : DCfg R} {s : DState R} {l : Nat} {x : PEdge R} (h : DWF D s) (hx : Valid s.dt.plain (l + 1) x)
    (hw : x.w ≠ 0) (i : Fin 4) :
    ∃ y, s.addChild x l i = .ofD y ∧ Valid s.dt.plain l y ∧
      ∀ d, amp s.dt.plain l y d = amp s.dt.plain (l + 1) x (Fin.snoc (α := fun _ => Fin 4) d i) := by
  obtain ⟨a, hp, ha, hl⟩ := hx.exists_node hw
  have hch : Valid s.dt.plain l ((s.dt.plain.mem a).e i) := hl ▸ h.child a ha i
  refine ⟨_, DState.addChild_eq hp hl (h.clean a ha) i, ?_⟩
  by_cases hz : ((s.dt.plain.mem a).e i).w ≠ 0
  · rw [if_pos hz]
    refine ⟨?_, fun d => ?_⟩
    · rw [mul_comm]; exact hch.scale hw
    · rw [mul_comm, amp_smul, amp_snoc hp]
  · rw [if_neg hz]
    push Not at hz
    refine ⟨hch, fun d => ?_⟩
    rw [amp_snoc hp, amp_w_zero hz, mul_zero]

omit [HasSqrt R] in
theorem DState.lvD_eq [HasSqrt R] (s : DState R) (e : PEdge R) : s.lvD e.p = s.dt.plain.lvl e := by
  unfold DState.lvD UTable.lvl
  cases e.p <;> rfl

/-- `add2` of two diagrams without flags. -/
theorem DState.add2F_spec {D : DCfg R} (hC : D.P.C.Good) : ∀ (l : Nat) (s : DState R) (x y : PEdge R), DWF D s → Valid s.dt.plain l x →
    Valid s.dt.plain l y → DOpS D s l (fun d => amp s.dt.plain l x d + amp s.dt.plain l y d) (DState.add2F D l s x y) := by
  intro l
  induction l with
  | zero =>
    intro s x y h hx hy
    unfold DState.add2F
    dsimp only
    have hpx := hx.term
    have hpy := hy.term
    split_ifs with h1 h2 h3 h4 h5
    · exact .pure h (valid_zeroE _ _) (fun d => by rw [amp_w_zero h1, amp_w_zero h2]; simp)
    · exact .pure h hy (fun d => by rw [amp_w_zero h1]; simp)
    · exact .pure h hx (fun d => by rw [amp_w_zero h3]; simp)
    · refine .pure h (valid_zeroE _ _) (fun d => ?_)
      rw [amp_zeroE]; exact h5.symm
    · rw [hpy]
      exact .pure h (valid_term _ _) (fun d => rfl)
    · exact absurd (hpx.trans hpy.symm) h4
  | succ l ih =>
    intro s x y h hx hy
    unfold DState.add2F
    dsimp only
    split_ifs with h1 h2 h3 h4 h5
    · exact .pure h (valid_zeroE _ _) (fun d => by rw [amp_w_zero h1, amp_w_zero h2]; simp)
    · exact .pure h hy (fun d => by rw [amp_w_zero h1]; simp)
    · exact .pure h hx (fun d => by rw [amp_w_zero h3]; simp)
    · refine .pure h (valid_zeroE _ _) (fun d => ?_)
      rw [amp_eq_smul _ _ x, amp_eq_smul _ _ y, h4, ← add_mul, h5]; simp
    · refine .pure h (hy.reweight h3 h5) (fun d => ?_)
      rw [amp_eq_smul _ _ x, amp_eq_smul _ _ y, h4, ← add_mul, amp_eq_smul]
    · cases hk : Pkg.look D.addH s.addC (x, y) with
      | some r =>
        dsimp only
        obtain ⟨l', a1, a2, a3, a4⟩ := h.addC.look hk
        have hl := hx.level a1 h1
        subst hl
        split_ifs with hr
        · refine .pure h (valid_zeroE _ _) (fun d => ?_)
          rw [← a4 d, amp_w_zero hr, amp_zeroE]
        · exact .pure h a3 a4
      | none =>
        dsimp only
        have hlv : max (s.lvD x.p) (s.lvD y.p) - 1 = l := by
          rw [DState.lvD_eq, DState.lvD_eq, hx.lvl h1, hy.lvl h3]; simp
        rw [hlv]
        obtain ⟨q1, q2, q3⟩ := seqFin_spec (DWF D) (DExt D) (DExt.refl D) (fun a b => DExt.trans a b) 4
          (fun i s => (((DState.add2F D l ((s.applyDm (s.addChild x l i)).applyDm (s.addChild y l i))
              ⟨(s.addChild x l i).p, (s.addChild x l i).w⟩ ⟨(s.addChild y l i).p, (s.addChild y l i).w⟩).1.revertDm
                (s.addChild x l i).k (s.addChild x l i).p).revertDm (s.addChild y l i).k (s.addChild y l i).p,
            (DState.add2F D l ((s.applyDm (s.addChild x l i)).applyDm (s.addChild y l i))
              ⟨(s.addChild x l i).p, (s.addChild x l i).w⟩ ⟨(s.addChild y l i).p, (s.addChild y l i).w⟩).2))
          (fun i s' b => Valid s'.dt.plain l b ∧ ∀ d, amp s'.dt.plain l b d =
            amp s.dt.plain (l + 1) x (Fin.snoc (α := fun _ => Fin 4) d i) + amp s.dt.plain (l + 1) y (Fin.snoc (α := fun _ => Fin 4) d i))
          (fun i s1 s2 b he hw hb => ⟨hb.1.mono he.le, fun d => by rw [amp_mono he.le hw.child hb.1]; exact hb.2 d⟩) s h (by
            intro i s' hs' he
            dsimp only
            obtain ⟨x', ex, x1, x2⟩ := DState.addChild_spec hs' (hx.mono he.le) h1 i
            obtain ⟨y', ey, y1, y2⟩ := DState.addChild_spec hs' (hy.mono he.le) h3 i
            rw [ex, ey, DState.applyDm_none _ (x := .ofD x') rfl, DState.applyDm_none _ (x := .ofD y') rfl]
            have hr := ih s' x' y' hs' x1 y1
            change DOpS D s' l _ (DState.add2F D l s' ⟨(DOp.ofD x').p, (DOp.ofD x').w⟩ ⟨(DOp.ofD y').p, (DOp.ofD y').w⟩) at hr
            generalize DState.add2F D l s' ⟨(DOp.ofD x').p, (DOp.ofD x').w⟩ ⟨(DOp.ofD y').p, (DOp.ofD y').w⟩ = r at hr
            rw [DState.revertDm_none hr.wf.tmp, DState.revertDm_none hr.wf.tmp]
            refine ⟨hr.wf, hr.ext, hr.valid, fun d => ?_⟩
            rw [hr.val, x2, y2, amp_mono he.le h.child hx, amp_mono he.le h.child hy])
        generalize seqFin 4 _ s = q at q1 q2 q3
        have hnv : l < q.1.dt.nvars := by
          obtain ⟨a, hp, ha, hl⟩ := hx.exists_node h1
          rw [q2.nvars]
          have := (h.uwf.mem_bucket ha).1
          change (s.dt.mem a).v = l at hl
          omega
        have hm := DState.makeNode_spec hC true q1 hnv (fun i => (q3 i).1)
        generalize DState.makeNode D q.1 l q.2 true false = r at hm
        have hext := q2.trans hm.ext
        have hval : ∀ d, amp r.1.dt.plain (l + 1) r.2 d = amp s.dt.plain (l + 1) x d + amp s.dt.plain (l + 1) y d := by
          rw [forall_snoc]
          intro d i
          rw [hm.val, Fin.snoc_last, Fin.init_snoc, (q3 i).2]
        refine ⟨⟨hm.wf.tmp, hm.wf.dm, hm.wf.clean, hm.wf.uwf, hm.wf.child, hm.wf.norm, hm.wf.pkg, ?_, hm.wf.mulC⟩,
          ⟨hext.pkg, hext.le, hext.nvars, hext.inv⟩, hm.valid, hval⟩
        dsimp only
        refine hm.wf.addC.insert _ ⟨l + 1, hx.mono hext.le, hy.mono hext.le, hm.valid, fun d => ?_⟩
        rw [hval, amp_mono hext.le h.child hx, amp_mono hext.le h.child hy]

/-! ## Multiplication -/

theorem DWF.lookMul {D : DCfg R} {s : DState R} (h : DWF D s) {key : DKey} {chk : PEdge R → Bool} {r : PEdge R}
    (hl : s.mulC.lookup D.mulH (fun a b => decide (a.1.1 = b.1.1 ∧ a.1.2.1 = b.1.2.1 ∧ a.2.1 = b.2.1 ∧ a.2.2.1 = b.2.2.1)) chk key = some r) :
    DMulRel s.nodes key r := by
  unfold Cache.lookup at hl
  cases hs : s.mulC.slot (D.mulH key) with
  | none => rw [hs] at hl; simp at hl
  | some kr =>
    obtain ⟨k', r'⟩ := kr
    rw [hs] at hl
    simp only [Bool.and_eq_true, decide_eq_true_eq] at hl
    split at hl
    · rename_i he
      obtain ⟨⟨e1, e2, e3, e4⟩, _⟩ := he
      simp only [Option.some.injEq] at hl
      subst hl
      have := h.mulC.entry _ _ _ hs
      unfold DMulRel at this ⊢
      simp only [e1, e2, e3, e4] at this
      exact this
    · cases hl

theorem DState.mulChild_eq {D : DCfg R} {s : DState R} (h : DWF D s) {x : DOp R} {l a : Nat} (hp : x.p = some a)
    (ha : a ∈ (s.nodes x.k).all) (hl : ((s.nodes x.k).mem a).v = l) (i : Fin 4) :
    s.mulChild x l i = ⟨x.k, (((s.nodes x.k).mem a).e i).p, .none, (((s.nodes x.k).mem a).e i).w⟩ := by
  unfold DState.mulChild
  obtain ⟨k, p, f, w⟩ := x
  dsimp only at hp ha hl ⊢
  subst hp
  cases k with
  | d =>
    dsimp only
    rw [if_pos (by exact hl)]
    unfold DOp.ofF
    rw [h.clean a ha i]; rfl
  | m =>
    dsimp only
    rw [if_pos (by exact hl)]
    rfl

/-- The entries computed so far have the values `V`. -/
structure DRows (D : DCfg R) (s : DState R) (l : Nat) (V : Fin 4 → (Fin l → Fin 4) → Cx R) (q : DState R × (Fin 4 → PEdge R)) : Prop where
  wf : DWF D q.1
  ext : DExt D s q.1
  valid : ∀ i, Valid q.1.dt.plain l (q.2 i)
  val : ∀ i d, amp q.1.dt.plain l (q.2 i) d = V i d

/-- One round of the loop, without flags: the entry is set, or the product is added to it. -/
theorem DState.mulRound_spec {D : DCfg R} (hC : D.P.C.Good) {rec : Bool → DState R → DOp R → DOp R → DState R × PEdge R} {l : Nat}
    (hrec : ∀ (s : DState R) (x y : DOp R), DWF D s → l ≤ s.dt.nvars → x.f = .none → y.f = .none → Valid (s.nodes x.k) l ⟨x.p, x.w⟩ →
      Valid (s.nodes y.k) l ⟨y.p, y.w⟩ →
      DOpS D s l (mulAmp (k := .m) (s.nodes x.k) (s.nodes y.k) l ⟨x.p, x.w⟩ ⟨y.p, y.w⟩) (rec false s x y))
    {s : DState R} (h : DWF D s) (hn : l ≤ s.dt.nvars) {x y : DOp R} {a b : Nat} (hpa : x.p = some a) (ha : a ∈ (s.nodes x.k).all)
    (hla : ((s.nodes x.k).mem a).v = l) (hpb : y.p = some b) (hb : b ∈ (s.nodes y.k).all) (hlb : ((s.nodes y.k).mem b).v = l)
    {st : DState R × (Fin 4 → PEdge R)} {V : Fin 4 → (Fin l → Fin 4) → Cx R} (hst : DRows D s l V st) (i : Fin 4) (j : Fin 2)
    (h0 : j = 0 → ∀ d, V i d = 0) :
    DRows D s l (fun i' d => if i' = i then V i d + mulAmp (k := .m) (s.nodes x.k) (s.nodes y.k) l
        (((s.nodes x.k).mem a).e (Pkg.mulL .m i j)) (((s.nodes y.k).mem b).e (Pkg.mulR .m i j)) d else V i' d)
      (DState.mulRound D rec l false x y st (i, j)) := by
  obtain ⟨hw, he, hV1, hV2⟩ := hst
  have hV := fun i => And.intro (hV1 i) (hV2 i)
  have ma := he.nodes x.k a ha
  have mb := he.nodes y.k b hb
  have hcx : Valid (s.nodes x.k) l (((s.nodes x.k).mem a).e (Pkg.mulL .m i j)) := by
    have := h.nodes x.k a ha (Pkg.mulL .m i j); rwa [hla] at this
  have hcy : Valid (s.nodes y.k) l (((s.nodes y.k).mem b).e (Pkg.mulR .m i j)) := by
    have := h.nodes y.k b hb (Pkg.mulR .m i j); rwa [hlb] at this
  unfold DState.mulRound
  dsimp only
  rw [DState.mulChild_eq hw hpa ma.1 (ma.2.1.trans hla), DState.mulChild_eq hw hpb mb.1 (mb.2.1.trans hlb), ma.2.2, mb.2.2]
  generalize hex : ((s.nodes x.k).mem a).e (Pkg.mulL .m i j) = ex at hcx
  generalize hey : ((s.nodes y.k).mem b).e (Pkg.mulR .m i j) = ey at hcy
  rw [DState.applyDm_none _ (x := ⟨x.k, ex.p, .none, ex.w⟩) rfl, DState.applyDm_none _ (x := ⟨y.k, ey.p, .none, ey.w⟩) rfl,
    DOp.align_none (x := ⟨x.k, ex.p, .none, ex.w⟩) rfl, DOp.align_none (x := ⟨y.k, ey.p, .none, ey.w⟩) rfl]
  simp only [Bool.false_and, Bool.false_eq_true, if_false]
  have hm := hrec st.1 ⟨x.k, ex.p, .none, ex.w⟩ ⟨y.k, ey.p, .none, ey.w⟩ hw (by rw [he.nvars]; exact hn) rfl rfl
    (hcx.mono (he.nodes _)) (hcy.mono (he.nodes _))
  generalize rec false st.1 ⟨x.k, ex.p, .none, ex.w⟩ ⟨y.k, ey.p, .none, ey.w⟩ = m at hm
  have hmv : ∀ d, amp m.1.dt.plain l m.2 d = mulAmp (k := .m) (s.nodes x.k) (s.nodes y.k) l ex ey d := by
    intro d
    rw [hm.val]
    exact mulAmp_mono (k := .m) (he.nodes _) (h.nodes _) (he.nodes _) (h.nodes _) hcx hcy d
  -- the entries that are not touched
  have keep : ∀ (q : DState R × PEdge R), DWF D q.1 → DExt D m.1 q.1 → Valid q.1.dt.plain l q.2 →
      (∀ d, amp q.1.dt.plain l q.2 d = V i d + mulAmp (k := .m) (s.nodes x.k) (s.nodes y.k) l ex ey d) →
      DRows D s l (fun i' d => if i' = i then V i d + mulAmp (k := .m) (s.nodes x.k) (s.nodes y.k) l ex ey d else V i' d)
        (q.1, Function.update st.2 i q.2) := by
    intro q q1 q2 q3 q4
    have hle := (hm.ext.trans q2).le
    refine ⟨q1, (he.trans hm.ext).trans q2, fun i' => ?_, fun i' d => ?_⟩
    all_goals
      dsimp only
      by_cases hi : i' = i
      · subst hi
        rw [Function.update_self]
        first
        | exact q3
        | rw [if_pos rfl]; exact q4 d
      · rw [Function.update_of_ne hi]
        first
        | exact (hV i').1.mono hle
        | rw [if_neg hi, amp_mono hle hw.child (hV i').1]; exact (hV i').2 d
  by_cases c1 : j = 0 ∨ (st.2 i).w = 0
  · rw [if_pos c1, DState.revertDm_none hm.wf.tmp, DState.revertDm_none hm.wf.tmp]
    refine keep m hm.wf (DExt.refl _ _) hm.valid (fun d => ?_)
    rw [hmv]
    rcases c1 with c | c
    · rw [h0 c, zero_add]
    · rw [← (hV i).2 d, amp_w_zero c, zero_add]
  · rw [if_neg c1]
    by_cases c2 : m.2.w ≠ 0
    · rw [if_pos c2]
      have hadd := DState.add2F_spec hC l m.1 (st.2 i) m.2 hm.wf ((hV i).1.mono hm.ext.le) hm.valid
      generalize DState.add2F D l m.1 (st.2 i) m.2 = r at hadd
      dsimp only
      rw [DState.revertDm_none hadd.wf.tmp, DState.revertDm_none hadd.wf.tmp, DState.revertDm_none hadd.wf.tmp,
        DState.revertDm_none hadd.wf.tmp]
      refine keep r hadd.wf hadd.ext hadd.valid (fun d => ?_)
      rw [hadd.val, hmv, amp_mono hm.ext.le hw.child (hV i).1, (hV i).2]
    · rw [if_neg c2, DState.revertDm_none hm.wf.tmp, DState.revertDm_none hm.wf.tmp]
      push Not at c2
      refine keep (m.1, st.2 i) hm.wf (DExt.refl _ _) ((hV i).1.mono hm.ext.le) (fun d => ?_)
      dsimp only
      rw [amp_mono hm.ext.le hw.child (hV i).1, (hV i).2, ← hmv, amp_w_zero c2, add_zero]

/-- All rounds of the loop, without flags. -/
theorem DState.mulRows_spec {D : DCfg R} (hC : D.P.C.Good) {rec : Bool → DState R → DOp R → DOp R → DState R × PEdge R} {l : Nat}
    (hrec : ∀ (s : DState R) (x y : DOp R), DWF D s → l ≤ s.dt.nvars → x.f = .none → y.f = .none → Valid (s.nodes x.k) l ⟨x.p, x.w⟩ →
      Valid (s.nodes y.k) l ⟨y.p, y.w⟩ →
      DOpS D s l (mulAmp (k := .m) (s.nodes x.k) (s.nodes y.k) l ⟨x.p, x.w⟩ ⟨y.p, y.w⟩) (rec false s x y))
    {s : DState R} (h : DWF D s) (hn : l ≤ s.dt.nvars) {x y : DOp R} {a b : Nat} (hpa : x.p = some a) (ha : a ∈ (s.nodes x.k).all)
    (hla : ((s.nodes x.k).mem a).v = l) (hpb : y.p = some b) (hb : b ∈ (s.nodes y.k).all) (hlb : ((s.nodes y.k).mem b).v = l) :
    DRows D s l (fun i d =>
        mulAmp (k := .m) (s.nodes x.k) (s.nodes y.k) l (((s.nodes x.k).mem a).e (Pkg.mulL .m i 0)) (((s.nodes y.k).mem b).e (Pkg.mulR .m i 0)) d +
        mulAmp (k := .m) (s.nodes x.k) (s.nodes y.k) l (((s.nodes x.k).mem a).e (Pkg.mulL .m i 1)) (((s.nodes y.k).mem b).e (Pkg.mulR .m i 1)) d)
      (([(0, 0), (0, 1), (1, 0), (1, 1), (2, 0), (2, 1), (3, 0), (3, 1)] : List (Fin 4 × Fin 2)).foldl
        (DState.mulRound D rec l false x y) (s, fun _ => zeroE)) := by
  have round := fun {st V} => DState.mulRound_spec hC hrec h hn hpa ha hla hpb hb hlb (st := st) (V := V)
  have q0 : DRows D s l (fun _ _ => 0) (s, fun _ => zeroE) :=
    ⟨h, DExt.refl _ _, fun _ => valid_zeroE _ _, fun _ _ => amp_zeroE _ _ _⟩
  have q8 := round (round (round (round (round (round (round (round q0 0 0 (by simp)) 0 1 (by simp)) 1 0 (by simp)) 1 1 (by simp))
    2 0 (by simp)) 2 1 (by simp)) 3 0 (by simp)) 3 1 (by simp)
  obtain ⟨q1, q2, q3, q4⟩ := q8
  refine ⟨q1, q2, q3, fun i d => (q4 i d).trans ?_⟩
  fin_cases i <;> simp

/-- `multiply2` of two diagrams without flags. -/
theorem DState.multiply2F_spec {D : DCfg R} (hC : D.P.C.Good) : ∀ (l : Nat) (s : DState R) (x y : DOp R), DWF D s → l ≤ s.dt.nvars →
    x.f = .none → y.f = .none → Valid (s.nodes x.k) l ⟨x.p, x.w⟩ → Valid (s.nodes y.k) l ⟨y.p, y.w⟩ →
    DOpS D s l (mulAmp (k := .m) (s.nodes x.k) (s.nodes y.k) l ⟨x.p, x.w⟩ ⟨y.p, y.w⟩) (DState.multiply2F D l false s x y) := by
  intro l
  induction l with
  | zero =>
    intro s x y h hn hxf hyf hx hy
    unfold DState.multiply2F
    dsimp only
    split_ifs with h1
    · exact .pure h (valid_zeroE _ _) (fun d => by rw [mulAmp_zero_left h1, amp_zeroE])
    · refine .pure h (valid_term _ _) (fun d => ?_)
      rw [mulAmp_eq, sum_zero]; rfl
  | succ l ih =>
    intro s x y h hn hxf hyf hx hy
    unfold DState.multiply2F
    dsimp only
    by_cases h1 : x.w = 0 ∨ y.w = 0
    · rw [if_pos h1]
      exact .pure h (valid_zeroE _ _) (fun d => by rw [mulAmp_zero_left h1, amp_zeroE])
    · rw [if_neg h1]
      push Not at h1
      obtain ⟨hxw, hyw⟩ := h1
      -- scaling of a result for the operands with weight one
      have scale : ∀ r : DState R × PEdge R,
          DOpS D s (l + 1) (mulAmp (k := .m) (s.nodes x.k) (s.nodes y.k) (l + 1) ⟨x.p, 1⟩ ⟨y.p, 1⟩) r →
          DOpS D s (l + 1) (mulAmp (k := .m) (s.nodes x.k) (s.nodes y.k) (l + 1) ⟨x.p, x.w⟩ ⟨y.p, y.w⟩)
            (r.1, ⟨r.2.p, r.2.w * x.w * y.w⟩) := by
        intro r hr
        have hxy : x.w * y.w ≠ 0 := mul_ne_zero hxw hyw
        refine ⟨hr.wf, hr.ext, ?_, fun d => ?_⟩
        · rw [mul_assoc, mul_comm]; exact hr.valid.scale hxy
        · rw [mul_assoc, mul_comm, amp_smul, mulAmp_smul, ← hr.val d]
      have hkx := hx.reweight hxw (one_ne_zero (α := Cx R))
      have hky := hy.reweight hyw (one_ne_zero (α := Cx R))
      cases hk : s.mulC.lookup D.mulH (fun a b => decide (a.1.1 = b.1.1 ∧ a.1.2.1 = b.1.2.1 ∧ a.2.1 = b.2.1 ∧ a.2.2.1 = b.2.2.1))
          (fun r => (match r.p with
            | none => false
            | some a => s.dm a) == false) ((x.k, x.p, s.flagsOf x.k x.p), (y.k, y.p, s.flagsOf y.k y.p)) with
      | some r =>
        dsimp only
        obtain ⟨l', a1, a2, a3, a4⟩ := h.lookMul hk
        have hl := hkx.level a1 one_ne_zero
        subst hl
        have hs := scale (s, r) (.pure h a3 a4)
        have hs0 : r.w = 0 → DOpS D s (l + 1) (mulAmp (k := .m) (s.nodes x.k) (s.nodes y.k) (l + 1) ⟨x.p, x.w⟩ ⟨y.p, y.w⟩) (s, zeroE) := by
          intro hr
          refine .pure h (valid_zeroE _ _) (fun d => ?_)
          rw [← hs.val d, amp_zeroE, amp_w_zero]
          show r.w * x.w * y.w = 0
          rw [hr]; ring
        split_ifs with hr hr2
        · exact hs0 hr
        · refine hs0 ?_
          simpa [hxw, hyw] using hr2
        · exact hs
      | none =>
        dsimp only
        obtain ⟨a, hpa, ha, hla⟩ := hx.exists_node hxw
        obtain ⟨b, hpb, hb, hlb⟩ := hy.exists_node hyw
        dsimp only at hpa hpb
        have hn' : l ≤ s.dt.nvars := by omega
        have q8 := DState.mulRows_spec hC ih h hn' hpa ha hla hpb hb hlb
        generalize List.foldl _ _ _ = q at q8
        obtain ⟨q1, q2, q3, q4⟩ := q8
        have hm := DState.makeNode_spec hC true q1 (by rw [q2.nvars]; omega) q3
        generalize DState.makeNode D q.1 l q.2 true false = r at hm
        have hext := q2.trans hm.ext
        have hval : ∀ d, amp r.1.dt.plain (l + 1) r.2 d = mulAmp (k := .m) (s.nodes x.k) (s.nodes y.k) (l + 1) ⟨x.p, 1⟩ ⟨y.p, 1⟩ d := by
          rw [forall_snoc]
          intro d i
          rw [hm.val, Fin.snoc_last, Fin.init_snoc, q4]
          rw [mulAmp_succ (k := .m) (x := ⟨x.p, 1⟩) (y := ⟨y.p, 1⟩) hpa hpb]
          simp
        rw [DState.flagsOf_none hm.wf.tmp, DState.flagsOf_none hm.wf.tmp]
        have hwf : DWF D { r.1 with mulC := r.1.mulC.insert D.mulH ((x.k, x.p, .none), (y.k, y.p, .none)) r.2 } := by
          refine ⟨hm.wf.tmp, hm.wf.dm, hm.wf.clean, hm.wf.uwf, hm.wf.child, hm.wf.norm, hm.wf.pkg, hm.wf.addC, ?_⟩
          refine hm.wf.mulC.insert _ ⟨l + 1, hkx.mono (hext.nodes _), hky.mono (hext.nodes _), hm.valid, fun d => ?_⟩
          refine (hval d).trans (mulAmp_mono (k := .m) (hext.nodes _) (h.nodes _) (hext.nodes _) (h.nodes _) hkx hky d).symm
        have hs := scale ({ r.1 with mulC := r.1.mulC.insert D.mulH ((x.k, x.p, .none), (y.k, y.p, .none)) r.2 }, r.2)
          ⟨hwf, ⟨hext.pkg, hext.le, hext.nvars, hext.inv⟩, hm.valid, hval⟩
        split_ifs with hr hr2
        · refine ⟨hs.wf, hs.ext, valid_zeroE _ _, fun d => ?_⟩
          rw [← hs.val d, amp_zeroE, amp_w_zero]
          exact hr2
        · exact hs
        · push Not at hr
          refine ⟨hs.wf, hs.ext, hm.valid, fun d => ?_⟩
          rw [← hs.val d]
          rw [amp_w_zero hr, amp_w_zero]
          show r.2.w * x.w * y.w = 0
          rw [hr]; ring

/-- `multiply` of two diagrams without flags. -/
theorem DState.multiply_spec {D : DCfg R} (hC : D.P.C.Good) {l : Nat} {s : DState R} {kx ky : DKind} {x y : PEdge R} (h : DWF D s)
    (hn : l ≤ s.dt.nvars) (hx : Valid (s.nodes kx) l x) (hy : Valid (s.nodes ky) l y) :
    DOpS D s l (mulAmp (k := .m) (s.nodes kx) (s.nodes ky) l x y)
      (DState.multiply D false s ⟨kx, x.p, .none, x.w⟩ ⟨ky, y.p, .none, y.w⟩) := by
  have hlv : ∀ (k : DKind) (z : PEdge R), s.lvO ⟨k, z.p, .none, z.w⟩ = (s.nodes k).lvl z := by
    intro k z
    cases k with
    | d => exact DState.lvD_eq s z
    | m => rfl
  unfold DState.multiply
  dsimp only
  rw [DState.applyDm_none _ rfl, DState.applyDm_none _ rfl, DOp.align_none rfl, DOp.align_none rfl]
  have key : DOpS D s l (mulAmp (k := .m) (s.nodes kx) (s.nodes ky) l x y)
      (DState.multiply2F D (max (s.lvO ⟨kx, x.p, .none, x.w⟩) (s.lvO ⟨ky, y.p, .none, y.w⟩)) false s ⟨kx, x.p, .none, x.w⟩ ⟨ky, y.p, .none, y.w⟩) := by
    by_cases h0 : x.w = 0 ∨ y.w = 0
    · unfold DState.multiply2F
      rw [if_pos h0]
      exact .pure h (valid_zeroE _ _) (fun d => by rw [mulAmp_zero_left h0, amp_zeroE])
    · push Not at h0
      have : max (s.lvO ⟨kx, x.p, .none, x.w⟩) (s.lvO ⟨ky, y.p, .none, y.w⟩) = l := by
        rw [hlv, hlv, hx.lvl h0.1, hy.lvl h0.2]; simp
      rw [this]
      exact DState.multiply2F_spec hC l s ⟨kx, x.p, .none, x.w⟩ ⟨ky, y.p, .none, y.w⟩ h hn rfl rfl hx hy
  generalize DState.multiply2F D _ false s _ _ = r at key
  rw [DState.revertDm_none key.wf.tmp, DState.revertDm_none key.wf.tmp]
  exact key

end DD
