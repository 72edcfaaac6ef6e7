import Verif.Proofs.DensityOps
import Verif.Proofs.Use
import Verif.DensityOpsSpec

/-! # The invariant of packages with density matrix diagrams -/

namespace DD
open UTable

variable {R : Type} [Field R] [LinearOrder R] [IsStrictOrderedRing R]

/-- The invariant of a package and the references its user holds. -/
structure DInv (D : DCfg R) (h : DHist R) : Prop where
  wf : DWF D h.st
  pkg : PInv D.P ⟨h.st.pkg, h.held⟩
  ref : ∃ wr, UInv D.hash D.P.C ⟨h.st.dt, h.heldD.map FEdge.plain, wr⟩
  held : ∀ e ∈ h.heldD, ∃ l, Valid h.st.dt.plain l e

theorem DInv.ext {D : DCfg R} {h : DHist R} (hi : DInv D h) {s : DState R} (hw : DWF D s) (he : DExt D h.st s) :
    DInv D { h with st := s } where
  wf := hw
  pkg := hi.pkg.ext hw.pkg he.pkg
  ref := by
    obtain ⟨wr, hr⟩ := hi.ref
    exact ⟨wr, he.inv _ _ hr⟩
  held e hm := by
    obtain ⟨l, hl⟩ := hi.held e hm
    exact ⟨l, hl.mono he.le⟩

/-! ## References -/

theorem SameShape.plain {t t' : UTable (Cx R × DFlags) 4} (h : SameShape t t') : Le t.plain t'.plain := by
  intro a ha
  refine ⟨?_, h.v a, ?_⟩
  · change a ∈ t'.all; rw [h.all]; exact ha
  · show (fun i => (⟨((t'.mem a).e i).p, ((t'.mem a).e i).w.1⟩ : PEdge R)) = _
    rw [h.e]; rfl

theorem DWF.reshape {D : DCfg R} {s : DState R} (h : DWF D s) {t : UTable (Cx R × DFlags) 4} (ht : SameShape s.dt t) :
    DWF D { s with dt := t } := by
  have hle := SameShape.plain ht
  have hpe : ∀ a i, (t.plain.mem a).e i = (s.dt.plain.mem a).e i := by
    intro a i
    show (⟨((t.mem a).e i).p, ((t.mem a).e i).w.1⟩ : PEdge R) = _
    rw [ht.e]; rfl
  refine ⟨h.tmp, h.dm, ?_, ht.uwf h.uwf, ?_, ?_, h.pkg, h.addC.mono fun _ _ hr => hr.mono hle h.child, h.mulC.mono fun _ _ hr => hr.mono ?_ h.nodes⟩
  · intro a ha i
    dsimp only at ha ⊢
    rw [ht.all] at ha; rw [ht.e]; exact h.clean a ha i
  · intro a ha i
    change a ∈ t.all at ha
    rw [ht.all] at ha
    dsimp only
    rw [hpe]
    have hv : (t.plain.mem a).v = (s.dt.plain.mem a).v := ht.v a
    rw [hv]
    exact (h.child a ha i).mono hle
  · intro a ha
    change a ∈ t.all at ha
    rw [ht.all] at ha
    dsimp only
    simp only [hpe]
    exact h.norm a ha
  · intro k
    cases k with
    | d => exact hle
    | m => exact Le.refl _

omit [LinearOrder R] [IsStrictOrderedRing R] in
theorem FEdge.plain_inj : Function.Injective (FEdge.plain : PEdge R → FEdge R) := by
  intro a b h
  unfold FEdge.plain at h
  simp only [Edge.mk.injEq, Prod.mk.injEq, and_true] at h
  obtain ⟨p, w⟩ := a
  obtain ⟨p', w'⟩ := b
  simp_all

theorem DInv.incRef {D : DCfg R} (hC : D.P.C.Good) {h : DHist R} (hi : DInv D h) {l : Nat} {e : PEdge R} (he : Valid h.st.dt.plain l e) :
    DInv D { h with st := DState.incRef D h.st e, heldD := e :: h.heldD } ∧ SameShape h.st.dt (DState.incRef D h.st e).dt := by
  obtain ⟨wr, hr⟩ := hi.ref
  have hb : ∀ b, (FEdge.plain e).p = some b → b ∈ h.st.dt.all := by
    intro b hb
    exact ((valid_some (e := e) hb).1 he).1
  have hsp : IncSpec D.P.C h.st.dt (FEdge.plain e) (h.st.dt.incRef D.P.C (FEdge.plain e)).1 (h.st.dt.incRef D.P.C (FEdge.plain e)).2 := by
    apply incRefF_spec D.P.C _ _ _ hr.closed
    intro b hb'
    exact ⟨hb b hb', by simp [UTable.lvl, hb']⟩
  refine ⟨⟨hi.wf.reshape hsp.shape, hi.pkg, ⟨_, UStep.inv hC hr (.inc _ (FEdge.plain e) hb)⟩, ?_⟩, hsp.shape⟩
  intro e' he'
  rcases List.mem_cons.1 he' with rfl | he'
  · exact ⟨l, he.mono (SameShape.plain hsp.shape)⟩
  · obtain ⟨l', hl'⟩ := hi.held e' he'
    exact ⟨l', hl'.mono (SameShape.plain hsp.shape)⟩

theorem DInv.decRef {D : DCfg R} (hC : D.P.C.Good) {h : DHist R} (hi : DInv D h) {e : PEdge R} (he : e ∈ h.heldD) :
    ∃ s, DState.decRef D h.st e = some s ∧ SameShape h.st.dt s.dt ∧ DInv D { h with st := s, heldD := h.heldD.erase e } ∧ s.pkg = h.st.pkg := by
  obtain ⟨wr, hr⟩ := hi.ref
  have hm : FEdge.plain e ∈ h.heldD.map FEdge.plain := List.mem_map_of_mem he
  obtain ⟨r, hr1, hr2⟩ := hr.dec_exists hC hm
  dsimp only at hr1
  refine ⟨{ h.st with dt := r.1 }, by unfold DState.decRef; rw [hr1]; rfl, hr2.shape, ⟨hi.wf.reshape hr2.shape, hi.pkg, ?_, ?_⟩, rfl⟩
  · have := UStep.inv hC hr (.dec _ (FEdge.plain e) hm r hr1)
    rw [← List.map_erase FEdge.plain_inj] at this
    exact ⟨_, this⟩
  · intro e' he'
    obtain ⟨l', hl'⟩ := hi.held e' (List.mem_of_mem_erase he')
    exact ⟨l', hl'.mono (SameShape.plain hr2.shape)⟩

/-! ## Garbage collection, clearing, resizing, reset -/

/-- Removing unreferenced nodes from the table of density matrix nodes. -/
theorem gcD_child {D : DCfg R} (hC : D.P.C.Good) {h : DHist R} (hi : DInv D h) (force : Bool) :
    Children (h.st.dt.garbageCollect D.P.C force).1.plain := by
  obtain ⟨wr, hr⟩ := hi.ref
  have hcl := (UStep.inv hC hr (.gc _ force)).closed
  have hm := gc_mem D.P.C h.st.dt force
  have hpm : (h.st.dt.garbageCollect D.P.C force).1.plain.mem = h.st.dt.plain.mem := by unfold UTable.plain; dsimp only; rw [hm]
  intro a ha i
  have ha' := gc_subset D.P.C h.st.dt force ha
  have hv := hi.wf.child a ha' i
  cases hp : (((h.st.dt.garbageCollect D.P.C force).1.plain.mem a).e i).p with
  | none =>
    rw [valid_none hp]
    rw [hpm] at hp ⊢
    rw [valid_none hp] at hv
    exact hv
  | some b =>
    rw [valid_some hp]
    refine ⟨(hcl a ha i b hp).1, ?_⟩
    rw [hpm] at hp ⊢
    rw [valid_some hp] at hv
    exact hv.2

theorem gcD_le {C : UCfg} {t : UTable (Cx R × DFlags) 4} {force : Bool} (h : ¬ 0 < (t.garbageCollect C force).2) :
    Le t.plain (t.garbageCollect C force).1.plain := by
  intro a ha
  have hpm : (t.garbageCollect C force).1.plain.mem = t.plain.mem := by unfold UTable.plain; dsimp only; rw [gc_mem]
  rw [hpm]
  refine ⟨?_, rfl, rfl⟩
  change a ∈ (t.garbageCollect C force).1.all
  rw [gc_count_zero C t force h]; exact ha

theorem DInv.gc {D : DCfg R} (hC : D.P.C.Good) {h : DHist R} (hi : DInv D h) (force needC collC : Bool) :
    DInv D { h with st := (h.st.garbageCollect D force needC collC).1 } := by
  unfold DState.garbageCollect
  split_ifs with hc
  · exact hi
  · dsimp only
    generalize hg : (⟨force, needC, collC, decide (h.st.dt.gcLimit ≤ h.st.dt.nodeCount),
      decide (0 < (h.st.dt.garbageCollect D.P.C (force || collC)).2)⟩ : GcEnv) = g
    have hp := hi.pkg.gc hC g
    have hfc : (g.force || g.collC) = (force || collC) := by rw [← hg]
    obtain ⟨wr, hr⟩ := hi.ref
    have hm := gc_mem D.P.C h.st.dt (force || collC)
    have hpm : (h.st.dt.garbageCollect D.P.C (force || collC)).1.plain.mem = h.st.dt.plain.mem := by
      unfold UTable.plain; dsimp only; rw [hm]
    refine ⟨⟨hi.wf.tmp, hi.wf.dm, ?_, gc_UWF _ hi.wf.uwf _, gcD_child hC hi _, ?_, hp.wf, ?_, ?_⟩, hp, ⟨wr, UStep.inv hC hr (.gc _ _)⟩, ?_⟩
    · intro a ha i
      dsimp only at ha ⊢
      rw [hm]; exact hi.wf.clean a (gc_subset _ _ _ ha) i
    · intro a ha
      dsimp only at ha ⊢
      rw [hpm]; exact hi.wf.norm a (gc_subset _ _ _ ha)
    · dsimp only
      split_ifs with hcl
      · exact hi.wf.addC.clear _
      · simp only [Bool.or_eq_true, decide_eq_true_eq, not_or] at hcl
        exact hi.wf.addC.mono fun _ _ hr => hr.mono (gcD_le hcl.1.2) hi.wf.child
    · dsimp only
      split_ifs with hcl
      · exact hi.wf.mulC.clear _
      · simp only [Bool.or_eq_true, decide_eq_true_eq, not_or] at hcl
        refine hi.wf.mulC.mono fun _ _ hr => hr.mono ?_ hi.wf.nodes
        intro k
        cases k with
        | d => exact gcD_le hcl.1.2
        | m =>
          change Le (h.st.pkg.ut .m) ((h.st.pkg.garbageCollect D.P g).1.ut .m)
          rcases gc_ut D.P g h.st.pkg with he | hut
          · rw [he]; exact Le.refl _
          · rw [hut .m, hfc]; exact gc_le hcl.1.1
    · intro e he
      obtain ⟨l, hl⟩ := hi.held e he
      refine ⟨l, ?_⟩
      dsimp only
      cases hp' : e.p with
      | none => rw [valid_none hp'] at hl ⊢; exact hl
      | some a =>
        rw [valid_some hp'] at hl ⊢
        have h1 := hr.held_ref hC (List.mem_map_of_mem he) (show (FEdge.plain e).p = some a from hp')
        dsimp only at h1
        rw [hpm]
        exact ⟨gc_keeps D.P.C h.st.dt _ (show a ∈ h.st.dt.all from hl.1) (by omega), hl.2⟩

theorem DInv.init {D : DCfg R} (hC : D.P.C.Good) (nq nbV nbM nbD : Nat) (cellV : Node (Cx R) 2) (cellM : Node (Cx R) 4)
    (cellD : Node (Cx R × DFlags) 4) (hV : 0 < nbV) (hM : 0 < nbM) (hD : 0 < nbD) :
    DInv D ⟨DState.init D nq nbV nbM nbD cellV cellM cellD, fun _ => [], []⟩ := by
  have hp := PInv.init (P := D.P) hC nq nbV nbM hV hM cellV cellM
  have h0 : ∀ a, a ∉ (UTable.init D.P.C nq nbD cellD).all := by intro a; rw [init_all]; simp
  refine ⟨⟨fun _ => rfl, fun _ => rfl, fun a ha => absurd ha (h0 a), init_UWF _ _ hC.growth hC.initAlloc _ _ hD _, fun a ha => absurd ha (h0 a),
    fun a ha => absurd ha (h0 a), hp.wf, CacheOK.empty _, CacheOK.empty _⟩, hp, ⟨_, UReach.inv hC (.init nq nbD hD cellD)⟩, fun e he => by simp at he⟩

theorem DInv.reset {D : DCfg R} (hC : D.P.C.Good) {h : DHist R} (hi : DInv D h) : DInv D ⟨h.st.reset D, fun _ => [], []⟩ := by
  have hp := hi.pkg.reset hC
  obtain ⟨wr, hr⟩ := hi.ref
  have h0 : ∀ a, a ∉ (h.st.dt.clear D.P.C).all := by intro a; rw [clear_all]; simp
  refine ⟨⟨hi.wf.tmp, hi.wf.dm, fun a ha => absurd ha (h0 a), clear_UWF hC.growth hC.initAlloc hi.wf.uwf.nb, fun a ha => absurd ha (h0 a),
    fun a ha => absurd ha (h0 a), hp.wf, hi.wf.addC.clear _, hi.wf.mulC.clear _⟩, hp, ⟨_, UStep.inv hC hr (.clear _)⟩, fun e he => by simp at he⟩

theorem DInv.resize {D : DCfg R} {h : DHist R} (hi : DInv D h) {nq : Nat} {s : DState R}
    (hk : ∀ k, (h.st.pkg.ut k).nvars ≤ nq) (hd : h.st.dt.nvars ≤ nq) (hs : h.st.resize nq = some s) :
    DInv D { h with st := s } ∧ Le h.st.dt.plain s.dt.plain ∧ ∀ k, Le (h.st.pkg.ut k) (s.pkg.ut k) := by
  unfold DState.resize at hs
  cases hp : h.st.pkg.resize nq with
  | none => rw [hp] at hs; cases hs
  | some p =>
    rw [hp] at hs
    simp only [Option.map_some, Option.some.injEq] at hs
    subst hs
    obtain ⟨hp1, _, hp3, _⟩ := hi.pkg.resize hk hp
    obtain ⟨wr, hr⟩ := hi.ref
    have he := hr.resize_eq hd
    dsimp only at he
    have hall : (h.st.dt.resize nq).all = h.st.dt.all := by rw [he]; exact all_nvars hi.wf.uwf hd
    have hmem : (h.st.dt.resize nq).mem = h.st.dt.mem := by rw [he]
    have hpm : (h.st.dt.resize nq).plain.mem = h.st.dt.plain.mem := by unfold UTable.plain; dsimp only; rw [hmem]
    have hle : Le h.st.dt.plain (h.st.dt.resize nq).plain := by
      intro a ha
      rw [hpm]
      refine ⟨?_, rfl, rfl⟩
      change a ∈ (h.st.dt.resize nq).all
      rw [hall]; exact ha
    refine ⟨⟨⟨hi.wf.tmp, hi.wf.dm, ?_, ?_, ?_, ?_, hp1.wf, ?_, ?_⟩, hp1, ⟨wr, ?_⟩, ?_⟩, hle, hp3⟩
    · intro a ha i
      dsimp only at ha ⊢
      rw [hall] at ha; rw [hmem]; exact hi.wf.clean a ha i
    · dsimp only; rw [he]; exact uwf_nvars_le hi.wf.uwf hd
    · intro a ha i
      change a ∈ (h.st.dt.resize nq).all at ha
      rw [hall] at ha
      dsimp only
      rw [hpm]
      exact (hi.wf.child a ha i).mono hle
    · intro a ha
      change a ∈ (h.st.dt.resize nq).all at ha
      rw [hall] at ha
      dsimp only
      rw [hpm]
      exact hi.wf.norm a ha
    · exact hi.wf.addC.mono fun _ _ hr => hr.mono hle hi.wf.child
    · refine hi.wf.mulC.mono fun _ _ hr => hr.mono ?_ hi.wf.nodes
      intro k
      cases k with
      | d => exact hle
      | m => exact hp3 .m
    · dsimp only; rw [he]; exact hr.nvars_le hd
    · intro e hh
      obtain ⟨l, hl⟩ := hi.held e hh
      exact ⟨l, hl.mono hle⟩

/-! ## Operations -/

variable [HasSqrt R]

/-- `makeZeroDensityOperator`. -/
theorem DState.makeZero_spec {D : DCfg R} (hC : D.P.C.Good) {s : DState R} (h : DWF D s) : ∀ n, n ≤ s.dt.nvars →
    DOpS D s n (fun d => if ∀ i, d i = 0 then 1 else 0) (DState.makeZeroDensityOperator D s n) := by
  intro n
  induction n with
  | zero =>
    intro _
    refine .pure h (valid_term _ _) (fun d => ?_)
    rw [if_pos (fun i => i.elim0)]; rfl
  | succ n ih =>
    intro hn
    unfold DState.makeZeroDensityOperator
    dsimp only
    have o := ih (by omega)
    generalize DState.makeZeroDensityOperator D s n = r at o
    have hes : ∀ i, Valid r.1.dt.plain n ((![r.2, zeroE, zeroE, zeroE] : Fin 4 → PEdge R) i) := by
      intro i; fin_cases i
      · exact o.valid
      all_goals exact valid_zeroE _ _
    have hm := DState.makeNode_spec hC false o.wf (by rw [o.ext.nvars]; omega) hes
    refine ⟨hm.wf, o.ext.trans hm.ext, hm.valid, ?_⟩
    rw [forall_snoc]
    intro d i
    rw [hm.val, Fin.snoc_last, Fin.init_snoc]
    have hall : (∀ j, (Fin.snoc (α := fun _ => Fin 4) d i) j = 0) ↔ i = 0 ∧ ∀ j, d j = 0 := by
      rw [Fin.forall_fin_succ']
      simp [and_comm]
    by_cases hi : i = 0
    · subst hi
      show amp r.1.dt.plain n r.2 d = _
      rw [o.val]
      simp only [hall, true_and]
    · rw [if_neg (by rw [hall]; exact fun h => hi h.1), amp_w_zero]
      fin_cases i
      · exact absurd rfl hi
      all_goals rfl

variable [LawfulSqrt R]

omit [HasSqrt R] [LawfulSqrt R] in
theorem mulAmp_mat (t t' : UTable (Cx R) 4) (l : Nat) (x y : PEdge R) (r c : Fin l → Fin 2) :
    mulAmp (k := .m) t t' l x y (fun i => rc (r i) (c i)) = (mat t l x * mat t' l y) r c := by
  rw [Matrix.mul_apply]
  have h1 : ∀ a b : Fin 2, (![0, 0, 1, 1] : Fin 4 → Fin 2) (rc a b) = a := by decide
  have h2 : ∀ a b : Fin 2, (![0, 1, 0, 1] : Fin 4 → Fin 2) (rc a b) = b := by decide
  refine Finset.sum_congr rfl fun j _ => ?_
  simp only [h1, h2]
  rfl

/-- `applyOperationToDensity` on a diagram the user holds a reference to. -/
theorem DInv.apply {D : DCfg R} (hC : D.P.C.Good) {h : DHist R} (hi : DInv D h) {l : Nat} {e op : PEdge R} (he : e ∈ h.heldD)
    (hv : Valid h.st.dt.plain l e) (hop : Valid (h.st.pkg.ut .m) l op) (hl : l ≤ h.st.dt.nvars) :
    ∃ r, DState.applyOperationToDensity D h.st (.ofD e) op false = some r ∧ r.2 = .ofD ⟨r.2.p, r.2.w⟩ ∧
      DInv D { h with st := r.1, heldD := (⟨r.2.p, r.2.w⟩ :: h.heldD).erase e } ∧ PExt h.st.pkg r.1.pkg ∧ Le h.st.dt.plain r.1.dt.plain ∧
      Valid r.1.dt.plain l ⟨r.2.p, r.2.w⟩ ∧
      mat r.1.dt.plain l ⟨r.2.p, r.2.w⟩ = mat (h.st.pkg.ut .m) l op * mat h.st.dt.plain l e * adj (mat (h.st.pkg.ut .m) l op) := by
  unfold DState.applyOperationToDensity
  dsimp only
  have oc := conjugateTranspose_spec hC.growth hi.wf.pkg hop
  generalize Pkg.conjugateTranspose D.P h.st.pkg op = c at oc
  have hext0 : DExt D h.st { h.st with pkg := c.1 } := ⟨oc.ext, Le.refl _, rfl, fun _ _ h => h⟩
  have hwf0 : DWF D { h.st with pkg := c.1 } :=
    hi.wf.transfer hext0 rfl rfl hi.wf.clean hi.wf.uwf hi.wf.child hi.wf.norm oc.wf rfl rfl
  have o1 := DState.multiply_spec hC hwf0 (l := l) (kx := .d) (ky := .m) (x := e) (y := c.2) hl hv oc.valid
  change DOpS D _ l _ (DState.multiply D false { h.st with pkg := c.1 } (.ofD e) (.ofM c.2)) at o1
  generalize DState.multiply D false { h.st with pkg := c.1 } (.ofD e) (.ofM c.2) = t1 at o1
  have hext1 := hext0.trans o1.ext
  have o2 := DState.multiply_spec hC o1.wf (l := l) (kx := .m) (ky := .d) (x := op) (y := t1.2)
    (by rw [hext1.nvars]; exact hl) (hop.mono (hext1.pkg.le .m)) o1.valid
  change DOpS D _ l _ (DState.multiply D false t1.1 (.ofM op) (.ofD t1.2)) at o2
  generalize DState.multiply D false t1.1 (.ofM op) (.ofD t1.2) = t2 at o2
  have hext2 := hext1.trans o2.ext
  have hi2 := hi.ext o2.wf hext2
  obtain ⟨hi3, hsh3⟩ := hi2.incRef hC o2.valid
  dsimp only at hi3 hsh3
  have he3 : e ∈ t2.2 :: h.heldD := List.mem_cons_of_mem _ he
  obtain ⟨s, hs, hsh, hi4, hpk⟩ := hi3.decRef hC he3
  dsimp only at hs hsh hi4 hpk
  have hle := (SameShape.plain hsh3).trans (SameShape.plain hsh)
  refine ⟨(s, .ofD t2.2), ?_, rfl, hi4, ?_, hext2.le.trans hle, o2.valid.mono hle, ?_⟩
  · show ((t2.1.incRef D t2.2).decRef D e).map _ = _
    rw [hs]; rfl
  · dsimp only; rw [hpk]; exact hext2.pkg
  · funext r cc
    have hv2 : mat s.dt.plain l t2.2 r cc = mat t2.1.dt.plain l t2.2 r cc := amp_mono hle o2.wf.child o2.valid _
    show mat s.dt.plain l t2.2 r cc = _
    rw [hv2]
    have hm2 : mat t2.1.dt.plain l t2.2 = mat (h.st.pkg.ut .m) l op * mat t1.1.dt.plain l t1.2 := by
      funext r cc
      show amp _ _ _ _ = _
      rw [o2.val]
      refine (mulAmp_mono (k := .m) (hext1.pkg.le .m) (hi.wf.nodes .m) (Le.refl _) o1.wf.child hop o1.valid _).trans ?_
      exact mulAmp_mat _ _ _ _ _ _ _
    have hm1 : mat t1.1.dt.plain l t1.2 = mat h.st.dt.plain l e * adj (mat (h.st.pkg.ut .m) l op) := by
      have hc : mat (c.1.ut .m) l c.2 = adj (mat (h.st.pkg.ut .m) l op) := by
        rw [oc.mat_eq]; funext r c; rw [swapD_rc]; rfl
      rw [← hc]
      funext r cc
      show amp _ _ _ _ = _
      rw [o1.val]
      exact mulAmp_mat _ _ _ _ _ _ _
    rw [hm2, hm1, Matrix.mul_assoc]

/-- What a step does to the density matrix diagrams and the references to them. -/
theorem DStep.inv {D : DCfg R} (hC : D.P.C.Good) {h h' : DHist R} (hi : DInv D h) (hs : DStep D h h') : DInv D h' := by
  cases hs with
  | call p hp hm =>
    have hi' := hp.inv hC hi.pkg
    refine ⟨⟨hi.wf.tmp, hi.wf.dm, hi.wf.clean, hi.wf.uwf, hi.wf.child, hi.wf.norm, hi'.wf, hi.wf.addC, ?_⟩, hi', hi.ref, hi.held⟩
    refine hi.wf.mulC.mono fun _ _ hr => hr.mono ?_ hi.wf.nodes
    intro k
    cases k with
    | d => exact Le.refl _
    | m => exact hm
  | makeZeroDensityOperator n hn =>
    have o := DState.makeZero_spec hC hi.wf n hn
    exact hi.ext o.wf o.ext
  | makeDDNode v es cached hv hes =>
    have o := DState.makeNode_spec hC cached hi.wf hv hes
    exact hi.ext o.wf o.ext
  | multiply l kx ky x y hl hx hy =>
    have o := DState.multiply_spec hC hi.wf hl hx hy
    exact hi.ext o.wf o.ext
  | applyOperationToDensity l e op r hv hop hl he hr =>
    obtain ⟨r', h1, _, h3, _⟩ := hi.apply hC he hv hop hl
    rw [hr] at h1; cases h1
    exact h3
  | incRef l e hv => exact (hi.incRef hC hv).1
  | decRef e s he hs =>
    obtain ⟨s', h1, _, h3, _⟩ := hi.decRef hC he
    rw [hs] at h1; cases h1
    exact h3
  | garbageCollect force needC collC => exact hi.gc hC force needC collC
  | clearComputeTables =>
    refine ⟨⟨hi.wf.tmp, hi.wf.dm, hi.wf.clean, hi.wf.uwf, hi.wf.child, hi.wf.norm, hi.wf.pkg.clearTables, hi.wf.addC.clear _, hi.wf.mulC.clear _⟩,
      ⟨hi.wf.pkg.clearTables, hi.pkg.ref, hi.pkg.held⟩, hi.ref, hi.held⟩
  | resize nq s hk hd hs => exact (hi.resize hk hd hs).1
  | reset => exact hi.reset hC

/-- Every reachable package satisfies the invariant. -/
theorem DReach.inv {D : DCfg R} (hC : D.P.C.Good) {h : DHist R} (hr : DReach D h) : DInv D h := by
  obtain ⟨h0, hs, hp⟩ := hr
  induction hp with
  | refl => cases hs with | init nq nbV nbM nbD cV cM cD _ hV hM hD => exact DInv.init hC nq nbV nbM nbD cV cM cD hV hM hD
  | tail _ h2 ih => exact h2.inv hC ih

/-! ## What the diagrams mean -/

omit [LinearOrder R] [IsStrictOrderedRing R] [HasSqrt R] [LawfulSqrt R] in
theorem plainT_eq (t : UTable (Cx R × DFlags) 4) : ∀ (l : Nat) (e : PEdge R) (r c : Fin l → Fin 2), e.w * plainT t l e.p r c = mat t.plain l e r c := by
  intro l
  induction l with
  | zero => intro e r c; simp only [plainT, mul_one]; rfl
  | succ l ih =>
    intro e r c
    cases hp : e.p with
    | none =>
      simp only [plainT, mul_one]
      exact (amp_none hp _).symm
    | some a =>
      simp only [plainT]
      unfold mat
      rw [amp_some hp]
      congr 1
      exact ih ⟨((t.mem a).e (rc (r (Fin.last l)) (c (Fin.last l)))).p, ((t.mem a).e (rc (r (Fin.last l)) (c (Fin.last l)))).w.1⟩ _ _

omit [LinearOrder R] [IsStrictOrderedRing R] [HasSqrt R] [LawfulSqrt R] in
theorem densityOf_eq (s : DState R) (l : Nat) (e : PEdge R) : densityOf s l (.ofD e) = mat s.dt.plain l e := by
  funext r c
  exact plainT_eq s.dt l e r c

/-- The table of density matrix nodes without flags is a table of matrix nodes. -/
theorem DWF.ddwf {D : DCfg R} {s : DState R} (h : DWF D s) : DDWF (k := .m) (fun es => D.hash fun i => FEdge.plain (es i)) s.dt.plain := by
  have hes : ∀ a ∈ s.dt.all, (s.dt.mem a).e = fun i => FEdge.plain ((s.dt.plain.mem a).e i) := by
    intro a ha
    funext i
    have := h.clean a ha i
    show (s.dt.mem a).e i = ⟨((s.dt.mem a).e i).p, (((s.dt.mem a).e i).w.1, .none)⟩
    rw [← this]
  refine ⟨⟨h.uwf.nb, h.uwf.nodup, h.uwf.availNodup, h.uwf.disj, h.uwf.allLt, h.uwf.availLt, h.uwf.brkLe, h.uwf.szPos, ?_, ?_, h.uwf.count,
    h.uwf.refZero⟩, h.child, h.norm⟩
  · intro v k a ha
    obtain ⟨h1, h2, h3, h4⟩ := h.uwf.bucket v k a ha
    refine ⟨h1, h2, h3, ?_⟩
    have hall := h.uwf.chain_mem_all ha
    rw [hes a hall] at h4
    exact h4
  · intro a ha b hb hv he
    refine h.uwf.uniq a ha b hb hv ?_
    rw [hes a ha, hes b hb]
    funext i
    exact congrArg FEdge.plain (congrFun he i)

/-- Along a step a density matrix that is referenced before and after keeps its value. -/
theorem DStep.value {D : DCfg R} (hC : D.P.C.Good) {h h' : DHist R} (hi : DInv D h) (hs : DStep D h h') {l : Nat} {e : PEdge R}
    (hv : Valid h.st.dt.plain l e) (hh : e ∈ h.heldD) (hh' : e ∈ h'.heldD) :
    Valid h'.st.dt.plain l e ∧ ∀ d, amp h'.st.dt.plain l e d = amp h.st.dt.plain l e d := by
  have key : ∀ {t : UTable (Cx R) 4}, Le h.st.dt.plain t → Valid t l e ∧ ∀ d, amp t l e d = amp h.st.dt.plain l e d :=
    fun hle => ⟨hv.mono hle, fun d => amp_mono hle hi.wf.child hv d⟩
  cases hs with
  | call p hp hm => exact ⟨hv, fun _ => rfl⟩
  | makeZeroDensityOperator n hn => exact key (DState.makeZero_spec hC hi.wf n hn).ext.le
  | makeDDNode v es cached hv hes => exact key (DState.makeNode_spec hC cached hi.wf hv hes).ext.le
  | multiply l kx ky x y hl hx hy => exact key (DState.multiply_spec hC hi.wf hl hx hy).ext.le
  | applyOperationToDensity l e op r hv hop hl he hr =>
    obtain ⟨r', h1, _, _, _, h5, _⟩ := hi.apply hC he hv hop hl
    rw [hr] at h1; cases h1
    exact key h5
  | incRef l e hv => exact key (SameShape.plain (hi.incRef hC hv).2)
  | decRef e s he hs =>
    obtain ⟨s', h1, h2, _⟩ := hi.decRef hC he
    rw [hs] at h1; cases h1
    exact key (SameShape.plain h2)
  | garbageCollect force needC collC =>
    obtain ⟨wr, hr⟩ := hi.ref
    unfold DState.garbageCollect
    split_ifs with hc
    · exact ⟨hv, fun _ => rfl⟩
    · dsimp only
      have hpm : (h.st.dt.garbageCollect D.P.C (force || collC)).1.plain.mem = h.st.dt.plain.mem := by
        unfold UTable.plain; dsimp only; rw [gc_mem]
      refine ⟨?_, fun d => amp_congr_mem hpm l e d⟩
      cases hp' : e.p with
      | none => rw [valid_none hp'] at hv ⊢; exact hv
      | some a =>
        rw [valid_some hp'] at hv ⊢
        have h1 := hr.held_ref hC (List.mem_map_of_mem hh) (show (FEdge.plain e).p = some a from hp')
        dsimp only at h1
        rw [hpm]
        exact ⟨gc_keeps D.P.C h.st.dt _ (show a ∈ h.st.dt.all from hv.1) (by omega), hv.2⟩
  | clearComputeTables => exact ⟨hv, fun _ => rfl⟩
  | resize nq s hk hd hs => exact key (hi.resize hk hd hs).2.1
  | reset => simp at hh'

end DD
