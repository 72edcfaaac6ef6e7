import Verif.Proofs.Kron
import Verif.Proofs.UHist
import Verif.Model.PkgState

/-!
# The invariant of the package under references, garbage collection and reset
-/

namespace DD
open UTable

variable {R : Type} [Field R] [LinearOrder R] [IsStrictOrderedRing R]

/-! ## Extensions of tables -/

theorem TExt.sum {n : Nat} {t t' : UTable (Cx R) n} (h : TExt t t') (F : (Fin n → PEdge R) → Nat → Nat) :
    (∑ b ∈ t'.all.toFinset, if 0 < (t'.mem b).ref then F (t'.mem b).e (t'.mem b).v else 0) =
    ∑ b ∈ t.all.toFinset, if 0 < (t.mem b).ref then F (t.mem b).e (t.mem b).v else 0 := by
  symm
  have h1 : (∑ b ∈ t.all.toFinset, if 0 < (t.mem b).ref then F (t.mem b).e (t.mem b).v else 0) =
      ∑ b ∈ t.all.toFinset, if 0 < (t'.mem b).ref then F (t'.mem b).e (t'.mem b).v else 0 := by
    apply Finset.sum_congr rfl
    intro b hb
    rw [(h.old b (List.mem_toFinset.1 hb)).2]
  rw [h1]
  apply Finset.sum_subset
  · intro a ha
    exact List.mem_toFinset.2 (h.old a (List.mem_toFinset.1 ha)).1
  · intro a ha hna
    rw [h.new a (List.mem_toFinset.1 ha) (fun hm => hna (List.mem_toFinset.2 hm))]
    simp

theorem Children.closed {n : Nat} {t : UTable (Cx R) n} (h : Children t) : Closed t := by
  intro a ha i b hb
  have := h a ha i
  rw [valid_some hb] at this
  exact ⟨this.1, by omega⟩

/-- The reference counting invariant is kept when unreferenced nodes are added. -/
theorem UInv.ext {k : Kind} {H : (Fin (ar k) → PEdge R) → Nat} {C : UCfg} {t t' : UTable (Cx R) (ar k)}
    {L : List (PEdge R)} {wr : Cx R → Nat} (h : UInv H C ⟨t, L, wr⟩) (he : TExt t t') (hd : DDWF H t') :
    UInv H C ⟨t', L, wr⟩ := by
  have hpar : ∀ a, t'.par a = t.par a := fun a => he.sum (fun es _ => cntL es (List.finRange _) a)
  refine ⟨hd.uwf, hd.child.closed, fun e hm b hb => (he.old b (h.held e hm b hb)).1, ?_, ?_, ?_, ?_⟩
  · intro a ha
    dsimp only at ha ⊢
    rw [hpar]
    by_cases hm : a ∈ t.all
    · rw [(he.old a hm).2]; exact h.ginv a hm
    · right
      rw [he.new a ha hm]
      have hz1 : heldCnt L a = 0 := by
        unfold heldCnt
        rw [List.countP_eq_zero]
        intro e hL hp
        exact hm (h.held e hL _ (by simpa using hp))
      have hz2 : t.par a = 0 := by
        unfold UTable.par
        apply Finset.sum_eq_zero
        intro b hb
        split
        · unfold cntL
          rw [List.countP_eq_zero]
          intro i _ hp
          exact hm (h.closed b (List.mem_toFinset.1 hb) i _ (by simpa using hp)).1
        · rfl
      rw [hz1, hz2]
  · intro w
    have hw := h.wref w
    dsimp only at hw ⊢
    rw [hw]
    congr 1
    exact (he.sum (fun es _ => cntWL es (List.finRange _) w)).symm
  · intro u
    dsimp only
    rw [he.active]
    exact (h.act u).trans (he.sum (fun _ x => if x = u then 1 else 0)).symm
  · dsimp only
    rw [he.activeCount]
    exact h.actAll.trans (he.sum (fun _ _ => 1)).symm

/-! ## Tables that differ in reference counts only -/

theorem UTable.SameShape.le {n : Nat} {t t' : UTable (Cx R) n} (h : SameShape t t') : Le t t' := by
  intro a ha
  exact ⟨by rw [h.all]; exact ha, h.v a, h.e a⟩

theorem UTable.SameShape.back {n : Nat} {t t' : UTable (Cx R) n} (h : SameShape t t') : Le t' t := by
  intro a ha
  rw [h.all] at ha
  exact ⟨ha, (h.v a).symm, (h.e a).symm⟩

theorem UTable.SameShape.ddwf {k : Kind} {H : (Fin (ar k) → PEdge R) → Nat} {t t' : UTable (Cx R) (ar k)} (h : SameShape t t')
    (hd : DDWF H t) : DDWF H t' where
  uwf := h.uwf hd.uwf
  child := by
    intro a ha i
    rw [h.all] at ha
    rw [h.v, h.e]
    exact (hd.child a ha i).mono h.le
  norm := by
    intro a ha
    rw [h.all] at ha
    rw [h.e]
    exact hd.norm a ha

theorem UTable.SameShape.marks {t t' : UTable (Cx R) 4} (h : SameShape t t') (hc : Children t) (hm : Marks t ∅) : Marks t' ∅ where
  symm a ha hs := by
    rw [h.all] at ha
    rw [h.symm] at hs
    exact (nodeSymm_mono h.le hc ha).2 (hm.symm a ha hs)
  ident a ha hs := by
    rw [h.all] at ha
    rw [h.ident] at hs
    exact (nodeIdent_mono h.le hc ha).2 (hm.ident a ha hs)
  symmC a ha hx hs := by
    rw [h.all] at ha
    rw [h.symm]
    exact hm.symmC a ha hx ((nodeSymm_mono h.le hc ha).1 hs)
  identC a ha hx hs := by
    rw [h.all] at ha
    rw [h.ident]
    exact hm.identC a ha hx ((nodeIdent_mono h.le hc ha).1 hs)

/-- Changing reference counts of one table keeps a package state well formed. -/
theorem PWF.reshape {P : PCfg R} {s : Pkg R} (h : PWF P s ∅) (k : Kind) {t' : UTable (Cx R) (ar k)}
    (ht : SameShape (s.ut k) t') : PWF P { s with ut := Function.update s.ut k t' } ∅ := by
  have hs : ∀ k', SameShape (s.ut k') ((Function.update s.ut k t' : (k : Kind) → UTable (Cx R) (ar k)) k') := by
    intro k'
    by_cases hk : k' = k
    · subst hk; rw [Function.update_self]; exact ht
    · rw [Function.update_of_ne hk]; exact SameShape.refl _
  exact h.transfer (fun k' => (hs k').ddwf (h.tab k')) ((hs .m).marks (h.tab .m).child h.marks) (fun k' => (hs k').le)
    rfl rfl rfl rfl rfl rfl rfl

/-! ## The invariant -/

/-- The invariant of a package and the references its user holds. -/
structure PInv (P : PCfg R) (h : PHist R) : Prop where
  wf : PWF P h.pkg ∅
  ref : ∀ k, ∃ wr, UInv (P.uH k) P.C ⟨h.pkg.ut k, h.held k, wr⟩
  held : ∀ k, ∀ e ∈ h.held k, ∃ l, Valid (h.pkg.ut k) l e

/-- Operations that only add nodes keep the invariant. -/
theorem PInv.ext {P : PCfg R} {h : PHist R} (hi : PInv P h) {s' : Pkg R} (hw : PWF P s' ∅) (he : PExt h.pkg s') :
    PInv P { h with pkg := s' } where
  wf := hw
  ref k := by
    obtain ⟨wr, hr⟩ := hi.ref k
    exact ⟨wr, hr.ext (he k) (hw.tab k)⟩
  held k e hm := by
    obtain ⟨l, hl⟩ := hi.held k e hm
    exact ⟨l, hl.mono (he.le k)⟩

/-- What the steps other than operations guarantee: the state stays well formed and all held diagrams keep their value. -/
theorem PInv.incRef {P : PCfg R} (hC : P.C.Good) {h : PHist R} (hi : PInv P h) (k : Kind) {l : Nat} {e : PEdge R}
    (he : Valid (h.pkg.ut k) l e) :
    PInv P ⟨h.pkg.incRef P k e, Function.update h.held k (e :: h.held k)⟩ ∧
      SameShape (h.pkg.ut k) ((h.pkg.ut k).incRef P.C e).1 := by
  obtain ⟨wr, hr⟩ := hi.ref k
  have hb : ∀ b, e.p = some b → b ∈ (h.pkg.ut k).all := by
    intro b hb
    rw [valid_some hb] at he
    exact he.1
  have hsp : IncSpec P.C (h.pkg.ut k) e ((h.pkg.ut k).incRef P.C e).1 ((h.pkg.ut k).incRef P.C e).2 := by
    apply incRefF_spec P.C _ _ _ hr.closed
    intro b hb'
    exact ⟨hb b hb', by simp [UTable.lvl, hb']⟩
  refine ⟨⟨hi.wf.reshape k hsp.shape, ?_, ?_⟩, hsp.shape⟩
  · intro k'
    by_cases hk : k' = k
    · subst hk
      have := UStep.inv hC hr (.inc _ e hb)
      refine ⟨fun w => wr w + ((h.pkg.ut k').incRef P.C e).2.count w, ?_⟩
      simpa [Pkg.incRef] using this
    · obtain ⟨wr', hr'⟩ := hi.ref k'
      refine ⟨wr', ?_⟩
      simpa [Pkg.incRef, Function.update_of_ne hk] using hr'
  · intro k' e' he'
    by_cases hk : k' = k
    · subst hk
      simp only [Pkg.incRef, Function.update_self, List.mem_cons] at he' ⊢
      rcases he' with rfl | he'
      · exact ⟨l, he.mono hsp.shape.le⟩
      · obtain ⟨l', hl'⟩ := hi.held k' e' he'
        exact ⟨l', hl'.mono hsp.shape.le⟩
    · simp only [Pkg.incRef, Function.update_of_ne hk] at he' ⊢
      exact hi.held k' e' he'

theorem PInv.decRef {P : PCfg R} (hC : P.C.Good) {h : PHist R} (hi : PInv P h) (k : Kind) {e : PEdge R}
    (he : e ∈ h.held k) :
    ∃ r, (h.pkg.ut k).decRef P.C e = some r ∧ SameShape (h.pkg.ut k) r.1 ∧
      h.pkg.decRef P k e = some { h.pkg with ut := Function.update h.pkg.ut k r.1 } ∧
      PInv P ⟨{ h.pkg with ut := Function.update h.pkg.ut k r.1 }, Function.update h.held k ((h.held k).erase e)⟩ := by
  obtain ⟨wr, hr⟩ := hi.ref k
  obtain ⟨r, hr1, hr2⟩ := hr.dec_exists hC he
  refine ⟨r, hr1, hr2.shape, ?_, ⟨hi.wf.reshape k hr2.shape, ?_, ?_⟩⟩
  · dsimp only at hr1
    simp [Pkg.decRef, hr1]
  · intro k'
    by_cases hk : k' = k
    · subst hk
      have := UStep.inv hC hr (.dec _ e he r hr1)
      refine ⟨fun w => wr w - r.2.count w, ?_⟩
      simpa using this
    · obtain ⟨wr', hr'⟩ := hi.ref k'
      refine ⟨wr', ?_⟩
      simpa [Function.update_of_ne hk] using hr'
  · intro k' e' he'
    by_cases hk : k' = k
    · subst hk
      simp only [Function.update_self] at he' ⊢
      obtain ⟨l', hl'⟩ := hi.held k' e' (List.mem_of_mem_erase he')
      exact ⟨l', hl'.mono hr2.shape.le⟩
    · simp only [Function.update_of_ne hk] at he' ⊢
      exact hi.held k' e' he'

/-! ## Garbage collection -/

theorem amp_congr_mem {n : Nat} {t t' : UTable (Cx R) n} (h : t'.mem = t.mem) : ∀ (l : Nat) (e : PEdge R) d,
    amp t' l e d = amp t l e d := by
  intro l
  induction l with
  | zero => intros; rfl
  | succ l ih =>
    intro e d
    cases hp : e.p with
    | none => rw [amp_none hp, amp_none hp]
    | some a => rw [amp_some hp, amp_some hp, h, ih]

theorem gc_count_zero {W : Type} (C : UCfg) {n : Nat} (t : UTable W n) (force : Bool)
    (h : ¬ 0 < (t.garbageCollect C force).2) : (t.garbageCollect C force).1.all = t.all := by
  by_cases hcond : ((!force && decide (t.nodeCount < t.gcLimit)) || decide (t.nodeCount = 0)) = true
  · unfold garbageCollect; rw [if_pos hcond]
  · rw [gc_all_run C t force hcond]
    have h2 : (t.garbageCollect C force).2 = (t.all.filter (fun a => decide ((t.mem a).ref = 0))).length := by
      unfold garbageCollect; rw [if_neg hcond]
    rw [h2] at h
    have h3 : t.all.filter (fun a => decide ((t.mem a).ref = 0)) = [] := by
      apply List.length_eq_zero_iff.1; omega
    rw [List.filter_eq_self]
    intro a ha
    have := List.filter_eq_nil_iff.1 h3 a ha
    simpa using this

theorem gc_DDWF {k : Kind} {H : (Fin (ar k) → PEdge R) → Nat} {C : UCfg} (hC : C.Good) {t : UTable (Cx R) (ar k)}
    {L : List (PEdge R)} {wr : Cx R → Nat} (h : UInv H C ⟨t, L, wr⟩) (hd : DDWF H t) (force : Bool) :
    DDWF H (t.garbageCollect C force).1 where
  uwf := gc_UWF C hd.uwf force
  child := by
    have hcl := (UStep.inv hC h (.gc _ force)).closed
    intro a ha i
    have ha' := gc_subset C t force ha
    have hv := hd.child a ha' i
    have hm := gc_mem C t force
    cases hp : (((t.garbageCollect C force).1.mem a).e i).p with
    | none =>
      rw [valid_none hp]
      rw [hm] at hp ⊢
      rw [valid_none hp] at hv
      exact hv
    | some b =>
      rw [valid_some hp]
      refine ⟨(hcl a ha i b hp).1, ?_⟩
      rw [hm] at hp ⊢
      rw [valid_some hp] at hv
      exact hv.2
  norm := by
    intro a ha
    rw [gc_mem]
    exact hd.norm a (gc_subset C t force ha)

theorem gc_marks {C : UCfg} {t : UTable (Cx R) 4} (h : Marks t ∅) (force : Bool) :
    Marks (t.garbageCollect C force).1 ∅ := by
  have hm := gc_mem C t force
  have hmat : ∀ l e, mat (t.garbageCollect C force).1 l e = mat t l e := by
    intro l e
    funext r c
    exact amp_congr_mem hm l e _
  refine ⟨?_, ?_, ?_, ?_⟩
  · intro a ha hs
    unfold NodeSymm
    rw [hmat, hm]
    rw [hm] at hs
    exact h.symm a (gc_subset C t force ha) hs
  · intro a ha hs
    unfold NodeIdent
    rw [hmat, hm]
    rw [hm] at hs
    exact h.ident a (gc_subset C t force ha) hs
  · intro a ha hx hs
    unfold NodeSymm at hs
    rw [hmat, hm] at hs
    rw [hm]
    exact h.symmC a (gc_subset C t force ha) hx hs
  · intro a ha hx hs
    unfold NodeIdent at hs
    rw [hmat, hm] at hs
    rw [hm]
    exact h.identC a (gc_subset C t force ha) hx hs

theorem gc_le {C : UCfg} {n : Nat} {t : UTable (Cx R) n} {force : Bool} (h : ¬ 0 < (t.garbageCollect C force).2) :
    Le t (t.garbageCollect C force).1 := by
  intro a ha
  rw [gc_count_zero C t force h, gc_mem]
  exact ⟨ha, rfl, rfl⟩

/-- Tables of a package during a garbage collection; `cv`, `cm` tell whether the tables of vectors and of matrices are
certain to be empty. -/
structure GcOK (P : PCfg R) (s : Pkg R) (okV okM : Prop) : Prop where
  tab : ∀ k, DDWF (P.uH k) (s.ut k)
  marks : Marks (s.ut .m) ∅
  addV : CacheOK (s.addC .v) (fun x r => okV → AddRel (s.ut .v) x r)
  addM : CacheOK (s.addC .m) (fun x r => okM → AddRel (s.ut .m) x r)
  mulV : CacheOK (s.mulC .v) (fun x r => okV ∧ okM → MulRel (s.ut .m) (k := .v) (s.ut .v) x r)
  mulM : CacheOK (s.mulC .m) (fun x r => okM → MulRel (s.ut .m) (k := .m) (s.ut .m) x r)
  kronV : CacheOK (s.kronC .v) (fun x r => okV → KronRel (k := .v) (s.ut .v) x r)
  kronM : CacheOK (s.kronC .m) (fun x r => okM → KronRel (k := .m) (s.ut .m) x r)
  innerC : CacheOK s.innerC (fun x r => okV → InnerRel (s.ut .v) x r)
  transC : CacheOK s.transC (fun x r => okM → TransRel (s.ut .m) x r)
  conjC : CacheOK s.conjC (fun x r => okM → ConjRel (s.ut .m) x r)
  idTab : ∀ i r, s.idTab i = some r → okM → IdRel (s.ut .m) i r

theorem GcOK.clearV {P : PCfg R} {s : Pkg R} {okV okM : Prop} (h : GcOK P s okV okM) : GcOK P s.clearV True okM where
  tab := h.tab
  marks := h.marks
  addV := h.addV.clear _
  addM := h.addM
  mulV := h.mulV.clear _
  mulM := h.mulM
  kronV := h.kronV.clear _
  kronM := h.kronM
  innerC := h.innerC.clear _
  transC := h.transC
  conjC := h.conjC
  idTab := h.idTab

theorem GcOK.clearM {P : PCfg R} {s : Pkg R} {okV okM : Prop} (h : GcOK P s okV okM) : GcOK P s.clearM okV True where
  tab := h.tab
  marks := h.marks
  addV := h.addV
  addM := h.addM.clear _
  mulV := h.mulV.clear _
  mulM := h.mulM.clear _
  kronV := h.kronV
  kronM := h.kronM.clear _
  innerC := h.innerC
  transC := h.transC.clear _
  conjC := h.conjC.clear _
  idTab := fun i r hr => by simp [Pkg.clearM] at hr

theorem GcOK.clearN {P : PCfg R} {s : Pkg R} {okV okM : Prop} (h : GcOK P s okV okM) : GcOK P s.clearN okV okM where
  tab := h.tab
  marks := h.marks
  addV := h.addV
  addM := h.addM
  mulV := h.mulV.clear _
  mulM := h.mulM.clear _
  kronV := h.kronV.clear _
  kronM := h.kronM.clear _
  innerC := h.innerC.clear _
  transC := h.transC.clear _
  conjC := h.conjC.clear _
  idTab := h.idTab

theorem GcOK.imp {P : PCfg R} {s : Pkg R} {okV okM okV' okM' : Prop} (h : GcOK P s okV okM) (h1 : okV' → okV)
    (h2 : okM' → okM) : GcOK P s okV' okM' where
  tab := h.tab
  marks := h.marks
  addV := h.addV.mono fun _ _ h hk => h (h1 hk)
  addM := h.addM.mono fun _ _ h hk => h (h2 hk)
  mulV := h.mulV.mono fun _ _ h hk => h ⟨h1 hk.1, h2 hk.2⟩
  mulM := h.mulM.mono fun _ _ h hk => h (h2 hk)
  kronV := h.kronV.mono fun _ _ h hk => h (h1 hk)
  kronM := h.kronM.mono fun _ _ h hk => h (h2 hk)
  innerC := h.innerC.mono fun _ _ h hk => h (h1 hk)
  transC := h.transC.mono fun _ _ h hk => h (h2 hk)
  conjC := h.conjC.mono fun _ _ h hk => h (h2 hk)
  idTab := fun i r hr hk => h.idTab i r hr (h2 hk)

theorem GcOK.pwf {P : PCfg R} {s : Pkg R} (h : GcOK P s True True) : PWF P s ∅ where
  tab := h.tab
  marks := h.marks
  addC k := by
    cases k
    · exact h.addV.mono fun _ _ h => h trivial
    · exact h.addM.mono fun _ _ h => h trivial
  mulC k := by
    cases k
    · exact h.mulV.mono fun _ _ h => h ⟨trivial, trivial⟩
    · exact h.mulM.mono fun _ _ h => h trivial
  kronC k := by
    cases k
    · exact h.kronV.mono fun _ _ h => h trivial
    · exact h.kronM.mono fun _ _ h => h trivial
  innerC := h.innerC.mono fun _ _ h => h trivial
  transC := h.transC.mono fun _ _ h => h trivial
  conjC := h.conjC.mono fun _ _ h => h trivial
  idTab i r hr := h.idTab i r hr trivial

/-- The tables after the collection of nodes, before any table of results is cleared. -/
theorem gc_start {P : PCfg R} (hC : P.C.Good) {h : PHist R} (hi : PInv P h) (force : Bool) {s1 : Pkg R}
    (hut : ∀ k, s1.ut k = ((h.pkg.ut k).garbageCollect P.C force).1)
    (h1 : s1.addC = h.pkg.addC) (h2 : s1.mulC = h.pkg.mulC) (h3 : s1.kronC = h.pkg.kronC)
    (h4 : s1.innerC = h.pkg.innerC) (h5 : s1.transC = h.pkg.transC) (h6 : s1.conjC = h.pkg.conjC)
    (h7 : s1.idTab = h.pkg.idTab) :
    GcOK P s1 (¬ 0 < ((h.pkg.ut .v).garbageCollect P.C force).2) (¬ 0 < ((h.pkg.ut .m).garbageCollect P.C force).2) where
  tab k := by
    obtain ⟨wr, hr⟩ := hi.ref k
    rw [hut]; exact gc_DDWF hC hr (hi.wf.tab k) force
  marks := by rw [hut]; exact gc_marks hi.wf.marks force
  addV := by rw [h1, hut]; exact (hi.wf.addC .v).mono fun _ _ hr hk => hr.mono (gc_le hk) (hi.wf.tab .v).child
  addM := by rw [h1, hut]; exact (hi.wf.addC .m).mono fun _ _ hr hk => hr.mono (gc_le hk) (hi.wf.tab .m).child
  mulV := by
    rw [h2, hut, hut]
    exact (hi.wf.mulC .v).mono fun _ _ hr hk => hr.mono (gc_le hk.2) (hi.wf.tab .m).child (gc_le hk.1) (hi.wf.tab .v).child
  mulM := by
    rw [h2, hut]
    exact (hi.wf.mulC .m).mono fun _ _ hr hk => hr.mono (gc_le hk) (hi.wf.tab .m).child (gc_le hk) (hi.wf.tab .m).child
  kronV := by rw [h3, hut]; exact (hi.wf.kronC .v).mono fun _ _ hr hk => hr.mono (gc_le hk) (hi.wf.tab .v).child
  kronM := by rw [h3, hut]; exact (hi.wf.kronC .m).mono fun _ _ hr hk => hr.mono (gc_le hk) (hi.wf.tab .m).child
  innerC := by rw [h4, hut]; exact hi.wf.innerC.mono fun _ _ hr hk => hr.mono (gc_le hk) (hi.wf.tab .v).child
  transC := by rw [h5, hut]; exact hi.wf.transC.mono fun _ _ hr hk => hr.mono (gc_le hk) (hi.wf.tab .m).child
  conjC := by rw [h6, hut]; exact hi.wf.conjC.mono fun _ _ hr hk => hr.mono (gc_le hk) (hi.wf.tab .m).child
  idTab i r hr hk := by rw [h7] at hr; rw [hut]; exact (hi.wf.idTab i r hr).mono (gc_le hk) (hi.wf.tab .m).child

/-- The unique tables after `garbageCollect`. -/
theorem gc_ut (P : PCfg R) (g : GcEnv) (s : Pkg R) :
    (s.garbageCollect P g).1 = s ∨
    ∀ k, (s.garbageCollect P g).1.ut k = ((s.ut k).garbageCollect P.C (g.force || g.collC)).1 := by
  unfold Pkg.garbageCollect
  by_cases hc : (!g.force && !decide ((s.ut .v).gcLimit ≤ (s.ut .v).nodeCount) && !decide ((s.ut .m).gcLimit ≤ (s.ut .m).nodeCount) &&
      !g.needD && !g.needC) = true
  · rw [if_pos hc]; exact Or.inl rfl
  · rw [if_neg hc]; right
    intro k
    cases k <;> dsimp only <;> split_ifs <;> rfl

theorem PInv.gc_pwf {P : PCfg R} (hC : P.C.Good) {h : PHist R} (hi : PInv P h) (g : GcEnv) :
    PWF P (h.pkg.garbageCollect P g).1 ∅ := by
  unfold Pkg.garbageCollect
  by_cases hc : (!g.force && !decide ((h.pkg.ut .v).gcLimit ≤ (h.pkg.ut .v).nodeCount) && !decide ((h.pkg.ut .m).gcLimit ≤ (h.pkg.ut .m).nodeCount) &&
      !g.needD && !g.needC) = true
  · rw [if_pos hc]; exact hi.wf
  · rw [if_neg hc]; dsimp only
    have h0 := gc_start hC hi (g.force || g.collC)
      (s1 := { h.pkg with ut := fun
        | .v => ((h.pkg.ut .v).garbageCollect P.C (g.force || g.collC)).1
        | .m => ((h.pkg.ut .m).garbageCollect P.C (g.force || g.collC)).1 })
      (fun k => by cases k <;> rfl) rfl rfl rfl rfl rfl rfl rfl
    generalize ({ h.pkg with ut := fun
        | .v => ((h.pkg.ut .v).garbageCollect P.C (g.force || g.collC)).1
        | .m => ((h.pkg.ut .m).garbageCollect P.C (g.force || g.collC)).1 } : Pkg R) = s1 at h0 ⊢
    generalize ((h.pkg.ut .v).garbageCollect P.C (g.force || g.collC)).2 = nv at h0 ⊢
    generalize ((h.pkg.ut .m).garbageCollect P.C (g.force || g.collC)).2 = nm at h0 ⊢
    have h2 : GcOK P (if 0 < nv then s1.clearV else s1) True (¬ 0 < nm) := by
      split_ifs with hv
      · exact h0.clearV
      · exact h0.imp (fun _ => hv) id
    generalize (if 0 < nv then s1.clearV else s1) = s2 at h2 ⊢
    have h3 : GcOK P (if 0 < nm ∨ g.collD = true then s2.clearM else s2) True True := by
      split_ifs with hm
      · exact h2.clearM
      · exact h2.imp id (fun _ hk => hm (Or.inl hk))
    generalize (if 0 < nm ∨ g.collD = true then s2.clearM else s2) = s3 at h3 ⊢
    split_ifs
    · exact h3.clearN.pwf
    · exact h3.pwf

/-- Garbage collection keeps the invariant: in particular all held diagrams stay valid. -/
theorem PInv.gc {P : PCfg R} (hC : P.C.Good) {h : PHist R} (hi : PInv P h) (g : GcEnv) :
    PInv P { h with pkg := (h.pkg.garbageCollect P g).1 } := by
  rcases gc_ut P g h.pkg with he | hut
  · rw [he]; exact hi
  · refine ⟨hi.gc_pwf hC g, ?_, ?_⟩
    · intro k
      obtain ⟨wr, hr⟩ := hi.ref k
      refine ⟨wr, ?_⟩
      dsimp only
      rw [hut k]
      exact UStep.inv hC hr (.gc _ _)
    · intro k e he
      obtain ⟨wr, hr⟩ := hi.ref k
      obtain ⟨l, hl⟩ := hi.held k e he
      refine ⟨l, ?_⟩
      dsimp only
      rw [hut k]
      cases hp : e.p with
      | none => rw [valid_none hp] at hl ⊢; exact hl
      | some a =>
        rw [valid_some hp] at hl ⊢
        have h1 := hr.held_ref hC he hp
        dsimp only at h1
        rw [gc_mem]
        exact ⟨gc_keeps _ _ _ hl.1 (by omega), hl.2⟩

/-- Garbage collection does not change the value of any edge. -/
theorem gc_amp (P : PCfg R) (g : GcEnv) (s : Pkg R) (k : Kind) (l : Nat) (e : PEdge R) (d) :
    amp ((s.garbageCollect P g).1.ut k) l e d = amp (s.ut k) l e d := by
  rcases gc_ut P g s with he | hut
  · rw [he]
  · rw [hut k]; exact amp_congr_mem (gc_mem _ _ _) l e d

/-! ## Start, reset, clearing of tables -/

theorem empty_DDWF {k : Kind} {H : (Fin (ar k) → PEdge R) → Nat} {t : UTable (Cx R) (ar k)} (hw : UWF H t)
    (h : t.all = []) : DDWF H t where
  uwf := hw
  child := by intro a ha; rw [h] at ha; simp at ha
  norm := by intro a ha; rw [h] at ha; simp at ha

theorem empty_marks {t : UTable (Cx R) 4} (h : t.all = []) : Marks t ∅ := by
  constructor <;> intro a ha <;> rw [h] at ha <;> simp at ha

theorem init_all {W : Type} (C : UCfg) (n nq nb : Nat) (cell : Node W n) : (UTable.init C nq nb cell).all = [] := by
  simp [UTable.all, UTable.init]

theorem clear_all {W : Type} (C : UCfg) {n : Nat} (t : UTable W n) : (t.clear C).all = [] := by
  simp [UTable.all, UTable.clear]

theorem PInv.init {P : PCfg R} (hC : P.C.Good) (nq nbV nbM : Nat) (hV : 0 < nbV) (hM : 0 < nbM) (cellV : Node (Cx R) 2)
    (cellM : Node (Cx R) 4) : PInv P ⟨Pkg.init P nq nbV nbM cellV cellM, fun _ => []⟩ where
  wf :=
    { tab := by
        intro k
        cases k
        · exact empty_DDWF (k := .v) (init_UWF _ _ hC.growth hC.initAlloc _ _ hV _) (init_all ..)
        · exact empty_DDWF (k := .m) (init_UWF _ _ hC.growth hC.initAlloc _ _ hM _) (init_all ..)
      marks := empty_marks (init_all ..)
      addC := fun _ => CacheOK.empty _
      mulC := fun _ => CacheOK.empty _
      kronC := fun _ => CacheOK.empty _
      innerC := CacheOK.empty _
      transC := CacheOK.empty _
      conjC := CacheOK.empty _
      idTab := fun _ _ h => by simp [Pkg.init] at h }
  ref k := by
    cases k
    · exact ⟨_, UReach.inv hC (.init nq nbV hV cellV)⟩
    · exact ⟨_, UReach.inv hC (.init nq nbM hM cellM)⟩
  held k e he := by simp at he

theorem PInv.reset {P : PCfg R} (hC : P.C.Good) {h : PHist R} (hi : PInv P h) :
    PInv P ⟨h.pkg.reset P, fun _ => []⟩ where
  wf :=
    { tab := fun k => empty_DDWF (clear_UWF hC.growth hC.initAlloc (hi.wf.tab k).uwf.nb) (clear_all ..)
      marks := empty_marks (clear_all ..)
      addC := fun k => (hi.wf.addC k).clear _
      mulC := fun k => (hi.wf.mulC k).clear _
      kronC := fun k => (hi.wf.kronC k).clear _
      innerC := hi.wf.innerC.clear _
      transC := hi.wf.transC.clear _
      conjC := hi.wf.conjC.clear _
      idTab := fun _ _ h => by simp [Pkg.reset] at h }
  ref k := by
    obtain ⟨wr, hr⟩ := hi.ref k
    exact ⟨_, UStep.inv hC hr (.clear _)⟩
  held k e he := by simp at he

theorem PWF.clearTables {P : PCfg R} {s : Pkg R} (h : PWF P s ∅) : PWF P s.clearComputeTables ∅ where
  tab := h.tab
  marks := h.marks
  addC k := (h.addC k).clear _
  mulC k := (h.mulC k).clear _
  kronC k := (h.kronC k).clear _
  innerC := h.innerC.clear _
  transC := h.transC.clear _
  conjC := h.conjC.clear _
  idTab := fun _ _ h => by simp [Pkg.clearComputeTables] at h

/-- Enlarging the package changes neither the nodes nor anything that is known about them. -/
theorem PInv.resize {P : PCfg R} {h : PHist R} (hi : PInv P h) {nq : Nat} {s : Pkg R} (hn : ∀ k, (h.pkg.ut k).nvars ≤ nq)
    (hs : h.pkg.resize nq = some s) :
    PInv P { h with pkg := s } ∧ (∀ k, s.ut k = { h.pkg.ut k with nvars := nq }) ∧ (∀ k, Le (h.pkg.ut k) (s.ut k)) ∧
      (∀ k, (s.ut k).all = (h.pkg.ut k).all) := by
  unfold Pkg.resize at hs
  split_ifs at hs with hm
  cases hs
  have hut : ∀ k, (h.pkg.ut k).resize nq = { h.pkg.ut k with nvars := nq } := by
    intro k
    obtain ⟨wr, hr⟩ := hi.ref k
    exact hr.resize_eq (hn k)
  have hall : ∀ k, ((h.pkg.ut k).resize nq).all = (h.pkg.ut k).all := by
    intro k; rw [hut k]; exact all_nvars (hi.wf.tab k).uwf (hn k)
  have hle : ∀ k, Le (h.pkg.ut k) ((h.pkg.ut k).resize nq) := by
    intro k a ha
    rw [hall k]
    rw [hut k]
    exact ⟨ha, rfl, rfl⟩
  have hmem : ∀ k, ((h.pkg.ut k).resize nq).mem = (h.pkg.ut k).mem := by intro k; rw [hut k]
  refine ⟨⟨?_, ?_, ?_⟩, hut, hle, hall⟩
  · refine ⟨fun k => ⟨?_, ?_, ?_⟩, ⟨?_, ?_, ?_, ?_⟩, fun k => ?_, fun k => ?_, fun k => ?_, ?_, ?_, ?_, ?_⟩
    · dsimp only; rw [hut k]; exact uwf_nvars_le (hi.wf.tab k).uwf (hn k)
    · intro a ha i
      dsimp only at ha ⊢
      rw [hall k] at ha
      rw [hmem k]
      exact ((hi.wf.tab k).child a ha i).mono (hle k)
    · intro a ha
      dsimp only at ha ⊢
      rw [hall k] at ha
      rw [hmem k]
      exact (hi.wf.tab k).norm a ha
    · intro a ha hs
      dsimp only at ha hs ⊢
      rw [hall .m] at ha
      rw [hmem .m] at hs
      exact (nodeSymm_mono (hle .m) (hi.wf.tab .m).child ha).2 (hi.wf.marks.symm a ha hs)
    · intro a ha hs
      dsimp only at ha hs ⊢
      rw [hall .m] at ha
      rw [hmem .m] at hs
      exact (nodeIdent_mono (hle .m) (hi.wf.tab .m).child ha).2 (hi.wf.marks.ident a ha hs)
    · intro a ha hx hs
      dsimp only at ha hs ⊢
      rw [hall .m] at ha
      rw [hmem .m]
      exact hi.wf.marks.symmC a ha hx ((nodeSymm_mono (hle .m) (hi.wf.tab .m).child ha).1 hs)
    · intro a ha hx hs
      dsimp only at ha hs ⊢
      rw [hall .m] at ha
      rw [hmem .m]
      exact hi.wf.marks.identC a ha hx ((nodeIdent_mono (hle .m) (hi.wf.tab .m).child ha).1 hs)
    · exact (hi.wf.addC k).mono fun _ _ hr => hr.mono (hle k) (hi.wf.tab k).child
    · exact (hi.wf.mulC k).mono fun _ _ hr => hr.mono (hle .m) (hi.wf.tab .m).child (hle k) (hi.wf.tab k).child
    · exact (hi.wf.kronC k).mono fun _ _ hr => hr.mono (hle k) (hi.wf.tab k).child
    · exact hi.wf.innerC.mono fun _ _ hr => hr.mono (hle .v) (hi.wf.tab .v).child
    · exact hi.wf.transC.mono fun _ _ hr => hr.mono (hle .m) (hi.wf.tab .m).child
    · exact hi.wf.conjC.mono fun _ _ hr => hr.mono (hle .m) (hi.wf.tab .m).child
    · intro i r hr
      dsimp only at hr
      split_ifs at hr
      exact (hi.wf.idTab i r hr).mono (hle .m) (hi.wf.tab .m).child
  · intro k
    obtain ⟨wr, hr⟩ := hi.ref k
    refine ⟨wr, ?_⟩
    have := hr.nvars_le (hn k)
    dsimp only at this ⊢
    rw [hut k]
    exact this
  · intro k e he
    obtain ⟨l, hl⟩ := hi.held k e he
    exact ⟨l, hl.mono (hle k)⟩

end DD
