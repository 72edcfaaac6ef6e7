import Verif.Proofs.Joint

/-! # Preservation of the invariants of all tables together -/

namespace DD

open UTable

variable {R : Type} [Field R] [LinearOrder R] [IsStrictOrderedRing R] [FloorRing R] {J : JCfg R} {tols : R → Prop}
variable {s : JState R} {pin : Option Nat}

/-- A step of the number table that keeps all numbers. -/
theorem JInv.numStep (h : JInv J tols pin s) {ct : CTab R} (hr : CReach J.C tols ct)
    (hl : ∀ l, s.ct.Live J.C l → ct.Live J.C l)
    (hc : ct.Cnt J.C (fun a => (if pin = some a then 1 else 0) + usesOf s.inUse a)) :
    JInv J tols pin { s with ct := ct } := by
  have hL : ∀ c, s.ct.LiveC J.C c → ct.LiveC J.C c := fun c hc => ⟨hl _ hc.1, hl _ hc.2⟩
  refine ⟨hr, h.tab, fun k a ha i => hL _ (h.nodes k a ha i), fun k e he => hL _ (h.held k e he),
    fun c hc => hL _ (h.nums c hc), hc, fun a ha => hl (.cell a) (h.pin a ha), ?_, h.count⟩
  intro c i key r hs
  exact entry_mono (fun x hx => known_mono (s := s) (s' := { s with ct := ct }) (fun k a ha => ha) hl hx) (h.cache c i key r hs)

theorem lookup_facts {C : CCfg R} (hC : C.Good) {t : CTab R} (h : t.WF C) {v : R} (hv : 0 ≤ v) :
    (∀ l, t.Live C l → (t.lookup C v).1.Live C l) ∧
    (∀ a ∈ (t.lookup C v).1.stored C, (a ∈ t.stored C ∧ (t.lookup C v).1.ref (.cell a) = t.ref (.cell a)) ∨
      (a ∉ t.stored C ∧ (t.lookup C v).1.ref (.cell a) = 0)) ∧
    (t.lookup C v).1.Live C (t.lookup C v).2 := by
  have o := CTab.lookup_spec hC h hv
  generalize t.lookup C v = r at o
  cases o with
  | hit same live _ _ _ _ =>
    refine ⟨fun l hl => same.live.2 hl, ?_, same.live.2 live⟩
    intro a ha
    rw [same.stored] at ha
    exact Or.inl ⟨ha, by rw [same.ref]⟩
  | miss link _ =>
    have hs : CTab.Same t { t with lookups := t.lookups + 1 } := CTab.lookups_same t _
    have hw : CTab.WF C { t with lookups := t.lookups + 1 } := hs.wf h
    have hlive := fun l => link.live hC.nb hw (l := l)
    refine ⟨fun l hl => (hlive l).2 (Or.inl (hs.live.2 hl)), ?_, (hlive _).2 (Or.inr rfl)⟩
    intro a ha
    rcases (hlive (.cell a)).1 ha with h1 | h1
    · left
      have h2 : a ∈ t.stored C := h1
      refine ⟨h2, ?_⟩
      obtain ⟨k, hk⟩ := (h.mem_stored hC.nb).1 h2
      exact link.keepRef k a hk
    · right
      injection h1 with h1
      subst h1
      exact ⟨link.new, link.ref⟩

theorem JInv.lookup (hJ : J.Good) (htol : ∀ τ, tols τ → 0 ≤ τ) (h : JInv J tols pin s) {v : R} (hv : 0 ≤ v) :
    JInv J tols pin { s with ct := (s.ct.lookup J.C v).1 } := by
  obtain ⟨h1, h2, _⟩ := lookup_facts hJ.C (h.ct.wf htol hJ.C) hv
  refine h.numStep (h.ct.step (.lookup v hv)) h1 ?_
  intro a ha
  rcases h2 a ha with ⟨h3, h4⟩ | ⟨h3, h4⟩
  · rw [h4]; exact h.cnt a h3
  · right; rw [h4]; exact (h.unused h3).symm

theorem JInv.setTolerance (h : JInv J tols pin s) {τ : R} (hτ : tols τ) :
    JInv J tols pin { s with ct := s.ct.setTolerance τ } :=
  h.numStep (h.ct.step (.setTolerance τ hτ)) (fun l hl => by cases l <;> exact hl) h.cnt

/-- A step of one node table that keeps all nodes, with changes of number counts. -/
theorem JInv.tabStep (h : JInv J tols pin s) {ct : CTab R} (hr : CReach J.C tols ct) (sv : CTab.SameVal s.ct ct) (k : NK)
    (x : UHist (CNum Loc) k.ar) (hx : UReach (J.H k) J.U x) (sub : ∀ a ∈ (s.tab k).tab.all, a ∈ x.tab.all)
    (hn : ∀ a ∈ x.tab.all, ∀ i, s.ct.LiveC J.C ((x.tab.mem a).e i).w) (hh : ∀ e ∈ x.held, s.ct.LiveC J.C e.w)
    (hc : ct.Cnt J.C (fun a => (if pin = some a then 1 else 0) +
      usesOf ({ s with ct := ct, tab := Function.update s.tab k x } : JState R).inUse a)) :
    JInv J tols pin { s with ct := ct, tab := Function.update s.tab k x } := by
  have hall : ∀ j a, a ∈ (s.tab j).tab.all → a ∈ (Function.update s.tab k x j).tab.all := by
    intro j a ha
    by_cases e : j = k
    · subst e; rw [Function.update_self]; exact sub a ha
    · rw [Function.update_of_ne e]; exact ha
  refine ⟨hr, ?_, ?_, ?_, fun c hc => (sv.liveC c).2 (h.nums c hc), hc, fun a ha => ?_, ?_, h.count⟩
  · intro j
    by_cases e : j = k
    · subst e; dsimp only; rw [Function.update_self]; exact hx
    · dsimp only; rw [Function.update_of_ne e]; exact h.tab j
  · intro j
    by_cases e : j = k
    · subst e; dsimp only; rw [Function.update_self]
      intro a ha i; exact (sv.liveC _).2 (hn a ha i)
    · dsimp only; rw [Function.update_of_ne e]
      intro a ha i; exact (sv.liveC _).2 (h.nodes j a ha i)
  · intro j
    by_cases e : j = k
    · subst e; dsimp only; rw [Function.update_self]
      intro a ha; exact (sv.liveC _).2 (hh a ha)
    · dsimp only; rw [Function.update_of_ne e]
      intro a ha; exact (sv.liveC _).2 (h.held j a ha)
  · dsimp only; rw [sv.stored]; exact h.pin a ha
  · intro c i key r hs
    exact entry_mono (fun y hy => known_mono (s := s) (s' := { s with ct := ct, tab := Function.update s.tab k x })
      hall (fun l hl => (sv.live l).2 hl) hy) (h.cache c i key r hs)

theorem weights_eq {n : Nat} {t t' : UTable (CNum Loc) n} (h : ∀ w, t'.parW w = t.parW w) : t'.weights = t.weights := by
  ext w; rw [weights_count, weights_count, h]

theorem sameEdges_refl (J : JCfg R) (s : JState R) {n : Nat} (es : Fin n → PtrEdge) : s.sameEdges J es es = true := by
  unfold JState.sameEdges
  simp [NumEnv.eqC, NumEnv.eqP]

/-- Changes of the free cells only. -/
theorem JInv.cells (h : JInv J tols pin s) (k : NK) {t : UTable (CNum Loc) k.ar}
    (hr : UReach (J.H k) J.U { s.tab k with tab := t }) (ha : t.all = (s.tab k).tab.all) (hm : t.mem = (s.tab k).tab.mem) :
    JInv J tols pin { s with tab := Function.update s.tab k { s.tab k with tab := t } } := by
  have hwt : t.weights = (s.tab k).tab.weights := by unfold UTable.weights; rw [ha, hm]
  refine h.tabStep h.ct .rfl' k _ hr (fun a h1 => ?_) (fun a h1 i => ?_) (h.held k) ?_
  · dsimp only; rw [ha]; exact h1
  · dsimp only at h1 ⊢; rw [ha] at h1; rw [hm]; exact h.nodes k a h1 i
  · intro a ha'
    have := inUse_update s k { s.tab k with tab := t } s.ct a
    have e : usesOf ({ s with tab := Function.update s.tab k { s.tab k with tab := t } } : JState R).inUse a =
        usesOf s.inUse a := Nat.add_right_cancel (this.trans (by dsimp only; rw [hwt]))
    beta_reduce
    rw [e]
    exact h.cnt a ha'

theorem JInv.mark (h : JInv J tols pin s) (k : NK) (a : Nat) (ident symm : Bool) :
    JInv J tols pin { s with
      tab := Function.update s.tab k { s.tab k with tab := (s.tab k).tab.mark a ident symm } } := by
  have hm := mark_mem (s.tab k).tab a ident symm
  have hwt : ((s.tab k).tab.mark a ident symm).weights = (s.tab k).tab.weights := by
    have ha : ((s.tab k).tab.mark a ident symm).all = (s.tab k).tab.all := rfl
    unfold UTable.weights
    simp only [hm, ha]
  refine h.tabStep h.ct .rfl' k _ ((h.tab k).step (.mark _ a ident symm)) (fun a h1 => h1) (fun b h1 i => ?_) (h.held k) ?_
  · dsimp only; rw [(hm b).1]; exact h.nodes k b h1 i
  · intro b hb
    have := inUse_update s k { s.tab k with tab := (s.tab k).tab.mark a ident symm } s.ct b
    have e : usesOf ({ s with
        tab := Function.update s.tab k { s.tab k with tab := (s.tab k).tab.mark a ident symm } } : JState R).inUse b =
        usesOf s.inUse b := Nat.add_right_cancel (this.trans (by dsimp only; rw [hwt]))
    beta_reduce
    rw [e]
    exact h.cnt b hb

theorem JInv.take (hJ : J.Good) (h : JInv J tols pin s) (k : NK) :
    JInv J tols pin { s with
      tab := Function.update s.tab k { s.tab k with tab := ((s.tab k).tab.getNode J.U).1 } } := by
  obtain ⟨_, _, _, hall, _, _, _, hmem, _⟩ := getNode_spec hJ.U.growth ((h.tab k).inv hJ.U).uwf
  exact h.cells k ((h.tab k).step (.take _)) hall hmem

theorem JInv.takeBack (hJ : J.Good) (h : JInv J tols pin s) (k : NK) :
    JInv J tols pin { s with
      tab := Function.update s.tab k
        { s.tab k with tab := ((s.tab k).tab.getNode J.U).1.returnNode ((s.tab k).tab.getNode J.U).2 } } := by
  obtain ⟨_, _, _, hall, _, _, _, hmem, _⟩ := getNode_spec hJ.U.growth ((h.tab k).inv hJ.U).uwf
  exact h.cells k ((h.tab k).step (.takeBack _)) hall hmem

theorem JInv.makeNode (hJ : J.Good) (h : JInv J tols pin s) {k : NK} {v : Nat} {es : Fin k.ar → PtrEdge} {ident symm : Bool}
    (hv : v < (s.tab k).tab.nvars)
    (hes : ∀ i b, (es i).p = some b → b ∈ (s.tab k).tab.all ∧ ((s.tab k).tab.mem b).v < v)
    (hw : ∀ i, ∀ x ∈ ptrRefs k (es i), s.Known J x) :
    JInv J tols pin { s with
      tab := Function.update s.tab k
        { s.tab k with tab := ((s.tab k).tab.mkNodeBy (s.sameEdges J) (J.H k) J.U v es ident symm).1 } } := by
  have hi := (h.tab k).inv hJ.U
  obtain ⟨_, _, _, hm, _, _, _, _, he', hcase⟩ := mkNodeBy_spec (sameEdges_refl J s) hJ.U.growth hi.uwf v es ident symm hv
  have hsum := mkNodeBy_sum (sameEdges_refl J s) hJ.U.growth hi.uwf v es ident symm hv
  have hwt : ((s.tab k).tab.mkNodeBy (s.sameEdges J) (J.H k) J.U v es ident symm).1.weights = (s.tab k).tab.weights :=
    weights_eq (fun w => hsum (fun es _ => cntWL es (List.finRange k.ar) w))
  refine h.tabStep h.ct .rfl' k _ ((h.tab k).step (.mkBy _ _ (sameEdges_refl J s) v es ident symm hv hes)) ?_ ?_ (h.held k) ?_
  · intro a ha
    rcases hcase with ⟨_, h2⟩ | ⟨_, h2, _⟩
    · dsimp only; rw [h2]; exact ha
    · exact h2.symm.mem_iff.1 (List.mem_cons_of_mem _ ha)
  · intro a ha i
    dsimp only at ha ⊢
    rcases hcase with ⟨_, h2⟩ | ⟨h1, h2, h3, _⟩
    · rw [h2] at ha; rw [hm a ha]; exact h.nodes k a ha i
    · rcases List.mem_cons.1 (h2.mem_iff.1 ha) with h4 | h4
      · rw [h4, h3]; exact (known_ptr.1 (hw i)).1
      · rw [hm a h4]; exact h.nodes k a h4 i
  · intro a ha
    have := inUse_update s k { s.tab k with tab := ((s.tab k).tab.mkNodeBy (s.sameEdges J) (J.H k) J.U v es ident symm).1 } s.ct a
    have e : usesOf ({ s with
        tab := Function.update s.tab k
          { s.tab k with tab := ((s.tab k).tab.mkNodeBy (s.sameEdges J) (J.H k) J.U v es ident symm).1 } } : JState R).inUse a =
        usesOf s.inUse a := Nat.add_right_cancel (this.trans (by dsimp only; rw [hwt]))
    beta_reduce
    rw [e]
    exact h.cnt a ha

theorem JInv.incRef (hJ : J.Good) (h : JInv J tols pin s) {k : NK} {e : PtrEdge} (he : ∀ x ∈ ptrRefs k e, s.Known J x) :
    JInv J tols pin { s with
      ct := s.ct.incRefL J.C ((s.tab k).tab.incRef J.U e).2
      tab := Function.update s.tab k ⟨((s.tab k).tab.incRef J.U e).1, e :: (s.tab k).held,
        fun w => (s.tab k).wref w + ((s.tab k).tab.incRef J.U e).2.count w⟩ } := by
  have hi := (h.tab k).inv hJ.U
  obtain ⟨hew, hep⟩ := known_ptr.1 he
  have sp : IncSpec J.U (s.tab k).tab e ((s.tab k).tab.incRef J.U e).1 ((s.tab k).tab.incRef J.U e).2 := by
    apply incRefF_spec J.U _ _ _ hi.closed
    intro b hb
    exact ⟨hep b hb, by simp [UTable.lvl, hb]⟩
  have hstep : UStep (J.H k) J.U (s.tab k) ⟨((s.tab k).tab.incRef J.U e).1, e :: (s.tab k).held,
        fun w => (s.tab k).wref w + ((s.tab k).tab.incRef J.U e).2.count w⟩ := .inc _ e hep
  generalize (s.tab k).tab.incRef J.U e = r at sp hstep
  have hes : ∀ b i, (r.1.mem b).e i = ((s.tab k).tab.mem b).e i := by
    intro b i; rw [sp.shape.e]
  have hL : ∀ c ∈ r.2, s.ct.LiveC J.C c := by
    intro c hc
    have h1 := sp.weights c
    have h2 := List.count_pos_iff.2 hc
    by_cases hcw : e.w = c
    · rw [← hcw]; exact hew
    · rw [if_neg hcw, ← weights_count, ← weights_count] at h1
      have h3 : c ∈ r.1.weights := by rw [← Multiset.count_pos]; omega
      obtain ⟨b, hb, _, i, rfl⟩ := mem_weights.1 h3
      rw [hes]
      exact h.nodes k b (by rwa [sp.shape.all] at hb) i
  have hW : (r.2 : Multiset (CNum Loc)) + (s.tab k).tab.weights = r.1.weights + {e.w} := by
    ext w
    rw [Multiset.count_add, Multiset.count_add, Multiset.coe_count, weights_count, weights_count, sp.weights w,
      Multiset.count_singleton]
    simp only [eq_comm]
  obtain ⟨c1, c2⟩ := CTab.incRefL_cnt r.2 h.cnt
  refine h.tabStep (CTab.incRefL_reach r.2 h.ct hL) c2 k _ ((h.tab k).step hstep) ?_ ?_ ?_ ?_
  · intro a ha; dsimp only; rw [sp.shape.all]; exact ha
  · intro a ha i
    dsimp only at ha ⊢
    rw [sp.shape.all] at ha
    rw [hes]; exact h.nodes k a ha i
  · intro x hx
    rcases List.mem_cons.1 hx with rfl | hx
    · exact hew
    · exact h.held k x hx
  · intro a ha
    have e1 := inUse_update s k ⟨r.1, e :: (s.tab k).held, fun w => (s.tab k).wref w + r.2.count w⟩
      (s.ct.incRefL J.C r.2) a
    have e2 := congrArg (fun M => usesOf M a) hW
    simp only [usesOf_add, usesOf_singleton] at e2
    dsimp only at e1
    rw [List.map_cons, ← Multiset.cons_coe, usesOf_cons] at e1
    have := c1 a ha
    beta_reduce at this ⊢
    refine this.imp id (fun h => ?_)
    rw [h]
    omega

theorem JInv.decRef_ok (hJ : J.Good) (h : JInv J tols pin s) {k : NK} {e : PtrEdge} (he : e ∈ (s.tab k).held) :
    ∃ r t, (s.tab k).tab.decRef J.U e = some r ∧ s.ct.decRefL J.C r.2 = some t ∧
    JInv J tols pin { s with
      ct := t
      tab := Function.update s.tab k ⟨r.1, (s.tab k).held.erase e, fun w => (s.tab k).wref w - r.2.count w⟩ } := by
  have hi := (h.tab k).inv hJ.U
  obtain ⟨r, hr, sp⟩ := hi.dec_exists hJ.U he
  have hstep := UStep.dec (H := J.H k) (s.tab k) e he r hr
  have hes : ∀ b i, (r.1.mem b).e i = ((s.tab k).tab.mem b).e i := by
    intro b i; rw [sp.shape.e]
  have hew := h.held k e he
  have hL : ∀ c ∈ r.2, s.ct.LiveC J.C c := by
    intro c hc
    have h1 := sp.weights c
    have h2 := List.count_pos_iff.2 hc
    by_cases hcw : e.w = c
    · rw [← hcw]; exact hew
    · rw [if_neg hcw, ← weights_count, ← weights_count] at h1
      have h3 : c ∈ (s.tab k).tab.weights := by rw [← Multiset.count_pos]; omega
      obtain ⟨b, hb, _, i, rfl⟩ := mem_weights.1 h3
      exact h.nodes k b hb i
  have hW : (r.2 : Multiset (CNum Loc)) + r.1.weights = (s.tab k).tab.weights + {e.w} := by
    ext w
    rw [Multiset.count_add, Multiset.count_add, Multiset.coe_count, weights_count, weights_count, sp.weights w,
      Multiset.count_singleton]
    simp only [eq_comm]
  have hE : ((s.tab k).held.map (fun e => e.w) : Multiset (CNum Loc)) =
      e.w ::ₘ (((s.tab k).held.erase e).map (fun e => e.w) : List _) := by
    rw [Multiset.cons_coe, ← List.map_cons (f := fun e : PtrEdge => e.w)]
    exact Multiset.coe_eq_coe.2 ((List.perm_cons_erase he).map _)
  have key : ∀ ct a, usesOf s.inUse a = usesOf ({ s with
      ct := ct
      tab := Function.update s.tab k ⟨r.1, (s.tab k).held.erase e, fun w => (s.tab k).wref w - r.2.count w⟩ } :
      JState R).inUse a + usesOf r.2 a := by
    intro ct a
    have e1 := inUse_update s k ⟨r.1, (s.tab k).held.erase e, fun w => (s.tab k).wref w - r.2.count w⟩ ct a
    have e2 := congrArg (fun M => usesOf M a) hW
    simp only [usesOf_add, usesOf_singleton] at e2
    dsimp only at e1
    rw [hE, usesOf_cons] at e1
    omega
  have hcnt : s.ct.Cnt J.C (fun a => ((if pin = some a then 1 else 0) + usesOf ({ s with
      ct := s.ct
      tab := Function.update s.tab k ⟨r.1, (s.tab k).held.erase e, fun w => (s.tab k).wref w - r.2.count w⟩ } :
      JState R).inUse a) + usesOf r.2 a) := by
    intro a ha
    have := h.cnt a ha
    beta_reduce at this ⊢
    rw [key s.ct a] at this
    rwa [add_assoc]
  obtain ⟨t, ht, c1, c2⟩ := CTab.decRefL_cnt r.2 hL hcnt
  refine ⟨r, t, hr, ht, ?_⟩
  refine h.tabStep (CTab.decRefL_reach r.2 h.ct hL ht) c2 k _ ((h.tab k).step hstep) ?_ ?_ ?_ c1
  · intro a ha; dsimp only; rw [sp.shape.all]; exact ha
  · intro a ha i
    dsimp only at ha ⊢
    rw [sp.shape.all] at ha
    rw [hes]; exact h.nodes k a ha i
  · intro x hx
    exact h.held k x (List.mem_of_mem_erase hx)

theorem JInv.incNum (h : JInv J tols pin s) {c : CNum Loc} (hr : s.Known J (.num c.r.loc)) (hi : s.Known J (.num c.i.loc)) :
    JInv J tols pin { s with ct := s.ct.incRefC J.C c, nums := c :: s.nums } := by
  have hl : s.ct.LiveC J.C c := ⟨hr, hi⟩
  obtain ⟨c1, sv⟩ := CTab.incRefC_cnt (c := c) h.cnt
  refine ⟨(CTab.incRefC_reach h.ct hl).1, h.tab, fun k a ha i => (sv.liveC _).2 (h.nodes k a ha i),
    fun k e he => (sv.liveC _).2 (h.held k e he), ?_, ?_, fun a ha => ?_, ?_, h.count⟩
  · intro d hd
    rcases List.mem_cons.1 hd with rfl | hd
    · exact (sv.liveC _).2 hl
    · exact (sv.liveC _).2 (h.nums d hd)
  · intro a ha
    have := c1 a ha
    beta_reduce at this ⊢
    refine this.imp id (fun h => ?_)
    rw [h]
    unfold JState.inUse
    dsimp only
    rw [← Multiset.cons_coe, usesOf_add, usesOf_add, usesOf_cons]
    omega
  · dsimp only; rw [sv.stored]; exact h.pin a ha
  · intro d i key r hs
    exact entry_mono (fun y hy => known_mono (s := s) (s' := { s with ct := s.ct.incRefC J.C c, nums := c :: s.nums })
      (fun _ _ h => h) (fun l hl => (sv.live l).2 hl) hy) (h.cache d i key r hs)

theorem JInv.decNum_ok (h : JInv J tols pin s) {c : CNum Loc} (hc : c ∈ s.nums) :
    ∃ t, s.ct.decRefC J.C c = some t ∧ JInv J tols pin { s with ct := t, nums := s.nums.erase c } := by
  have hl := h.nums c hc
  have hE : (s.nums : Multiset (CNum Loc)) = c ::ₘ (s.nums.erase c : List _) := by
    rw [Multiset.cons_coe]
    exact Multiset.coe_eq_coe.2 (List.perm_cons_erase hc)
  have key : ∀ ct a, usesOf s.inUse a = usesOf ({ s with ct := ct, nums := s.nums.erase c } : JState R).inUse a + c.uses a := by
    intro ct a
    unfold JState.inUse
    dsimp only
    rw [hE, usesOf_add, usesOf_add, usesOf_cons]
    omega
  have hcnt : s.ct.Cnt J.C (fun a => ((if pin = some a then 1 else 0) +
      usesOf ({ s with ct := s.ct, nums := s.nums.erase c } : JState R).inUse a) + c.uses a) := by
    intro a ha
    have := h.cnt a ha
    beta_reduce at this ⊢
    rw [key s.ct a] at this
    rwa [add_assoc]
  obtain ⟨t, ht, c1, sv⟩ := CTab.decRefC_cnt hl hcnt
  refine ⟨t, ht, (CTab.decRefC_reach h.ct hl ht).1, h.tab, fun k a ha i => (sv.liveC _).2 (h.nodes k a ha i),
    fun k e he => (sv.liveC _).2 (h.held k e he), fun d hd => (sv.liveC _).2 (h.nums d (List.mem_of_mem_erase hd)), c1,
    fun a ha => ?_, ?_, h.count⟩
  · dsimp only; rw [sv.stored]; exact h.pin a ha
  · intro d i key r hs
    exact entry_mono (fun y hy => known_mono (s := s) (s' := { s with ct := t, nums := s.nums.erase c })
      (fun _ _ h => h) (fun l hl => (sv.live l).2 hl) hy) (h.cache d i key r hs)

theorem JInv.insert (h : JInv J tols pin s) {c : CK} {key : CKey R} {r : CArg R}
    (hk : List.Forall₂ CArg.has key.1 c.sig.1) (hres : r.has c.sig.2)
    (hkey : ∀ a ∈ key.1, ∀ x ∈ a.refs, s.Known J x) (hr : ∀ x ∈ r.refs, s.Known J x)
    (hid : c = .idTable → ∀ e, r = .ptr .m e → e.w = CNum.one) :
    JInv J tols pin { s with cache := Function.update s.cache c ((s.cache c).insert (J.h c) key r) } := by
  refine ⟨h.ct, h.tab, h.nodes, h.held, h.nums, h.cnt, h.pin, ?_, ?_⟩
  · intro d i key' r' hs
    dsimp only at hs
    by_cases e : d = c
    · subst e
      rw [Function.update_self] at hs
      unfold Cache.insert at hs
      dsimp only at hs
      split_ifs at hs
      · simp only [Option.some.injEq, Prod.mk.injEq] at hs
        obtain ⟨rfl, rfl⟩ := hs
        exact ⟨hk, hres, hkey, fun k a ha => hr _ ha, fun _ => hr, hid⟩
      · exact h.cache d i key' r' hs
    · rw [Function.update_of_ne e] at hs
      exact h.cache d i key' r' hs
  · intro d hd
    dsimp only at hd ⊢
    by_cases e : d = c
    · subst e
      rw [Function.update_self] at hd
      simp [Cache.insert] at hd
    · rw [Function.update_of_ne e] at hd ⊢
      exact h.count d hd

/-- Clearing caches leaves a part of the entries. -/
theorem clear_slot {κ ρ : Type} (c : Cache κ ρ) (h0 : c.count = 0 → ∀ i, c.slot i = none) :
    (∀ i, c.clear.slot i = none) := by
  intro i
  unfold Cache.clear
  split_ifs with h
  · rfl
  · exact h0 (by omega) i

theorem JInv.clearCaches (h : JInv J tols pin s) (L : CK → Bool) : JInv J tols pin (s.clearCaches L) := by
  refine ⟨h.ct, h.tab, h.nodes, h.held, h.nums, h.cnt, h.pin, ?_, ?_⟩
  · intro c i key r hs
    unfold JState.clearCaches at hs
    dsimp only at hs
    split_ifs at hs
    · rw [clear_slot _ (h.count c)] at hs; simp at hs
    · exact h.cache c i key r hs
  · intro c hc
    unfold JState.clearCaches at hc ⊢
    dsimp only at hc ⊢
    split_ifs at hc ⊢
    · exact clear_slot _ (h.count c)
    · exact h.count c hc

theorem JInv.resize (hJ : J.Good) (h : JInv J tols pin s) {nq : Nat} (hn : ∀ k, (s.tab k).tab.nvars ≤ nq) :
    JInv J tols pin { s with tab := fun k => { s.tab k with tab := (s.tab k).tab.resize nq } } := by
  have hi := fun k => (h.tab k).inv hJ.U
  have hall : ∀ k, ((s.tab k).tab.resize nq).all = (s.tab k).tab.all := by
    intro k; rw [(hi k).resize_eq (hn k)]; exact all_nvars (hi k).uwf (hn k)
  have hmem : ∀ k, ((s.tab k).tab.resize nq).mem = (s.tab k).tab.mem := fun _ => rfl
  refine ⟨h.ct, fun k => (h.tab k).step (.resize _ nq (hn k)), ?_, h.held, h.nums, ?_, h.pin, ?_, h.count⟩
  · intro k a ha i
    dsimp only at ha ⊢
    rw [hall] at ha
    exact h.nodes k a ha i
  · have : ({ s with tab := fun k => { s.tab k with tab := (s.tab k).tab.resize nq } } : JState R).inUse = s.inUse := by
      unfold JState.inUse
      dsimp only
      congr 1
      apply Finset.sum_congr rfl
      intro k _
      congr 1
      unfold UTable.weights
      rw [hall]
      rfl
    rw [this]
    exact h.cnt
  · intro c i key r hs
    exact entry_mono (fun y hy => known_mono (s := s)
      (s' := { s with tab := fun k => { s.tab k with tab := (s.tab k).tab.resize nq } })
      (fun k a ha => by dsimp only; rw [hall]; exact ha) (fun l hl => hl) hy) (h.cache c i key r hs)

theorem uclear_all (C : UCfg) {W : Type} {n : Nat} (t : UTable W n) : (t.clear C).all = [] := by
  simp [UTable.all, UTable.clear]

theorem JInv.reset (hJ : J.Good) (htol : ∀ τ, tols τ → 0 ≤ τ) (h : JInv J tols pin s) : JInv J tols none (s.reset J) := by
  have hst : (s.ct.clear J.C).stored J.C = [] := by
    unfold CTab.stored
    rw [List.flatMap_eq_nil_iff]
    intro k _
    exact CTab.clear_bucket hJ.C.nb (h.ct.wf htol hJ.C) k
  refine ⟨h.ct.step .clear, fun k => (h.tab k).step (.clear _), ?_, ?_, ?_, ?_, ?_, ?_, ?_⟩
  · intro k a ha
    unfold JState.reset at ha
    dsimp only at ha
    rw [uclear_all] at ha; simp at ha
  · intro k e he; simp [JState.reset] at he
  · intro c hc; simp [JState.reset] at hc
  · intro a ha
    have : a ∈ (s.ct.clear J.C).stored J.C := ha
    rw [hst] at this; simp at this
  · intro a ha; simp at ha
  · intro c i key r hs
    have : (s.cache c).clear.slot i = some (key, r) := hs
    rw [clear_slot _ (h.count c)] at this; simp at this
  · intro c _ i
    exact clear_slot _ (h.count c) i

end DD
