import Verif.Proofs.JointStep

/-! # Garbage collection over all tables -/

namespace DD

open UTable

theorem filter_all_of_length {α : Type} {L : List α} {p : α → Bool} (h : (L.filter p).length = 0) :
    L.filter (fun a => !p a) = L := by
  rw [List.filter_eq_self]
  intro a ha
  have h1 := List.eq_nil_of_length_eq_zero h
  rw [List.filter_eq_nil_iff] at h1
  simpa using h1 a ha

/-- If no node was collected, all nodes are still stored. -/
theorem gc_none {W : Type} {n : Nat} {C : UCfg} {t : UTable W n} {force : Bool}
    (h : (t.garbageCollect C force).2 = 0) : (t.garbageCollect C force).1.all = t.all := by
  by_cases hc : ((!force && decide (t.nodeCount < t.gcLimit)) || decide (t.nodeCount = 0)) = true
  · unfold garbageCollect; rw [if_pos hc]
  · rw [gc_all_run C t force hc]
    unfold garbageCollect at h
    rw [if_neg hc] at h
    exact filter_all_of_length h

/-- After a forced collection all stored nodes have references. -/
theorem gc_forced {W : Type} {n : Nat} {C : UCfg} {H : (Fin n → Edge W) → Nat} {t : UTable W n} (hw : UWF H t) {a : Nat}
    (ha : a ∈ (t.garbageCollect C true).1.all) : 0 < (t.mem a).ref := by
  by_cases hc : ((!true && decide (t.nodeCount < t.gcLimit)) || decide (t.nodeCount = 0)) = true
  · have h0 : t.nodeCount = 0 := by simpa using hc
    rw [hw.count] at h0
    have h1 := List.eq_nil_of_length_eq_zero h0
    have := gc_subset C t true ha
    rw [h1] at this; simp at this
  · rw [gc_all_run C t true hc] at ha
    have := (List.mem_filter.1 ha).2
    simp at this
    omega

variable {R : Type} [Field R] [LinearOrder R] [IsStrictOrderedRing R] [FloorRing R] {J : JCfg R} {tols : R → Prop}
variable {s : JState R} {pin : Option Nat}

/-- What a collection of numbers does to counts, values and stored entries. -/
theorem cgc_facts {C : CCfg R} (hC : C.Good) {t : CTab R} (h : t.WF C) (force : Bool) :
    (t.garbageCollect C force).1.ref = t.ref ∧ (t.garbageCollect C force).1.val = t.val ∧
    (∀ a ∈ (t.garbageCollect C force).1.stored C, a ∈ t.stored C) ∧
    (∀ a ∈ t.stored C, t.ref (.cell a) ≠ 0 → a ∈ (t.garbageCollect C force).1.stored C) ∧
    ((t.garbageCollect C force).2 = 0 → (t.garbageCollect C force).1.stored C = t.stored C) := by
  by_cases hrun : ((!force && decide (t.count < t.gcLimit)) || decide (t.count ≤ 1)) = true
  · rw [CTab.gc_skip hrun]
    exact ⟨rfl, rfl, fun a ha => ha, fun a ha _ => ha, fun _ => rfl⟩
  · have g := CTab.gc_run_spec hC.nb h hrun
    refine ⟨g.ref, g.val, ?_, ?_, ?_⟩
    · intro a ha; rw [g.stored] at ha; exact (List.mem_filter.1 ha).1
    · intro a ha h0; rw [g.stored]; simp [ha, h0]
    · intro h0
      rw [g.stored]
      rw [g.num] at h0
      have := filter_all_of_length h0
      simpa using this

/-! ## Types of cache entries -/

/-- The kind of node an edge of this type refers to. -/
def ATy.kind : ATy → NK
  | .ptr k => k
  | .val k => k

/-- Edges of this type refer to numbers. -/
def ATy.isPtr : ATy → Bool
  | .ptr _ => true
  | .val _ => false

theorem has_node {a : CArg R} {ty : ATy} (h : a.has ty) {k b} (hb : PRef.node k b ∈ a.refs) : ty.kind = k := by
  cases a with
  | ptr j e =>
    cases ty with
    | ptr j' =>
      have : j = j' := h
      subst this
      cases hp : e.p <;> simp [CArg.refs, ptrRefs, nodeRefs, hp] at hb
      exact hb.1.symm
    | val _ => exact h.elim
  | val j e =>
    cases ty with
    | val j' =>
      have : j = j' := h
      subst this
      cases hp : e.p <;> simp [CArg.refs, nodeRefs, hp] at hb
      exact hb.1.symm
    | ptr _ => exact h.elim

theorem has_num {a : CArg R} {ty : ATy} (h : a.has ty) {l} (hb : PRef.num l ∈ a.refs) : ty.isPtr = true := by
  cases a with
  | ptr j e =>
    cases ty with
    | ptr j' => rfl
    | val _ => exact h.elim
  | val j e =>
    cases hp : e.p <;> simp [CArg.refs, nodeRefs, hp] at hb

/-- The caches that can contain nodes of a kind are cleared when nodes of this kind are collected, and those that can
contain numbers, with two exceptions, when numbers are collected. -/
theorem sig_clear (c : CK) (ty : ATy) (h : ty ∈ c.sig.1 ∨ ty = c.sig.2) :
    (ty.kind = .v → JState.forV c = true) ∧ (ty.kind = .m → JState.forM c = true) ∧
    (ty.kind = .d → JState.forM c = true) ∧
    (ty.isPtr = true → JState.forN c = true ∨ c = .toffoliTable ∨ c = .idTable) := by
  cases c <;> simp only [CK.sig, List.mem_cons, List.not_mem_nil, or_false, or_self] at h
  all_goals
    first
    | (subst h; simp [ATy.kind, ATy.isPtr, JState.forV, JState.forM, JState.forN]; done)
    | (rcases h with rfl | rfl <;> simp [ATy.kind, ATy.isPtr, JState.forV, JState.forM, JState.forN]; done)
    | (rcases h with (rfl | rfl) | rfl <;> simp [ATy.kind, ATy.isPtr, JState.forV, JState.forM, JState.forN]; done)

theorem forall₂_mem {a : CArg R} : ∀ {K S}, List.Forall₂ (CArg.has (R := R)) K S → a ∈ K → ∃ ty ∈ S, a.has ty := by
  intro K S hf
  induction hf with
  | nil => intro h; simp at h
  | cons hab _ ih =>
    intro h
    rcases List.mem_cons.1 h with rfl | h
    · exact ⟨_, List.mem_cons_self, hab⟩
    · obtain ⟨ty, h1, h2⟩ := ih h
      exact ⟨ty, List.mem_cons_of_mem _ h1, h2⟩

theorem toffoli_key {key : CKey R} (h : List.Forall₂ CArg.has key.1 CK.toffoliTable.sig.1) : key.1 = [] := by
  have : List.Forall₂ CArg.has key.1 [] := h
  cases hk : key.1 with
  | nil => rfl
  | cons a l => rw [hk] at this; cases this

theorem ident_key {key : CKey R} (h : List.Forall₂ CArg.has key.1 CK.idTable.sig.1) : key.1 = [] := by
  have : List.Forall₂ CArg.has key.1 [] := h
  cases hk : key.1 with
  | nil => rfl
  | cons a l => rw [hk] at this; cases this

/-! ## The collection -/

/-- The condition under which a cache is cleared. -/
def gcClears (J : JCfg R) (s : JState R) (force : Bool) (nc : Nat) (c : CK) : Prop :=
  (0 < ((s.tab .v).tab.garbageCollect J.U force).2 ∧ JState.forV c = true) ∨
  ((0 < ((s.tab .m).tab.garbageCollect J.U force).2 ∨ 0 < ((s.tab .d).tab.garbageCollect J.U force).2) ∧
    JState.forM c = true) ∨ (0 < nc ∧ JState.forN c = true)

theorem gcNodes_cache (h0 : ∀ c, (s.cache c).count = 0 → ∀ i, (s.cache c).slot i = none) (force : Bool) (nc : Nat) :
    (∀ c, ((s.gcNodes J force nc).1.cache c).count = 0 → ∀ i, ((s.gcNodes J force nc).1.cache c).slot i = none) ∧
    ∀ c i e, ((s.gcNodes J force nc).1.cache c).slot i = some e → (s.cache c).slot i = some e ∧
      ¬ gcClears J s force nc c := by
  have key : ∀ (s : JState R) (P : Prop) [Decidable P] (L : CK → Bool),
      (∀ c, (s.cache c).count = 0 → ∀ i, (s.cache c).slot i = none) →
      (∀ c, ((if P then s.clearCaches L else s).cache c).count = 0 →
        ∀ i, ((if P then s.clearCaches L else s).cache c).slot i = none) ∧
      ∀ c i e, ((if P then s.clearCaches L else s).cache c).slot i = some e → (s.cache c).slot i = some e ∧
        ¬ (P ∧ L c = true) := by
    intro s P _ L h0
    by_cases hP : P
    · simp only [if_pos hP]
      unfold JState.clearCaches
      dsimp only
      constructor
      · intro c hc
        split_ifs at hc ⊢ with hL
        · exact clear_slot _ (h0 c)
        · exact h0 c hc
      · intro c i e he
        split_ifs at he with hL
        · rw [clear_slot _ (h0 c)] at he; simp at he
        · exact ⟨he, fun h => hL h.2⟩
    · simp only [if_neg hP]
      exact ⟨h0, fun c i e he => ⟨he, fun h => hP h.1⟩⟩
  unfold JState.gcNodes
  dsimp only
  generalize hs1 : ({ s with tab := fun k => { s.tab k with tab := ((s.tab k).tab.garbageCollect J.U force).1 } } :
    JState R) = s1
  have h1 : ∀ c, (s1.cache c).count = 0 → ∀ i, (s1.cache c).slot i = none := by rw [← hs1]; exact h0
  have hc1 : s1.cache = s.cache := by rw [← hs1]
  have k1 := key s1 (0 < ((s.tab .v).tab.garbageCollect J.U force).2) JState.forV h1
  generalize (if 0 < ((s.tab .v).tab.garbageCollect J.U force).2 then s1.clearCaches JState.forV else s1) = s2 at k1
  have k2 := key s2 (0 < ((s.tab .m).tab.garbageCollect J.U force).2 ∨ 0 < ((s.tab .d).tab.garbageCollect J.U force).2)
    JState.forM k1.1
  generalize (if 0 < ((s.tab .m).tab.garbageCollect J.U force).2 ∨ 0 < ((s.tab .d).tab.garbageCollect J.U force).2 then
    s2.clearCaches JState.forM else s2) = s3 at k2
  have k3 := key s3 (0 < nc) JState.forN k2.1
  refine ⟨k3.1, ?_⟩
  intro c i e he
  obtain ⟨e3, n3⟩ := k3.2 c i e he
  obtain ⟨e2, n2⟩ := k2.2 c i e e3
  obtain ⟨e1, n1⟩ := k1.2 c i e e2
  rw [hc1] at e1
  refine ⟨e1, ?_⟩
  rintro (h | h | h)
  · exact n1 h
  · exact n2 h
  · exact n3 h

theorem gcNodes_rest (force : Bool) (nc : Nat) :
    (s.gcNodes J force nc).1.ct = s.ct ∧ (s.gcNodes J force nc).1.nums = s.nums ∧
    (s.gcNodes J force nc).1.tab = fun k => { s.tab k with tab := ((s.tab k).tab.garbageCollect J.U force).1 } := by
  unfold JState.gcNodes JState.clearCaches
  dsimp only
  split_ifs <;> exact ⟨rfl, rfl, rfl⟩

theorem JInv.ref_pos (hJ : J.Good) (h : JInv J tols pin s) {c : CNum Loc} (hc : c ∈ s.inUse) {a : Nat}
    (ha : a ∈ s.ct.stored J.C) (hu : 0 < c.uses a) : s.ct.ref (.cell a) ≠ 0 := by
  have h1 := usesOf_pos hc hu
  rcases h.cnt a ha with h2 | h2
  · rw [h2]; exact hJ.C.maxRef.ne'
  · rw [h2]; beta_reduce; omega

theorem mem_inUse_node {k : NK} {a : Nat} {i} (ha : a ∈ (s.tab k).tab.all) (hr : 0 < ((s.tab k).tab.mem a).ref) :
    (((s.tab k).tab.mem a).e i).w ∈ s.inUse := by
  unfold JState.inUse
  rw [Multiset.mem_add]; left
  rw [Multiset.mem_sum]
  refine ⟨k, Finset.mem_univ k, ?_⟩
  rw [Multiset.mem_add]; right
  exact mem_weights.2 ⟨a, ha, hr, i, rfl⟩

theorem mem_inUse_held {k : NK} {e : PtrEdge} (he : e ∈ (s.tab k).held) : e.w ∈ s.inUse := by
  unfold JState.inUse
  rw [Multiset.mem_add]; left
  rw [Multiset.mem_sum]
  refine ⟨k, Finset.mem_univ k, ?_⟩
  rw [Multiset.mem_add]; left
  rw [Multiset.mem_coe, List.mem_map]
  exact ⟨e, he, rfl⟩

theorem mem_inUse_nums {c : CNum Loc} (hc : c ∈ s.nums) : c ∈ s.inUse := by
  unfold JState.inUse
  rw [Multiset.mem_add]; right
  exact hc

theorem JInv.garbageCollect (hJ : J.Good) (htol : ∀ τ, tols τ → 0 ≤ τ) (h : JInv J tols pin s) (force : Bool) :
    JInv J tols pin (s.garbageCollect J force).1 := by
  unfold JState.garbageCollect
  split_ifs
  · exact h
  · dsimp only
    obtain ⟨cref, cval, csub, ckeep, cnone⟩ := cgc_facts hJ.C (h.ct.wf htol hJ.C) force
    have hreach : CReach J.C tols (s.ct.garbageCollect J.C force).1 := h.ct.step (.garbageCollect force)
    generalize s.ct.garbageCollect J.C force = r at cref cval csub ckeep cnone hreach
    generalize hF : (if 0 < r.2 then true else force) = F
    obtain ⟨g1, g2, g3⟩ := gcNodes_rest (J := J) (s := { s with ct := r.1 }) F r.2
    obtain ⟨g4, g5⟩ := gcNodes_cache (J := J) (s := { s with ct := r.1 }) h.count F r.2
    have hclr : ∀ c, gcClears J { s with ct := r.1 } F r.2 c ↔ gcClears J s F r.2 c := fun _ => Iff.rfl
    generalize (JState.gcNodes J { s with ct := r.1 } F r.2).1 = s' at g1 g2 g3 g4 g5
    dsimp only at g1 g2 g3
    have hi := fun k => (h.tab k).inv hJ.U
    have hl : ∀ l, s.ct.Live J.C l → (∀ a, l = .cell a → s.ct.ref l ≠ 0) → r.1.Live J.C l := by
      intro l hl h0
      cases l with
      | cell a => exact ckeep a hl (h0 a rfl)
      | _ => exact trivial
    have hu : ∀ c ∈ s.inUse, r.1.LiveC J.C c := by
      intro c hc
      have hlc := h.inUse_live hc
      refine ⟨hl _ hlc.1 ?_, hl _ hlc.2 ?_⟩
      · intro a ha
        have h1 := hlc.1
        rw [ha] at h1 ⊢
        exact h.ref_pos hJ hc h1 (uses_pos_r ha)
      · intro a ha
        have h1 := hlc.2
        rw [ha] at h1 ⊢
        exact h.ref_pos hJ hc h1 (uses_pos_i ha)
    have hall : ∀ k, (s'.tab k).tab.all = ((s.tab k).tab.garbageCollect J.U F).1.all := by intro k; rw [g3]
    have hmem : ∀ k, (s'.tab k).tab.mem = (s.tab k).tab.mem := by intro k; rw [g3]; exact gc_mem _ _ _
    have hheld : ∀ k, (s'.tab k).held = (s.tab k).held := by intro k; rw [g3]
    have huse : s'.inUse = s.inUse := by
      unfold JState.inUse
      rw [g2, g3]
      congr 1
      apply Finset.sum_congr rfl
      intro k _
      dsimp only
      congr 1
      exact weights_eq (fun w => gc_sum J.U (s.tab k).tab F (fun es _ => cntWL es (List.finRange k.ar) w))
    refine ⟨by rw [g1]; exact hreach, ?_, ?_, ?_, ?_, ?_, ?_, ?_, g4⟩
    · intro k; rw [g3]; exact (h.tab k).step (.gc _ F)
    · intro k a ha i
      rw [g1, hmem]
      rw [hall] at ha
      have ha' := gc_subset _ _ _ ha
      by_cases h0 : r.2 = 0
      · have hst := cnone h0
        have h1 := h.nodes k a ha' i
        have : ∀ l, s.ct.Live J.C l → r.1.Live J.C l := by
          intro l hl
          cases l with
          | cell b => show b ∈ _; rw [hst]; exact hl
          | _ => exact trivial
        exact ⟨this _ h1.1, this _ h1.2⟩
      · rw [if_pos (Nat.pos_of_ne_zero h0)] at hF
        subst hF
        exact hu _ (mem_inUse_node ha' (gc_forced (hi k).uwf ha))
    · intro k e he
      rw [g1]; rw [hheld] at he
      exact hu _ (mem_inUse_held he)
    · intro c hc
      rw [g1]; rw [g2] at hc
      exact hu _ (mem_inUse_nums hc)
    · rw [g1, huse]
      intro a ha
      rw [cref]
      exact h.cnt a (csub a ha)
    · intro a ha
      rw [g1]
      refine ckeep a (h.pin a ha) ?_
      rcases h.cnt a (h.pin a ha) with h2 | h2
      · rw [h2]; exact hJ.C.maxRef.ne'
      · rw [h2]; beta_reduce; rw [if_pos ha]; omega
    · intro c i key e he
      obtain ⟨h1, h2⟩ := g5 c i (key, e) he
      rw [hclr] at h2
      obtain ⟨o1, o2, o3, o4, o5, o6⟩ := h.cache c i key e h1
      have hnode : ∀ ty, (ty ∈ c.sig.1 ∨ ty = c.sig.2) → ∀ a : CArg R, a.has ty → ∀ k b, PRef.node k b ∈ a.refs →
          s.Known J (.node k b) → s'.Known J (.node k b) := by
        intro ty hty a ha k b hb hk
        have hkind := has_node ha hb
        obtain ⟨c1, c2, c3, _⟩ := sig_clear c ty hty
        show b ∈ (s'.tab k).tab.all
        rw [hall, gc_none]
        · exact hk
        · by_contra hne
          have hpos := Nat.pos_of_ne_zero hne
          apply h2
          cases k with
          | v => exact Or.inl ⟨hpos, c1 hkind⟩
          | m => exact Or.inr (Or.inl ⟨Or.inl hpos, c2 hkind⟩)
          | d => exact Or.inr (Or.inl ⟨Or.inr hpos, c3 hkind⟩)
      have hnum : ∀ ty, (ty ∈ c.sig.1 ∨ ty = c.sig.2) → ∀ a : CArg R, a.has ty → c ≠ .toffoliTable → c ≠ .idTable →
          ∀ l, PRef.num l ∈ a.refs → s.Known J (.num l) → s'.Known J (.num l) := by
        intro ty hty a ha hc1 hc2 l hb hk
        have hp := has_num ha hb
        obtain ⟨_, _, _, c4⟩ := sig_clear c ty hty
        have hN : JState.forN c = true := by
          rcases c4 hp with h | h | h
          · exact h
          · exact absurd h hc1
          · exact absurd h hc2
        have h0 : r.2 = 0 := by
          by_contra hne
          exact h2 (Or.inr (Or.inr ⟨Nat.pos_of_ne_zero hne, hN⟩))
        show s'.ct.Live J.C l
        rw [g1]
        cases l with
        | cell b => show b ∈ _; rw [cnone h0]; exact hk
        | _ => exact trivial
      have hnd : ∀ ty, (ty ∈ c.sig.1 ∨ ty = c.sig.2) → ∀ a : CArg R, a.has ty → c ≠ .toffoliTable → c ≠ .idTable →
          (∀ x ∈ a.refs, s.Known J x) → ∀ x ∈ a.refs, s'.Known J x := by
        intro ty hty a ha hc1 hc2 hk x hx
        cases x with
        | node k b => exact hnode ty hty a ha k b hx (hk _ hx)
        | num l => exact hnum ty hty a ha hc1 hc2 l hx (hk _ hx)
      refine ⟨o1, o2, ?_, ?_, ?_, o6⟩
      · intro a ha x hx
        by_cases hc1 : c = .toffoliTable
        · subst hc1; rw [toffoli_key o1] at ha; simp at ha
        by_cases hc2 : c = .idTable
        · subst hc2; rw [ident_key o1] at ha; simp at ha
        obtain ⟨ty, hty, hat⟩ := forall₂_mem o1 ha
        exact hnd ty (Or.inl hty) a hat hc1 hc2 (o3 a ha) x hx
      · intro k b hb
        exact hnode _ (Or.inr rfl) e o2 k b hb (o4 k b hb)
      · intro hc1 x hx
        by_cases hc2 : c = .idTable
        · cases x with
          | node k b => exact hnode _ (Or.inr rfl) e o2 k b hx (o4 k b hx)
          | num l =>
            subst hc2
            cases e with
            | val k e => cases hp : e.p <;> simp [CArg.refs, nodeRefs, hp] at hx
            | ptr k e =>
              have hk : k = .m := o2
              subst hk
              have hw := o6 rfl e rfl
              show s'.ct.Live J.C l
              cases hp : e.p <;>
                · simp [CArg.refs, ptrRefs, nodeRefs, hp, hw, CNum.one] at hx
                  rcases hx with rfl | rfl <;> trivial
        · exact hnd _ (Or.inr rfl) e o2 hc1 hc2 (o5 hc1) x hx

/-! ## All histories -/

theorem create_inv (hJ : J.Good) (htol : ∀ τ, tols τ → 0 ≤ τ) {τ : R} (hτ : tols τ) (nq : Nat) (nbucket : NK → Nat)
    (hnb : ∀ k, 0 < nbucket k) (cell : (k : NK) → Node (CNum Loc) k.ar) :
    ∃ pin, JInv J tols pin (JState.init J τ nq nbucket cell) := by
  have hi := CTab.init_wf hJ.C (htol τ hτ)
  obtain ⟨l1, l2, l3⟩ := lookup_facts hJ.C hi (v := 1 / 2) (by positivity)
  have huse : ∀ a, usesOf (JState.init J τ nq nbucket cell).inUse a = 0 := by
    intro a
    apply usesOf_eq_zero
    intro c hc
    exfalso
    unfold JState.inUse at hc
    rw [Multiset.mem_add, Multiset.mem_sum] at hc
    rcases hc with ⟨k, _, hk⟩ | hc
    · rw [Multiset.mem_add] at hk
      rcases hk with hk | hk
      · simp [JState.init] at hk
      · obtain ⟨b, hb, _⟩ := mem_weights.1 hk
        simp [JState.init, UTable.init, UTable.all] at hb
    · simp [JState.init] at hc
  have hst : (CTab.init J.C τ).stored J.C = [] := by simp [CTab.stored, CTab.init]
  have hcr : (CTab.create J.C τ).stored J.C = ((CTab.init J.C τ).lookup J.C (1 / 2)).1.stored J.C := rfl
  refine ⟨(match ((CTab.init J.C τ).lookup J.C (1 / 2)).2 with | .cell a => some a | _ => none), ?_⟩
  refine ⟨.create τ hτ, fun k => .init nq (nbucket k) (hnb k) (cell k), ?_, ?_, ?_, ?_, ?_, ?_, ?_⟩
  · intro k a ha; simp [JState.init, UTable.init, UTable.all] at ha
  · intro k e he; simp [JState.init] at he
  · intro c hc; simp [JState.init] at hc
  · intro a ha
    right
    beta_reduce
    rw [huse, add_zero]
    have ha' : a ∈ ((CTab.init J.C τ).lookup J.C (1 / 2)).1.stored J.C := ha
    have h0 : ((CTab.init J.C τ).lookup J.C (1 / 2)).1.ref (.cell a) = 0 := by
      rcases l2 a ha' with ⟨h1, _⟩ | ⟨_, h1⟩
      · rw [hst] at h1; simp at h1
      · exact h1
    show (CTab.create J.C τ).ref (.cell a) = _
    unfold CTab.create
    dsimp only
    generalize (CTab.init J.C τ).lookup J.C (1 / 2) = r at h0
    obtain ⟨t, l⟩ := r
    cases l with
    | cell b =>
      dsimp only at h0 ⊢
      by_cases e : b = a
      · subst e; simp [h0]
      · rw [Function.update_of_ne (by simpa using Ne.symm e), h0, if_neg (by simpa using e)]
    | _ => dsimp only at h0 ⊢; simp [h0]
  · intro a ha
    show a ∈ ((CTab.init J.C τ).lookup J.C (1 / 2)).1.stored J.C
    generalize (CTab.init J.C τ).lookup J.C (1 / 2) = r at ha l3
    obtain ⟨t, l⟩ := r
    cases l with
    | cell b =>
      simp only [Option.some.injEq] at ha
      subst ha
      exact l3
    | _ => simp at ha
  · intro c i key r hs; simp [JState.init, Cache.empty] at hs
  · intro c _ i; rfl

theorem JStep.inv (hJ : J.Good) (htol : ∀ τ, tols τ → 0 ≤ τ) {s' : JState R} (h : JInv J tols pin s)
    (hs : JStep J tols s s') : ∃ pin, JInv J tols pin s' := by
  cases hs with
  | lookup v hv => exact ⟨pin, h.lookup hJ htol hv⟩
  | setTolerance τ hτ => exact ⟨pin, h.setTolerance hτ⟩
  | mk k v es ident symm hv hes hw => exact ⟨pin, h.makeNode hJ hv hes hw⟩
  | take k => exact ⟨pin, h.take hJ k⟩
  | takeBack k => exact ⟨pin, h.takeBack hJ k⟩
  | mark k a ident symm => exact ⟨pin, h.mark k a ident symm⟩
  | incRef k e he => exact ⟨pin, h.incRef hJ he⟩
  | decRef k e he r hr t ht =>
    obtain ⟨r', t', h1, h2, h3⟩ := h.decRef_ok hJ he
    rw [hr] at h1
    obtain rfl := Option.some.inj h1
    rw [ht] at h2
    obtain rfl := Option.some.inj h2
    exact ⟨pin, h3⟩
  | incNum c hr hi => exact ⟨pin, h.incNum hr hi⟩
  | decNum c hc t ht =>
    obtain ⟨t', h2, h3⟩ := h.decNum_ok hc
    rw [ht] at h2
    obtain rfl := Option.some.inj h2
    exact ⟨pin, h3⟩
  | insert c key r hk hres hkey hr hid => exact ⟨pin, h.insert hk hres hkey hr hid⟩
  | garbageCollect force => exact ⟨pin, h.garbageCollect hJ htol force⟩
  | resize nq hn => exact ⟨pin, h.resize hJ hn⟩
  | clearComputeTables => exact ⟨pin, h.clearCaches _⟩
  | reset => exact ⟨none, h.reset hJ htol⟩

theorem JReach.inv (hJ : J.Good) (htol : ∀ τ, tols τ → 0 ≤ τ) (h : JReach J tols s) : ∃ pin, JInv J tols pin s := by
  induction h with
  | init τ hτ nq nbucket hnb cell => exact create_inv hJ htol hτ nq nbucket hnb cell
  | step _ hs ih => obtain ⟨pin, h⟩ := ih; exact JStep.inv hJ htol h hs

end DD
