import Verif.Model.Consistent
import Verif.Props.C15
import Verif.Props.C17

/-!
# C66: what the consistency checks of the package tell

`isLocallyConsistent(e)` and `isGloballyConsistent(e)` in every state of a package. For a referenced edge the first returns `true` exactly if levels go
down by one along every edge of the diagram, and for any edge `true` means that a collection keeps the diagram. The second does not throw exactly if in
addition no other reference of the user shares a node with the diagram.
-/

namespace DD
open UTable

/-- Specification: the nodes of the diagram of `e`. -/
def InDiagram {n : Nat} (t : UTable (CNum Loc) n) (e : PtrEdge) (b : Nat) : Prop := ∃ a, e.p = some a ∧ Below t a b

/-- Specification: levels go down by one along every edge between nodes of the diagram. -/
def LevelsConsecutive {n : Nat} (t : UTable (CNum Loc) n) (e : PtrEdge) : Prop :=
  ∀ a, InDiagram t e a → ∀ i b, ((t.mem a).e i).p = some b → (t.mem b).v + 1 = (t.mem a).v

section Walk

variable {n : Nat} {t : UTable (CNum Loc) n}

theorem InDiagram.child {e : PtrEdge} {a b : Nat} (h : InDiagram t e a) (i : Fin n) (hb : ((t.mem a).e i).p = some b) : InDiagram t e b := by
  obtain ⟨r, hr, hra⟩ := h
  exact ⟨r, hr, hra.step i hb⟩

theorem Below.head {a b c : Nat} (i : Fin n) (h : ((t.mem a).e i).p = some b) (hc : Below t b c) : Below t a c := by
  induction hc with
  | refl => exact (Below.refl a).step i h
  | step j _ hd ih => exact ih.step j hd

theorem Below.cases_head {a c : Nat} (h : Below t a c) : a = c ∨ ∃ i b, ((t.mem a).e i).p = some b ∧ Below t b c := by
  induction h with
  | refl => exact Or.inl rfl
  | step j _ hd ih =>
    rcases ih with rfl | ⟨i, d, h1, h2⟩
    · exact Or.inr ⟨j, _, hd, .refl _⟩
    · exact Or.inr ⟨i, d, h1, h2.step j hd⟩

/-- A diagram is its top node and the diagrams of its children. -/
theorem inDiagram_iff {e : PtrEdge} {a : Nat} (ha : e.p = some a) (b : Nat) :
    InDiagram t e b ↔ b = a ∨ ∃ i, InDiagram t ((t.mem a).e i) b := by
  constructor
  · rintro ⟨r, hr, hb⟩
    obtain rfl : r = a := Option.some.inj (hr.symm.trans ha)
    rcases hb.cases_head with rfl | ⟨i, c, h1, h2⟩
    · exact Or.inl rfl
    · exact Or.inr ⟨i, c, h1, h2⟩
  · rintro (rfl | ⟨i, c, h1, h2⟩)
    · exact ⟨b, ha, .refl b⟩
    · exact ⟨a, ha, Below.head i h1 h2⟩

theorem not_inDiagram {e : PtrEdge} (he : e.p = none) (b : Nat) : ¬ InDiagram t e b := by
  rintro ⟨a, ha, _⟩
  rw [he] at ha
  exact absurd ha (by simp)

/-- The edge and, in its diagram, all edges out of nodes. -/
def EdgeIn (t : UTable (CNum Loc) n) (e x : PtrEdge) : Prop := x = e ∨ ∃ a, InDiagram t e a ∧ ∃ i, x = (t.mem a).e i

theorem edgeIn_iff {e : PtrEdge} {a : Nat} (ha : e.p = some a) (x : PtrEdge) :
    EdgeIn t e x ↔ x = e ∨ ∃ i, EdgeIn t ((t.mem a).e i) x := by
  constructor
  · rintro (rfl | ⟨b, hb, i, rfl⟩)
    · exact Or.inl rfl
    · rcases (inDiagram_iff ha b).1 hb with rfl | ⟨j, hj⟩
      · exact Or.inr ⟨i, Or.inl rfl⟩
      · exact Or.inr ⟨j, Or.inr ⟨b, hj, i, rfl⟩⟩
  · rintro (rfl | ⟨i, (rfl | ⟨b, hb, j, rfl⟩)⟩)
    · exact Or.inl rfl
    · exact Or.inr ⟨a, (inDiagram_iff ha a).2 (Or.inl rfl), i, rfl⟩
    · exact Or.inr ⟨b, (inDiagram_iff ha b).2 (Or.inr ⟨i, hb⟩), j, rfl⟩

theorem consecutive_iff {e : PtrEdge} {a : Nat} (ha : e.p = some a) :
    LevelsConsecutive t e ↔ ∀ i, (∀ b, ((t.mem a).e i).p = some b → (t.mem b).v + 1 = (t.mem a).v) ∧ LevelsConsecutive t ((t.mem a).e i) := by
  constructor
  · intro h i
    exact ⟨fun b hb => h a ((inDiagram_iff ha a).2 (Or.inl rfl)) i b hb,
      fun c hc j d hd => h c ((inDiagram_iff ha c).2 (Or.inr ⟨i, hc⟩)) j d hd⟩
  · intro h c hc j d hd
    rcases (inDiagram_iff ha c).1 hc with rfl | ⟨i, hi⟩
    · exact (h j).1 d hd
    · exact (h i).2 c hi j d hd

/-- The weight passes the test of `isLocallyConsistent2`. -/
def LocalW (ref : Loc → Nat) (w : CNum Loc) : Prop := ¬ ((ref w.r.loc = 0 ∨ ref w.i.loc = 0) ∧ w ≠ CNum.one ∧ w ≠ CNum.zero)

theorem localF_iff (hc : Closed t) (ref : Loc → Nat) : ∀ (f : Nat) (e : PtrEdge), t.lvl e ≤ f → (∀ a, e.p = some a → a ∈ t.all) →
    (t.localF ref f e = true ↔ (∀ x, EdgeIn t e x → LocalW ref x.w) ∧ (∀ b, InDiagram t e b → (t.mem b).ref ≠ 0) ∧ LevelsConsecutive t e) := by
  intro f
  induction f with
  | zero =>
    intro e hl he
    have hp : e.p = none := by
      cases hp : e.p with
      | none => rfl
      | some a => simp [UTable.lvl, hp] at hl
    unfold localF
    rw [hp]
    have h1 : ∀ x, EdgeIn t e x ↔ x = e := by
      intro x
      refine ⟨?_, Or.inl⟩
      rintro (h | ⟨a, ha, _⟩)
      · exact h
      · exact absurd ha (not_inDiagram hp a)
    have h2 : ((∀ b, InDiagram t e b → (t.mem b).ref ≠ 0) ∧ LevelsConsecutive t e) ↔ True :=
      iff_true_intro ⟨fun b hb => absurd hb (not_inDiagram hp b), fun b hb => absurd hb (not_inDiagram hp b)⟩
    rw [h2, and_true]
    simp only [h1, forall_eq, LocalW]
    split_ifs with h <;> simp [h]
  | succ f ih =>
    intro e hl he
    cases hp : e.p with
    | none =>
      unfold localF
      rw [hp]
      have h1 : ∀ x, EdgeIn t e x ↔ x = e := by
        intro x
        refine ⟨?_, Or.inl⟩
        rintro (h | ⟨a, ha, _⟩)
        · exact h
        · exact absurd ha (not_inDiagram hp a)
      have h2 : ((∀ b, InDiagram t e b → (t.mem b).ref ≠ 0) ∧ LevelsConsecutive t e) ↔ True :=
        iff_true_intro ⟨fun b hb => absurd hb (not_inDiagram hp b), fun b hb => absurd hb (not_inDiagram hp b)⟩
      rw [h2, and_true]
      simp only [h1, forall_eq, LocalW]
      split_ifs with h <;> simp [h]
    | some a =>
      have ha := he a hp
      have ih' : ∀ i, t.localF ref f ((t.mem a).e i) = true ↔ _ := fun i => ih ((t.mem a).e i)
        (by
          cases hq : ((t.mem a).e i).p with
          | none => simp [UTable.lvl, hq]
          | some b =>
            have := (hc a ha i b hq).2
            simp only [UTable.lvl, hp] at hl
            simp only [UTable.lvl, hq]
            omega)
        (fun b hb => (hc a ha i b hb).1)
      unfold localF
      rw [hp]
      dsimp only
      by_cases hw : (ref e.w.r.loc = 0 ∨ ref e.w.i.loc = 0) ∧ e.w ≠ CNum.one ∧ e.w ≠ CNum.zero
      · rw [if_pos hw]
        simp only [Bool.false_eq_true, false_iff]
        rintro ⟨h1, _⟩
        exact h1 e (Or.inl rfl) hw
      · rw [if_neg hw]
        by_cases hr : (t.mem a).ref = 0
        · rw [if_pos hr]
          simp only [Bool.false_eq_true, false_iff]
          rintro ⟨_, h2, _⟩
          exact h2 a ((inDiagram_iff hp a).2 (Or.inl rfl)) hr
        · rw [if_neg hr, List.all_eq_true, consecutive_iff hp]
          constructor
          · intro h
            have h' : ∀ i : Fin n, (∀ b, ((t.mem a).e i).p = some b → (t.mem b).v + 1 = (t.mem a).v) ∧ t.localF ref f ((t.mem a).e i) = true := by
              intro i
              have := h i (List.mem_finRange i)
              rw [Bool.and_eq_true] at this
              refine ⟨fun b hb => ?_, this.2⟩
              have h2 := this.1
              rw [hb] at h2
              simp only [Bool.and_eq_true, decide_eq_true_eq] at h2
              exact h2.1
            refine ⟨?_, ?_, fun i => ⟨(h' i).1, ((ih' i).1 (h' i).2).2.2⟩⟩
            · intro x hx
              rcases (edgeIn_iff hp x).1 hx with rfl | ⟨i, hi⟩
              · exact hw
              · exact ((ih' i).1 (h' i).2).1 x hi
            · intro b hb
              rcases (inDiagram_iff hp b).1 hb with rfl | ⟨i, hi⟩
              · exact hr
              · exact ((ih' i).1 (h' i).2).2.1 b hi
          · rintro ⟨h1, h2, h3⟩ i _
            rw [Bool.and_eq_true]
            refine ⟨?_, (ih' i).2 ⟨fun x hx => h1 x ((edgeIn_iff hp x).2 (Or.inr ⟨i, hx⟩)),
              fun b hb => h2 b ((inDiagram_iff hp b).2 (Or.inr ⟨i, hb⟩)), (h3 i).2⟩⟩
            cases hq : ((t.mem a).e i).p with
            | none => rfl
            | some b =>
              simp only [Bool.and_eq_true, decide_eq_true_eq, Bool.not_eq_true', decide_eq_false_iff_not]
              exact ⟨(h3 i).1 b hq, h2 b ((inDiagram_iff hp b).2 (Or.inr ⟨i, b, hq, .refl b⟩))⟩

theorem checkF_iff (hc : Closed t) (ref : Loc → Nat) (M : Occ) : ∀ (f : Nat) (e : PtrEdge), t.lvl e ≤ f → (∀ a, e.p = some a → a ∈ t.all) →
    (t.checkF ref M f e = true ↔ (∀ x, EdgeIn t e x → okNum ref M x.w.r.loc = true ∧ okNum ref M x.w.i.loc = true) ∧
      (∀ b, InDiagram t e b → M.node b ≠ 0 ∧ M.node b = (t.mem b).ref) ∧ LevelsConsecutive t e) := by
  intro f
  have hnone : ∀ (f : Nat) (e : PtrEdge), e.p = none → (t.checkF ref M f e = true ↔
      (∀ x, EdgeIn t e x → okNum ref M x.w.r.loc = true ∧ okNum ref M x.w.i.loc = true) ∧
      (∀ b, InDiagram t e b → M.node b ≠ 0 ∧ M.node b = (t.mem b).ref) ∧ LevelsConsecutive t e) := by
    intro f e hp
    have h1 : ∀ x, EdgeIn t e x ↔ x = e := by
      intro x
      refine ⟨?_, Or.inl⟩
      rintro (h | ⟨a, ha, _⟩)
      · exact h
      · exact absurd ha (not_inDiagram hp a)
    have h2 : ((∀ b, InDiagram t e b → M.node b ≠ 0 ∧ M.node b = (t.mem b).ref) ∧ LevelsConsecutive t e) ↔ True :=
      iff_true_intro ⟨fun b hb => absurd hb (not_inDiagram hp b), fun b hb => absurd hb (not_inDiagram hp b)⟩
    rw [h2, and_true]
    simp only [h1, forall_eq]
    rw [checkF.eq_def]
    dsimp only
    rw [hp]
    simp
  induction f with
  | zero =>
    intro e hl he
    refine hnone 0 e ?_
    cases hp : e.p with
    | none => rfl
    | some a => simp [UTable.lvl, hp] at hl
  | succ f ih =>
    intro e hl he
    cases hp : e.p with
    | none => exact hnone _ e hp
    | some a =>
      have ha := he a hp
      have ih' : ∀ i, t.checkF ref M f ((t.mem a).e i) = true ↔ _ := fun i => ih ((t.mem a).e i)
        (by
          cases hq : ((t.mem a).e i).p with
          | none => simp [UTable.lvl, hq]
          | some b =>
            have := (hc a ha i b hq).2
            simp only [UTable.lvl, hp] at hl
            simp only [UTable.lvl, hq]
            omega)
        (fun b hb => (hc a ha i b hb).1)
      rw [checkF.eq_def]
      dsimp only
      rw [hp]
      simp only [Bool.and_eq_true, List.all_eq_true, List.mem_finRange, true_implies, Bool.not_eq_true', decide_eq_false_iff_not,
        decide_eq_true_eq]
      rw [consecutive_iff hp]
      constructor
      · rintro ⟨⟨hw1, hw2⟩, ⟨h0, h1⟩, h2⟩
        refine ⟨?_, ?_, fun i => ⟨fun b hb => ?_, ((ih' i).1 (h2 i).2).2.2⟩⟩
        · intro x hx
          rcases (edgeIn_iff hp x).1 hx with rfl | ⟨i, hi⟩
          · exact ⟨hw1, hw2⟩
          · exact ((ih' i).1 (h2 i).2).1 x hi
        · intro b hb
          rcases (inDiagram_iff hp b).1 hb with rfl | ⟨i, hi⟩
          · exact ⟨h0, h1⟩
          · exact ((ih' i).1 (h2 i).2).2.1 b hi
        · have := (h2 i).1
          rw [hb] at this
          simpa using this
      · rintro ⟨h1, h2, h3⟩
        refine ⟨h1 e (Or.inl rfl), h2 a ((inDiagram_iff hp a).2 (Or.inl rfl)), fun i => ⟨?_, (ih' i).2 ⟨fun x hx => h1 x ((edgeIn_iff hp x).2 (Or.inr ⟨i, hx⟩)),
              fun b hb => h2 b ((inDiagram_iff hp b).2 (Or.inr ⟨i, hb⟩)), (h3 i).2⟩⟩⟩
        cases hq : ((t.mem a).e i).p with
        | none => rfl
        | some b => simpa using (h3 i).1 b hq

/-! ## What `fillConsistencyCounter` counts -/

/-- Occurrences of a number in a weight. -/
def wOcc (w : CNum Loc) (l : Loc) : Nat := (if w.r.loc = l then 1 else 0) + (if w.i.loc = l then 1 else 0)

/-- Occurrences of a number in the weights of the edges `es` with an index in `L`. -/
def wOccL (es : Fin n → PtrEdge) (L : List (Fin n)) (l : Loc) : Nat := (L.map fun i => wOcc (es i).w l).sum

/-- `M'` results from `M` by counting the node and the number occurrences `dn` and `dw` and all edges out of the nodes in `N`, which are counted for the first
time. -/
structure FillSpec (t : UTable (CNum Loc) n) (M M' : Occ) (dn : Nat → Nat) (dw : Loc → Nat) (N : Finset Nat) : Prop where
  new : ∀ a ∈ N, M.node a = 0
  node : ∀ b, M'.node b = M.node b + dn b + ∑ a ∈ N, cntL (t.mem a).e (List.finRange n) b
  num : ∀ l, M'.num l = M.num l + dw l + ∑ a ∈ N, wOccL (t.mem a).e (List.finRange n) l
  seen : ∀ b, M'.node b ≠ 0 ↔ M.node b ≠ 0 ∨ b ∈ N
  closed : ∀ a ∈ N, ∀ i b, ((t.mem a).e i).p = some b → M'.node b ≠ 0

theorem FillSpec.trans {M M' M'' : Occ} {dn dn' : Nat → Nat} {dw dw' : Loc → Nat} {N N' : Finset Nat} (h : FillSpec t M M' dn dw N)
    (h' : FillSpec t M' M'' dn' dw' N') : FillSpec t M M'' (fun b => dn b + dn' b) (fun l => dw l + dw' l) (N ∪ N') ∧ Disjoint N N' := by
  have hd : Disjoint N N' := by
    rw [Finset.disjoint_left]
    intro a ha ha'
    exact (h.seen a).2 (Or.inr ha) (h'.new a ha')
  refine ⟨⟨?_, ?_, ?_, ?_, ?_⟩, hd⟩
  · intro a ha
    rcases Finset.mem_union.1 ha with ha | ha
    · exact h.new a ha
    · by_contra hne
      exact (h.seen a).2 (Or.inl hne) (h'.new a ha)
  · intro b
    rw [h'.node, h.node, Finset.sum_union hd]; omega
  · intro l
    rw [h'.num, h.num, Finset.sum_union hd]; omega
  · intro b
    rw [h'.seen, h.seen, Finset.mem_union, or_assoc]
  · intro a ha i b hb
    rcases Finset.mem_union.1 ha with ha | ha
    · exact (h'.seen b).2 (Or.inl (h.closed a ha i b hb))
    · exact h'.closed a ha i b hb

theorem fill_loop {f : Nat} (ih : ∀ (M : Occ) (e : PtrEdge), t.lvl e ≤ f → (∀ a, e.p = some a → a ∈ t.all) → M.at e.p = 0 →
      ∃ N, FillSpec t M (t.fillF f M e) (dlt e) (wOcc e.w) N ∧ (∀ a, e.p = some a → a ∈ N) ∧ ∀ b ∈ N, InDiagram t e b)
    (es : Fin n → PtrEdge) (hl : ∀ i, t.lvl (es i) ≤ f) (hes : ∀ i a, (es i).p = some a → a ∈ t.all) : ∀ (L : List (Fin n)) (M : Occ),
    ∃ N, FillSpec t M (L.foldl (fun M i => if M.at (es i).p = 0 then t.fillF f M (es i) else (M.addN (es i).p).addW (es i).w) M) (cntL es L) (wOccL es L) N ∧
      (∀ i ∈ L, ∀ b, (es i).p = some b →
        (L.foldl (fun M i => if M.at (es i).p = 0 then t.fillF f M (es i) else (M.addN (es i).p).addW (es i).w) M).node b ≠ 0) ∧
      ∀ b ∈ N, ∃ i, InDiagram t (es i) b := by
  intro L
  induction L with
  | nil =>
    intro M
    refine ⟨∅, ⟨by simp, by simp [cntL], by simp [wOccL], by simp, by simp⟩, by simp, by simp⟩
  | cons i L ihL =>
    intro M
    rw [List.foldl_cons]
    -- one child
    have one : ∃ N, FillSpec t M (if M.at (es i).p = 0 then t.fillF f M (es i) else (M.addN (es i).p).addW (es i).w) (dlt (es i)) (wOcc (es i).w) N ∧
        (∀ b, (es i).p = some b → (if M.at (es i).p = 0 then t.fillF f M (es i) else (M.addN (es i).p).addW (es i).w).node b ≠ 0) ∧
        ∀ b ∈ N, InDiagram t (es i) b := by
      by_cases h0 : M.at (es i).p = 0
      · rw [if_pos h0]
        obtain ⟨N, h1, h2, h3⟩ := ih M (es i) (hl i) (hes i) h0
        exact ⟨N, h1, fun b hb => (h1.seen b).2 (Or.inr (h2 b hb)), h3⟩
      · rw [if_neg h0]
        refine ⟨∅, ⟨by simp, ?_, ?_, ?_, by simp⟩, ?_, by simp⟩
        · intro b
          cases hp : (es i).p with
          | none => rw [hp] at h0; exact absurd rfl h0
          | some a =>
            simp only [Occ.addN, Occ.addW, dlt, hp, Option.some.injEq, Finset.sum_empty]
            by_cases hab : b = a
            · subst hab; simp
            · rw [Function.update_of_ne hab, if_neg (fun h => hab h.symm)]; rfl
        · intro l
          cases hp : (es i).p with
          | none => rw [hp] at h0; exact absurd rfl h0
          | some a => simp [Occ.addN, Occ.addW, wOcc, Nat.add_assoc]
        · intro b
          cases hp : (es i).p with
          | none => rw [hp] at h0; exact absurd rfl h0
          | some a =>
            rw [hp] at h0
            simp only [Occ.addN, Occ.addW, Finset.notMem_empty, or_false]
            by_cases hab : b = a
            · subst hab
              simp only [Function.update_self]
              exact ⟨fun _ => h0, fun _ => by omega⟩
            · rw [Function.update_of_ne hab]
        · intro b hb
          simp [hb, Occ.addN, Occ.addW]
    obtain ⟨N1, s1, v1, b1⟩ := one
    obtain ⟨N2, s2, v2, b2⟩ := ihL (if M.at (es i).p = 0 then t.fillF f M (es i) else (M.addN (es i).p).addW (es i).w)
    obtain ⟨s3, _⟩ := s1.trans s2
    refine ⟨N1 ∪ N2, ?_, ?_, ?_⟩
    · have e1 : (fun b => dlt (es i) b + cntL es L b) = cntL es (i :: L) := by
        funext b
        simp only [dlt, cntL, List.countP_cons, decide_eq_true_eq]
        omega
      have e2 : (fun l => wOcc (es i).w l + wOccL es L l) = wOccL es (i :: L) := by
        funext l
        simp [wOccL]
      rw [e1, e2] at s3
      exact s3
    · intro j hj b hb
      rcases List.mem_cons.1 hj with rfl | hj
      · exact (s2.seen b).2 (Or.inl (v1 b hb))
      · exact v2 j hj b hb
    · intro b hb
      rcases Finset.mem_union.1 hb with hb | hb
      · exact ⟨i, b1 b hb⟩
      · exact b2 b hb

theorem fill_spec (hc : Closed t) : ∀ (f : Nat) (M : Occ) (e : PtrEdge), t.lvl e ≤ f → (∀ a, e.p = some a → a ∈ t.all) → M.at e.p = 0 →
    ∃ N, FillSpec t M (t.fillF f M e) (dlt e) (wOcc e.w) N ∧ (∀ a, e.p = some a → a ∈ N) ∧ ∀ b ∈ N, InDiagram t e b := by
  intro f
  have hnone : ∀ (f : Nat) (M : Occ) (e : PtrEdge), e.p = none →
      ∃ N, FillSpec t M (t.fillF f M e) (dlt e) (wOcc e.w) N ∧ (∀ a, e.p = some a → a ∈ N) ∧ ∀ b ∈ N, InDiagram t e b := by
    intro f M e hp
    have : t.fillF f M e = M.addW e.w := by rw [fillF.eq_def]; dsimp only; rw [hp]
    rw [this]
    refine ⟨∅, ⟨by simp, ?_, ?_, by simp [Occ.addW], by simp⟩, by simp [hp], by simp⟩
    · intro b; simp [Occ.addW, dlt, hp]
    · intro l; simp [Occ.addW, wOcc, Nat.add_assoc]
  induction f with
  | zero =>
    intro M e hl he h0
    refine hnone 0 M e ?_
    cases hp : e.p with
    | none => rfl
    | some a => simp [UTable.lvl, hp] at hl
  | succ f ih =>
    intro M e hl he h0
    cases hp : e.p with
    | none => rw [← hp]; exact hnone _ M e hp
    | some a =>
      have ha := he a hp
      have h0' : M.node a = 0 := by rw [hp] at h0; exact h0
      obtain ⟨N, s1, v1, b1⟩ := fill_loop ih (t.mem a).e
        (by
          intro i
          cases hq : ((t.mem a).e i).p with
          | none => simp [UTable.lvl, hq]
          | some b =>
            have := (hc a ha i b hq).2
            simp only [UTable.lvl, hp] at hl
            simp only [UTable.lvl, hq]
            omega)
        (fun i b hb => (hc a ha i b hb).1) (List.finRange n) ((M.addW e.w).addN (some a))
      have hf : t.fillF (f + 1) M e = (List.finRange n).foldl (fun M i => if M.at ((t.mem a).e i).p = 0 then t.fillF f M ((t.mem a).e i)
          else (M.addN ((t.mem a).e i).p).addW ((t.mem a).e i).w) ((M.addW e.w).addN (some a)) := by
        rw [fillF.eq_def]; dsimp only; rw [hp]
      rw [hf]
      have haN : a ∉ N := by
        intro h
        have := s1.new a h
        simp [Occ.addN, Occ.addW] at this
      refine ⟨insert a N, ⟨?_, ?_, ?_, ?_, ?_⟩, ?_, ?_⟩
      · intro b hb
        rcases Finset.mem_insert.1 hb with rfl | hb
        · exact h0'
        · have := s1.new b hb
          have hab : b ≠ a := fun h => haN (h ▸ hb)
          simpa [Occ.addN, Occ.addW, hab] using this
      · intro b
        rw [s1.node, Finset.sum_insert haN]
        simp only [Occ.addN, Occ.addW, dlt, hp, Option.some.injEq]
        by_cases hab : b = a
        · subst hab; simp; omega
        · rw [Function.update_of_ne hab, if_neg (fun h => hab h.symm)]; omega
      · intro l
        rw [s1.num, Finset.sum_insert haN]
        simp only [Occ.addN, Occ.addW, wOcc]; omega
      · intro b
        rw [s1.seen, Finset.mem_insert]
        simp only [Occ.addN, Occ.addW]
        by_cases hab : b = a
        · subst hab; simp
        · rw [Function.update_of_ne hab]; simp [hab]
      · intro c hc' i b hb
        rcases Finset.mem_insert.1 hc' with rfl | hc'
        · exact v1 i (List.mem_finRange i) b hb
        · exact s1.closed c hc' i b hb
      · intro b hb
        rw [← Option.some.inj hb]
        exact Finset.mem_insert_self _ _
      · intro b hb
        rw [inDiagram_iff hp]
        rcases Finset.mem_insert.1 hb with rfl | hb
        · exact Or.inl rfl
        · exact Or.inr (b1 b hb)

/-- From empty maps all nodes of the diagram are counted, and nothing else. -/
theorem fill_start (hc : Closed t) {e : PtrEdge} (he : ∀ a, e.p = some a → a ∈ t.all) : ∃ N : Finset Nat, (∀ b, b ∈ N ↔ InDiagram t e b) ∧
    (∀ b, (t.fillF (t.lvl e) ⟨fun _ => 0, fun _ => 0⟩ e).node b = dlt e b + ∑ a ∈ N, cntL (t.mem a).e (List.finRange n) b) ∧
    (∀ l, (t.fillF (t.lvl e) ⟨fun _ => 0, fun _ => 0⟩ e).num l = wOcc e.w l + ∑ a ∈ N, wOccL (t.mem a).e (List.finRange n) l) ∧
    ∀ b, (t.fillF (t.lvl e) ⟨fun _ => 0, fun _ => 0⟩ e).node b ≠ 0 ↔ b ∈ N := by
  obtain ⟨N, h1, h2, h3⟩ := fill_spec hc (t.lvl e) ⟨fun _ => 0, fun _ => 0⟩ e le_rfl he (by cases e.p <;> rfl)
  have hs : ∀ b, (t.fillF (t.lvl e) ⟨fun _ => 0, fun _ => 0⟩ e).node b ≠ 0 ↔ b ∈ N := by
    intro b
    rw [h1.seen]; simp
  refine ⟨N, ?_, ?_, ?_, hs⟩
  · intro b
    refine ⟨h3 b, ?_⟩
    rintro ⟨a, ha, hb⟩
    induction hb with
    | refl => exact h2 a ha
    | step i _ hd ih => exact (hs _).1 (h1.closed _ ih i _ hd)
  · intro b
    rw [h1.node]; simp
  · intro l
    rw [h1.num]; simp

end Walk


section Package

variable {R : Type} [Field R] [LinearOrder R] [IsStrictOrderedRing R] [FloorRing R] {J : JCfg R} {tols : R → Prop} {s : JState R}

theorem usesOf_sum {ι : Type} (S : Finset ι) (F : ι → Multiset (CNum Loc)) (a : Nat) : usesOf (∑ k ∈ S, F k) a = ∑ k ∈ S, usesOf (F k) a := by
  classical
  induction S using Finset.induction_on with
  | empty => rfl
  | insert k S hk ih => rw [Finset.sum_insert hk, Finset.sum_insert hk, usesOf_add, ih]

theorem usesOf_map {n : Nat} (es : Fin n → PtrEdge) (L : List (Fin n)) (a : Nat) :
    usesOf ((L.map fun i => (es i).w : List (CNum Loc)) : Multiset (CNum Loc)) a = wOccL es L (.cell a) := by
  unfold usesOf wOccL
  rw [Multiset.map_coe, Multiset.sum_coe, List.map_map]
  rfl

/-- The weights of an edge that is referenced and of all nodes of a set of referenced nodes are among the numbers in use. -/
theorem occ_le_uses {k : NK} {e : PtrEdge} (he : e ∈ (s.tab k).held) {N : Finset Nat}
    (hN : ∀ b ∈ N, b ∈ (s.tab k).tab.all ∧ 0 < ((s.tab k).tab.mem b).ref) (a : Nat) :
    wOcc e.w (.cell a) + ∑ b ∈ N, wOccL ((s.tab k).tab.mem b).e (List.finRange k.ar) (.cell a) ≤ usesOf s.inUse a := by
  unfold JState.inUse
  rw [usesOf_add, usesOf_sum]
  have h1 : usesOf ((((s.tab k).held.map (fun e => e.w) : List _) : Multiset (CNum Loc)) + (s.tab k).tab.weights) a ≤
      ∑ k : NK, usesOf ((((s.tab k).held.map (fun e => e.w) : List _) : Multiset (CNum Loc)) + (s.tab k).tab.weights) a :=
    Finset.single_le_sum (f := fun k => usesOf ((((s.tab k).held.map (fun e => e.w) : List _) : Multiset (CNum Loc)) + (s.tab k).tab.weights) a)
      (fun _ _ => Nat.zero_le _) (Finset.mem_univ k)
  rw [usesOf_add] at h1
  have h2 : wOcc e.w (.cell a) ≤ usesOf ((((s.tab k).held.map (fun e => e.w) : List _) : Multiset (CNum Loc))) a := by
    have hm : e.w ∈ ((((s.tab k).held.map (fun e => e.w) : List _) : Multiset (CNum Loc))) := List.mem_map.2 ⟨e, he, rfl⟩
    obtain ⟨M, hM⟩ := Multiset.exists_cons_of_mem hm
    rw [hM, usesOf_cons]
    exact Nat.le_add_right _ _
  have h3 : ∑ b ∈ N, wOccL ((s.tab k).tab.mem b).e (List.finRange k.ar) (.cell a) ≤ usesOf (s.tab k).tab.weights a := by
    unfold UTable.weights
    rw [usesOf_sum]
    calc ∑ b ∈ N, wOccL ((s.tab k).tab.mem b).e (List.finRange k.ar) (.cell a)
        = ∑ b ∈ N, usesOf (if 0 < ((s.tab k).tab.mem b).ref then
            (((List.finRange k.ar).map (fun i => (((s.tab k).tab.mem b).e i).w) : List (CNum Loc)) : Multiset (CNum Loc)) else 0) a := by
          refine Finset.sum_congr rfl fun b hb => ?_
          rw [if_pos (hN b hb).2, usesOf_map]
      _ ≤ _ := Finset.sum_le_sum_of_subset fun b hb => List.mem_toFinset.2 (hN b hb).1
  omega

theorem inDiagram_live {k : NK} {e : PtrEdge} (he : e ∈ (s.tab k).held) {b : Nat} (hb : InDiagram (s.tab k).tab e b) : Live (s.tab k) b := by
  obtain ⟨a, ha, hab⟩ := hb
  exact ⟨e, he, a, ha, hab⟩

theorem numRef_ne {pin : Option Nat} (hJ : J.Good) (h : JInv J tols pin s) {c : CNum Loc} (hc : c ∈ s.inUse) :
    s.numRef c.r.loc ≠ 0 ∧ s.numRef c.i.loc ≠ 0 := by
  obtain ⟨h1, h2⟩ := h.inUse_live hc
  constructor
  · cases hl : c.r.loc with
    | cell a => rw [hl] at h1; exact h.ref_pos hJ hc h1 (uses_pos_r hl)
    | _ => exact one_ne_zero
  · cases hl : c.i.loc with
    | cell a => rw [hl] at h2; exact h.ref_pos hJ hc h2 (uses_pos_i hl)
    | _ => exact one_ne_zero

/-- In every state of a package: for an edge the user has referenced `isLocallyConsistent` returns `true` exactly if levels are consecutive in its diagram.
Counts never make the check fail. -/
theorem C66_local (hJ : J.Good) (htol : ∀ τ, tols τ → 0 ≤ τ) (h : JReach J tols s) {k : NK} {e : PtrEdge} (he : e ∈ (s.tab k).held) :
    s.isLocallyConsistent k e = true ↔ LevelsConsecutive (s.tab k).tab e := by
  obtain ⟨pin, hi⟩ := h.inv hJ htol
  have hu := (hi.tab k).inv hJ.U
  unfold JState.isLocallyConsistent
  rw [localF_iff hu.closed _ _ _ le_rfl (fun a ha => hu.held e he a ha)]
  refine ⟨fun h => h.2.2, fun h => ⟨?_, ?_, h⟩⟩
  · rintro x (rfl | ⟨a, ha, i, rfl⟩) ⟨h1, _⟩
    · have := numRef_ne hJ hi (mem_inUse_held he)
      rcases h1 with h1 | h1
      · exact this.1 h1
      · exact this.2 h1
    · obtain ⟨h2, h3⟩ := hu.live_ref hJ.U (inDiagram_live he ha)
      have := numRef_ne hJ hi (mem_inUse_node (i := i) h2 h3)
      rcases h1 with h1 | h1
      · exact this.1 h1
      · exact this.2 h1
  · intro b hb
    exact (hu.live_ref hJ.U (inDiagram_live he hb)).2.ne'

/-- In every state of a package, for an edge the user has referenced or not: if `isLocallyConsistent` returns `true`, then a garbage collection keeps all
nodes and numbers of the diagram, and leaves the nodes as they are. -/
theorem C66_local_keeps (hJ : J.Good) (htol : ∀ τ, tols τ → 0 ≤ τ) (h : JReach J tols s) {k : NK} {e : PtrEdge}
    (he : ∀ x ∈ ptrRefs k e, s.Known J x) (hc : s.isLocallyConsistent k e = true) (force : Bool) :
    (∀ b, InDiagram (s.tab k).tab e b → b ∈ ((s.garbageCollect J force).1.tab k).tab.all ∧
      ((s.garbageCollect J force).1.tab k).tab.mem b = (s.tab k).tab.mem b) ∧
    (∀ x ∈ ptrRefs k e, (s.garbageCollect J force).1.Known J x) ∧
    ∀ b, InDiagram (s.tab k).tab e b → ∀ i, ∀ x ∈ ptrRefs k (((s.tab k).tab.mem b).e i), (s.garbageCollect J force).1.Known J x := by
  obtain ⟨pin, hi⟩ := h.inv hJ htol
  have hu := (hi.tab k).inv hJ.U
  rw [known_ptr] at he
  unfold JState.isLocallyConsistent at hc
  rw [localF_iff hu.closed _ _ _ le_rfl he.2] at hc
  obtain ⟨h1, h2, _⟩ := hc
  have hmem : ∀ b, InDiagram (s.tab k).tab e b → b ∈ (s.tab k).tab.all := by
    rintro b ⟨a, ha, hb⟩
    induction hb with
    | refl => exact he.2 a ha
    | step i _ hd ih => exact (hu.closed _ ih i _ hd).1
  have hw := hi.ct.wf htol hJ.C
  -- what a collection keeps
  have keep : (∀ b ∈ (s.tab k).tab.all, ((s.tab k).tab.mem b).ref ≠ 0 → b ∈ ((s.garbageCollect J force).1.tab k).tab.all) ∧
      (∀ b, ((s.garbageCollect J force).1.tab k).tab.mem b = (s.tab k).tab.mem b) ∧
      ∀ l, s.ct.Live J.C l → s.numRef l ≠ 0 → (s.garbageCollect J force).1.ct.Live J.C l := by
    unfold JState.garbageCollect
    split_ifs
    · exact ⟨fun b hb _ => hb, fun _ => rfl, fun l hl _ => hl⟩
    · obtain ⟨g1, _, g3⟩ := gcNodes_rest (J := J) (s := { s with ct := (s.ct.garbageCollect J.C force).1 })
        (if 0 < (s.ct.garbageCollect J.C force).2 then true else force) (s.ct.garbageCollect J.C force).2
      dsimp only
      refine ⟨fun b hb hr => ?_, fun b => ?_, fun l hl hr => ?_⟩
      · rw [g3]; exact gc_keeps _ _ _ hb hr
      · rw [g3]; dsimp only; rw [gc_mem]
      · rw [g1]
        cases l with
        | cell a => exact (cgc_facts hJ.C hw force).2.2.2.1 a hl hr
        | _ => exact trivial
  obtain ⟨k1, k2, k3⟩ := keep
  have edge : ∀ x, EdgeIn (s.tab k).tab e x → s.ct.LiveC J.C x.w → (∀ b, x.p = some b → InDiagram (s.tab k).tab e b) →
      ∀ y ∈ ptrRefs k x, (s.garbageCollect J force).1.Known J y := by
    intro x hx hl hd
    rw [known_ptr]
    refine ⟨?_, fun b hb => k1 b (hmem b (hd b hb)) (h2 b (hd b hb))⟩
    by_cases h0 : s.numRef x.w.r.loc = 0 ∨ s.numRef x.w.i.loc = 0
    · have h3 := h1 x hx
      unfold LocalW at h3
      have h4 : x.w = CNum.one ∨ x.w = CNum.zero := by
        by_contra hne
        rw [not_or] at hne
        exact h3 ⟨h0, hne⟩
      rcases h4 with h4 | h4 <;> rw [h4] <;> exact ⟨trivial, trivial⟩
    · rw [not_or] at h0
      exact ⟨k3 _ hl.1 h0.1, k3 _ hl.2 h0.2⟩
  refine ⟨fun b hb => ⟨k1 b (hmem b hb) (h2 b hb), k2 b⟩, edge e (Or.inl rfl) he.1 (fun b hb => ⟨b, hb, .refl b⟩), ?_⟩
  intro b hb i
  exact edge _ (Or.inr ⟨b, hb, i, rfl⟩) (hi.nodes k b (hmem b hb) i) (fun c hc => hb.child i hc)

/-- In every state of a package in which no counter is saturated: for an edge the user has referenced `isGloballyConsistent` returns (with `true`) exactly
if levels are consecutive in its diagram and no other reference of the user leads to a node of the diagram. Otherwise it throws, although the package
is in order. -/
theorem C66_global (hJ : J.Good) (htol : ∀ τ, tols τ → 0 ≤ τ) (h : JReach J tols s) {k : NK} {e : PtrEdge} (he : e ∈ (s.tab k).held)
    (hsat : ∀ a ∈ (s.tab k).tab.all, ((s.tab k).tab.mem a).ref ≠ J.U.maxRef) (hsatN : ∀ a ∈ s.ct.stored J.C, s.ct.ref (.cell a) ≠ J.C.maxRef) :
    s.isGloballyConsistent k e = true ↔ LevelsConsecutive (s.tab k).tab e ∧
      ∀ x ∈ (s.tab k).held.erase e, ∀ b, InDiagram (s.tab k).tab x b → ¬ InDiagram (s.tab k).tab e b := by
  obtain ⟨pin, hi⟩ := h.inv hJ htol
  have hu := (hi.tab k).inv hJ.U
  have hed := fun a ha => hu.held e he a ha
  obtain ⟨N, f1, f2, f3, f4⟩ := fill_start hu.closed hed
  have hN : ∀ b ∈ N, b ∈ (s.tab k).tab.all ∧ 0 < ((s.tab k).tab.mem b).ref := fun b hb => hu.live_ref hJ.U (inDiagram_live he ((f1 b).1 hb))
  unfold JState.isGloballyConsistent
  dsimp only
  rw [checkF_iff hu.closed _ _ _ _ le_rfl hed]
  generalize (s.tab k).tab.fillF ((s.tab k).tab.lvl e) ⟨fun _ => 0, fun _ => 0⟩ e = M at f2 f3 f4
  -- the test of the numbers never fails
  have hnum : ∀ l, M.num l ≠ 0 → s.ct.Live J.C l → okNum s.numRef M l = true := by
    intro l hl hlive
    unfold okNum
    cases l with
    | cell a =>
      have h1 := occ_le_uses he hN a
      rw [← f3] at h1
      have h2 := (hi.cnt a hlive).resolve_left (hsatN a hlive)
      have h3 : ¬ s.numRef (.cell a) < M.num (.cell a) := by
        show ¬ s.ct.ref (.cell a) < _
        beta_reduce at h2
        omega
      simp [hl, h3]
    | _ => simp [hl]
  have hocc : ∀ x, EdgeIn (s.tab k).tab e x → M.num x.w.r.loc ≠ 0 ∧ M.num x.w.i.loc ≠ 0 := by
    have hpos : ∀ w : CNum Loc, wOcc w w.r.loc ≠ 0 ∧ wOcc w w.i.loc ≠ 0 := by
      intro w; unfold wOcc; simp
    rintro x (rfl | ⟨a, ha, i, rfl⟩)
    · have := hpos x.w
      rw [f3, f3]
      omega
    · have := hpos (((s.tab k).tab.mem a).e i).w
      have hle : ∀ l, wOcc (((s.tab k).tab.mem a).e i).w l ≤ M.num l := by
        intro l
        rw [f3]
        have h1 : wOcc (((s.tab k).tab.mem a).e i).w l ≤ wOccL ((s.tab k).tab.mem a).e (List.finRange k.ar) l := by
          unfold wOccL
          exact List.single_le_sum (fun _ _ => Nat.zero_le _) _ (List.mem_map.2 ⟨i, List.mem_finRange i, rfl⟩)
        have h2 : wOccL ((s.tab k).tab.mem a).e (List.finRange k.ar) l ≤ ∑ a ∈ N, wOccL ((s.tab k).tab.mem a).e (List.finRange k.ar) l :=
          Finset.single_le_sum (f := fun a => wOccL ((s.tab k).tab.mem a).e (List.finRange k.ar) l) (fun _ _ => Nat.zero_le _) ((f1 a).2 ha)
        omega
      have h1 := hle (((s.tab k).tab.mem a).e i).w.r.loc
      have h2 := hle (((s.tab k).tab.mem a).e i).w.i.loc
      omega
  have hlive : ∀ x, EdgeIn (s.tab k).tab e x → s.ct.LiveC J.C x.w := by
    rintro x (rfl | ⟨a, ha, i, rfl⟩)
    · exact hi.held k x he
    · exact hi.nodes k a (hN a ((f1 a).2 ha)).1 i
  -- the test of the nodes
  have hpar : ∀ b, (s.tab k).tab.par b = (∑ a ∈ N, cntL ((s.tab k).tab.mem a).e (List.finRange k.ar) b) +
      ∑ a ∈ (s.tab k).tab.all.toFinset \ N, if 0 < ((s.tab k).tab.mem a).ref then cntL ((s.tab k).tab.mem a).e (List.finRange k.ar) b else 0 := by
    intro b
    have hsub : N ⊆ (s.tab k).tab.all.toFinset := fun a ha => List.mem_toFinset.2 (hN a ha).1
    unfold UTable.par
    rw [← Finset.sum_sdiff hsub, Nat.add_comm]
    congr 1
    exact Finset.sum_congr rfl fun a ha => if_pos (hN a ha).2
  have href : ∀ b, b ∈ N → (((M.node b ≠ 0 ∧ M.node b = ((s.tab k).tab.mem b).ref)) ↔ heldCnt ((s.tab k).held.erase e) b = 0 ∧
      (∑ a ∈ (s.tab k).tab.all.toFinset \ N, if 0 < ((s.tab k).tab.mem a).ref then cntL ((s.tab k).tab.mem a).e (List.finRange k.ar) b else 0) = 0) := by
    intro b hb
    have h1 := (hu.ginv b (hN b hb).1).resolve_left (hsat b (hN b hb).1)
    have h2 := heldCnt_erase he b
    have h3 := f2 b
    have h4 := hpar b
    have h5 := (f4 b).2 hb
    beta_reduce at h1
    omega
  constructor
  · rintro ⟨_, h2, h3⟩
    refine ⟨h3, ?_⟩
    have hboth := fun b (hb : InDiagram (s.tab k).tab e b) => (href b ((f1 b).2 hb)).1 (h2 b hb)
    -- a node of another diagram is not in this one
    rintro x hx b ⟨a, ha, hab⟩
    have hxh : x ∈ (s.tab k).held := List.mem_of_mem_erase hx
    induction hab with
    | refl =>
      intro hin
      have := (hboth a hin).1
      unfold heldCnt at this
      rw [List.countP_eq_zero] at this
      exact this x hx (by simpa using ha)
    | step i hab hd ih =>
      intro hin
      rename_i c d
      have hlc := hu.live_ref hJ.U (b := c) ⟨x, hxh, a, ha, hab⟩
      have h0 := (hboth d hin).2
      rw [Finset.sum_eq_zero_iff] at h0
      have h1 := h0 c (Finset.mem_sdiff.2 ⟨List.mem_toFinset.2 hlc.1, fun hc => ih ((f1 c).1 hc)⟩)
      rw [if_pos hlc.2] at h1
      unfold cntL at h1
      rw [List.countP_eq_zero] at h1
      exact h1 i (List.mem_finRange i) (by simpa using hd)
  · rintro ⟨h1, h2⟩
    refine ⟨fun x hx => ⟨hnum _ (hocc x hx).1 (hlive x hx).1, hnum _ (hocc x hx).2 (hlive x hx).2⟩, ?_, h1⟩
    intro b hb
    refine (href b ((f1 b).2 hb)).2 ⟨?_, ?_⟩
    · unfold heldCnt
      rw [List.countP_eq_zero]
      intro x hx hxb
      exact h2 x hx b ⟨b, by simpa using hxb, .refl b⟩ hb
    · rw [Finset.sum_eq_zero_iff]
      intro a ha
      rw [Finset.mem_sdiff, List.mem_toFinset] at ha
      split_ifs with hr
      · unfold cntL
        rw [List.countP_eq_zero]
        intro i _ hib
        obtain ⟨y, hy, c, hc, hca⟩ := live_of_ref hJ.U (hi.tab k) hsat a ha.1 hr
        have hib' : (((s.tab k).tab.mem a).e i).p = some b := by simpa using hib
        by_cases hye : y = e
        · subst hye
          exact ha.2 ((f1 a).2 ⟨c, hc, hca⟩)
        · exact h2 y ((List.mem_erase_of_ne hye).2 hy) b ⟨c, hc, hca.step i hib'⟩ hb
      · rfl

end Package

namespace Ex66
open Ex

/-- On top of the node of C17's example: a node at level 1 with two edges to it. -/
def esT : Fin 4 → PtrEdge := ![⟨some 0, CNum.one⟩, ⟨none, CNum.zero⟩, ⟨none, CNum.zero⟩, ⟨some 0, cn 1⟩]

def k1 : JState ℚ := { j3 with
  tab := Function.update j3.tab .m
    { j3.tab .m with tab := ((j3.tab .m).tab.mkNodeBy (j3.sameEdges JQ) (JQ.H .m) JQ.U 1 esT false false).1 } }

/-- The edge to the new node. -/
def eT : PtrEdge := ⟨some 1, cn 2⟩

def hold (s : JState ℚ) (e : PtrEdge) : JState ℚ := { s with
  ct := s.ct.incRefL JQ.C ((s.tab .m).tab.incRef JQ.U e).2
  tab := Function.update s.tab .m ⟨((s.tab .m).tab.incRef JQ.U e).1, e :: (s.tab .m).held,
    fun w => (s.tab .m).wref w + ((s.tab .m).tab.incRef JQ.U e).2.count w⟩ }

/-- The user references the new node; then also the node below it. -/
def k2 : JState ℚ := hold k1 eT
def k3 : JState ℚ := hold k2 e3

theorem j3_reach : JReach JQ (0 ≤ ·) j3 := by
  have h0 : JReach JQ (0 ≤ ·) j0 := .init (1 / 100) (by norm_num) 2 _ (fun _ => by norm_num) _
  have h1 : JReach JQ (0 ≤ ·) j1 := h0.step (.lookup (1 / 5) (by norm_num))
  have h2 : JReach JQ (0 ≤ ·) j2 := h1.step (.lookup (3 / 4) (by norm_num))
  refine h2.step (.mk .m 0 esQ false true (by decide +kernel) ?_ ?_)
  · intro i b hb
    exact absurd ((esQ_none i).symm.trans hb) (by simp)
  · intro i
    rw [known_ptr]
    refine ⟨?_, fun b hb => absurd ((esQ_none i).symm.trans hb) (by simp)⟩
    fin_cases i <;> constructor <;> decide +kernel

theorem k1_reach : JReach JQ (0 ≤ ·) k1 := by
  have hp : ∀ i b, (esT i).p = some b → b = 0 := by
    intro i b hb
    fin_cases i <;> simp [esT] at hb <;> exact hb.symm
  refine j3_reach.step (.mk .m 1 esT false false (by decide +kernel) ?_ ?_)
  · intro i b hb
    obtain rfl := hp i b hb
    exact ⟨by decide +kernel, by decide +kernel⟩
  · intro i
    rw [known_ptr]
    refine ⟨?_, fun b hb => ?_⟩
    · fin_cases i <;> constructor <;> decide +kernel
    · obtain rfl := hp i b hb
      decide +kernel

theorem hold_reach {s : JState ℚ} (h : JReach JQ (0 ≤ ·) s) {e : PtrEdge} (he : ∀ x ∈ ptrRefs .m e, s.Known JQ x) : JReach JQ (0 ≤ ·) (hold s e) :=
  h.step (.incRef .m e he)

theorem k2_reach : JReach JQ (0 ≤ ·) k2 := by
  refine hold_reach k1_reach ?_
  rw [known_ptr]
  refine ⟨by constructor <;> decide +kernel, fun b hb => ?_⟩
  obtain rfl : 1 = b := Option.some.inj hb
  decide +kernel

theorem k3_reach : JReach JQ (0 ≤ ·) k3 := by
  refine hold_reach k2_reach ?_
  rw [known_ptr]
  refine ⟨by constructor <;> decide +kernel, fun b hb => ?_⟩
  obtain rfl : 0 = b := Option.some.inj hb
  decide +kernel

/-- With one reference both checks succeed; with a second reference into the diagram the global check throws for either edge. An edge that is not referenced fails
the local check. -/
example : k2.isLocallyConsistent .m eT = true ∧ k2.isGloballyConsistent .m eT = true ∧ k3.isLocallyConsistent .m eT = true ∧
    k3.isGloballyConsistent .m eT = false ∧ k3.isGloballyConsistent .m e3 = false ∧ k1.isLocallyConsistent .m eT = false := by decide +kernel

/-- The hypotheses of `C66_global` are met. -/
example : LevelsConsecutive (k2.tab .m).tab eT ∧ ∀ x ∈ (k2.tab .m).held.erase eT, ∀ b, InDiagram (k2.tab .m).tab x b → ¬ InDiagram (k2.tab .m).tab eT b :=
  (C66_global JQ_good (fun _ h => h) k2_reach (by decide +kernel) (by decide +kernel) (by decide +kernel)).1 (by decide +kernel)

example : LevelsConsecutive (k3.tab .m).tab eT := (C66_local JQ_good (fun _ h => h) k3_reach (by decide +kernel)).1 (by decide +kernel)

/-- Part of the claim a user may expect is false: in a package that is in order the global check can throw for a referenced edge. -/
theorem C66_global_false : ¬ ∀ (s : JState ℚ), JReach JQ (0 ≤ ·) s → ∀ k, ∀ e ∈ (s.tab k).held, s.isGloballyConsistent k e = true := by
  intro H
  have := H k3 k3_reach .m eT (by decide +kernel)
  have h2 : k3.isGloballyConsistent .m eT = false := by decide +kernel
  rw [h2] at this
  exact absurd this (by simp)

end Ex66

end DD
