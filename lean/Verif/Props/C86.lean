import Verif.Model.RefErr
import Verif.Props.C17

/-!
# C86: what a rejected `decRef` leaves behind

`decRef` reports an error when a count is zero. The error is thrown after part of the work has been done. Proved for every
state, edge and kind of diagram: when the call returns normally it has had exactly the effect assumed elsewhere (C14-C17);
when it throws, diagrams, numbers and caches are as before and only counts have changed; for an edge to a node without
references exactly the count of the weight has changed, and taking the weight again restores the package. Without that
the package is damaged: a number in use can be collected and overwritten (`C86_false`). Not all unbalanced calls are
reported (`C86_silent`).
-/

namespace DD

variable {R : Type} [Field R] [LinearOrder R] [FloorRing R] {J : JCfg R} {s : JState R}

/-- The state after a call that has not thrown. -/
def resX {α : Type} (q : α × Bool) : Option α := if q.2 then none else some q.1

namespace CTab

variable {C : CCfg R} {t : CTab R}

theorem decRefX_res (l : Loc) : resX (t.decRefX C l) = t.decRef C l := by
  unfold decRefX decRef
  split_ifs <;> rfl

theorem decRefCX_res (c : CNum Loc) : resX (t.decRefCX C c) = t.decRefC C c := by
  unfold decRefCX decRefC decRefP
  split_ifs with h
  · rw [← decRefX_res]
    cases h1 : (t.decRefX C c.r.loc).2 with
    | true => simp [resX, h1]
    | false =>
      have h2 : resX (t.decRefX C c.r.loc) = some (t.decRefX C c.r.loc).1 := by simp [resX, h1]
      rw [h2, Option.bind_some, ← decRefX_res]
      simp [h1]
  · rfl

theorem decRefL_append (L M : List (CNum Loc)) : ∀ t : CTab R,
    t.decRefL C (L ++ M) = (t.decRefL C L).bind (fun t => t.decRefL C M) := by
  induction L with
  | nil => intro t; simp [decRefL]
  | cons c L ih =>
    intro t
    simp only [List.cons_append, decRefL, Option.bind_assoc]
    congr 1; funext t; exact ih t

theorem decRefL_single (c : CNum Loc) (t : CTab R) : t.decRefL C [c] = t.decRefC C c := by
  simp [decRefL]

/-- Numbers are not changed. -/
theorem decRefX_same (t : CTab R) (l : Loc) :
    (∃ g, (t.decRefX C l).1 = { t with ref := g }) ∧ ∀ l', (t.decRefX C l).1.ref l' ≤ t.ref l' := by
  unfold decRefX
  split_ifs
  · exact ⟨⟨t.ref, rfl⟩, fun _ => le_rfl⟩
  · exact ⟨⟨t.ref, rfl⟩, fun _ => le_rfl⟩
  · exact ⟨⟨t.ref, rfl⟩, fun _ => le_rfl⟩
  · refine ⟨⟨_, rfl⟩, fun l' => ?_⟩
    dsimp only
    by_cases h : l' = l
    · subst h; rw [Function.update_self]; omega
    · rw [Function.update_of_ne h]

theorem decRefCX_same (t : CTab R) (c : CNum Loc) :
    (∃ g, (t.decRefCX C c).1 = { t with ref := g }) ∧ ∀ l', (t.decRefCX C c).1.ref l' ≤ t.ref l' := by
  unfold decRefCX
  dsimp only
  split_ifs with h h1
  · exact decRefX_same t _
  · obtain ⟨⟨g, hg⟩, hl⟩ := decRefX_same (C := C) t c.r.loc
    obtain ⟨⟨g', hg'⟩, hl'⟩ := decRefX_same (C := C) (t.decRefX C c.r.loc).1 c.i.loc
    refine ⟨⟨g', ?_⟩, fun l' => (hl' l').trans (hl l')⟩
    rw [hg']; generalize (t.decRefX C c.r.loc).1 = u at *; subst hg; rfl
  · exact ⟨⟨t.ref, rfl⟩, fun _ => le_rfl⟩

end CTab

/-- The two halves of the model of `decRef` used in C14-C17, put together. -/
def decBoth (C : CCfg R) (U : UCfg) {n : Nat} (t0 : CTab R) (r : Option (UTable (CNum Loc) n × List (CNum Loc))) :
    Option (CTab R × UTable (CNum Loc) n) := r.bind fun r => (t0.decRefL C r.2).map fun t => (t, r.1)

theorem decBoth_some {C : CCfg R} {U : UCfg} {n : Nat} (t0 : CTab R) (u : UTable (CNum Loc) n) (L : List (CNum Loc)) :
    decBoth C U t0 (some (u, L)) = (t0.decRefL C L).map fun t => (t, u) := rfl

theorem decRefXF_res (C : CCfg R) (U : UCfg) {n : Nat} (f : Nat) : ∀ (s : CTab R × UTable (CNum Loc) n) (e : PtrEdge),
    resX (decRefXF C U f s e) = decBoth C U s.1 (UTable.decRefF U f s.2 e) := by
  induction f with
  | zero =>
    intro s e
    unfold decRefXF UTable.decRefF
    dsimp only
    have hw := CTab.decRefCX_res (C := C) (t := s.1) e.w
    cases h1 : (s.1.decRefCX C e.w).2 with
    | true =>
      have hn : s.1.decRefC C e.w = none := by rw [← hw]; simp [resX, h1]
      have hb : ∀ u : UTable (CNum Loc) n, decBoth C U s.1 (some (u, [e.w])) = none := by
        intro u; rw [decBoth_some, CTab.decRefL_single, hn]; rfl
      simp only [if_true]
      rcases e with ⟨p, w⟩
      cases p with
      | none => simp only; rw [hb]; rfl
      | some a =>
        simp only
        split_ifs
        · rw [hb]; rfl
        · rfl
        · rw [hb]; rfl
        · rw [hb]; rfl
    | false =>
      have hn : s.1.decRefC C e.w = some (s.1.decRefCX C e.w).1 := by rw [← hw]; simp [resX, h1]
      have hb : ∀ u : UTable (CNum Loc) n, decBoth C U s.1 (some (u, [e.w])) = some ((s.1.decRefCX C e.w).1, u) := by
        intro u; rw [decBoth_some, CTab.decRefL_single, hn]; rfl
      simp only [Bool.false_eq_true, if_false]
      rcases e with ⟨p, w⟩
      cases p with
      | none => simp only; rw [hb]; rfl
      | some a =>
        simp only
        split_ifs
        · rw [hb]; rfl
        · rfl
        · rw [hb]; rfl
        · rw [hb]; rfl
  | succ f ih =>
    -- the loop over the successors
    have loop : ∀ (t0 : CTab R) (es : Fin n → PtrEdge) (l : List (Fin n))
        (acc : Option (UTable (CNum Loc) n × List (CNum Loc))) (q : (CTab R × UTable (CNum Loc) n) × Bool),
        resX q = decBoth C U t0 acc →
        resX (l.foldl (fun q i => if q.2 then q else decRefXF C U f q.1 (es i)) q) =
          decBoth C U t0 (l.foldl (fun s i => s.bind fun s =>
            (UTable.decRefF U f s.1 (es i)).map fun r => (r.1, s.2 ++ r.2)) acc) := by
      intro t0 es l
      induction l with
      | nil => intro acc q h; exact h
      | cons i l ihl =>
        intro acc q h
        rw [List.foldl_cons, List.foldl_cons]
        apply ihl
        cases acc with
        | none =>
          have hq : q.2 = true := by
            by_contra hc
            simp [resX, hc, decBoth] at h
          rw [if_pos hq]; simp [resX, hq, decBoth]
        | some uL =>
          obtain ⟨u, L⟩ := uL
          rw [decBoth_some] at h
          simp only [Option.bind_some]
          have key : decBoth C U t0 ((UTable.decRefF U f u (es i)).map fun r => (r.1, L ++ r.2)) =
              (t0.decRefL C L).bind fun t => decBoth C U t (UTable.decRefF U f u (es i)) := by
            cases UTable.decRefF U f u (es i) with
            | none => simp [decBoth]
            | some r =>
              simp only [Option.map_some]
              rw [decBoth_some, CTab.decRefL_append]
              simp only [Option.map_bind]
              rfl
          rw [key]
          cases hL : t0.decRefL C L with
          | none =>
            rw [hL] at h
            have hq : q.2 = true := by
              by_contra hc
              simp [resX, hc] at h
            rw [if_pos hq]; simp [resX, hq]
          | some t =>
            rw [hL] at h
            have hq : q.2 = false := by
              by_contra hc
              simp [resX, hc] at h
            have hq1 : q.1 = (t, u) := by
              have : some q.1 = some (t, u) := by simpa [resX, hq] using h
              exact Option.some.inj this
            rw [if_neg (by simp [hq]), ih, hq1]; rfl
    intro s e
    unfold decRefXF UTable.decRefF
    dsimp only
    have hw := CTab.decRefCX_res (C := C) (t := s.1) e.w
    have fin : ∀ (nd : Node (CNum Loc) n) (q : (CTab R × UTable (CNum Loc) n) × Bool)
        (o : Option (UTable (CNum Loc) n × List (CNum Loc))), resX q = decBoth C U s.1 o →
        resX (if q.2 then q else ((q.1.1, { q.1.2 with
            active := Function.update q.1.2.active nd.v (q.1.2.active nd.v - 1)
            activeNodeCount := q.1.2.activeNodeCount - 1 }), false)) =
          decBoth C U s.1 (o.map fun (t2, ws) => ({ t2 with
            active := Function.update t2.active nd.v (t2.active nd.v - 1)
            activeNodeCount := t2.activeNodeCount - 1 }, ws)) := by
      intro nd q o h
      cases o with
      | none =>
        have hq : q.2 = true := by
          by_contra hc
          simp [resX, hc, decBoth] at h
        rw [if_pos hq]; simp [resX, hq, decBoth]
      | some uL =>
        obtain ⟨u, L⟩ := uL
        rw [decBoth_some] at h
        simp only [Option.map_some]
        rw [decBoth_some]
        cases hL : s.1.decRefL C L with
        | none =>
          rw [hL] at h
          have hq : q.2 = true := by
            by_contra hc
            simp [resX, hc] at h
          rw [if_pos hq]; simp [resX, hq]
        | some t =>
          rw [hL] at h
          have hq : q.2 = false := by
            by_contra hc
            simp [resX, hc] at h
          have hq1 : q.1 = (t, u) := by
            have : some q.1 = some (t, u) := by simpa [resX, hq] using h
            exact Option.some.inj this
          rw [if_neg (by simp [hq]), hq1]; rfl
    -- if the weight is rejected, the loop of the other model fails as well
    have dead : ∀ (es : Fin n → PtrEdge) (u : UTable (CNum Loc) n) (c : CNum Loc), s.1.decRefC C c = none →
        decBoth C U s.1 ((List.finRange n).foldl (fun s i => s.bind fun s =>
            (UTable.decRefF U f s.1 (es i)).map fun r => (r.1, s.2 ++ r.2)) (some (u, [c]))) = none := by
      intro es u c hc
      have := loop s.1 es (List.finRange n) (some (u, [c])) ((s.1, u), true)
        (by rw [decBoth_some, CTab.decRefL_single, hc]; rfl)
      rw [← this]
      have hst : ∀ l : List (Fin n), (l.foldl (fun (q : (CTab R × UTable (CNum Loc) n) × Bool) i =>
          if q.2 then q else decRefXF C U f q.1 (es i)) ((s.1, u), true)) = ((s.1, u), true) := by
        intro l
        induction l with
        | nil => rfl
        | cons i l ihl => rw [List.foldl_cons, if_pos rfl]; exact ihl
      rw [hst]; rfl
    cases h1 : (s.1.decRefCX C e.w).2 with
    | true =>
      have hn : s.1.decRefC C e.w = none := by rw [← hw]; simp [resX, h1]
      have hb : ∀ u : UTable (CNum Loc) n, decBoth C U s.1 (some (u, [e.w])) = none := by
        intro u; rw [decBoth_some, CTab.decRefL_single, hn]; rfl
      simp only [if_true]
      rcases e with ⟨p, w⟩
      cases p with
      | none => simp only; rw [hb]; rfl
      | some a =>
        simp only
        split_ifs
        · rw [hb]; rfl
        · rfl
        · have := dead (s.2.mem a).e (s.2.setRef a ((s.2.mem a).ref - 1)) w hn
          exact fin (s.2.mem a) (((s.1, s.2), true)) _ this.symm
        · rw [hb]; rfl
    | false =>
      have hn : s.1.decRefC C e.w = some (s.1.decRefCX C e.w).1 := by rw [← hw]; simp [resX, h1]
      have hb : ∀ u : UTable (CNum Loc) n, decBoth C U s.1 (some (u, [e.w])) = some ((s.1.decRefCX C e.w).1, u) := by
        intro u; rw [decBoth_some, CTab.decRefL_single, hn]; rfl
      simp only [Bool.false_eq_true, if_false]
      rcases e with ⟨p, w⟩
      cases p with
      | none => simp only; rw [hb]; rfl
      | some a =>
        simp only
        by_cases c1 : (s.2.mem a).ref = U.maxRef
        · rw [if_pos c1, if_pos c1, hb]; rfl
        rw [if_neg c1, if_neg c1]
        by_cases c2 : (s.2.mem a).ref = 0
        · rw [if_pos c2, if_pos c2]; rfl
        rw [if_neg c2, if_neg c2]
        by_cases c3 : (s.2.mem a).ref - 1 = 0
        · rw [if_pos c3, if_pos c3]
          refine fin (s.2.mem a) _ _ (loop s.1 (s.2.mem a).e (List.finRange n) _ _ ?_)
          rw [hb]; rfl
        · rw [if_neg c3, if_neg c3, hb]; rfl

/-- A call returns normally exactly if the calls described in C14-C17 succeed, and then has the same effect. -/
theorem C86_ok (k : NK) (e : PtrEdge) :
    ((s.decRefX J k e).2 = false ↔
      ∃ r t, (s.tab k).tab.decRef J.U e = some r ∧ s.ct.decRefL J.C r.2 = some t) ∧
    ∀ r t, (s.tab k).tab.decRef J.U e = some r → s.ct.decRefL J.C r.2 = some t →
      (s.decRefX J k e).1 = { s with ct := t, tab := Function.update s.tab k { s.tab k with tab := r.1 } } := by
  have h := decRefXF_res J.C J.U ((s.tab k).tab.lvl e) (s.ct, (s.tab k).tab) e
  have hd : (s.tab k).tab.decRef J.U e = UTable.decRefF J.U ((s.tab k).tab.lvl e) (s.tab k).tab e := rfl
  rw [← hd] at h
  unfold JState.decRefX
  dsimp only at h ⊢
  set q := decRefXF J.C J.U ((s.tab k).tab.lvl e) (s.ct, (s.tab k).tab) e with hq
  refine ⟨⟨fun h2 => ?_, ?_⟩, ?_⟩
  · have hr : resX q = some q.1 := by simp [resX, h2]
    rw [hr] at h
    cases h3 : (s.tab k).tab.decRef J.U e with
    | none => rw [h3] at h; simp [decBoth] at h
    | some r =>
      cases h4 : s.ct.decRefL J.C r.2 with
      | none => rw [h3] at h; simp [decBoth, h4] at h
      | some t => exact ⟨r, t, rfl, h4⟩
  · rintro ⟨r, t, h3, h4⟩
    rw [h3] at h
    simp only [decBoth, Option.bind_some, h4, Option.map_some] at h
    by_contra hc
    simp [resX, hc] at h
  · intro r t h3 h4
    rw [h3] at h
    simp only [decBoth, Option.bind_some, h4, Option.map_some] at h
    have h2 : q.2 = false := by
      by_contra hc
      simp [resX, hc] at h
    have h1 : q.1 = (t, r.1) := by
      have : some q.1 = some (t, r.1) := by simpa [resX, h2] using h
      exact Option.some.inj this
    rw [h1]

/-! ### Calls that throw -/

/-- Only counts differ, and no count is larger. -/
structure OnlyCounts {n : Nat} (s s' : CTab R × UTable (CNum Loc) n) : Prop where
  num : ∃ g, s'.1 = { s.1 with ref := g }
  numLe : ∀ l, s'.1.ref l ≤ s.1.ref l
  node : ∃ m ac an, s'.2 = { s.2 with mem := m, active := ac, activeNodeCount := an }
  cell : ∀ a, s'.2.mem a = { s.2.mem a with ref := (s'.2.mem a).ref }
  nodeLe : ∀ a, (s'.2.mem a).ref ≤ (s.2.mem a).ref

namespace OnlyCounts

variable {n : Nat} {s s' s'' : CTab R × UTable (CNum Loc) n}

omit [FloorRing R] [LinearOrder R] [Field R] in
theorem refl (s : CTab R × UTable (CNum Loc) n) : OnlyCounts s s :=
  ⟨⟨s.1.ref, rfl⟩, fun _ => le_rfl, ⟨_, _, _, rfl⟩, fun _ => rfl, fun _ => le_rfl⟩

omit [FloorRing R] [LinearOrder R] [Field R] in
theorem trans (h : OnlyCounts s s') (h' : OnlyCounts s' s'') : OnlyCounts s s'' := by
  obtain ⟨g, hg⟩ := h.num
  obtain ⟨g', hg'⟩ := h'.num
  obtain ⟨m, ac, an, hm⟩ := h.node
  obtain ⟨m', ac', an', hm'⟩ := h'.node
  exact ⟨⟨g', by rw [hg', hg]⟩, fun l => (h'.numLe l).trans (h.numLe l), ⟨m', ac', an', by rw [hm', hm]⟩,
    fun a => by rw [h'.cell a, h.cell a], fun a => (h'.nodeLe a).trans (h.nodeLe a)⟩

omit [FloorRing R] [LinearOrder R] [Field R] in
theorem active {t : CTab R} {u : UTable (CNum Loc) n} (h : OnlyCounts s (t, u)) (ac : Nat → Nat) (an : Nat) :
    OnlyCounts s (t, { u with active := ac, activeNodeCount := an }) := by
  obtain ⟨m, ac', an', hm⟩ := h.node
  exact ⟨h.num, h.numLe, ⟨m, ac, an, by dsimp only at hm ⊢; rw [hm]⟩, h.cell, h.nodeLe⟩

end OnlyCounts

theorem onlyCounts_setRef {n : Nat} (t : CTab R) (u : UTable (CNum Loc) n) (a r : Nat) (hr : r ≤ (u.mem a).ref) :
    OnlyCounts (t, u) (t, u.setRef a r) := by
  have hm : ∀ b, (u.setRef a r).mem b = { u.mem b with ref := ((u.setRef a r).mem b).ref } := by
    intro b
    by_cases h : b = a
    · subst h; simp [UTable.setRef, UTable.setMem]
    · simp [UTable.setRef, UTable.setMem, h]
  refine ⟨⟨t.ref, rfl⟩, fun _ => le_rfl, ⟨_, _, _, rfl⟩, hm, fun b => ?_⟩
  · show ((u.setRef a r).mem b).ref ≤ (u.mem b).ref
    rw [UTable.setRef_mem_ref]
    split_ifs with h
    · subst h; exact hr
    · exact le_rfl

theorem decRefXF_counts (C : CCfg R) (U : UCfg) {n : Nat} (f : Nat) :
    ∀ (s : CTab R × UTable (CNum Loc) n) (e : PtrEdge), OnlyCounts s (decRefXF C U f s e).1 := by
  have hwt : ∀ (s : CTab R × UTable (CNum Loc) n) (c : CNum Loc), OnlyCounts s ((s.1.decRefCX C c).1, s.2) := by
    intro s c
    obtain ⟨h1, h2⟩ := CTab.decRefCX_same (C := C) s.1 c
    exact ⟨h1, h2, ⟨_, _, _, rfl⟩, fun _ => rfl, fun _ => le_rfl⟩
  induction f with
  | zero =>
    intro s e
    unfold decRefXF
    dsimp only
    split
    · exact hwt s _
    · split
      · exact hwt s _
      · split_ifs
        · exact hwt s _
        · exact hwt s _
        · exact (hwt s _).trans (onlyCounts_setRef _ _ _ _ (Nat.sub_le _ _))
        · exact (hwt s _).trans (onlyCounts_setRef _ _ _ _ (Nat.sub_le _ _))
  | succ f ih =>
    have loop : ∀ (es : Fin n → PtrEdge) (l : List (Fin n)) (q : (CTab R × UTable (CNum Loc) n) × Bool),
        OnlyCounts q.1 (l.foldl (fun q i => if q.2 then q else decRefXF C U f q.1 (es i)) q).1 := by
      intro es l
      induction l with
      | nil => intro q; exact .refl _
      | cons i l ihl =>
        intro q
        rw [List.foldl_cons]
        refine OnlyCounts.trans ?_ (ihl _)
        split_ifs
        · exact .refl _
        · exact ih _ _
    intro s e
    unfold decRefXF
    dsimp only
    split
    · exact hwt s _
    · split
      · exact hwt s _
      · rename_i a _
        split_ifs
        · exact hwt s _
        · exact hwt s _
        · exact ((hwt s e.w).trans (onlyCounts_setRef _ _ a ((s.2.mem a).ref - 1) (Nat.sub_le _ _))).trans
            (loop (s.2.mem a).e (List.finRange n) (_, false))
        · have h := ((hwt s e.w).trans (onlyCounts_setRef _ _ a ((s.2.mem a).ref - 1) (Nat.sub_le _ _))).trans
            (loop (s.2.mem a).e (List.finRange n) (_, false))
          exact h.active _ _
        · exact (hwt s _).trans (onlyCounts_setRef _ _ _ _ (Nat.sub_le _ _))

/-- Whether or not the call throws, only counts change: every node keeps its level, successors and marks, the same nodes are
stored in the same order, every number keeps its value and place, and caches and other diagrams are as before. -/
theorem C86_only_counts (k : NK) (e : PtrEdge) :
    (∃ g, (s.decRefX J k e).1.ct = { s.ct with ref := g }) ∧
    (∀ l, (s.decRefX J k e).1.ct.ref l ≤ s.ct.ref l) ∧
    (∃ m ac an, ((s.decRefX J k e).1.tab k).tab = { (s.tab k).tab with mem := m, active := ac, activeNodeCount := an }) ∧
    (∀ a, ((s.decRefX J k e).1.tab k).tab.mem a =
      { (s.tab k).tab.mem a with ref := (((s.decRefX J k e).1.tab k).tab.mem a).ref }) ∧
    (∀ a, (((s.decRefX J k e).1.tab k).tab.mem a).ref ≤ ((s.tab k).tab.mem a).ref) ∧
    (∀ k', k' ≠ k → (s.decRefX J k e).1.tab k' = s.tab k') ∧
    (s.decRefX J k e).1.cache = s.cache ∧ (s.decRefX J k e).1.nums = s.nums ∧
    ((s.decRefX J k e).1.tab k).held = (s.tab k).held := by
  have h := decRefXF_counts J.C J.U ((s.tab k).tab.lvl e) (s.ct, (s.tab k).tab) e
  unfold JState.decRefX
  dsimp only
  refine ⟨h.num, h.numLe, ?_, ?_, ?_, ?_, rfl, rfl, ?_⟩
  · rw [Function.update_self]; exact h.node
  · rw [Function.update_self]; exact h.cell
  · rw [Function.update_self]; exact h.nodeLe
  · intro k' hk; rw [Function.update_of_ne hk]
  · rw [Function.update_self]

/-- An edge to a node without references is always rejected, and what changes is the count of its weight only. -/
theorem C86_rejected (hJ : J.Good) {k : NK} {e : PtrEdge} {a : Nat} (ha : e.p = some a)
    (h0 : ((s.tab k).tab.mem a).ref = 0) :
    s.decRefX J k e = ({ s with ct := (s.ct.decRefCX J.C e.w).1 }, true) := by
  have hm : ¬ (0 = J.U.maxRef) := by have := hJ.U.maxRef; omega
  have hq : decRefXF J.C J.U ((s.tab k).tab.lvl e) (s.ct, (s.tab k).tab) e =
      (((s.ct.decRefCX J.C e.w).1, (s.tab k).tab), true) := by
    unfold decRefXF
    dsimp only
    cases h1 : (s.ct.decRefCX J.C e.w).2 with
    | true => rfl
    | false =>
      rw [if_neg (by simp), ha]
      dsimp only
      rw [h0, if_neg hm, if_pos rfl]
  unfold JState.decRefX
  rw [hq]
  dsimp only
  rw [Function.update_eq_self]

/-- If moreover the parts of the weight are 0, 1 or √½, nothing at all changes. -/
theorem C86_harmless (hJ : J.Good) {k : NK} {e : PtrEdge} {a : Nat} (ha : e.p = some a)
    (h0 : ((s.tab k).tab.mem a).ref = 0) (hr : e.w.r.loc.isStatic = true) (hi : e.w.i.loc.isStatic = true) :
    s.decRefX J k e = (s, true) := by
  rw [C86_rejected hJ ha h0]
  have : (s.ct.decRefCX J.C e.w).1 = s.ct := by
    unfold CTab.decRefCX CTab.decRefX
    simp [hr, hi]
  rw [this]

namespace CTab

variable {C : CCfg R} {t t' t'' : CTab R}

theorem decRef_eq {l : Loc} (h : t.decRef C l = some t') :
    t' = { t with ref := fun x => if x = l ∧ l.isStatic = false ∧ t.ref l ≠ C.maxRef then t.ref x - 1 else t.ref x } ∧
    (l.isStatic = false → t.ref l ≠ C.maxRef → 0 < t.ref l) := by
  unfold decRef at h
  split_ifs at h with a1 a2 a3
  · obtain rfl := Option.some.inj h
    simp [a1]
  · obtain rfl := Option.some.inj h
    simp [a2]
  · obtain rfl := Option.some.inj h
    refine ⟨?_, fun _ _ => Nat.pos_of_ne_zero a3⟩
    congr 1
    funext x
    by_cases hx : x = l
    · subst hx; simp [a1, a2]
    · simp [hx]

theorem incRef_eq (t : CTab R) (l : Loc) : t.incRef C l =
    { t with ref := fun x => if x = l ∧ l.isStatic = false ∧ t.ref l ≠ C.maxRef then t.ref x + 1 else t.ref x } := by
  unfold incRef
  split_ifs with a1 a2
  · simp [a1]
  · simp [a2]
  · congr 1
    funext x
    by_cases hx : x = l
    · subst hx; simp [a1, a2]
    · simp [hx]

theorem incRef_decRef_comm {l l' : Loc} (hl : t.ref l ≤ C.maxRef) (hl' : t.ref l' ≤ C.maxRef) (h : t.decRef C l = some t')
    (h' : t'.decRef C l' = some t'') : (t''.incRef C l).incRef C l' = t := by
  have ref_ext : ∀ g : Loc → Nat, g = t.ref → ({ t with ref := g } : CTab R) = t := by
    intro g hg; subst hg; rfl
  obtain ⟨rfl, p1⟩ := decRef_eq h
  obtain ⟨rfl, p2⟩ := decRef_eq h'
  rw [incRef_eq, incRef_eq]
  apply ref_ext
  funext x
  dsimp only at p2 ⊢
  cases h1 : l.isStatic
  · cases h2 : l'.isStatic
    · by_cases hll : l' = l
      · subst hll
        by_cases hx : x = l'
        · subst hx
          by_cases hm : t.ref x = C.maxRef
          · simp [h1, hm]
          · have q1 := p1 h1 hm
            have e1 : t.ref x - 1 ≠ C.maxRef := by omega
            simp only [h1, hm, e1, ne_eq, not_false_eq_true, and_self, if_true, forall_const] at p2 ⊢
            have e2 : t.ref x - 1 - 1 ≠ C.maxRef := by omega
            have e3 : t.ref x - 1 - 1 + 1 ≠ C.maxRef := by omega
            simp only [e2, e3, not_false_eq_true, and_self, if_true]
            omega
        · simp [hx]
      · have hll' : l ≠ l' := fun h => hll h.symm
        simp only [h1, h2, hll, hll', ne_eq, false_and, if_false, true_and, forall_const] at p1 p2 ⊢
        by_cases hx : x = l
        · subst hx
          simp only [hll', false_and, if_false, true_and]
          by_cases hm : t.ref x = C.maxRef
          · simp [hm]
          · have q1 := p1 hm
            simp only [hm, not_false_eq_true, if_true]
            rw [if_pos (by omega)]; omega
        · by_cases hx' : x = l'
          · subst hx'
            simp only [hll, false_and, if_false, true_and]
            by_cases hm : t.ref x = C.maxRef
            · simp [hm]
            · have q1 := p2 hm
              simp only [hm, not_false_eq_true, if_true]
              rw [if_pos (by omega)]; omega
          · simp [hx, hx']
    · simp only [h1, h2, ne_eq, true_and, Bool.true_eq_false, false_and, and_false, if_false]
      by_cases hx : x = l
      · subst hx
        by_cases hm : t.ref x = C.maxRef
        · simp [hm]
        · have q1 := p1 h1 hm
          simp only [hm, true_and, not_false_eq_true, if_true]
          rw [if_pos (by omega)]; omega
      · simp [hx]
  · cases h2 : l'.isStatic
    · simp only [h1, h2, ne_eq, true_and, Bool.true_eq_false, false_and, and_false, if_false] at p2 ⊢
      by_cases hx : x = l'
      · subst hx
        by_cases hm : t.ref x = C.maxRef
        · simp [hm]
        · have q1 := p2 trivial hm
          simp only [hm, true_and, not_false_eq_true, if_true]
          rw [if_pos (by omega)]; omega
      · simp [hx]
    · simp

end CTab

/-- If the counts of the weight were not zero, the damage is undone by taking the weight once: `incRef` on the number gives
back the package as it was before the call. Counts are assumed to be values of their type. -/
theorem C86_repair (hJ : J.Good) {k : NK} {e : PtrEdge} {a : Nat} (hr : s.ct.ref e.w.r.loc ≤ J.C.maxRef)
    (hi : s.ct.ref e.w.i.loc ≤ J.C.maxRef) (ha : e.p = some a)
    (h0 : ((s.tab k).tab.mem a).ref = 0) {t : CTab R} (ht : s.ct.decRefC J.C e.w = some t) :
    (s.decRefX J k e).2 = true ∧
    { (s.decRefX J k e).1 with ct := (s.decRefX J k e).1.ct.incRefC J.C e.w } = s := by
  rw [C86_rejected hJ ha h0]
  have hx : (s.ct.decRefCX J.C e.w).1 = t := by
    have h := CTab.decRefCX_res (C := J.C) (t := s.ct) e.w
    rw [ht] at h
    unfold resX at h
    split_ifs at h
    exact Option.some.inj h
  refine ⟨rfl, ?_⟩
  dsimp only
  rw [hx]
  have : t.incRefC J.C e.w = s.ct := by
    unfold CTab.decRefC at ht
    unfold CTab.incRefC
    split_ifs at ht ⊢ with hc
    · obtain ⟨t1, h1, h2⟩ := Option.bind_eq_some_iff.1 ht
      exact CTab.incRef_decRef_comm hr hi h1 h2
    · exact (Option.some.inj ht).symm
  rw [this]

namespace Ex

/-- A second matrix, on two qubits, with the first (Props/C17.lean) as blocks on its diagonal. It is not referenced. -/
def es5 : Fin 4 → PtrEdge := ![⟨some 0, CNum.one⟩, ⟨none, CNum.zero⟩, ⟨none, CNum.zero⟩, ⟨some 0, CNum.one⟩]

theorem es5_zero (i : Fin 4) (b : Nat) (hb : (es5 i).p = some b) : b = 0 := by
  have h : ∀ i, (es5 i).p = none ∨ (es5 i).p = some 0 := by decide
  rcases h i with h | h <;> rw [h] at hb
  · simp at hb
  · exact (Option.some.inj hb).symm

def j7 : JState ℚ := { j4 with
  tab := Function.update j4.tab .m
    { j4.tab .m with tab := ((j4.tab .m).tab.mkNodeBy (j4.sameEdges JQ) (JQ.H .m) JQ.U 1 es5 false true).1 } }

/-- The second matrix, times 1/5. -/
def e7 : PtrEdge := ⟨some 1, cn 1⟩

theorem j7_reach : JReach JQ (0 ≤ ·) j7 := by
  refine j4_reach.step (.mk .m 1 es5 false true (by decide +kernel) ?_ ?_)
  · intro i b hb
    obtain rfl := es5_zero i b hb
    constructor <;> decide +kernel
  · intro i
    rw [known_ptr]
    refine ⟨by fin_cases i <;> constructor <;> decide +kernel, fun b hb => ?_⟩
    obtain rfl := es5_zero i b hb
    decide +kernel

/-- The edge is made of stored parts, its node has no references, the user references the first matrix, and 1/5 is the
number with the address 1. -/
theorem j7_facts : (1 ∈ (j7.tab .m).tab.all ∧ 1 ∈ j7.ct.stored JQ.C ∧ ((j7.tab .m).tab.mem 1).ref = 0) ∧
    (j7.tab .m).held = [e3] ∧ j7.ct.value JQ.C (.cell 1) = 1 / 5 ∧ j7.ct.ref (.cell 1) = 1 := by
  decide +kernel

/-- The call is rejected, a collection then removes 1/5 (and 3/4), and the second new number overwrites it: the entry 1/5 of
the first matrix, which the user still references, has become 3/10. -/
theorem j7_run : (j7.decRefX JQ .m e7).2 = true ∧ (j7.decRefX JQ .m e7).1.ct.ref (.cell 1) = 0 ∧
    ((j7.decRefX JQ .m e7).1.garbageCollect JQ true).1.ct.stored JQ.C = [0] ∧
    (((j7.decRefX JQ .m e7).1.garbageCollect JQ true).1.tab .m).held = [e3] ∧
    (((((j7.decRefX JQ .m e7).1.garbageCollect JQ true).1.ct.lookup JQ.C (2 / 5)).1.lookup JQ.C (3 / 10)).1.value JQ.C
      (.cell 1) = 3 / 10) := by
  decide +kernel

example : j7.decRefX JQ .m e7 = ({ j7 with ct := (j7.ct.decRefCX JQ.C (cn 1)).1 }, true) :=
  C86_rejected JQ_good rfl j7_facts.1.2.2

example : (j7.decRefX JQ .m ⟨some 1, CNum.one⟩) = (j7, true) :=
  C86_harmless JQ_good rfl j7_facts.1.2.2 rfl rfl

/-- Taking the weight again repairs the package. -/
example : { (j7.decRefX JQ .m e7).1 with ct := (j7.decRefX JQ .m e7).1.ct.incRefC JQ.C (cn 1) } = j7 := by
  obtain ⟨t, ht⟩ : ∃ t, j7.ct.decRefC JQ.C e7.w = some t := Option.isSome_iff_exists.1 (by decide +kernel)
  exact (C86_repair JQ_good (by decide +kernel) (by decide +kernel) (e := e7) rfl j7_facts.1.2.2 ht).2

theorem e7_known : ∀ x ∈ ptrRefs .m e7, j7.Known JQ x := by
  rw [known_ptr]
  refine ⟨by constructor <;> decide +kernel, fun b hb => ?_⟩
  obtain rfl : 1 = b := Option.some.inj hb
  exact j7_facts.1.1

/-- The first matrix times -1: this edge has not been referenced. -/
def e8 : PtrEdge := ⟨some 0, ⟨⟨true, .one⟩, ⟨false, .zero⟩⟩⟩

theorem e8_known : ∀ x ∈ ptrRefs .m e8, j7.Known JQ x := by
  rw [known_ptr]
  refine ⟨by constructor <;> decide +kernel, fun b hb => ?_⟩
  obtain rfl : 0 = b := Option.some.inj hb
  decide +kernel

/-- Giving it back is not reported; a collection then removes the node that the user references by `e3`. -/
theorem j7_silent : e8 ∉ (j7.tab .m).held ∧ (j7.decRefX JQ .m e8).2 = false ∧ (j7.tab .m).held = [e3] ∧
    (((j7.decRefX JQ .m e8).1.garbageCollect JQ true).1.tab .m).tab.all = [] := by
  decide +kernel

end Ex

/-- It is false that a rejected call does no harm: after it, a collection may remove what the user references. -/
theorem C86_false : ¬ ∀ (J : JCfg ℚ) (s : JState ℚ) (k : NK) (e : PtrEdge), J.Good → JReach J (0 ≤ ·) s →
    (∀ x ∈ ptrRefs k e, s.Known J x) → (s.decRefX J k e).2 = true →
    ∀ x, s.Reachable x → ((s.decRefX J k e).1.garbageCollect J true).1.Known J x := by
  intro H
  have hx : Ex.j7.Reachable (.num (.cell 1)) :=
    .child .m 0 (.held .m Ex.e3 (by rw [Ex.j7_facts.2.1]; simp) _ (by decide)) (3 : Fin 4) _ (by decide +kernel)
  have h : 1 ∈ ((Ex.j7.decRefX Ex.JQ .m Ex.e7).1.garbageCollect Ex.JQ true).1.ct.stored Ex.JQ.C :=
    H Ex.JQ Ex.j7 .m Ex.e7 Ex.JQ_good Ex.j7_reach Ex.e7_known Ex.j7_run.1 _ hx
  rw [Ex.j7_run.2.2.1] at h
  simp at h

/-- It is false that every reference that is given back without having been taken is reported. -/
theorem C86_silent : ¬ ∀ (J : JCfg ℚ) (s : JState ℚ) (k : NK) (e : PtrEdge), J.Good → JReach J (0 ≤ ·) s →
    (∀ x ∈ ptrRefs k e, s.Known J x) → e ∉ (s.tab k).held → (s.decRefX J k e).2 = true := by
  intro H
  have h := H Ex.JQ Ex.j7 .m Ex.e8 Ex.JQ_good Ex.j7_reach Ex.e8_known Ex.j7_silent.1
  rw [Ex.j7_silent.2.1] at h
  simp at h

/-- Balanced calls are never rejected: a call for an edge the user holds returns normally. -/
theorem C86_balanced [IsStrictOrderedRing R] {tols : R → Prop} (hJ : J.Good) (htol : ∀ τ, tols τ → 0 ≤ τ) (h : JReach J tols s) (k : NK)
    (e : PtrEdge) (he : e ∈ (s.tab k).held) : (s.decRefX J k e).2 = false :=
  (C86_ok k e).1.2 ((C17_release hJ htol h).1 k e he)

end DD
