import Verif.Proofs.ApproxCopy
import Verif.Proofs.Transfer

/-! # Accuracy of copies: the loops over the nodes -/

namespace DD

open Pkg UTable JState

section trav

variable {R : Type} [Field R] [LinearOrder R] {n : Nat} {t : UTable (Cx R) (n + 1)} {N : Nat → Prop}

theorem Trav.descend_mem (hN : ∀ a, N a → ∀ i b, ((t.mem a).e i).p = some b → N b) {D : List Nat} : ∀ (f : Nat) (e : PEdge R) (S : List (PEdge R)),
    (∀ a, e.p = some a → N a) → (∀ x ∈ S, ∀ a, x.p = some a → N a) → ∀ x ∈ Trav.descend t D f e S, ∀ a, x.p = some a → N a := by
  intro f
  induction f with
  | zero => intro e S _ hS; exact hS
  | succ f ih =>
    intro e S he hS
    rw [Trav.descend]
    cases hp : e.p with
    | none => exact hS
    | some a =>
      refine ih _ _ (fun b hb => hN a (he a hp) 0 b hb) (fun x hx b hb => ?_)
      rcases List.mem_cons.1 hx with rfl | hx
      · exact he b hb
      · rcases List.mem_append.1 hx with hx | hx
        · have := List.mem_of_mem_filter hx
          unfold Trav.later at this
          obtain ⟨i, rfl⟩ := (List.mem_ofFn).1 this
          exact hN a (he a hp) _ b hb
        · exact hS x hx b hb

/-- The nodes that are visited are below the root. -/
theorem Trav.runs_mem {g : Bool} (hN : ∀ a, N a → ∀ i b, ((t.mem a).e i).p = some b → N b) {f : Nat} {s : Trav R} {d : List Nat} (h : Trav.Runs g t f s d) :
    (∀ x, s.cur = some x → ∀ a, x.p = some a → N a) → (∀ x ∈ s.stack, ∀ a, x.p = some a → N a) → (∀ a ∈ s.done, N a) → ∀ a ∈ d, N a := by
  have step : ∀ {s s' : Trav R}, Trav.step g t f s = some s' → (∀ x, s.cur = some x → ∀ a, x.p = some a → N a) → (∀ x ∈ s.stack, ∀ a, x.p = some a → N a) →
      (∀ a ∈ s.done, N a) → (∀ x, s'.cur = some x → ∀ a, x.p = some a → N a) ∧ (∀ x ∈ s'.stack, ∀ a, x.p = some a → N a) ∧ (∀ a ∈ s'.done, N a) := by
    intro s s' hs h1 h2 h3
    have red : ∃ S, Trav.step g t f ⟨none, S, s.done⟩ = some s' ∧ ∀ x ∈ S, ∀ a, x.p = some a → N a := by
      obtain ⟨cur, stack, done⟩ := s
      cases cur with
      | none => exact ⟨stack, hs, h2⟩
      | some e => exact ⟨Trav.descend t done f e stack, hs, Trav.descend_mem hN f e stack (h1 e rfl) h2⟩
    obtain ⟨S, hs, hst⟩ := red
    unfold Trav.step at hs
    dsimp only at hs
    cases S with
    | nil => cases hs
    | cons e rest =>
      dsimp only at hs
      cases hp : e.p with
      | none => rw [hp] at hs; cases hs
      | some a =>
        rw [hp] at hs
        dsimp only at hs
        have ha : N a := hst e (by simp) a hp
        have hrest : ∀ x ∈ rest, ∀ a, x.p = some a → N a := fun x hx => hst x (by simp [hx])
        cases hh : Trav.hasChild g s.done rest (Trav.later (t.mem a).e) with
        | none => rw [hh] at hs; cases hs
        | some b =>
          rw [hh] at hs
          cases b
          · dsimp only at hs
            split_ifs at hs with h4
            · cases hs
              exact ⟨by simp, hrest, h3⟩
            · cases hs
              refine ⟨by simp, hrest, fun b hb => ?_⟩
              rcases List.mem_append.1 hb with hb | hb
              · exact h3 b hb
              · rw [List.mem_singleton] at hb; subst hb; exact ha
          · dsimp only at hs
            cases rest with
            | nil => cases hs
            | cons top rest' =>
              cases hs
              refine ⟨fun x hx => ?_, fun x hx => ?_, h3⟩
              · cases hx; exact hrest top (by simp)
              · rcases List.mem_cons.1 hx with rfl | hx
                · exact hst x (by simp)
                · exact hrest x (by simp [hx])
  induction h with
  | stop h1 h2 => intro a b c; exact (step h1 a b c).2.2
  | more h1 h2 h3 ih =>
    intro a b c
    obtain ⟨x, y, z⟩ := step h1 a b c
    exact ih x y z

end trav

variable {R : Type} [Field R] [LinearOrder R] [IsStrictOrderedRing R] [FloorRing R] {J : JCfg R} {τ : R}
variable {o s s' s'' : JState R} [HasSqrt R] [LawfulSqrt R]

omit [IsStrictOrderedRing R] [LawfulSqrt R] in
theorem readLoopJ_append (k : Kind) : ∀ (rs rs' : List (Rec R (ar k))) (s : JState R) (nodes : Int → Option (Option Nat)) (e : PtrEdge),
    readLoopJ J k (rs ++ rs') s nodes e = (readLoopJ J k rs s nodes e).bind (fun r => readLoopJ J k rs' r.1 r.2.1 r.2.2)
  | [], _, _, _, _ => rfl
  | r :: rs, rs', s, nodes, e => by
    rw [List.cons_append, readLoopJ, readLoopJ]
    cases h : readNodeJ J k s nodes r with
    | none => rfl
    | some q => exact readLoopJ_append k rs rs' _ _ _

omit [IsStrictOrderedRing R] [LawfulSqrt R] in
theorem transferLoopJ_append (k : Kind) (o : JState R) : ∀ (as as' : List Nat) (s : JState R) (mapped : Nat → Option (Option Nat)) (e : PtrEdge),
    JState.transferLoop J k o (as ++ as') s mapped e = (JState.transferLoop J k o as s mapped e).bind (fun r => JState.transferLoop J k o as' r.1 r.2.1 r.2.2)
  | [], _, _, _, _ => rfl
  | a :: as, as', s, mapped, e => by
    rw [List.cons_append, JState.transferLoop, JState.transferLoop]
    dsimp only
    split_ifs with h
    · exact transferLoopJ_append k o as as' _ _ _
    · rfl

/-- One node is built from copied edges. -/
theorem build_spec (hJ : J.Good) (hτ : 0 ≤ τ) (ho : TInv J τ o) {δ : R} (hd0 : 0 ≤ δ) (hδ : δ + 5 * τ ≤ 1 / 100) {a m : Nat}
    (hm : 1000 * ((m : R) + 1) * τ ≤ 1) (ha : a ∈ (o.tab .v).tab.all) (hv : ((o.tab .v).tab.mem a).v < m)
    (hs : o.SumsLe J δ (((o.tab .v).tab.mem a).v + 1) (some a)) (h : TInv J τ s) (hn : m ≤ (s.tab .v).tab.nvars)
    {q : JState R × (Fin 2 → Option PtrEdge)} (q1 : TInv J τ q.1) (q2 : Grow J s q.1) (q3 : TReach J τ s → TReach J τ q.1)
    (q4 : ∀ i, ∃ x, q.2 i = some x ∧ CpE J τ o q.1 (2 * δ + 25 * τ) ((o.tab .v).tab.mem a).v (((o.tab .v).tab.mem a).e i) x) :
    (∀ i, (q.2 i).isSome) ∧ ∃ n, n = makeU J q.1 ((o.tab .v).tab.mem a).v (fun i => (q.2 i).getD zeroP) ∧ TInv J τ n.1 ∧ Grow J s n.1 ∧
      (TReach J τ s → TReach J τ n.1) ∧ RootRes J τ δ o n.1 a n.2 := by
  have hx : ∀ i, CpE J τ o q.1 (2 * δ + 25 * τ) ((o.tab .v).tab.mem a).v (((o.tab .v).tab.mem a).e i) ((q.2 i).getD zeroP) := by
    intro i
    obtain ⟨x, e, hx⟩ := q4 i
    rw [e]; exact hx
  refine ⟨fun i => ?_, _, rfl, ?_⟩
  · obtain ⟨x, e, hx⟩ := q4 i
    rw [e]; rfl
  · have hl : 1000 * (((((o.tab .v).tab.mem a).v : Nat) : R) + 1) * τ ≤ 1 := by
      have : ((((o.tab .v).tab.mem a).v : Nat) : R) ≤ m := by exact_mod_cast hv.le
      have := mul_le_mul_of_nonneg_right this hτ
      linarith
    obtain ⟨b, r, u, c, hr, hst⟩ := copyN hJ hτ ho q1 hd0 hδ hl ⟨ha, rfl⟩ (by rw [q2.nvars .v]; omega) hs (es := fun i => (q.2 i).getD zeroP)
      (fun i => (hx i).live) (fun i => (hx i).near) (fun i => (hx i).copy) (fun i => (hx i).none)
    refine ⟨u.inv, q2.trans u.grow, fun hh => hr (q3 hh), ⟨b, by rw [u.eq], c⟩, by rw [u.eq]; exact u.live, ?_, ?_⟩
    · rw [u.eq]
      refine u.size.trans ?_
      linarith
    · rw [u.eq]; exact hst

/-- Looking up a weight of another package. -/
theorem lookupX_grow (hJ : J.Good) (hτ : 0 ≤ τ) (h : TInv J τ s) (o : JState R) (c : CNum Loc) :
    TInv J τ (s.lookupX J c (o.ct.cval J.C c)).1 ∧ Grow J s (s.lookupX J c (o.ct.cval J.C c)).1 ∧
      (TReach J τ s → TReach J τ (s.lookupX J c (o.ct.cval J.C c)).1) ∧
      (s.lookupX J c (o.ct.cval J.C c)).1.ct.LiveC J.C (s.lookupX J c (o.ct.cval J.C c)).2 ∧
      mag ((s.lookupX J c (o.ct.cval J.C c)).1.ct.cval J.C (s.lookupX J c (o.ct.cval J.C c)).2 - o.ct.cval J.C c) ≤ 3 / 2 * τ ∧
      (c = CNum.zero → (s.lookupX J c (o.ct.cval J.C c)).2 = CNum.zero) := by
  unfold JState.lookupX
  split_ifs with h0 h1
  · refine ⟨h, .refl s, id, ⟨trivial, trivial⟩, ?_, fun _ => rfl⟩
    rw [h0, cval_zero, cval_zero, sub_self, mag_zero]; linarith
  · refine ⟨h, .refl s, id, ⟨trivial, trivial⟩, ?_, fun e => absurd e h0⟩
    rw [h1, cval_one, cval_one, sub_self, mag_zero]; linarith
  · obtain ⟨a1, a2, a3, a4⟩ := lookupC_grow hJ hτ h (o.ct.cval J.C c)
    exact ⟨a1, a2, fun hr => lookupC_reach' hr _, a3, a4, fun e => absurd e h0⟩

/-- `deserialize` rebuilds the nodes. -/
theorem readLoop_spec (hJ : J.Good) (hτ : 0 ≤ τ) (ho : TInv J τ o) (hty : o.Tidy J) {δ : R} (hd0 : 0 ≤ δ) (hδ : δ + 5 * τ ≤ 1 / 100) (binary : Bool)
    (h : TInv J τ s) {m : Nat} (hm : 1000 * ((m : R) + 1) * τ ≤ 1) (hn : m ≤ (s.tab .v).tab.nvars) {L : List Nat} (hL : Topo (n := 2) (o.tabV J .v) m L) :
    (∀ a ∈ L, o.SumsLe J δ (((o.tab .v).tab.mem a).v + 1) (some a)) →
    ∃ s' nodes e, readLoopJ J .v (records binary (o.tabV J .v) L) s (fun _ => none) zeroP = some (s', nodes, e) ∧ TInv J τ s' ∧ Grow J s s' ∧
      (TReach J τ s → TReach J τ s') ∧
      (∀ a ∈ L, ∃ b, nodes (L.idxOf a) = some (some b) ∧ Cp J o s' (2 * δ + 25 * τ) (((o.tab .v).tab.mem a).v + 1) (some a) (some b)) ∧
      (∀ N a, L = N ++ [a] → RootRes J τ δ o s' a e) := by
  have K0 : 0 ≤ 2 * δ + 25 * τ := by linarith
  induction hL with
  | nil => intro _; exact ⟨s, _, _, rfl, h, .refl s, id, by simp, by simp⟩
  | @snoc L a hL ha hva hnot hch ih =>
    intro hsum
    obtain ⟨s1, nodes, e, e1, w1, x1, u1, i1, _⟩ := ih (fun b hb => hsum b (List.mem_append_left _ hb))
    have hidx : (L ++ [a]).idxOf a = L.length := by rw [List.idxOf_append_of_notMem hnot]; simp
    have hri : recIdx (L ++ [a]) (⟨some a, 0⟩ : PEdge R) = (L.length : Int) := by
      unfold recIdx
      dsimp only
      rw [if_pos (by simp), hidx]
    -- the edges
    have hedge : ∀ (i : Fin 2) s2, TInv J τ s2 → Grow J s1 s2 → EdgeStep J τ o s2 (2 * δ + 25 * τ) ((o.tab .v).tab.mem a).v
        (((o.tab .v).tab.mem a).e i) (recEdgeJ J nodes ((mkRec binary (o.tabV J .v) (L ++ [a]) a).e i) s2) := by
      intro i s2 t2 g2
      have vk := (ho.kids a ha i).1
      have lk := lookupC_grow hJ hτ t2 (o.ct.cval J.C (((o.tab .v).tab.mem a).e i).w)
      show EdgeStep J τ o s2 _ _ _ (recEdgeJ J nodes (if (binary || !decide (o.ct.cval J.C (((o.tab .v).tab.mem a).e i).w = 0)) = true then
        some (recIdx (L ++ [a]) (⟨(((o.tab .v).tab.mem a).e i).p, o.ct.cval J.C (((o.tab .v).tab.mem a).e i).w⟩ : PEdge R),
          o.ct.cval J.C (((o.tab .v).tab.mem a).e i).w) else none) s2)
      cases hq : (((o.tab .v).tab.mem a).e i).p with
      | none =>
        split_ifs with hb
        · have : recIdx (L ++ [a]) (⟨none, o.ct.cval J.C (((o.tab .v).tab.mem a).e i).w⟩ : PEdge R) = -1 := rfl
          rw [this]
          unfold recEdgeJ
          dsimp only
          rw [if_neg (by decide), if_pos rfl]
          refine ⟨⟨lk.1, fun hr => lookupC_reach' hr _⟩, lk.2.1, _, rfl, lk.2.2.1, lk.2.2.2, ?_, fun _ => ?_⟩
          · rw [hq]; exact cp_terminal K0 _
          · rcases vk.none hq with h1 | h1
            · exact Or.inl h1
            · right
              rw [h1, cval_zero]
              exact lookupC_zero hJ hτ t2
        · unfold recEdgeJ
          dsimp only
          simp only [Bool.or_eq_true, Bool.not_eq_true', not_or, Bool.not_eq_true, Bool.not_eq_false, decide_eq_true_eq] at hb
          refine ⟨⟨t2, id⟩, .refl s2, _, rfl, ⟨trivial, trivial⟩, ?_, ?_, fun _ => Or.inr rfl⟩
          · rw [hb.2]
            show mag ((0 : Cx R) - 0) ≤ _
            rw [sub_self, mag_zero]; linarith
          · rw [hq]; exact cp_terminal K0 _
      | some b =>
        have hne := hty a ha i b hq
        have hbL := hch i b hq
        obtain ⟨c, hc, him⟩ := i1 b hbL
        have hvb : ((o.tab .v).tab.mem b).v + 1 = ((o.tab .v).tab.mem a).v := by
          have := vk.node
          rw [hq] at this
          exact this.2
        rw [if_pos (by simp [hne])]
        have hz : recIdx (L ++ [a]) (⟨some b, o.ct.cval J.C (((o.tab .v).tab.mem a).e i).w⟩ : PEdge R) = (L.idxOf b : Int) := by
          unfold recIdx
          dsimp only
          rw [if_pos (List.mem_append_left _ hbL), List.idxOf_append_of_mem hbL]
        rw [hz]
        unfold recEdgeJ
        dsimp only
        rw [if_neg (by omega), if_neg (by omega), hc]
        refine ⟨⟨lk.1, fun hr => lookupC_reach' hr _⟩, lk.2.1, _, rfl, lk.2.2.1, lk.2.2.2, ?_, fun h => by cases h⟩
        rw [hq]
        have := him.mono w1 lk.1 (g2.trans lk.2.1)
        rw [hvb] at this
        exact this
    obtain ⟨q1, q2, q3, q4⟩ := edges_spec w1 hedge
    obtain ⟨b1, n, hne, n1, n2, n3, n4⟩ := build_spec hJ hτ ho hd0 hδ hm ha hva (hsum a (by simp)) w1 (by rw [x1.nvars .v]; exact hn) q1 q2 q3 q4
    obtain ⟨b, hb, hcp⟩ := n4.node
    refine ⟨n.1, Function.update nodes (L.length : Int) (some n.2.p), n.2, ?_, n1, x1.trans n2, fun hr => n3 (u1 hr), ?_, ?_⟩
    · rw [records_snoc, readLoopJ_append, e1, Option.bind_some, readLoopJ]
      have : readNodeJ J .v s1 nodes (mkRec binary (o.tabV J .v) (L ++ [a]) a) =
          some (n.1, Function.update nodes (L.length : Int) (some n.2.p), n.2) := by
        unfold readNodeJ
        have hix : (mkRec binary (o.tabV J .v) (L ++ [a]) a).idx = (L.length : Int) := hri
        rw [hix, if_neg (by omega)]
        dsimp only
        rw [if_pos b1]
        rw [hne]
        rfl
      rw [this]
      rfl
    · intro c hc
      rcases List.mem_append.1 hc with hc | hc
      · obtain ⟨b', hb', him⟩ := i1 c hc
        refine ⟨b', ?_, him.mono w1 n1 n2⟩
        rw [List.idxOf_append_of_mem hc, Function.update_of_ne, hb']
        have := List.idxOf_lt_length_of_mem hc
        omega
      · rw [List.mem_singleton] at hc
        subst hc
        rw [hidx]
        exact ⟨b, by rw [Function.update_self, hb], hcp⟩
    · intro N c hN
      have := List.append_inj' hN rfl
      cases this.2
      exact n4

/-- `transfer` rebuilds the nodes. -/
theorem transferLoopJ_spec (hJ : J.Good) (hτ : 0 ≤ τ) (ho : TInv J τ o) {δ : R} (hd0 : 0 ≤ δ) (hδ : δ + 5 * τ ≤ 1 / 100)
    (h : TInv J τ s) {m : Nat} (hm : 1000 * ((m : R) + 1) * τ ≤ 1) (hn : m ≤ (s.tab .v).tab.nvars) {L : List Nat} (hL : Topo (n := 2) (o.tabV J .v) m L) :
    (∀ a ∈ L, o.SumsLe J δ (((o.tab .v).tab.mem a).v + 1) (some a)) →
    ∃ s' mapped e, JState.transferLoop J .v o L s (fun _ => none) zeroP = some (s', mapped, e) ∧ TInv J τ s' ∧ Grow J s s' ∧
      (TReach J τ s → TReach J τ s') ∧
      (∀ a ∈ L, ∃ b, mapped a = some (some b) ∧ Cp J o s' (2 * δ + 25 * τ) (((o.tab .v).tab.mem a).v + 1) (some a) (some b)) ∧
      (∀ N a, L = N ++ [a] → RootRes J τ δ o s' a e) := by
  have K0 : 0 ≤ 2 * δ + 25 * τ := by linarith
  induction hL with
  | nil => intro _; exact ⟨s, _, _, rfl, h, .refl s, id, by simp, by simp⟩
  | @snoc L a hL ha hva hnot hch ih =>
    intro hsum
    obtain ⟨s1, mapped, e, e1, w1, x1, u1, i1, _⟩ := ih (fun b hb => hsum b (List.mem_append_left _ hb))
    have hedge : ∀ (i : Fin 2) s2, TInv J τ s2 → Grow J s1 s2 → EdgeStep J τ o s2 (2 * δ + 25 * τ) ((o.tab .v).tab.mem a).v
        (((o.tab .v).tab.mem a).e i) (copyEdgeJ J o mapped ((o.kidsK .v a).2 i) s2) := by
      intro i s2 t2 g2
      have vk := (ho.kids a ha i).1
      have ek : (o.kidsK .v a).2 i = ((o.tab .v).tab.mem a).e i := rfl
      rw [ek]
      obtain ⟨l1, l2, l3, l4, l5, l6⟩ := lookupX_grow hJ hτ t2 o (((o.tab .v).tab.mem a).e i).w
      unfold copyEdgeJ
      dsimp only
      cases hq : (((o.tab .v).tab.mem a).e i).p with
      | none =>
        refine ⟨⟨l1, l3⟩, l2, _, rfl, l4, l5, ?_, fun _ => ?_⟩
        · rw [hq]; exact cp_terminal K0 _
        · exact (vk.none hq).imp id l6
      | some b =>
        obtain ⟨c, hc, him⟩ := i1 b (hch i b hq)
        have hvb : ((o.tab .v).tab.mem b).v + 1 = ((o.tab .v).tab.mem a).v := by
          have := vk.node
          rw [hq] at this
          exact this.2
        dsimp only
        rw [hc]
        refine ⟨⟨l1, l3⟩, l2, _, rfl, l4, l5, ?_, fun h => by cases h⟩
        rw [hq]
        have := him.mono w1 l1 (g2.trans l2)
        rw [hvb] at this
        exact this
    obtain ⟨q1, q2, q3, q4⟩ := edges_spec w1 hedge
    obtain ⟨b1, n, hne, n1, n2, n3, n4⟩ := build_spec hJ hτ ho hd0 hδ hm ha hva (hsum a (by simp)) w1 (by rw [x1.nvars .v]; exact hn) q1 q2 q3 q4
    obtain ⟨b, hb, hcp⟩ := n4.node
    refine ⟨n.1, Function.update mapped a (some n.2.p), n.2, ?_, n1, x1.trans n2, fun hr => n3 (u1 hr), ?_, ?_⟩
    · rw [transferLoopJ_append, e1, Option.bind_some, JState.transferLoop]
      dsimp only
      rw [if_pos b1]
      rw [hne]
      rfl
    · intro c hc
      rcases List.mem_append.1 hc with hc | hc
      · obtain ⟨b', hb', him⟩ := i1 c hc
        refine ⟨b', ?_, him.mono w1 n1 n2⟩
        rw [Function.update_of_ne, hb']
        intro hca
        exact hnot (hca ▸ hc)
      · rw [List.mem_singleton] at hc
        subst hc
        exact ⟨b, by rw [Function.update_self, hb], hcp⟩
    · intro N c hN
      have := List.append_inj' hN rfl
      cases this.2
      exact n4

end DD
