import Verif.Proofs.SerMat
import Verif.Proofs.Use

/-!
# Copying diagrams node by node

The nodes of a diagram are already normalised, so that building them again, children first, yields nodes representing the same
function with weight one. This is used for `deserialize` and `transfer`.
-/

namespace DD

variable {R : Type} [Field R] [LinearOrder R] [IsStrictOrderedRing R] [HasSqrt R] [LawfulSqrt R]

/-- Node `b` of package `s` represents the same function as node `a` of the table `ts`. -/
def Img (k : Kind) (ts : UTable (Cx R) (ar k)) (s : Pkg R) (a b : Nat) : Prop :=
  Valid (s.ut k) ((ts.mem a).v + 1) ⟨some b, 1⟩ ∧
    ∀ d, amp (s.ut k) ((ts.mem a).v + 1) ⟨some b, 1⟩ d = amp ts ((ts.mem a).v + 1) ⟨some a, 1⟩ d

theorem Img.mono {P : PCfg R} {k : Kind} {ts : UTable (Cx R) (ar k)} {s s' : Pkg R} {a b : Nat} (h : Img k ts s a b) (hw : PWF P s ∅) (he : PExt s s') :
    Img k ts s' a b := by
  obtain ⟨h1, h2⟩ := he.unchanged hw k _ _ h.1
  exact ⟨h1, fun d => by rw [h2]; exact h.2 d⟩

/-- Building a normalised node gives an edge of weight one. -/
theorem makeDDNode_norm {P : PCfg R} {k : Kind} {s : Pkg R} {v : Nat} {es : Fin (ar k) → PEdge R} {c : Bool}
    (hn : IsNorm k (fun i => (es i).w)) : ∃ b, (Pkg.makeDDNode P k s v es c).2 = ⟨some b, 1⟩ := by
  unfold Pkg.makeDDNode Pkg.makeNodeWith
  cases hq : Pkg.norm k c es with
  | none =>
    obtain ⟨i, hi⟩ := hn.ne_zero
    exact absurd (norm_none.1 hq i) hi
  | some q =>
    obtain ⟨w, es'⟩ := q
    dsimp only
    have hs := norm_spec hq
    have : w = 1 := by
      refine IsNorm.unique hs.norm ?_
      have he : (fun i => w * (es' i).w) = fun i => (es i).w := by
        funext i; exact hs.value i
      rw [he]; exact hn
    rw [this]
    exact ⟨_, rfl⟩

/-- Copying a node whose children have been copied. -/
theorem copyNode {P : PCfg R} (hC : 0 < P.C.growth) {k : Kind} {H : (Fin (ar k) → PEdge R) → Nat} {ts : UTable (Cx R) (ar k)} (hts : DDWF H ts)
    {s : Pkg R} (hw : PWF P s ∅) {a : Nat} (ha : a ∈ ts.all) (hv : (ts.mem a).v < (s.ut k).nvars) {es : Fin (ar k) → PEdge R}
    (hes : ∀ i, (es i).w = ((ts.mem a).e i).w ∧ match ((ts.mem a).e i).p with
      | none => (es i).p = none
      | some b => ∃ c, (es i).p = some c ∧ Img k ts s b c) :
    ∃ s' b, Pkg.makeDDNode P k s (ts.mem a).v es false = (s', ⟨some b, 1⟩) ∧ PWF P s' ∅ ∧ PExt s s' ∧ Built P s s' ∧ Img k ts s' a b := by
  have hval : ∀ i, Valid (s.ut k) (ts.mem a).v (es i) ∧
      ∀ d, amp (s.ut k) (ts.mem a).v (es i) d = amp ts (ts.mem a).v ((ts.mem a).e i) d := by
    intro i
    obtain ⟨hwi, hpi⟩ := hes i
    have hch := hts.child a ha i
    cases hq : ((ts.mem a).e i).p with
    | none =>
      rw [hq] at hpi
      dsimp only at hpi
      refine ⟨(valid_none hpi).2 ?_, fun d => ?_⟩
      · rw [hwi]; exact (valid_none hq).1 hch
      · rw [amp_none hpi, amp_none hq, hwi]
    | some b =>
      rw [hq] at hpi
      obtain ⟨c, hc, him⟩ := hpi
      obtain ⟨v1, v2, v3⟩ := (valid_some hq).1 hch
      have hi := him.1
      have ha := him.2
      rw [v2] at hi ha
      have h1 := (valid_some (e := ⟨some c, 1⟩) rfl).1 hi
      refine ⟨(valid_some hc).2 ⟨h1.1, h1.2.1, by rw [hwi]; exact v3⟩, fun d => ?_⟩
      rw [amp_eq_smul _ _ (es i), amp_eq_smul _ _ ((ts.mem a).e i), hwi, hc, hq, ha d]
  have o := makeDDNode_spec hC (k := k) (v := (ts.mem a).v) (es := es) false hw hv (by simp) (fun i => (hval i).1)
  obtain ⟨b, hb⟩ := makeDDNode_norm (P := P) (s := s) (v := (ts.mem a).v) (es := es) (c := false) (k := k) (by
    have : (fun i => (es i).w) = fun i => ((ts.mem a).e i).w := by funext i; exact (hes i).1
    rw [this]; exact hts.norm a ha)
  refine ⟨_, b, by rw [← hb], o.wf, o.ext, fun held => .single (.makeDDNode (h := ⟨s, held⟩) k _ es false hv (fun i => (hval i).1)), ?_, ?_⟩
  · rw [← hb]; exact o.valid
  · intro d
    rw [← hb, o.val, (hval _).2, amp_some rfl, one_mul]

section records
variable {n : Nat}

omit [IsStrictOrderedRing R] [HasSqrt R] [LawfulSqrt R] in
theorem records_snoc (binary : Bool) (t : UTable (Cx R) n) (L : List Nat) (a : Nat) :
    records binary t (L ++ [a]) = records binary t L ++ [mkRec binary t (L ++ [a]) a] := by
  unfold records
  rw [List.length_append, List.length_singleton, List.range_succ, List.map_append, List.map_singleton]
  congr 1
  · refine List.map_congr_left (fun i hi => ?_)
    rw [List.mem_range] at hi
    rw [List.take_append_of_le_length (by omega), List.getD_eq_getElem?_getD, List.getD_eq_getElem?_getD, List.getElem?_append_left hi]
  · rw [List.take_of_length_le (by simp)]
    simp

end records

theorem deserializeLoop_append (P : PCfg R) (k : Kind) : ∀ (rs rs' : List (Rec R (ar k))) (s : Pkg R) (nodes : Int → Option (Option Nat)) (e : PEdge R),
    Pkg.deserializeLoop P k (rs ++ rs') s nodes e =
      (Pkg.deserializeLoop P k rs s nodes e).bind (fun r => Pkg.deserializeLoop P k rs' r.1 r.2.1 r.2.2)
  | [], _, _, _, _ => rfl
  | r :: rs, rs', s, nodes, e => by
    rw [List.cons_append, Pkg.deserializeLoop, Pkg.deserializeLoop]
    cases h : Pkg.deserializeNode P k s nodes r with
    | none => rfl
    | some q => exact deserializeLoop_append P k rs rs' _ _ _

theorem transferLoop_append (P : PCfg R) (k : Kind) (t : UTable (Cx R) (ar k)) : ∀ (as as' : List Nat) (s : Pkg R)
    (mapped : Nat → Option (Option Nat)) (e : PEdge R),
    Pkg.transferLoop P k t (as ++ as') s mapped e =
      (Pkg.transferLoop P k t as s mapped e).bind (fun r => Pkg.transferLoop P k t as' r.1 r.2.1 r.2.2)
  | [], _, _, _, _ => rfl
  | a :: as, as', s, mapped, e => by
    rw [List.cons_append, Pkg.transferLoop, Pkg.transferLoop]
    cases h : Pkg.mapEdges mapped (t.mem a).e with
    | none => rfl
    | some q => exact transferLoop_append P k t as as' _ _ _

/-- `deserialize` rebuilds the nodes. -/
theorem deserializeLoop_spec {P : PCfg R} (hC : 0 < P.C.growth) {k : Kind} {H : (Fin (ar k) → PEdge R) → Nat} {ts : UTable (Cx R) (ar k)}
    (hts : DDWF H ts) (binary : Bool) {s : Pkg R} (hw : PWF P s ∅) {m : Nat} (hm : m ≤ (s.ut k).nvars) {L : List Nat} (hL : Topo ts m L) :
    ∃ s' nodes e, Pkg.deserializeLoop P k (records binary ts L) s (fun _ => none) zeroE = some (s', nodes, e) ∧ PWF P s' ∅ ∧ PExt s s' ∧ Built P s s' ∧
      (∀ a ∈ L, ∃ b, nodes (L.idxOf a) = some (some b) ∧ Img k ts s' a b) ∧
      (∀ N a, L = N ++ [a] → ∃ b, e = ⟨some b, 1⟩ ∧ Img k ts s' a b) ∧ (L = [] → e = zeroE) := by
  induction hL with
  | nil => exact ⟨s, _, _, rfl, hw, PExt.refl s, Built.refl P s, by simp, by simp, fun _ => rfl⟩
  | @snoc L a hL ha hva hnot hch ih =>
    obtain ⟨s1, nodes, e, e1, w1, x1, u1, i1, _, _⟩ := ih
    have hidx : (L ++ [a]).idxOf a = L.length := by rw [List.idxOf_append_of_notMem hnot]; simp
    have hri : recIdx (L ++ [a]) (⟨some a, 0⟩ : PEdge R) = (L.length : Int) := by
      unfold recIdx
      dsimp only
      rw [if_pos (by simp), hidx]
    -- the edges
    have hedge : ∀ i, ∃ x, Pkg.recEdge nodes ((mkRec binary ts (L ++ [a]) a).e i) = some x ∧ x.w = ((ts.mem a).e i).w ∧
        match ((ts.mem a).e i).p with
        | none => x.p = none
        | some b => ∃ c, x.p = some c ∧ Img k ts s1 b c := by
      intro i
      unfold mkRec
      dsimp only
      cases hq : ((ts.mem a).e i).p with
      | none =>
        split_ifs with h
        · refine ⟨⟨none, ((ts.mem a).e i).w⟩, ?_, rfl, rfl⟩
          rw [Pkg.recEdge, show recIdx (L ++ [a]) ((ts.mem a).e i) = -1 by unfold recIdx; rw [hq]]
          rfl
        · refine ⟨zeroE, rfl, ?_, rfl⟩
          simp only [Bool.or_eq_true, Bool.not_eq_true', not_or, Bool.not_eq_true, Bool.not_eq_false, decide_eq_true_eq] at h
          exact h.2.symm
      | some b =>
        obtain ⟨v1, v2, v3⟩ := (valid_some hq).1 (hts.child a ha i)
        have hbL := hch i b hq
        obtain ⟨c, hc, him⟩ := i1 b hbL
        rw [if_pos (by simp [v3])]
        refine ⟨⟨some c, ((ts.mem a).e i).w⟩, ?_, rfl, c, rfl, him⟩
        have hz : recIdx (L ++ [a]) ((ts.mem a).e i) = (L.idxOf b : Int) := by
          unfold recIdx
          rw [hq]
          dsimp only
          rw [if_pos (List.mem_append_left _ hbL), List.idxOf_append_of_mem hbL]
        rw [Pkg.recEdge, hz, if_neg (by omega), if_neg (by omega), hc]
    have hall : ∀ i, (Pkg.recEdge nodes ((mkRec binary ts (L ++ [a]) a).e i)).isSome := by
      intro i
      obtain ⟨x, hx, _⟩ := hedge i
      rw [hx]; rfl
    obtain ⟨s2, b, e2, w2, x2, u2, i2⟩ := copyNode hC hts w1 ha (by rw [(x1 k).nvars]; omega)
      (es := fun i => (Pkg.recEdge nodes ((mkRec binary ts (L ++ [a]) a).e i)).getD zeroE) (fun i => by
        obtain ⟨x, hx, h1, h2⟩ := hedge i
        rw [hx]
        exact ⟨h1, h2⟩)
    refine ⟨s2, Function.update nodes (L.length : Int) (some (some b)), ⟨some b, 1⟩, ?_, w2, x1.trans x2, u1.trans u2, ?_, ?_, by simp⟩
    · rw [records_snoc, deserializeLoop_append, e1, Option.bind_some, Pkg.deserializeLoop]
      have : Pkg.deserializeNode P k s1 nodes (mkRec binary ts (L ++ [a]) a) =
          some (s2, Function.update nodes (L.length : Int) (some (some b)), ⟨some b, 1⟩) := by
        unfold Pkg.deserializeNode
        have hix : (mkRec binary ts (L ++ [a]) a).idx = (L.length : Int) := hri
        rw [hix, if_neg (by omega)]
        unfold Pkg.recEdges
        rw [if_pos hall]
        dsimp only
        rw [show (mkRec binary ts (L ++ [a]) a).v = (ts.mem a).v from rfl, e2]
      rw [this]
      rfl
    · intro c hc
      rcases List.mem_append.1 hc with hc | hc
      · obtain ⟨b', hb', him⟩ := i1 c hc
        refine ⟨b', ?_, him.mono w1 x2⟩
        rw [List.idxOf_append_of_mem hc, Function.update_of_ne, hb']
        have := List.idxOf_lt_length_of_mem hc
        omega
      · rw [List.mem_singleton] at hc
        subst hc
        rw [hidx]
        exact ⟨b, by simp, i2⟩
    · intro N c hN
      have := List.append_inj' hN rfl
      cases this.2
      exact ⟨b, rfl, i2⟩

/-- `transfer` rebuilds the nodes. -/
theorem transferLoop_spec {P : PCfg R} (hC : 0 < P.C.growth) {k : Kind} {H : (Fin (ar k) → PEdge R) → Nat} {ts : UTable (Cx R) (ar k)}
    (hts : DDWF H ts) {s : Pkg R} (hw : PWF P s ∅) {m : Nat} (hm : m ≤ (s.ut k).nvars) {L : List Nat} (hL : Topo ts m L) :
    ∃ s' mapped e, Pkg.transferLoop P k ts L s (fun _ => none) zeroE = some (s', mapped, e) ∧ PWF P s' ∅ ∧ PExt s s' ∧ Built P s s' ∧
      (∀ a ∈ L, ∃ b, mapped a = some (some b) ∧ Img k ts s' a b) ∧
      (∀ N a, L = N ++ [a] → ∃ b, e = ⟨some b, 1⟩ ∧ Img k ts s' a b) := by
  induction hL with
  | nil => exact ⟨s, _, _, rfl, hw, PExt.refl s, Built.refl P s, by simp, by simp⟩
  | @snoc L a hL ha hva hnot hch ih =>
    obtain ⟨s1, mapped, e, e1, w1, x1, u1, i1, _⟩ := ih
    have hedge : ∀ i, ∃ x : PEdge R, (Pkg.mapEdge mapped ((ts.mem a).e i)) = some x ∧ x.w = ((ts.mem a).e i).w ∧
        match ((ts.mem a).e i).p with
        | none => x.p = none
        | some b => ∃ c, x.p = some c ∧ Img k ts s1 b c := by
      intro i
      cases hq : ((ts.mem a).e i).p with
      | none =>
        refine ⟨(ts.mem a).e i, ?_, rfl, hq⟩
        rw [Pkg.mapEdge, hq]
      | some b =>
        obtain ⟨c, hc, him⟩ := i1 b (hch i b hq)
        refine ⟨⟨some c, ((ts.mem a).e i).w⟩, ?_, rfl, c, rfl, him⟩
        rw [Pkg.mapEdge, hq]
        dsimp only
        rw [hc]
    obtain ⟨s2, b, e2, w2, x2, u2, i2⟩ := copyNode hC hts w1 ha (by rw [(x1 k).nvars]; omega)
      (es := fun i => (Pkg.mapEdge mapped ((ts.mem a).e i)).getD zeroE) (fun i => by
        obtain ⟨x, hx, h1, h2⟩ := hedge i
        rw [hx]
        exact ⟨h1, h2⟩)
    refine ⟨s2, Function.update mapped a (some (some b)), ⟨some b, 1⟩, ?_, w2, x1.trans x2, u1.trans u2, ?_, ?_⟩
    · rw [transferLoop_append, e1, Option.bind_some, Pkg.transferLoop]
      have : Pkg.mapEdges mapped (ts.mem a).e = some (fun i => (Pkg.mapEdge mapped ((ts.mem a).e i)).getD zeroE) := by
        unfold Pkg.mapEdges
        rw [if_pos]
        intro i
        obtain ⟨x, hx, _⟩ := hedge i
        rw [hx]; rfl
      rw [this]
      dsimp only
      rw [e2]
      rfl
    · intro c hc
      rcases List.mem_append.1 hc with hc | hc
      · obtain ⟨b', hb', him⟩ := i1 c hc
        refine ⟨b', ?_, him.mono w1 x2⟩
        rw [Function.update_of_ne, hb']
        intro hca
        exact hnot (hca ▸ hc)
      · rw [List.mem_singleton] at hc
        subst hc
        exact ⟨b, by simp, i2⟩
    · intro N c hN
      have := List.append_inj' hN rfl
      cases this.2
      exact ⟨b, rfl, i2⟩

end DD
