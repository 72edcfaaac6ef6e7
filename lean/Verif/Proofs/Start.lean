import Verif.Proofs.Kron
import Verif.Model.Start
import Verif.Proofs.State

/-!
# Diagrams whose lowest nodes are not at level 0

The lemmas on `makeDDNode` need that terminal edges occur only below level 0. For diagrams built with `start > 0` only the
weaker property holds that levels decrease along edges.
-/

namespace DD

open UTable

section
variable {R : Type} [Field R] {n : Nat}

/-- The edge leads to the terminal or to a stored node below level `v`. -/
def LvBelow (t : UTable (Cx R) n) (v : Nat) (e : PEdge R) : Prop := ∀ b, e.p = some b → b ∈ t.all ∧ (t.mem b).v < v

/-- Levels decrease along edges. -/
def Ordered (t : UTable (Cx R) n) : Prop := ∀ a ∈ t.all, ∀ i, LvBelow t (t.mem a).v ((t.mem a).e i)

theorem LvBelow.term (t : UTable (Cx R) n) (v : Nat) (w : Cx R) : LvBelow t v ⟨none, w⟩ := fun _ h => by simp at h

theorem LvBelow.mono {t t' : UTable (Cx R) n} (h : Le t t') {v : Nat} {e : PEdge R} (hb : LvBelow t v e) : LvBelow t' v e := by
  intro b he
  obtain ⟨h1, h2⟩ := hb b he
  obtain ⟨h3, h4, _⟩ := h b h1
  exact ⟨h3, h4 ▸ h2⟩

theorem LvBelow.up {t : UTable (Cx R) n} {v w : Nat} {e : PEdge R} (hb : LvBelow t v e) (h : v ≤ w) : LvBelow t w e :=
  fun b he => ⟨(hb b he).1, (hb b he).2.trans_le h⟩

theorem LvBelow.ptr {t : UTable (Cx R) n} {v : Nat} {e e' : PEdge R} (hb : LvBelow t v e) (h : e'.p = e.p) : LvBelow t v e' :=
  fun b he => hb b (h ▸ he)

variable [DecidableEq R]

/-- The loop is linear in the factor collected so far. -/
theorem pathLoop_mul (t : UTable (Cx R) n) (d : Nat → Fin n) : ∀ (l : Nat) (e : PEdge R) (c : Cx R),
    Pkg.pathLoop t d l e c = c * e.w * Pkg.pathLoop t d l ⟨e.p, 1⟩ 1 := by
  intro l
  induction l with
  | zero => intro e c; simp [Pkg.pathLoop]
  | succ l ih =>
    intro e c
    unfold Pkg.pathLoop
    cases hp : e.p with
    | none => simp
    | some a =>
      dsimp only
      rw [ih, ih _ (1 * 1)]
      ring

/-- Enough steps are enough. -/
theorem pathLoop_fuel {t : UTable (Cx R) n} (ho : Ordered t) (d : Nat → Fin n) : ∀ (l m : Nat) (e : PEdge R) (c : Cx R),
    LvBelow t l e → LvBelow t m e → Pkg.pathLoop t d l e c = Pkg.pathLoop t d m e c := by
  intro l
  induction l with
  | zero =>
    intro m e c h1 _
    have hp : e.p = none := by
      cases hp : e.p with
      | none => rfl
      | some b => exact absurd (h1 b hp).2 (by omega)
    cases m <;> simp [Pkg.pathLoop, hp]
  | succ l ih =>
    intro m e c h1 h2
    cases hp : e.p with
    | none => cases m <;> simp [Pkg.pathLoop, hp]
    | some a =>
      obtain ⟨a1, a2⟩ := h1 a hp
      obtain ⟨_, a3⟩ := h2 a hp
      obtain ⟨m, rfl⟩ : ∃ k, m = k + 1 := ⟨m - 1, by omega⟩
      unfold Pkg.pathLoop
      simp only [hp]
      exact ih m _ _ ((ho a a1 _).up (by omega)) ((ho a a1 _).up (by omega))

/-- Nodes that are added do not matter. -/
theorem pathLoop_mono {t t' : UTable (Cx R) n} (ho : Ordered t) (hle : Le t t') (d : Nat → Fin n) : ∀ (l : Nat)
    (e : PEdge R) (c : Cx R), LvBelow t l e → Pkg.pathLoop t' d l e c = Pkg.pathLoop t d l e c := by
  intro l
  induction l with
  | zero => intro e c _; rfl
  | succ l ih =>
    intro e c hb
    unfold Pkg.pathLoop
    cases hp : e.p with
    | none => rfl
    | some a =>
      obtain ⟨a1, a2⟩ := hb a hp
      obtain ⟨_, a3, a4⟩ := hle a a1
      dsimp only
      rw [a3, a4]
      exact ih _ _ ((ho a a1 _).up (by omega))

theorem valueByPath_eq {t : UTable (Cx R) n} (ho : Ordered t) (d : Nat → Fin n) {l : Nat} {e : PEdge R} (hb : LvBelow t l e) :
    Pkg.valueByPath t e d = Pkg.pathLoop t d l e 1 := by
  unfold Pkg.valueByPath
  cases hp : e.p with
  | none => cases l <;> simp [Pkg.pathLoop, hp]
  | some a =>
    dsimp only
    refine pathLoop_fuel ho d _ _ e 1 ?_ hb
    intro b hb'
    obtain rfl : a = b := by rw [hp] at hb'; exact Option.some.inj hb'
    refine ⟨(hb a hp).1, ?_⟩
    simp [UTable.lvl, hp]

theorem valueByPath_mono {t t' : UTable (Cx R) n} (ho : Ordered t) (hle : Le t t') (d : Nat → Fin n) {l : Nat}
    {e : PEdge R} (hb : LvBelow t l e) : Pkg.valueByPath t' e d = Pkg.valueByPath t e d := by
  unfold Pkg.valueByPath
  cases hp : e.p with
  | none => rfl
  | some a =>
    dsimp only
    have ha := (hb a hp).1
    have hl : t'.lvl e = t.lvl e := by simp only [UTable.lvl, hp]; rw [(hle a ha).2.1]
    rw [hl]
    refine pathLoop_mono ho hle d _ e 1 ?_
    intro b hb'
    obtain rfl : a = b := by rw [hp] at hb'; exact Option.some.inj hb'
    exact ⟨ha, by simp [UTable.lvl, hp]⟩

/-- The value along a path is the weight times the value of the node. -/
theorem valueByPath_weight {t : UTable (Cx R) n} (ho : Ordered t) (d : Nat → Fin n) {l : Nat} {e : PEdge R} (hb : LvBelow t l e) :
    Pkg.valueByPath t e d = e.w * Pkg.valueByPath t ⟨e.p, 1⟩ d := by
  rw [valueByPath_eq ho d hb, pathLoop_mul, valueByPath_eq (e := ⟨e.p, 1⟩) ho d (hb.ptr rfl), one_mul]

theorem valueByPath_node {t : UTable (Cx R) n} (ho : Ordered t) (d : Nat → Fin n) {a : Nat} (ha : a ∈ t.all) (w : Cx R) :
    Pkg.valueByPath t ⟨some a, w⟩ d = w * Pkg.valueByPath t ((t.mem a).e (d (t.mem a).v)) d := by
  have hb : LvBelow t ((t.mem a).v + 1) ⟨some a, w⟩ := by
    intro b hb
    obtain rfl : a = b := Option.some.inj hb
    exact ⟨ha, Nat.lt_succ_self _⟩
  rw [valueByPath_eq ho d hb]
  unfold Pkg.pathLoop
  dsimp only
  rw [pathLoop_mul, valueByPath_eq ho d (ho a ha _), pathLoop_mul t d _ ((t.mem a).e (d (t.mem a).v)) 1]
  ring

end

section
variable {R : Type} [Field R] [LinearOrder R] [IsStrictOrderedRing R] [HasSqrt R] [LawfulSqrt R] {P : PCfg R}

/-- Nodes marked as identity have no blocks beside the diagonal, and the blocks on the diagonal have the same weight. -/
def MarkOK (t : UTable (Cx R) 4) : Prop :=
  ∀ a ∈ t.all, (t.mem a).ident = true → ((t.mem a).e 1).w = 0 ∧ ((t.mem a).e 2).w = 0 ∧ ((t.mem a).e 0).w = ((t.mem a).e 3).w

/-- The part of the invariant that also holds when diagrams have been built with `start > 0`. -/
structure SWF (P : PCfg R) (s : Pkg R) : Prop where
  uwf : ∀ k, UWF (P.uH k) (s.ut k)
  ord : ∀ k, Ordered (s.ut k)
  trans : CacheOK s.transC (fun a r => ∀ c, a.p = some c → c ∈ (s.ut .m).all ∧ LvBelow (s.ut .m) (((s.ut .m).mem c).v + 1) r)
  marks : MarkOK (s.ut .m)

/-- Nodes are only added. -/
def SExt (s s' : Pkg R) : Prop := ∀ k, Le (s.ut k) (s'.ut k) ∧ (s'.ut k).nvars = (s.ut k).nvars

theorem SExt.refl (s : Pkg R) : SExt s s := fun _ => ⟨Le.refl _, rfl⟩

theorem SExt.trans {s s' s'' : Pkg R} (h : SExt s s') (h' : SExt s' s'') : SExt s s'' :=
  fun k => ⟨(h k).1.trans (h' k).1, (h' k).2.trans (h k).2⟩

omit [HasSqrt R] [LawfulSqrt R] in
theorem PWF.swf {s : Pkg R} (h : PWF P s ∅) : SWF P s where
  uwf k := (h.tab k).uwf
  ord k := by
    intro a ha i b hb
    have := (h.tab k).child a ha i
    unfold Valid at this
    rw [hb] at this
    exact ⟨this.1, by omega⟩
  trans := h.transC.mono fun a r ⟨l, h1, h2, _⟩ c hc => by
    unfold Valid at h1 h2
    rw [hc] at h1
    refine ⟨h1.1, fun b hb => ?_⟩
    rw [hb] at h2
    exact ⟨h2.1, by omega⟩
  marks := by
    intro a ha hi
    have hid := mat_one_iff.1 (show mat _ _ _ = 1 from h.marks.ident a ha hi)
    have hb : ∀ i d, amp (s.ut .m) ((s.ut .m).mem a).v (((s.ut .m).mem a).e i) d = (if i = 0 ∨ i = 3 then 1 else 0) * idD _ d := by
      intro i d
      have := hid (Fin.snoc (α := fun _ => Fin 4) d i)
      rw [amp_snoc rfl] at this
      dsimp only at this
      rw [one_mul] at this
      rw [this]
      conv_lhs => unfold idD
      rw [Fin.snoc_last, Fin.init_snoc]
    have hv := fun i => (h.tab .m).child a ha i
    refine ⟨(h.tab .m).w_zero (hv 1) fun d => ?_, (h.tab .m).w_zero (hv 2) fun d => ?_, ?_⟩
    · rw [hb 1]; simp
    · rw [hb 2]; simp
    · rw [(h.tab .m).canonical (hv 0) (hv 3) fun d => by rw [hb 0, hb 3]; simp]

omit [IsStrictOrderedRing R] [HasSqrt R] [LawfulSqrt R] in
theorem SWF.trans_mono {s s' : Pkg R} (h : SWF P s) (he : SExt s s') (hc : s'.transC = s.transC) :
    CacheOK s'.transC (fun a r => ∀ c, a.p = some c → c ∈ (s'.ut .m).all ∧ LvBelow (s'.ut .m) (((s'.ut .m).mem c).v + 1) r) := by
  rw [hc]
  refine h.trans.mono fun a r hr c hac => ?_
  obtain ⟨h1, h2⟩ := hr c hac
  obtain ⟨h3, h4, _⟩ := (he .m).1 c h1
  exact ⟨h3, h4 ▸ h2.mono (he .m).1⟩

omit [IsStrictOrderedRing R] [HasSqrt R] [LawfulSqrt R] in
/-- Replacing a table by an extension. -/
theorem SWF.setUt {s : Pkg R} (h : SWF P s) {k : Kind} {t : UTable (Cx R) (ar k)} (hu : UWF (P.uH k) t) (ho : Ordered t)
    (hle : Le (s.ut k) t) (hn : t.nvars = (s.ut k).nvars) (hmk : MarkOK ((s.setUt k t).ut .m)) :
    SWF P (s.setUt k t) ∧ SExt s (s.setUt k t) := by
  have he : SExt s (s.setUt k t) := by
    intro k'
    by_cases hk : k' = k
    · subst hk; rw [Pkg.setUt_same]; exact ⟨hle, hn⟩
    · rw [Pkg.setUt_ne s hk]; exact ⟨Le.refl _, rfl⟩
  refine ⟨⟨?_, ?_, h.trans_mono he rfl, hmk⟩, he⟩
  · intro k'
    by_cases hk : k' = k
    · subst hk; rw [Pkg.setUt_same]; exact hu
    · rw [Pkg.setUt_ne s hk]; exact h.uwf k'
  · intro k'
    by_cases hk : k' = k
    · subst hk; rw [Pkg.setUt_same]; exact ho
    · rw [Pkg.setUt_ne s hk]; exact h.ord k'

/-- What is needed of the function used for the marks. -/
def TrOK (P : PCfg R) (tr : Pkg R → PEdge R → Pkg R × PEdge R) : Prop :=
  ∀ s e u, SWF P s → LvBelow (s.ut .m) u e → SWF P (tr s e).1 ∧ SExt s (tr s e).1 ∧ LvBelow ((tr s e).1.ut .m) u (tr s e).2

theorem checkSpecial_swf {tr : Pkg R → PEdge R → Pkg R × PEdge R} (htr : TrOK P tr) {s : Pkg R} (h : SWF P s) {a : Nat}
    (ha : a ∈ (s.ut .m).all) : SWF P (Pkg.checkSpecial tr s a) ∧ SExt s (Pkg.checkSpecial tr s a) := by
  unfold Pkg.checkSpecial
  dsimp only
  split
  · exact ⟨h, .refl _⟩
  · obtain ⟨h1, h2, _⟩ := htr s _ _ h (h.ord .m a ha 1)
    generalize tr s (((s.ut .m).mem a).e 1) = r at h1 h2
    split
    · exact ⟨h1, h2⟩
    · generalize hid : (_ && _ : Bool) = id
      have hmv : ∀ b, (((r.1.ut .m).setMem a { (r.1.ut .m).mem a with symm := true, ident := id }).mem b).v = ((r.1.ut .m).mem b).v ∧
          (((r.1.ut .m).setMem a { (r.1.ut .m).mem a with symm := true, ident := id }).mem b).e = ((r.1.ut .m).mem b).e ∧
          (((r.1.ut .m).setMem a { (r.1.ut .m).mem a with symm := true, ident := id }).mem b).ref = ((r.1.ut .m).mem b).ref := by
        intro b
        by_cases hb : b = a
        · subst hb; simp [UTable.setMem]
        · simp [UTable.setMem, hb]
      have hle : Le (r.1.ut .m) ((r.1.ut .m).setMem a { (r.1.ut .m).mem a with symm := true, ident := id }) :=
        fun b hb => ⟨hb, (hmv b).1, (hmv b).2.1⟩
      have hw := h1.uwf .m
      obtain ⟨k1, k2⟩ := h1.setUt (k := .m) (t := (r.1.ut .m).setMem a { (r.1.ut .m).mem a with symm := true, ident := id })
        (by
          refine ⟨hw.nb, hw.nodup, hw.availNodup, hw.disj, hw.allLt, hw.availLt, hw.brkLe, hw.szPos, ?_, ?_, hw.count, ?_⟩
          · intro v k b hb
            rw [(hmv b).1, (hmv b).2.1]; exact hw.bucket v k b hb
          · intro b hb c hc
            rw [(hmv b).1, (hmv b).2.1, (hmv c).1, (hmv c).2.1]; exact hw.uniq b hb c hc
          · intro b hb; rw [(hmv b).2.2]; exact hw.refZero b hb)
        (by
          intro b hb i
          rw [(hmv b).1, (hmv b).2.1]
          exact (h1.ord .m b hb i).mono hle) hle rfl
        (by
          rw [Pkg.setUt_same]
          intro b hb hi
          rw [(hmv b).2.1]
          by_cases hba : b = a
          · subst hba
            have hi' : id = true := by simpa [UTable.setMem] using hi
            rw [hi'] at hid
            simp only [Bool.and_eq_true, decide_eq_true_eq] at hid
            obtain ⟨⟨⟨⟨⟨_, q1⟩, q2⟩, q3⟩, q4⟩, _⟩ := hid
            rw [((h2 .m).1 b ha).2.2]
            exact ⟨q1, q2, q3.trans q4.symm⟩
          · exact h1.marks b hb (by simpa [UTable.setMem, hba] using hi))
      exact ⟨k1, h2.trans k2⟩

/-- The edge is zero if all of `es` are, and else leads to a node at level `v` with the normalised `es` as successors. -/
def Made {k : Kind} (t : UTable (Cx R) (ar k)) (v : Nat) (es : Fin (ar k) → PEdge R) (r : PEdge R) : Prop :=
  (r = zeroE ∧ ∀ i, (es i).w = 0) ∨
  (r.w ≠ 0 ∧ (∃ i, (es i).w ≠ 0) ∧ ∃ a, r.p = some a ∧ a ∈ t.all ∧ (t.mem a).v = v ∧
    ∀ i, r.w * ((t.mem a).e i).w = (es i).w ∧ ((es i).w ≠ 0 → ((t.mem a).e i).p = (es i).p) ∧
      ((es i).w = 0 → (t.mem a).e i = zeroE ∨ (t.mem a).e i = es i))

/-- `makeDDNode` for edges to lower nodes, at whatever level. -/
theorem makeNodeWith_full (hC : 0 < P.C.growth) {tr : Pkg R → PEdge R → Pkg R × PEdge R} (htr : TrOK P tr) {s : Pkg R}
    (h : SWF P s) {k : Kind} {v : Nat} (hv : v < (s.ut k).nvars) {es : Fin (ar k) → PEdge R}
    (hes : ∀ i, LvBelow (s.ut k) v (es i)) (cached : Bool) :
    let r := Pkg.makeNodeWith tr P k s v es cached
    (SWF P r.1 ∧ SExt s r.1 ∧ LvBelow (r.1.ut k) (v + 1) r.2 ∧
      ∀ d, Pkg.valueByPath (r.1.ut k) r.2 d = Pkg.valueByPath (s.ut k) (es (d v)) d) ∧ Made (r.1.ut k) v es r.2 := by
  unfold Pkg.makeNodeWith
  dsimp only
  have hg := getNode_spec (C := P.C) hC (h.uwf k)
  generalize (s.ut k).getNode P.C = g at hg
  obtain ⟨g1, g2, g3, g4, g5, g6, g7, g8, g9, g10⟩ := hg
  cases hn : Pkg.norm k cached es with
  | none =>
    rw [norm_none] at hn
    dsimp only
    have key : ∀ t : UTable (Cx R) (ar k), UWF (P.uH k) t → t.all = (s.ut k).all → t.mem = (s.ut k).mem → t.nvars = (s.ut k).nvars →
        SWF P (s.setUt k t) ∧ SExt s (s.setUt k t) := by
      intro t h1 h2 h3 h4
      have hle : Le (s.ut k) t := fun a ha => by rw [h2, h3]; exact ⟨ha, rfl, rfl⟩
      refine h.setUt h1 ?_ hle h4 ?_
      rotate_left
      · cases k with
        | v => rw [Pkg.setUt_ne s (by decide)]; exact h.marks
        | m =>
          rw [Pkg.setUt_same]
          intro a ha hi
          rw [h2] at ha
          rw [h3] at hi ⊢
          exact h.marks a ha hi
      intro a ha i
      rw [h2] at ha
      rw [h3]
      exact (h.ord k a ha i).mono hle
    have := key (if cached = true then g.1 else g.1.returnNode g.2)
      (by split; exacts [g1, returnNode_spec g1 g2]) (by split; exacts [g4, g4]) (by split; exacts [g8, g8]) (by split; exacts [g6, g6])
    refine ⟨⟨this.1, this.2, LvBelow.term _ _ _, fun d => ?_⟩, Or.inl ⟨rfl, hn⟩⟩
    rw [valueByPath_weight (h.ord k) d (hes (d v)), hn, zero_mul]
    rfl
  | some q =>
    obtain ⟨w, es'⟩ := q
    have hs := norm_spec hn
    have hz := norm_zero hn
    dsimp only
    have hes' : ∀ i, LvBelow (s.ut k) v (es' i) := by
      intro i
      by_cases hi : (es i).w = 0
      · rcases hz i hi with e | e
        · rw [e]; exact LvBelow.term _ _ _
        · rw [e]; exact hes i
      · exact (hes i).ptr (hs.ptr i hi)
    generalize ht2 : g.1.setMem g.2 { v := v, e := es', ref := (g.1.mem g.2).ref, ident := false, symm := false } = t2
    have t2all : t2.all = (s.ut k).all := by rw [← ht2]; exact g4
    have t2mem : ∀ a ∈ (s.ut k).all, t2.mem a = (s.ut k).mem a := by
      intro a ha
      have : a ≠ g.2 := fun e => g3 (e ▸ ha)
      rw [← ht2]
      simp [UTable.setMem, this, g8]
    have t2a : (t2.mem g.2).v = v ∧ (t2.mem g.2).e = es' := by rw [← ht2]; simp [UTable.setMem]
    have huwf2 : UWF (P.uH k) t2 := by rw [← ht2]; exact g1.setMem g2.2.1 _ g10
    have hfr : Fresh t2 g.2 := by rw [← ht2]; exact g2
    have t2nv : t2.nvars = (s.ut k).nvars := by rw [← ht2]; exact g6
    have hls := lookup_spec huwf2 hfr (by rw [t2a.1, t2nv]; exact hv)
    generalize t2.lookup (P.uH k) g.2 = l at hls
    obtain ⟨l1, l2, l3, l4, l5, l6, l7, l8⟩ := hls
    rw [← l2] at l6 l7
    have lmem : l.1.mem g.2 = t2.mem g.2 := by rw [l2]
    rw [lmem, t2a.2] at l6
    rw [lmem, t2a.1] at l7
    have hle : Le (s.ut k) l.1 := by
      intro a ha
      refine ⟨?_, by rw [l2, t2mem a ha], by rw [l2, t2mem a ha]⟩
      rcases l8 with ⟨_, _, h8⟩ | ⟨_, h8, _⟩
      · rw [h8, t2all]; exact ha
      · rw [h8.mem_iff, t2all]; exact List.mem_cons_of_mem _ ha
    have hin : l.2 ∈ l.1.all := by
      rcases l8 with ⟨h9, _, h8⟩ | ⟨h9, h8, _⟩
      · rw [h8]; exact h9
      · rw [h8.mem_iff, h9]; exact List.mem_cons_self
    have hnew : ∀ a ∈ l.1.all, a = l.2 ∨ a ∈ (s.ut k).all := by
      intro a ha
      rcases l8 with ⟨_, _, h8⟩ | ⟨h9, h8, _⟩
      · rw [h8, t2all] at ha; exact Or.inr ha
      · rw [h8.mem_iff, t2all] at ha
        rcases List.mem_cons.1 ha with ha | ha
        · exact Or.inl (ha.trans h9.symm)
        · exact Or.inr ha
    have hord : Ordered l.1 := by
      intro a ha i
      rcases hnew a ha with rfl | hm
      · rw [l6, l7]; exact (hes' i).mono hle
      · obtain ⟨_, h1, h2⟩ := hle a hm
        rw [h1, h2]; exact (h.ord k a hm i).mono hle
    have hmk : MarkOK ((s.setUt k l.1).ut .m) := by
      cases k with
      | v => rw [Pkg.setUt_ne s (by decide)]; exact h.marks
      | m =>
        rw [Pkg.setUt_same]
        intro a ha hi
        by_cases ho : a ∈ (s.ut .m).all
        · rw [l2, t2mem a ho] at hi ⊢
          exact h.marks a ho hi
        · exfalso
          have hal : a = l.2 := (hnew a ha).resolve_right ho
          rcases l8 with ⟨h9, _, _⟩ | ⟨h9, _, _⟩
          · rw [t2all] at h9; exact ho (hal ▸ h9)
          · rw [l2, hal, h9, ← ht2] at hi
            simp [UTable.setMem] at hi
    obtain ⟨s1, s2⟩ := h.setUt l1 hord hle (l3.trans t2nv) hmk
    have key : SWF P (if l.2 = g.2 ∧ k = .m then Pkg.checkSpecial tr (s.setUt k l.1) l.2 else s.setUt k l.1) ∧
        SExt (s.setUt k l.1) (if l.2 = g.2 ∧ k = .m then Pkg.checkSpecial tr (s.setUt k l.1) l.2 else s.setUt k l.1) := by
      split
      · rename_i hk
        obtain ⟨_, rfl⟩ := hk
        exact checkSpecial_swf htr s1 (by rw [Pkg.setUt_same]; exact hin)
      · exact ⟨s1, .refl _⟩
    generalize (if l.2 = g.2 ∧ k = .m then Pkg.checkSpecial tr (s.setUt k l.1) l.2 else s.setUt k l.1) = s' at key
    obtain ⟨k1, k2⟩ := key
    have hs' : l.2 ∈ (s'.ut k).all ∧ ((s'.ut k).mem l.2).v = v ∧ ((s'.ut k).mem l.2).e = es' := by
      have := (k2 k).1
      rw [Pkg.setUt_same] at this
      obtain ⟨h1, h2, h3⟩ := this l.2 hin
      exact ⟨h1, h2.trans l7, h3.trans l6⟩
    refine ⟨⟨k1, s2.trans k2, ?_, fun d => ?_⟩, Or.inr ⟨hs.ne, ?_, l.2, rfl, hs'.1, hs'.2.1, ?_⟩⟩
    · intro b hb
      obtain rfl : l.2 = b := Option.some.inj hb
      exact ⟨hs'.1, by rw [hs'.2.1]; exact Nat.lt_succ_self _⟩
    · rw [valueByPath_node (k1.ord k) d hs'.1, hs'.2.1, hs'.2.2]
      have hle' := ((s2.trans k2) k).1
      rw [valueByPath_mono (h.ord k) hle' d (hes' (d v)), valueByPath_weight (h.ord k) d (hes' (d v)),
        valueByPath_weight (h.ord k) d (hes (d v)), ← mul_assoc, hs.value]
      by_cases hi : (es (d v)).w = 0
      · rw [hi, zero_mul, zero_mul]
      · rw [hs.ptr _ hi]
    · by_contra hc
      push Not at hc
      rw [norm_none.2 hc] at hn
      exact absurd hn (by simp)
    · rw [hs'.2.2]
      exact fun i => ⟨hs.value i, hs.ptr i, hz i⟩

theorem makeNodeWith_swf (hC : 0 < P.C.growth) {tr : Pkg R → PEdge R → Pkg R × PEdge R} (htr : TrOK P tr) {s : Pkg R}
    (h : SWF P s) {k : Kind} {v : Nat} (hv : v < (s.ut k).nvars) {es : Fin (ar k) → PEdge R}
    (hes : ∀ i, LvBelow (s.ut k) v (es i)) (cached : Bool) :
    let r := Pkg.makeNodeWith tr P k s v es cached
    SWF P r.1 ∧ SExt s r.1 ∧ LvBelow (r.1.ut k) (v + 1) r.2 ∧
      ∀ d, Pkg.valueByPath (r.1.ut k) r.2 d = Pkg.valueByPath (s.ut k) (es (d v)) d :=
  (makeNodeWith_full hC htr h hv hes cached).1

/-- `transpose` keeps the invariant and does not lead to higher levels. -/
theorem transposeF_swf (hC : 0 < P.C.growth) : ∀ l, TrOK P (Pkg.transposeF P l) := by
  intro l
  induction l with
  | zero => intro s e u h hb; exact ⟨h, .refl _, hb⟩
  | succ l ih =>
    intro s e u h hb
    unfold Pkg.transposeF
    cases hp : e.p with
    | none => exact ⟨h, .refl _, hb⟩
    | some p =>
      dsimp only
      obtain ⟨p1, p2⟩ := hb p hp
      split
      · exact ⟨h, .refl _, hb⟩
      · cases hk : Pkg.look P.transH s.transC e with
        | some r =>
          refine ⟨h, .refl _, ?_⟩
          exact (h.trans.look hk p hp).2.up p2
        | none =>
          dsimp only
          have hq := seqFin_spec (SWF P) SExt SExt.refl (fun a b => a.trans b) 4
            (fun idx s' => Pkg.transposeF P l s' (((s.ut .m).mem p).e (![0, 2, 1, 3] idx)))
            (fun _ s' b => LvBelow (s'.ut .m) ((s.ut .m).mem p).v b) (fun i s1 s2 b he _ hQ => hQ.mono (he .m).1) s h
            (fun i s' h1 h2 => ih s' _ _ h1 ((h.ord .m p p1 _).mono (h2 .m).1))
          generalize seqFin 4 (fun idx s' => Pkg.transposeF P l s' (((s.ut .m).mem p).e (![0, 2, 1, 3] idx))) s = q at hq
          obtain ⟨q1, q2, q3⟩ := hq
          have hvn : ((s.ut .m).mem p).v < (q.1.ut .m).nvars := by
            rw [(q2 .m).2]; exact ((h.uwf .m).mem_bucket p1).1
          have hr := makeNodeWith_swf hC ih q1 (k := .m) hvn (es := q.2) q3 false
          generalize Pkg.makeNodeWith (Pkg.transposeF P l) P .m q.1 ((s.ut .m).mem p).v q.2 false = r at hr
          obtain ⟨r1, r2, r3, _⟩ := hr
          have hpr := ((q2.trans r2) .m).1 p p1
          refine ⟨⟨r1.uwf, r1.ord, ?_, r1.marks⟩, q2.trans r2, ?_⟩
          · refine r1.trans.insert _ ?_
            intro c hc
            obtain rfl : p = c := by rw [hp] at hc; exact Option.some.inj hc
            refine ⟨hpr.1, ?_⟩
            show LvBelow (r.1.ut .m) (((r.1.ut .m).mem p).v + 1) _
            rw [hpr.2.1]
            exact r3.ptr rfl
          · exact (r3.ptr (e' := ⟨r.2.p, r.2.w * e.w⟩) rfl).up p2

theorem makeDDNode_swf (hC : 0 < P.C.growth) {s : Pkg R} (h : SWF P s) {k : Kind} {v : Nat} (hv : v < (s.ut k).nvars)
    {es : Fin (ar k) → PEdge R} (hes : ∀ i, LvBelow (s.ut k) v (es i)) (cached : Bool) :
    let r := Pkg.makeDDNode P k s v es cached
    SWF P r.1 ∧ SExt s r.1 ∧ LvBelow (r.1.ut k) (v + 1) r.2 ∧
      ∀ d, Pkg.valueByPath (r.1.ut k) r.2 d = Pkg.valueByPath (s.ut k) (es (d v)) d :=
  makeNodeWith_swf hC (transposeF_swf hC v) h hv hes cached

theorem makeDDNode_made (hC : 0 < P.C.growth) {s : Pkg R} (h : SWF P s) {k : Kind} {v : Nat} (hv : v < (s.ut k).nvars)
    {es : Fin (ar k) → PEdge R} (hes : ∀ i, LvBelow (s.ut k) v (es i)) (cached : Bool) :
    Made ((Pkg.makeDDNode P k s v es cached).1.ut k) v es (Pkg.makeDDNode P k s v es cached).2 :=
  (makeNodeWith_full hC (transposeF_swf hC v) h hv hes cached).2

end

end DD
