import Verif.StartMulSpec
import Verif.Proofs.StartTwo
import Verif.Proofs.StartCtrl
import Verif.Proofs.Mul
import Verif.Proofs.Read

/-! # Sums and products of diagrams over a range of qubits -/

namespace DD

open UTable

section
variable {R : Type} [Field R] {n : Nat} {t t' : UTable (Cx R) n} {st l : Nat} {e : PEdge R}

theorem Span.mono (h : Le t t') : ∀ {l : Nat} {e : PEdge R}, Span t st l e → Span t' st l e := by
  intro l
  induction l with
  | zero => intro e h; exact h
  | succ l ih =>
    intro e he
    rcases he with he | ⟨h1, a, h2, h3, h4, h5, h6⟩
    · exact Or.inl he
    · obtain ⟨g1, g2, g3⟩ := h a h3
      exact Or.inr ⟨h1, a, h2, g1, g2.trans h4, fun i => by rw [g3]; exact ih (h5 i), by rw [g3]; exact h6⟩

theorem Span.lvBelow (h : Span t st l e) : LvBelow t (st + l) e := by
  cases l with
  | zero => intro b hb; rw [show e.p = none from h] at hb; simp at hb
  | succ l =>
    intro b hb
    rcases h with ⟨h, _⟩ | ⟨_, a, h2, h3, h4, _⟩
    · rw [h] at hb; simp at hb
    · obtain rfl : a = b := by rw [h2] at hb; exact Option.some.inj hb
      exact ⟨h3, by omega⟩

theorem Span.zero (t : UTable (Cx R) n) (st l : Nat) : Span t st l zeroE := by
  cases l with
  | zero => rfl
  | succ l => exact Or.inl ⟨rfl, rfl⟩

theorem Span.setW (h : Span t st l e) (hw : e.w ≠ 0) {w : Cx R} (hw' : w ≠ 0) : Span t st l ⟨e.p, w⟩ := by
  cases l with
  | zero => exact h
  | succ l =>
    rcases h with ⟨_, h⟩ | ⟨_, h⟩
    · exact absurd h hw
    · exact Or.inr ⟨hw', h⟩

/-- The range is determined by a diagram that is not zero. -/
theorem Span.uniq : ∀ {l l' st' : Nat} {e : PEdge R}, Span t st l e → Span t st' l' e → e.w ≠ 0 → l = l' ∧ (0 < l → st = st') := by
  intro l
  induction l with
  | zero =>
    intro l' st' e h h' hw
    cases l' with
    | zero => exact ⟨rfl, by omega⟩
    | succ l' =>
      rcases h' with ⟨_, h'⟩ | ⟨_, a, ha, _⟩
      · exact absurd h' hw
      · rw [show e.p = none from h] at ha; simp at ha
  | succ l ih =>
    intro l' st' e h h' hw
    rcases h with ⟨_, h⟩ | ⟨_, a, h2, h3, h4, h5, i, h6⟩
    · exact absurd h hw
    · cases l' with
      | zero => rw [show e.p = none from h'] at h2; simp at h2
      | succ l' =>
        rcases h' with ⟨_, h'⟩ | ⟨_, b, g2, g3, g4, g5, _⟩
        · exact absurd h' hw
        · obtain rfl : a = b := by rw [h2] at g2; exact Option.some.inj g2
          obtain ⟨e1, _⟩ := ih (h5 i) (g5 i) h6
          exact ⟨by omega, fun _ => by omega⟩

end

section
variable {R : Type} [Field R] [DecidableEq R] {n : Nat} {t : UTable (Cx R) n}

theorem valueByPath_w_zero (t : UTable (Cx R) n) {e : PEdge R} (he : e.w = 0) (d : Nat → Fin n) : Pkg.valueByPath t e d = 0 := by
  unfold Pkg.valueByPath
  split
  · exact he
  · rw [pathLoop_mul, he]; simp

/-- Only the digits below the edge matter. -/
theorem valueByPath_congr (ho : Ordered t) {d d' : Nat → Fin n} : ∀ {u : Nat} {e : PEdge R}, LvBelow t u e → (∀ q < u, d q = d' q) →
    Pkg.valueByPath t e d = Pkg.valueByPath t e d' := by
  have key : ∀ (u : Nat) (e : PEdge R) (c : Cx R), LvBelow t u e → (∀ q < u, d q = d' q) →
      Pkg.pathLoop t d u e c = Pkg.pathLoop t d' u e c := by
    intro u
    induction u with
    | zero => intro e c _ _; rfl
    | succ u ih =>
      intro e c hb hd
      unfold Pkg.pathLoop
      cases hp : e.p with
      | none => rfl
      | some a =>
        obtain ⟨a1, a2⟩ := hb a hp
        dsimp only
        rw [hd _ a2]
        exact ih _ _ ((ho a a1 _).up (by omega)) fun q hq => hd q (by omega)
  intro u e hb hd
  rw [valueByPath_eq ho d hb, valueByPath_eq ho d' hb]
  exact key u e 1 hb hd

end

theorem onRange_snoc (st : Nat) {l : Nat} (c : Fin l → Fin 2) (j : Fin 2) :
    onRange st (Fin.snoc (α := fun _ => Fin 2) c j) (st + l) = j ∧
      ∀ q < st + l, onRange st (Fin.snoc (α := fun _ => Fin 2) c j) q = onRange st c q := by
  refine ⟨?_, fun q hq => ?_⟩
  · unfold onRange
    rw [dif_pos ⟨Nat.le_add_right _ _, by omega⟩]
    have : (⟨st + l - st, by omega⟩ : Fin (l + 1)) = Fin.last l := Fin.ext (by simp)
    rw [this, Fin.snoc_last]
  · unfold onRange
    by_cases h : st ≤ q
    · rw [dif_pos ⟨h, by omega⟩, dif_pos ⟨h, by omega⟩]
      have : (⟨q - st, by omega⟩ : Fin (l + 1)) = Fin.castSucc ⟨q - st, by omega⟩ := rfl
      rw [this, Fin.snoc_castSucc]
    · rw [dif_neg (fun h' => h h'.1), dif_neg (fun h' => h h'.1)]

section
variable {R : Type} [Field R] [LinearOrder R] [IsStrictOrderedRing R]

/-- The entry of a product, for both kinds. -/
def prodAt {k : Kind} (tm : UTable (Cx R) 4) (t : UTable (Cx R) (ar k)) (st l : Nat) (x y : PEdge R) (d : Nat → Fin (ar k)) : Cx R :=
  ∑ c : Fin l → Fin 2, Pkg.valueByPath tm x (fun q => Pkg.mulL k (d q) (onRange st c q)) *
    Pkg.valueByPath t y (fun q => Pkg.mulR k (d q) (onRange st c q))

/-- Entries of the addition table. -/
def AddS {k : Kind} (t : UTable (Cx R) (ar k)) (x : PEdge R × PEdge R) (r : PEdge R) : Prop :=
  ∃ st l, Span t st l x.1 ∧ Span t st l x.2 ∧ Span t st l r ∧
    ∀ d, Pkg.valueByPath t r d = Pkg.valueByPath t x.1 d + Pkg.valueByPath t x.2 d

/-- Entries of the multiplication tables. -/
def MulS {k : Kind} (tm : UTable (Cx R) 4) (t : UTable (Cx R) (ar k)) (x : PEdge R × PEdge R) (r : PEdge R) : Prop :=
  ∃ st l, Span tm st l x.1 ∧ Span t st l x.2 ∧ Span t st l r ∧ ∀ d, Pkg.valueByPath t r d = prodAt tm t st l x.1 x.2 d

/-- Entries of the tables of tensor products: the left operand starts at qubit 0, or it is above the right one. -/
def KronS {n : Nat} (t : UTable (Cx R) n) (x : PEdge R × PEdge R) (r : PEdge R) : Prop :=
  (∃ l, Span t 0 l x.1) ∨ ∃ st lx ly, Span t (st + ly) lx x.1 ∧ Span t st ly x.2 ∧ Span t st (ly + lx) r ∧
    ∀ d, Pkg.valueByPath t r d = Pkg.valueByPath t x.1 d * Pkg.valueByPath t x.2 d

theorem KronS.mono {n : Nat} {t t' : UTable (Cx R) n} (ho : Ordered t) (h : Le t t') {x r} (hr : KronS t x r) : KronS t' x r := by
  rcases hr with ⟨l, h1⟩ | ⟨st, lx, ly, h1, h2, h3, h4⟩
  · exact Or.inl ⟨l, h1.mono h⟩
  · refine Or.inr ⟨st, lx, ly, h1.mono h, h2.mono h, h3.mono h, fun d => ?_⟩
    rw [valueByPath_mono ho h d h1.lvBelow, valueByPath_mono ho h d h2.lvBelow, valueByPath_mono ho h d h3.lvBelow, h4]

theorem AddS.mono {k : Kind} {t t' : UTable (Cx R) (ar k)} (ho : Ordered t) (h : Le t t') {x r} (hr : AddS t x r) : AddS t' x r := by
  obtain ⟨st, l, h1, h2, h3, h4⟩ := hr
  refine ⟨st, l, h1.mono h, h2.mono h, h3.mono h, fun d => ?_⟩
  rw [valueByPath_mono ho h d h1.lvBelow, valueByPath_mono ho h d h2.lvBelow, valueByPath_mono ho h d h3.lvBelow, h4]

theorem prodAt_mono {k : Kind} {tm tm' : UTable (Cx R) 4} {t t' : UTable (Cx R) (ar k)} (hm : Ordered tm) (h : Le tm tm')
    (ho : Ordered t) (h' : Le t t') {st l : Nat} {x y : PEdge R} (hx : Span tm st l x) (hy : Span t st l y) (d : Nat → Fin (ar k)) :
    prodAt tm' t' st l x y d = prodAt tm t st l x y d := by
  refine Finset.sum_congr rfl fun c _ => ?_
  rw [valueByPath_mono hm h _ hx.lvBelow, valueByPath_mono ho h' _ hy.lvBelow]

theorem MulS.mono {k : Kind} {tm tm' : UTable (Cx R) 4} {t t' : UTable (Cx R) (ar k)} (hm : Ordered tm) (h : Le tm tm')
    (ho : Ordered t) (h' : Le t t') {x r} (hr : MulS tm t x r) : MulS tm' t' x r := by
  obtain ⟨st, l, h1, h2, h3, h4⟩ := hr
  refine ⟨st, l, h1.mono h, h2.mono h', h3.mono h', fun d => ?_⟩
  rw [valueByPath_mono ho h' d h3.lvBelow, h4, prodAt_mono hm h ho h' h1 h2]

theorem prodAt_smul {k : Kind} {tm : UTable (Cx R) 4} {t : UTable (Cx R) (ar k)} (hm : Ordered tm) (ho : Ordered t) {st l : Nat}
    {x y : PEdge R} (hx : Span tm st l x) (hy : Span t st l y) (d : Nat → Fin (ar k)) :
    prodAt tm t st l x y d = x.w * y.w * prodAt tm t st l ⟨x.p, 1⟩ ⟨y.p, 1⟩ d := by
  unfold prodAt
  rw [Finset.mul_sum]
  refine Finset.sum_congr rfl fun c _ => ?_
  rw [valueByPath_weight hm _ hx.lvBelow, valueByPath_weight ho _ hy.lvBelow]
  ring

theorem prodAt_zero {k : Kind} (tm : UTable (Cx R) 4) (t : UTable (Cx R) (ar k)) (st l : Nat)
    {x y : PEdge R} (h : x.w = 0 ∨ y.w = 0) (d : Nat → Fin (ar k)) : prodAt tm t st l x y d = 0 := by
  refine Finset.sum_eq_zero fun c _ => ?_
  rcases h with h | h
  · rw [valueByPath_w_zero _ h, zero_mul]
  · rw [valueByPath_w_zero _ h, mul_zero]

theorem prodAt_succ {k : Kind} {tm : UTable (Cx R) 4} {t : UTable (Cx R) (ar k)} (hm : Ordered tm) (ho : Ordered t) {st l : Nat}
    {a b : Nat} (ha : a ∈ tm.all) (va : (tm.mem a).v = st + l) (hb : b ∈ t.all) (vb : (t.mem b).v = st + l) (u w : Cx R)
    (d : Nat → Fin (ar k)) :
    prodAt tm t st (l + 1) ⟨some a, u⟩ ⟨some b, w⟩ d = u * w *
      (prodAt tm t st l ((tm.mem a).e (Pkg.mulL k (d (st + l)) 0)) ((t.mem b).e (Pkg.mulR k (d (st + l)) 0)) d +
       prodAt tm t st l ((tm.mem a).e (Pkg.mulL k (d (st + l)) 1)) ((t.mem b).e (Pkg.mulR k (d (st + l)) 1)) d) := by
  have key : ∀ (c : Fin l → Fin 2) (j : Fin 2),
      Pkg.valueByPath tm ⟨some a, u⟩ (fun q => Pkg.mulL k (d q) (onRange st (Fin.snoc (α := fun _ => Fin 2) c j) q)) *
        Pkg.valueByPath t ⟨some b, w⟩ (fun q => Pkg.mulR k (d q) (onRange st (Fin.snoc (α := fun _ => Fin 2) c j) q)) =
      u * w * (Pkg.valueByPath tm ((tm.mem a).e (Pkg.mulL k (d (st + l)) j)) (fun q => Pkg.mulL k (d q) (onRange st c q)) *
        Pkg.valueByPath t ((t.mem b).e (Pkg.mulR k (d (st + l)) j)) (fun q => Pkg.mulR k (d q) (onRange st c q))) := by
    intro c j
    obtain ⟨o1, o2⟩ := onRange_snoc st c j
    rw [valueByPath_node hm _ ha, valueByPath_node ho _ hb]
    rw [va, vb, o1]
    have l1 := hm a ha (Pkg.mulL k (d (st + l)) j)
    have l2 := ho b hb (Pkg.mulR k (d (st + l)) j)
    rw [va] at l1
    rw [vb] at l2
    rw [valueByPath_congr hm l1 (d' := fun q => Pkg.mulL k (d q) (onRange st c q)) (fun q hq => by rw [o2 q hq]),
      valueByPath_congr ho l2 (d' := fun q => Pkg.mulR k (d q) (onRange st c q)) (fun q hq => by rw [o2 q hq])]
    ring
  unfold prodAt
  rw [sum_snoc, Fin.sum_univ_two]
  simp only [key]
  rw [← Finset.mul_sum, ← Finset.mul_sum, mul_add]

end

section
variable {R : Type} [Field R] [LinearOrder R] [IsStrictOrderedRing R] [HasSqrt R] [LawfulSqrt R] {P : PCfg R}

theorem Span.made {k : Kind} {t : UTable (Cx R) (ar k)} {st l : Nat} {es : Fin (ar k) → PEdge R} {r : PEdge R}
    (h : Made t (st + l) es r) (hes : ∀ i, Span t st l (es i)) : Span t st (l + 1) r := by
  rcases h with ⟨rfl, _⟩ | ⟨h1, ⟨j, hj⟩, a, h2, h3, h4, h5⟩
  · exact Span.zero _ _ _
  · refine Or.inr ⟨h1, a, h2, h3, h4, fun i => ?_, j, fun hc => hj ?_⟩
    · obtain ⟨g1, g2, g3⟩ := h5 i
      by_cases hi : (es i).w = 0
      · rcases g3 hi with e | e
        · rw [e]; exact Span.zero _ _ _
        · rw [e]; exact hes i
      · have hw : ((t.mem a).e i).w ≠ 0 := fun hc => hi (by rw [← g1, hc, mul_zero])
        have := (hes i).setW hi hw
        rw [← g2 hi] at this
        exact this
    · rw [← (h5 j).1, hc, mul_zero]

/-- The invariant of the unique tables together with the meaning of the tables of sums and products. -/
structure AWF (P : PCfg R) (s : Pkg R) : Prop where
  swf : SWF P s
  addC : ∀ k, CacheOK (s.addC k) (AddS (s.ut k))
  mulC : ∀ k, CacheOK (s.mulC k) (MulS (s.ut .m) (s.ut k))
  kronC : ∀ k, CacheOK (s.kronC k) (KronS (s.ut k))

/-- The tables of sums and products are the same. -/
def SameC (s s' : Pkg R) : Prop := s'.addC = s.addC ∧ s'.mulC = s.mulC ∧ s'.kronC = s.kronC

theorem SameC.refl (s : Pkg R) : SameC s s := ⟨rfl, rfl, rfl⟩
theorem SameC.trans {s s' s'' : Pkg R} (h : SameC s s') (h' : SameC s' s'') : SameC s s'' := ⟨h'.1.trans h.1, h'.2.1.trans h.2.1, h'.2.2.trans h.2.2⟩

theorem AWF.transfer {s s' : Pkg R} (h : AWF P s) (h1 : SWF P s') (h2 : SExt s s') (h3 : SameC s s') : AWF P s' where
  swf := h1
  addC k := by rw [h3.1]; exact (h.addC k).mono fun _ _ hr => hr.mono (h.swf.ord k) (h2 k).1
  mulC k := by rw [h3.2.1]; exact (h.mulC k).mono fun _ _ hr => hr.mono (h.swf.ord .m) (h2 .m).1 (h.swf.ord k) (h2 k).1
  kronC k := by rw [h3.2.2]; exact (h.kronC k).mono fun _ _ hr => hr.mono (h.swf.ord k) (h2 k).1

theorem makeNodeWith_sameC {tr : Pkg R → PEdge R → Pkg R × PEdge R} (htr : ∀ s e, SameC s (tr s e).1) (k : Kind)
    (s : Pkg R) (v : Nat) (es : Fin (ar k) → PEdge R) (c : Bool) : SameC s (Pkg.makeNodeWith tr P k s v es c).1 := by
  unfold Pkg.makeNodeWith
  dsimp only
  cases Pkg.norm k c es with
  | none => exact ⟨rfl, rfl, rfl⟩
  | some q =>
    dsimp only
    split
    · unfold Pkg.checkSpecial
      dsimp only
      split
      · exact ⟨rfl, rfl, rfl⟩
      · split
        · exact htr _ _
        · exact htr _ _
    · exact ⟨rfl, rfl, rfl⟩

theorem seqFin_sameC {β : Type} {m : Nat} {f : Fin m → Pkg R → Pkg R × β} (hf : ∀ i s, SameC s (f i s).1) (s : Pkg R) :
    SameC s (seqFin m f s).1 :=
  (seqFin_spec (fun _ : Pkg R => True) SameC SameC.refl (fun a b => a.trans b) m f (fun _ _ _ => True)
    (fun _ _ _ _ _ _ _ => trivial) s trivial (fun i s' _ _ => ⟨trivial, hf i s', trivial⟩)).2.1

theorem transposeF_sameC : ∀ (l : Nat) (s : Pkg R) (e : PEdge R), SameC s (Pkg.transposeF P l s e).1 := by
  intro l
  induction l with
  | zero => intro s e; exact .refl _
  | succ l ih =>
    intro s e
    unfold Pkg.transposeF
    cases e.p with
    | none => exact .refl _
    | some p =>
      dsimp only
      split
      · exact .refl _
      · cases Pkg.look P.transH s.transC e with
        | some r => exact .refl _
        | none => exact (seqFin_sameC (fun _ _ => ih _ _) s).trans (makeNodeWith_sameC ih _ _ _ _ _)

theorem makeDDNode_sameC (k : Kind) (s : Pkg R) (v : Nat) (es : Fin (ar k) → PEdge R) (c : Bool) :
    SameC s (Pkg.makeDDNode P k s v es c).1 := makeNodeWith_sameC (fun _ _ => transposeF_sameC _ _ _) k s v es c

theorem makeDDNode_awf (hC : 0 < P.C.growth) {s : Pkg R} (h : AWF P s) {k : Kind} {st l : Nat} (hv : st + l < (s.ut k).nvars)
    {es : Fin (ar k) → PEdge R} (hes : ∀ i, Span (s.ut k) st l (es i)) (cached : Bool) :
    let r := Pkg.makeDDNode P k s (st + l) es cached
    AWF P r.1 ∧ SExt s r.1 ∧ Span (r.1.ut k) st (l + 1) r.2 ∧
      ∀ d, Pkg.valueByPath (r.1.ut k) r.2 d = Pkg.valueByPath (s.ut k) (es (d (st + l))) d := by
  have hm := makeDDNode_made hC h.swf hv (fun i => (hes i).lvBelow) cached
  obtain ⟨m1, m2, m3, m4⟩ := makeDDNode_swf hC h.swf hv (fun i => (hes i).lvBelow) cached
  exact ⟨h.transfer m1 m2 (makeDDNode_sameC _ _ _ _ _), m2, Span.made hm fun i => (hes i).mono (m2 k).1, m4⟩

theorem addChild_span {s : Pkg R} (ho : Ordered (s.ut k)) {st l a : Nat} {x : PEdge R} (hp : x.p = some a) (hw : x.w ≠ 0)
    (ha : a ∈ (s.ut k).all) (hv : ((s.ut k).mem a).v = st + l) (hc : ∀ i, Span (s.ut k) st l (((s.ut k).mem a).e i)) (i : Fin (ar k)) :
    Span (s.ut k) st l (Pkg.addChild s k x (st + l) i) ∧ ∀ d, d (st + l) = i →
      Pkg.valueByPath (s.ut k) (Pkg.addChild s k x (st + l) i) d = Pkg.valueByPath (s.ut k) x d := by
  obtain ⟨p, w⟩ := x
  subst hp
  have hx : ∀ d, Pkg.valueByPath (s.ut k) ⟨some a, w⟩ d = w * Pkg.valueByPath (s.ut k) (((s.ut k).mem a).e (d (st + l))) d := by
    intro d; rw [valueByPath_node ho d ha w, hv]
  unfold Pkg.addChild
  dsimp only
  rw [if_pos hv]
  by_cases hz : (((s.ut k).mem a).e i).w = 0
  · rw [if_neg (not_not.2 hz)]
    refine ⟨hc i, fun d hd => ?_⟩
    rw [hx, hd, valueByPath_w_zero _ hz, mul_zero]
  · rw [if_pos hz]
    refine ⟨(hc i).setW hz (mul_ne_zero hz hw), fun d hd => ?_⟩
    rw [hx, hd, valueByPath_weight ho d ((hc i).lvBelow.ptr (e' := ⟨(((s.ut k).mem a).e i).p, (((s.ut k).mem a).e i).w * w⟩) rfl),
      valueByPath_weight ho d (hc i).lvBelow]
    dsimp only
    ring

theorem add2F_awf (hC : 0 < P.C.growth) (k : Kind) (st : Nat) : ∀ (f l : Nat) (s : Pkg R) (x y : PEdge R), AWF P s → l ≤ f →
    st + l ≤ (s.ut k).nvars → Span (s.ut k) st l x → Span (s.ut k) st l y →
    let r := Pkg.add2F P k f s x y
    AWF P r.1 ∧ SExt s r.1 ∧ Span (r.1.ut k) st l r.2 ∧
      ∀ d, Pkg.valueByPath (r.1.ut k) r.2 d = Pkg.valueByPath (s.ut k) x d + Pkg.valueByPath (s.ut k) y d := by
  intro f
  induction f with
  | zero =>
    intro l s x y h hl _ hx hy
    obtain rfl : l = 0 := by omega
    obtain ⟨px, wx⟩ := x
    obtain ⟨py, wy⟩ := y
    obtain rfl : px = none := hx
    obtain rfl : py = none := hy
    unfold Pkg.add2F
    dsimp only
    rw [if_pos rfl]
    refine ⟨?_, ?_, ?_, ?_⟩
    all_goals split_ifs with h1 h2 h3 h4
    all_goals first | exact h | exact .refl _ | rfl | skip
    all_goals intro d; simp only [Pkg.valueByPath, zeroE] at * <;> simp_all
  | succ f ih =>
    intro l s x y h hl hn hx hy
    unfold Pkg.add2F
    dsimp only
    by_cases h1 : x.w = 0
    · rw [if_pos h1]
      by_cases h2 : y.w = 0
      · rw [if_pos h2]
        refine ⟨h, .refl _, Span.zero _ _ _, fun d => ?_⟩
        rw [valueByPath_w_zero _ h1, valueByPath_w_zero _ h2, valueByPath_w_zero _ rfl, add_zero]
      · rw [if_neg h2]
        refine ⟨h, .refl _, hy, fun d => ?_⟩
        rw [valueByPath_w_zero _ h1, zero_add]
    · rw [if_neg h1]
      by_cases h2 : y.w = 0
      · rw [if_pos h2]
        refine ⟨h, .refl _, hx, fun d => ?_⟩
        rw [valueByPath_w_zero _ h2, add_zero]
      · rw [if_neg h2]
        by_cases h3 : x.p = y.p
        · rw [if_pos h3]
          have hv : ∀ d, Pkg.valueByPath (s.ut k) ⟨y.p, x.w + y.w⟩ d = Pkg.valueByPath (s.ut k) x d + Pkg.valueByPath (s.ut k) y d := by
            intro d
            rw [valueByPath_weight (h.swf.ord k) d hx.lvBelow, valueByPath_weight (h.swf.ord k) d hy.lvBelow, h3,
              valueByPath_weight (h.swf.ord k) d (hy.lvBelow.ptr (e' := ⟨y.p, x.w + y.w⟩) rfl)]
            dsimp only
            ring
          by_cases h4 : x.w + y.w = 0
          · rw [if_pos h4]
            refine ⟨h, .refl _, Span.zero _ _ _, fun d => ?_⟩
            rw [← hv, valueByPath_w_zero _ rfl, valueByPath_w_zero _ h4]
          · rw [if_neg h4]
            exact ⟨h, .refl _, hy.setW h2 h4, hv⟩
        · rw [if_neg h3]
          obtain ⟨l, rfl⟩ : ∃ m, l = m + 1 := by
            cases l with
            | zero => exact absurd (Eq.trans (show x.p = none from hx) (show y.p = none from hy).symm) h3
            | succ m => exact ⟨m, rfl⟩
          cases hk : Pkg.look (P.addH k) (s.addC k) (x, y) with
          | some r =>
            dsimp only
            obtain ⟨st', l', g1, g2, g3, g4⟩ := (h.addC k).look hk
            obtain ⟨e1, e2⟩ := hx.uniq g1 h1
            obtain rfl := e2 (by omega)
            subst e1
            by_cases h4 : r.w = 0
            · rw [if_pos h4]
              refine ⟨h, .refl _, Span.zero _ _ _, fun d => ?_⟩
              rw [← g4, valueByPath_w_zero _ rfl, valueByPath_w_zero _ h4]
            · rw [if_neg h4]
              exact ⟨h, .refl _, g3, g4⟩
          | none =>
            dsimp only
            rcases id hx with ⟨_, hx0⟩ | ⟨_, a, x2, x3, x4, x5, _⟩
            · exact absurd hx0 h1
            rcases id hy with ⟨_, hy0⟩ | ⟨_, b, y2, y3, y4, y5, _⟩
            · exact absurd hy0 h2
            have hlv : max (s.lv k x) (s.lv k y) - 1 = st + l := by
              simp [Pkg.lv, UTable.lvl, x2, y2, x4, y4]
            rw [hlv]
            have cx := addChild_span (k := k) (h.swf.ord k) x2 h1 x3 x4 x5
            have cy := addChild_span (k := k) (h.swf.ord k) y2 h2 y3 y4 y5
            have hq := seqFin_spec (fun s' => AWF P s') SExt SExt.refl (fun a b => a.trans b) (ar k)
              (fun i s' => Pkg.add2F P k f s' (Pkg.addChild s k x (st + l) i) (Pkg.addChild s k y (st + l) i))
              (fun i s' e => Span (s'.ut k) st l e ∧ ∀ d, Pkg.valueByPath (s'.ut k) e d =
                Pkg.valueByPath (s.ut k) (Pkg.addChild s k x (st + l) i) d + Pkg.valueByPath (s.ut k) (Pkg.addChild s k y (st + l) i) d)
              (fun i s1 s2 e he h1 hQ => ⟨hQ.1.mono (he k).1, fun d => by
                rw [valueByPath_mono (h1.swf.ord k) (he k).1 d hQ.1.lvBelow]; exact hQ.2 d⟩) s h
              (fun i s' h1 h2 => by
                obtain ⟨r1, r2, r3, r4⟩ := ih l s' (Pkg.addChild s k x (st + l) i) (Pkg.addChild s k y (st + l) i) h1 (by omega)
                  (by rw [(h2 k).2]; omega) ((cx i).1.mono (h2 k).1) ((cy i).1.mono (h2 k).1)
                refine ⟨r1, r2, r3, fun d => ?_⟩
                rw [r4, valueByPath_mono (h.swf.ord k) (h2 k).1 d (cx i).1.lvBelow,
                  valueByPath_mono (h.swf.ord k) (h2 k).1 d (cy i).1.lvBelow])
            generalize seqFin (ar k) (fun i s' => Pkg.add2F P k f s' (Pkg.addChild s k x (st + l) i) (Pkg.addChild s k y (st + l) i)) s = q at hq
            obtain ⟨q1, q2, q3⟩ := hq
            have hm := makeDDNode_awf hC q1 (k := k) (st := st) (l := l) (by rw [(q2 k).2]; omega) (fun i => (q3 i).1) true
            dsimp only at hm
            generalize Pkg.makeDDNode P k q.1 (st + l) q.2 true = r at hm
            obtain ⟨m1, m2, m3, m4⟩ := hm
            have hval : ∀ d, Pkg.valueByPath (r.1.ut k) r.2 d = Pkg.valueByPath (s.ut k) x d + Pkg.valueByPath (s.ut k) y d := by
              intro d
              rw [m4, (q3 _).2, (cx _).2 d rfl, (cy _).2 d rfl]
            have he := q2.trans m2
            refine ⟨⟨⟨m1.swf.uwf, m1.swf.ord, m1.swf.trans, m1.swf.marks⟩, ?_, m1.mulC, m1.kronC⟩, he, m3, hval⟩
            intro k'
            by_cases hkk : k' = k
            · subst hkk
              simp only [Function.update_self]
              refine (m1.addC k').insert _ ⟨st, l + 1, hx.mono (he k').1, hy.mono (he k').1, m3, fun d => ?_⟩
              rw [valueByPath_mono (h.swf.ord k') (he k').1 d hx.lvBelow, valueByPath_mono (h.swf.ord k') (he k').1 d hy.lvBelow]
              exact hval d
            · simp only [Function.update_of_ne hkk]
              exact m1.addC k'

omit [LawfulSqrt R] in
theorem multiply2FS_hit (k : Kind) (st l : Nat) (s : Pkg R) {x y r : PEdge R} (hz : ¬(x.w = 0 ∨ y.w = 0))
    (h : Pkg.look (P.mulH k) (s.mulC k) (⟨x.p, 1⟩, ⟨y.p, 1⟩) = some r) :
    Pkg.multiply2FS P k st (l + 1) s x y = if r.w = 0 then (s, zeroE) else if r.w * x.w * y.w = 0 then (s, zeroE)
      else (s, ⟨r.p, r.w * x.w * y.w⟩) := by
  unfold Pkg.multiply2FS; rw [if_neg hz]; dsimp only; rw [h]

omit [LawfulSqrt R] in
theorem multiply2FS_miss (k : Kind) (st l : Nat) (s : Pkg R) {x y : PEdge R} (hz : ¬(x.w = 0 ∨ y.w = 0))
    (h : Pkg.look (P.mulH k) (s.mulC k) (⟨x.p, 1⟩, ⟨y.p, 1⟩) = none) :
    Pkg.multiply2FS P k st (l + 1) s x y =
      let q := seqFin (ar k) (fun idx s' =>
          let m0 := Pkg.multiply2FS P k st l s' (Pkg.mulChild s .m x (st + l) (Pkg.mulL k idx 0)) (Pkg.mulChild s k y (st + l) (Pkg.mulR k idx 0))
          let m1 := Pkg.multiply2FS P k st l m0.1 (Pkg.mulChild s .m x (st + l) (Pkg.mulL k idx 1)) (Pkg.mulChild s k y (st + l) (Pkg.mulR k idx 1))
          if m0.2.w = 0 then m1
          else if m1.2.w ≠ 0 then Pkg.add2F P k (st + l) m1.1 m0.2 m1.2
          else (m1.1, m0.2)) s
      let r := Pkg.makeDDNode P k q.1 (st + l) q.2 true
      let s2 := { r.1 with mulC := Function.update r.1.mulC k ((r.1.mulC k).insert (P.mulH k) (⟨x.p, 1⟩, ⟨y.p, 1⟩) r.2) }
      if r.2.w ≠ 0 then
        if r.2.w * x.w * y.w = 0 then (s2, zeroE) else (s2, ⟨r.2.p, r.2.w * x.w * y.w⟩)
      else (s2, r.2) := by
  conv_lhs => unfold Pkg.multiply2FS
  rw [if_neg hz]; dsimp only; rw [h]

omit [HasSqrt R] [LawfulSqrt R] in
theorem mulChild_node {s : Pkg R} {k : Kind} {x : PEdge R} {a w : Nat} (hp : x.p = some a) (hv : ((s.ut k).mem a).v = w)
    (i : Fin (ar k)) : Pkg.mulChild s k x w i = ((s.ut k).mem a).e i := by
  unfold Pkg.mulChild; rw [hp]; dsimp only; rw [if_pos hv]

/-- One entry of the cache more. -/
theorem AWF.insertMul {s : Pkg R} (h : AWF P s) {k : Kind} {x : PEdge R × PEdge R} {r : PEdge R} (hr : MulS (s.ut .m) (s.ut k) x r) :
    AWF P { s with mulC := Function.update s.mulC k ((s.mulC k).insert (P.mulH k) x r) } := by
  refine ⟨⟨h.swf.uwf, h.swf.ord, h.swf.trans, h.swf.marks⟩, h.addC, fun k' => ?_, h.kronC⟩
  by_cases hkk : k' = k
  · subst hkk
    simp only [Function.update_self]
    exact (h.mulC k').insert _ hr
  · simp only [Function.update_of_ne hkk]
    exact h.mulC k'

theorem multiply2FS_awf (hC : 0 < P.C.growth) (k : Kind) (st : Nat) : ∀ (l : Nat) (s : Pkg R) (x y : PEdge R), AWF P s →
    st + l ≤ (s.ut k).nvars → Span (s.ut .m) st l x → Span (s.ut k) st l y →
    let r := Pkg.multiply2FS P k st l s x y
    AWF P r.1 ∧ SExt s r.1 ∧ Span (r.1.ut k) st l r.2 ∧
      ∀ d, Pkg.valueByPath (r.1.ut k) r.2 d = prodAt (s.ut .m) (s.ut k) st l x y d := by
  intro l
  induction l with
  | zero =>
    intro s x y h _ hx hy
    unfold Pkg.multiply2FS
    dsimp only
    by_cases hz : x.w = 0 ∨ y.w = 0
    · rw [if_pos hz]
      refine ⟨h, .refl _, Span.zero _ _ _, fun d => ?_⟩
      rw [prodAt_zero _ _ _ _ hz, valueByPath_w_zero _ rfl]
    · rw [if_neg hz]
      refine ⟨h, .refl _, rfl, fun d => ?_⟩
      unfold prodAt
      rw [sum_zero]
      obtain ⟨px, wx⟩ := x
      obtain ⟨py, wy⟩ := y
      obtain rfl : px = none := hx
      obtain rfl : py = none := hy
      rfl
  | succ l ih =>
    intro s x y h hn hx hy
    by_cases hz : x.w = 0 ∨ y.w = 0
    · have e : Pkg.multiply2FS P k st (l + 1) s x y = (s, zeroE) := by unfold Pkg.multiply2FS; rw [if_pos hz]
      rw [e]
      refine ⟨h, .refl _, Span.zero _ _ _, fun d => ?_⟩
      rw [prodAt_zero _ _ _ _ hz, valueByPath_w_zero _ rfl]
    · have hx0 : x.w ≠ 0 := fun e => hz (Or.inl e)
      have hy0 : y.w ≠ 0 := fun e => hz (Or.inr e)
      cases hk : Pkg.look (P.mulH k) (s.mulC k) (⟨x.p, 1⟩, ⟨y.p, 1⟩) with
      | some r =>
        rw [multiply2FS_hit k st l s hz hk]
        obtain ⟨st', l', g1, g2, g3, g4⟩ := (h.mulC k).look hk
        dsimp only at g1 g2 g4
        obtain ⟨e1, e2⟩ := (hx.setW hx0 one_ne_zero).uniq g1 one_ne_zero
        obtain rfl := e2 (by omega)
        subst e1
        have hv : ∀ d, Pkg.valueByPath (s.ut k) ⟨r.p, r.w * x.w * y.w⟩ d = prodAt (s.ut .m) (s.ut k) st (l + 1) x y d := by
          intro d
          rw [prodAt_smul (h.swf.ord .m) (h.swf.ord k) hx hy, ← g4,
            valueByPath_weight (h.swf.ord k) d (g3.lvBelow.ptr (e' := ⟨r.p, r.w * x.w * y.w⟩) rfl),
            valueByPath_weight (h.swf.ord k) d g3.lvBelow]
          dsimp only
          ring
        by_cases h1 : r.w = 0
        · rw [if_pos h1]
          refine ⟨h, .refl _, Span.zero _ _ _, fun d => ?_⟩
          rw [← hv, valueByPath_w_zero _ rfl, valueByPath_w_zero _ (by simp [h1])]
        · rw [if_neg h1, if_neg (mul_ne_zero (mul_ne_zero h1 hx0) hy0)]
          exact ⟨h, .refl _, g3.setW h1 (mul_ne_zero (mul_ne_zero h1 hx0) hy0), hv⟩
      | none =>
        rw [multiply2FS_miss k st l s hz hk]
        dsimp only
        rcases id hx with ⟨_, hx0'⟩ | ⟨_, a, x2, x3, x4, x5, _⟩
        · exact absurd hx0' hx0
        rcases id hy with ⟨_, hy0'⟩ | ⟨_, b, y2, y3, y4, y5, _⟩
        · exact absurd hy0' hy0
        simp only [mulChild_node x2 x4, mulChild_node y2 y4]
        have hq := seqFin_spec (fun s' => AWF P s') SExt SExt.refl (fun a b => a.trans b) (ar k)
          (fun idx s' =>
            if (Pkg.multiply2FS P k st l s' (((s.ut .m).mem a).e (Pkg.mulL k idx 0)) (((s.ut k).mem b).e (Pkg.mulR k idx 0))).2.w = 0 then
              Pkg.multiply2FS P k st l (Pkg.multiply2FS P k st l s' (((s.ut .m).mem a).e (Pkg.mulL k idx 0)) (((s.ut k).mem b).e (Pkg.mulR k idx 0))).1
                (((s.ut .m).mem a).e (Pkg.mulL k idx 1)) (((s.ut k).mem b).e (Pkg.mulR k idx 1))
            else if (Pkg.multiply2FS P k st l (Pkg.multiply2FS P k st l s' (((s.ut .m).mem a).e (Pkg.mulL k idx 0)) (((s.ut k).mem b).e (Pkg.mulR k idx 0))).1
                (((s.ut .m).mem a).e (Pkg.mulL k idx 1)) (((s.ut k).mem b).e (Pkg.mulR k idx 1))).2.w ≠ 0 then
              Pkg.add2F P k (st + l) (Pkg.multiply2FS P k st l (Pkg.multiply2FS P k st l s' (((s.ut .m).mem a).e (Pkg.mulL k idx 0)) (((s.ut k).mem b).e (Pkg.mulR k idx 0))).1
                (((s.ut .m).mem a).e (Pkg.mulL k idx 1)) (((s.ut k).mem b).e (Pkg.mulR k idx 1))).1
                (Pkg.multiply2FS P k st l s' (((s.ut .m).mem a).e (Pkg.mulL k idx 0)) (((s.ut k).mem b).e (Pkg.mulR k idx 0))).2
                (Pkg.multiply2FS P k st l (Pkg.multiply2FS P k st l s' (((s.ut .m).mem a).e (Pkg.mulL k idx 0)) (((s.ut k).mem b).e (Pkg.mulR k idx 0))).1
                (((s.ut .m).mem a).e (Pkg.mulL k idx 1)) (((s.ut k).mem b).e (Pkg.mulR k idx 1))).2
            else ((Pkg.multiply2FS P k st l (Pkg.multiply2FS P k st l s' (((s.ut .m).mem a).e (Pkg.mulL k idx 0)) (((s.ut k).mem b).e (Pkg.mulR k idx 0))).1
                (((s.ut .m).mem a).e (Pkg.mulL k idx 1)) (((s.ut k).mem b).e (Pkg.mulR k idx 1))).1,
                (Pkg.multiply2FS P k st l s' (((s.ut .m).mem a).e (Pkg.mulL k idx 0)) (((s.ut k).mem b).e (Pkg.mulR k idx 0))).2))
          (fun idx s' e => Span (s'.ut k) st l e ∧ ∀ d, Pkg.valueByPath (s'.ut k) e d =
            prodAt (s.ut .m) (s.ut k) st l (((s.ut .m).mem a).e (Pkg.mulL k idx 0)) (((s.ut k).mem b).e (Pkg.mulR k idx 0)) d +
            prodAt (s.ut .m) (s.ut k) st l (((s.ut .m).mem a).e (Pkg.mulL k idx 1)) (((s.ut k).mem b).e (Pkg.mulR k idx 1)) d)
          (fun i s1 s2 e he h1 hQ => ⟨hQ.1.mono (he k).1, fun d => by
            rw [valueByPath_mono (h1.swf.ord k) (he k).1 d hQ.1.lvBelow]; exact hQ.2 d⟩) s h
          (fun idx s' h1 h2 => by
            obtain ⟨a1, a2, a3, a4⟩ := ih s' (((s.ut .m).mem a).e (Pkg.mulL k idx 0)) (((s.ut k).mem b).e (Pkg.mulR k idx 0)) h1
              (by rw [(h2 k).2]; omega) ((x5 _).mono (h2 .m).1) ((y5 _).mono (h2 k).1)
            generalize Pkg.multiply2FS P k st l s' (((s.ut .m).mem a).e (Pkg.mulL k idx 0)) (((s.ut k).mem b).e (Pkg.mulR k idx 0)) = m0 at *
            have h3 := h2.trans a2
            obtain ⟨b1, b2, b3, b4⟩ := ih m0.1 (((s.ut .m).mem a).e (Pkg.mulL k idx 1)) (((s.ut k).mem b).e (Pkg.mulR k idx 1)) a1
              (by rw [(h3 k).2]; omega) ((x5 _).mono (h3 .m).1) ((y5 _).mono (h3 k).1)
            generalize Pkg.multiply2FS P k st l m0.1 (((s.ut .m).mem a).e (Pkg.mulL k idx 1)) (((s.ut k).mem b).e (Pkg.mulR k idx 1)) = m1 at *
            have h4 := h3.trans b2
            have a4' : ∀ d, Pkg.valueByPath (m1.1.ut k) m0.2 d = prodAt (s.ut .m) (s.ut k) st l (((s.ut .m).mem a).e (Pkg.mulL k idx 0))
                (((s.ut k).mem b).e (Pkg.mulR k idx 0)) d := fun d => by
              rw [valueByPath_mono (a1.swf.ord k) (b2 k).1 d a3.lvBelow, a4,
                prodAt_mono (h.swf.ord .m) (h2 .m).1 (h.swf.ord k) (h2 k).1 (x5 _) (y5 _)]
            have b4' : ∀ d, Pkg.valueByPath (m1.1.ut k) m1.2 d = prodAt (s.ut .m) (s.ut k) st l (((s.ut .m).mem a).e (Pkg.mulL k idx 1))
                (((s.ut k).mem b).e (Pkg.mulR k idx 1)) d := fun d => by
              rw [b4, prodAt_mono (h.swf.ord .m) (h3 .m).1 (h.swf.ord k) (h3 k).1 (x5 _) (y5 _)]
            by_cases z0 : m0.2.w = 0
            · rw [if_pos z0]
              refine ⟨b1, a2.trans b2, b3, fun d => ?_⟩
              rw [← a4', ← b4', valueByPath_w_zero _ z0, zero_add]
            · rw [if_neg z0]
              by_cases z1 : m1.2.w = 0
              · rw [if_neg (not_not.2 z1)]
                refine ⟨b1, a2.trans b2, a3.mono (b2 k).1, fun d => ?_⟩
                rw [← a4', ← b4', valueByPath_w_zero _ z1, add_zero]
              · rw [if_pos z1]
                obtain ⟨c1, c2, c3, c4⟩ := add2F_awf hC k st (st + l) l m1.1 m0.2 m1.2 b1 (by omega) (by rw [(h4 k).2]; omega)
                  (a3.mono (b2 k).1) b3
                refine ⟨c1, (a2.trans b2).trans c2, c3, fun d => ?_⟩
                rw [c4, a4', b4'])
        generalize seqFin (ar k) _ s = q at hq ⊢
        obtain ⟨q1, q2, q3⟩ := hq
        have hm := makeDDNode_awf hC q1 (k := k) (st := st) (l := l) (by rw [(q2 k).2]; omega) (fun i => (q3 i).1) true
        dsimp only at hm
        generalize Pkg.makeDDNode P k q.1 (st + l) q.2 true = r at hm ⊢
        obtain ⟨m1, m2, m3, m4⟩ := hm
        have he := q2.trans m2
        have hx1 : Span (s.ut .m) st (l + 1) ⟨x.p, 1⟩ := hx.setW hx0 one_ne_zero
        have hy1 : Span (s.ut k) st (l + 1) ⟨y.p, 1⟩ := hy.setW hy0 one_ne_zero
        have hval : ∀ d, Pkg.valueByPath (r.1.ut k) r.2 d = prodAt (s.ut .m) (s.ut k) st (l + 1) ⟨x.p, 1⟩ ⟨y.p, 1⟩ d := by
          intro d
          rw [m4, (q3 _).2, x2, y2, prodAt_succ (h.swf.ord .m) (h.swf.ord k) x3 x4 y3 y4, one_mul, one_mul]
        have hw := m1.insertMul (k := k) (x := (⟨x.p, 1⟩, ⟨y.p, 1⟩)) (r := r.2) ⟨st, l + 1, hx1.mono (he .m).1, hy1.mono (he k).1, m3, fun d => by
          rw [prodAt_mono (h.swf.ord .m) (he .m).1 (h.swf.ord k) (he k).1 hx1 hy1]; exact hval d⟩
        by_cases h1 : r.2.w = 0
        · rw [if_neg (not_not.2 h1)]
          refine ⟨hw, he, m3, fun d => ?_⟩
          rw [prodAt_smul (h.swf.ord .m) (h.swf.ord k) hx hy, ← hval d]
          show Pkg.valueByPath (r.1.ut k) r.2 d = _
          rw [valueByPath_w_zero _ h1, mul_zero]
        · have hne := mul_ne_zero (mul_ne_zero h1 hx0) hy0
          rw [if_pos h1, if_neg hne]
          refine ⟨hw, he, m3.setW h1 hne, fun d => ?_⟩
          rw [prodAt_smul (h.swf.ord .m) (h.swf.ord k) hx hy, ← hval d]
          show Pkg.valueByPath (r.1.ut k) _ d = _
          rw [valueByPath_weight (m1.swf.ord k) d (m3.lvBelow.ptr (e' := ⟨r.2.p, r.2.w * x.w * y.w⟩) rfl),
            valueByPath_weight (m1.swf.ord k) d m3.lvBelow]
          dsimp only
          ring

end

end DD
