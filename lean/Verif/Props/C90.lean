import Verif.Proofs.StartSpan

/-!
# C90: products of diagrams that do not start at qubit 0
-/

namespace DD

open UTable

section
variable {R : Type} [Field R] [LinearOrder R] [IsStrictOrderedRing R] [HasSqrt R]

/-- Without `start` the product is the ordinary one. -/
theorem C90_default (P : PCfg R) (k : Kind) (s : Pkg R) (x y : PEdge R) :
    Pkg.multiplyS P k s x y 0 = Pkg.multiply P k s x y := by
  have h : ∀ l s x y, Pkg.multiply2FS P k 0 l s x y = Pkg.multiply2F P k l s x y := by
    intro l
    induction l with
    | zero => intro s x y; unfold Pkg.multiply2FS Pkg.multiply2F; rfl
    | succ l ih => intro s x y; unfold Pkg.multiply2FS Pkg.multiply2F; simp only [ih, Nat.zero_add]; rfl
  unfold Pkg.multiplyS Pkg.multiply
  rw [h, Nat.sub_zero]

omit [LinearOrder R] [IsStrictOrderedRing R] [HasSqrt R] in
theorem look_insert {κ ρ : Type} [DecidableEq κ] (h : κ → Nat) (c : Cache κ ρ) (k : κ) (r : ρ) :
    Pkg.look h (c.insert h k r) k = some r := by
  simp [Pkg.look, Cache.lookup, Cache.insert]

theorem multiply2FS_cached (P : PCfg R) (k : Kind) (st st' : Nat) (l l' : Nat) (s : Pkg R) (x y : PEdge R)
    (hne : (Pkg.multiply2FS P k st (l + 1) s x y).2.w ≠ 0) :
    Pkg.multiply2FS P k st' (l' + 1) (Pkg.multiply2FS P k st (l + 1) s x y).1 x y = Pkg.multiply2FS P k st (l + 1) s x y := by
  by_cases hz : x.w = 0 ∨ y.w = 0
  · have h : ∀ st l s, Pkg.multiply2FS P k st l s x y = (s, zeroE) := by
      intro st l s; unfold Pkg.multiply2FS; rw [if_pos hz]
    rw [h, h]
  · cases hl : Pkg.look (P.mulH k) (s.mulC k) (⟨x.p, 1⟩, ⟨y.p, 1⟩) with
    | some r =>
      have e := multiply2FS_hit k st l s hz hl
      have e1 : (Pkg.multiply2FS P k st (l + 1) s x y).1 = s := by rw [e]; split_ifs <;> rfl
      rw [e1, multiply2FS_hit k st' l' s hz hl, e]
    | none =>
      have e := multiply2FS_miss k st l s hz hl
      dsimp only at e
      generalize Pkg.makeDDNode P k _ (st + l) _ true = r at e
      rw [e] at hne ⊢
      by_cases h1 : r.2.w = 0
      · rw [if_neg (not_not.2 h1)] at hne
        exact absurd h1 hne
      · rw [if_pos h1] at hne ⊢
        by_cases h2 : r.2.w * x.w * y.w = 0
        · rw [if_pos h2] at hne
          exact absurd rfl hne
        · rw [if_neg h2, multiply2FS_hit k st' l' _ hz (r := r.2), if_neg h1, if_neg h2]
          simp only [Function.update_self]
          exact look_insert _ _ _ _

/-- The cache of products does not distinguish values of `start`: right after a product other than zero, the product of the
same operands with any other `start` is the same edge and changes nothing. -/
theorem C90_cached (P : PCfg R) (k : Kind) (s : Pkg R) (x y : PEdge R) {st st' : Nat}
    (h : st < max (s.lv .m x) (s.lv k y)) (hne : (Pkg.multiplyS P k s x y st).2.w ≠ 0)
    (h' : let s' := (Pkg.multiplyS P k s x y st).1; st' < max (s'.lv .m x) (s'.lv k y)) :
    Pkg.multiplyS P k (Pkg.multiplyS P k s x y st).1 x y st' = Pkg.multiplyS P k s x y st := by
  obtain ⟨l, hl⟩ : ∃ l, max (s.lv .m x) (s.lv k y) - st = l + 1 := ⟨_, (Nat.succ_pred_eq_of_pos (by omega)).symm⟩
  dsimp only at h'
  unfold Pkg.multiplyS at h' hne ⊢
  rw [hl] at h' hne ⊢
  obtain ⟨l', hl'⟩ : ∃ l', max ((Pkg.multiply2FS P k st (l + 1) s x y).1.lv .m x)
    ((Pkg.multiply2FS P k st (l + 1) s x y).1.lv k y) - st' = l' + 1 := ⟨_, (Nat.succ_pred_eq_of_pos (by omega)).symm⟩
  rw [hl']
  exact multiply2FS_cached P k st st' l l' s x y hne

end

section
variable {R : Type} [Field R] [LinearOrder R] [IsStrictOrderedRing R] [HasSqrt R] [LawfulSqrt R] {P : PCfg R}

/-- In a history in which products have been formed with the first qubit of their range as `start`, the product of two
matrices over the qubits `st .. st + l - 1` is the product of the operations on these qubits, whatever the digits of other
qubits; it is again a diagram over this range, and all other diagrams keep their values. Missing for the full property:
histories in which a product has been formed with another `start`, for which it is false (`C90_cached_false`). -/
theorem C90_matrix_partial (hC : P.C.Good) {s : Pkg R} (hs : SpanReach P s) {st l : Nat} {x y : PEdge R}
    (hx : Span (s.ut .m) st l x) (hy : Span (s.ut .m) st l y) :
    let r := Pkg.multiplyS P .m s x y st
    (∀ a b : Nat → Fin 2, Pkg.valueByPath (r.1.ut .m) r.2 (fun q => rc (a q) (b q)) = matProdAt (s.ut .m) st l x y a b) ∧
      Span (r.1.ut .m) st l r.2 ∧ SameByPath s r.1 := by
  have hw := hs.awf hC
  obtain ⟨_, h2, h3, h4⟩ := multiplyS_awf hC.growth hw (k := .m) hx hy
  refine ⟨fun a b => ?_, h3, h2.same hw.swf⟩
  rw [h4]
  refine Finset.sum_congr rfl fun c _ => ?_
  have f1 : ∀ i j c : Fin 2, Pkg.mulL .m (rc i j) c = rc i c := by decide
  have f2 : ∀ i j c : Fin 2, Pkg.mulR .m (rc i j) c = rc c j := by decide
  simp only [f1, f2]

/-- The same for a matrix and a vector. -/
theorem C90_vector_partial (hC : P.C.Good) {s : Pkg R} (hs : SpanReach P s) {st l : Nat} {x y : PEdge R}
    (hx : Span (s.ut .m) st l x) (hy : Span (s.ut .v) st l y) :
    let r := Pkg.multiplyS P .v s x y st
    (∀ a : Nat → Fin 2, Pkg.valueByPath (r.1.ut .v) r.2 a = vecProdAt (s.ut .m) (s.ut .v) st l x y a) ∧
      Span (r.1.ut .v) st l r.2 ∧ SameByPath s r.1 := by
  have hw := hs.awf hC
  obtain ⟨_, h2, h3, h4⟩ := multiplyS_awf hC.growth hw (k := .v) hx hy
  refine ⟨fun a => ?_, h3, h2.same hw.swf⟩
  rw [h4]
  refine Finset.sum_congr rfl fun c _ => ?_
  have f1 : ∀ i c : Fin 2, Pkg.mulL .v i c = rc i c := by decide
  have f2 : ∀ i c : Fin 2, Pkg.mulR .v i c = c := by decide
  simp only [f1, f2]

/-- In such a history the sum of two diagrams over the same range is the sum of the vectors or matrices. -/
theorem C90_add (hC : P.C.Good) {s : Pkg R} (hs : SpanReach P s) {k : Kind} {st l : Nat} {x y : PEdge R}
    (hx : Span (s.ut k) st l x) (hy : Span (s.ut k) st l y) :
    let r := Pkg.add P k s x y
    (∀ d, Pkg.valueByPath (r.1.ut k) r.2 d = Pkg.valueByPath (s.ut k) x d + Pkg.valueByPath (s.ut k) y d) ∧
      Span (r.1.ut k) st l r.2 ∧ SameByPath s r.1 := by
  have hw := hs.awf hC
  obtain ⟨_, h2, h3, h4⟩ := add_awf hC.growth hw hx hy
  exact ⟨h4, h3, h2.same hw.swf⟩

/-- States and gates are diagrams over the range they are built for, and remain so. -/
theorem C90_span (hC : P.C.Good) {s : Pkg R} (hs : SpanReach P s) {n start : Nat} {r : Pkg R × PEdge R} :
    (∀ state, Pkg.makeBasisStatesS P s n state start = .ok r → Span (r.1.ut .v) start n r.2) ∧
    (∀ state, Pkg.makeBasisStateS P s n state start = .ok r → Span (r.1.ut .v) start n r.2) ∧
    (Pkg.makeZeroStateS P s n start = .ok r → Span (r.1.ut .v) start n r.2) ∧
    (∀ U target, start ≤ target → target < n + start → Pkg.makeGateDDS P s U n [] target start = some r →
      Span (r.1.ut .m) start n r.2) ∧
    (∀ U t0 t1, t0 ≠ t1 → start ≤ t0 → start ≤ t1 → t0 < n + start → t1 < n + start → n + start < 128 →
      Pkg.makeTwoQubitGateDDS P s U n t0 t1 start = some r → Span (r.1.ut .m) start n r.2) := by
  have hw := hs.awf hC
  refine ⟨fun state h => ?_, fun state h => ?_, fun h => ?_, fun U target h1 h2 h => ?_, fun U t0 t1 ht h0 h1 h2 h3 h4 h => ?_⟩
  · unfold Pkg.makeBasisStatesS at h
    split at h
    · simp at h
    · split at h
      · simp at h
      · exact basisLoopS_span hC.growth _ _ _ _ hw (by omega) _ (ofOption_ok h)
  · unfold Pkg.makeBasisStateS at h
    split at h
    · simp at h
    · exact basisLoopS_span hC.growth _ _ _ _ hw (by omega) _ (ofOption_ok h)
  · unfold Pkg.makeZeroStateS at h
    split at h
    · simp at h
    · exact basisLoopS_span hC.growth _ _ _ _ hw (by omega) _ (ofOption_ok h)
  · exact makeGateDDS_span hC.growth hw h1 h2 h
  · exact makeTwoQubitGateDDS_span hC.growth hw ht h0 h1 h2 h3 h4 h

/-- Two gates over a range, multiplied with its first qubit as `start`: the entries are those of the product of the two
gates. -/
theorem C90_gates_partial (hC : P.C.Good) {s : Pkg R} (hs : SpanReach P s) (U V : Fin 4 → Cx R) {n t t' start : Nat}
    (h1 : start ≤ t) (h2 : t < n + start) (h1' : start ≤ t') (h2' : t' < n + start) (hn : n + start ≤ (s.ut .m).nvars) :
    ∃ g, Pkg.makeGateDDS P s U n [] t start = some g ∧ ∃ g', Pkg.makeGateDDS P g.1 V n [] t' start = some g' ∧
      let r := Pkg.multiplyS P .m g'.1 g.2 g'.2 start
      ∀ a b : Nat → Fin 2, Pkg.valueByPath (r.1.ut .m) r.2 (fun q => rc (a q) (b q)) =
        ∑ c : Fin n → Fin 2, gateEntryAt U n start t a (onRange start c) * gateEntryAt V n start t' (onRange start c) b := by
  have hw := hs.awf hC
  obtain ⟨g, e1, _, e3, e4⟩ := makeGateDDS_swf hC.growth hw.swf U h1 h2 hn
  have hs1 := SpanReach.gate hs h1 h2 e1
  have hw1 := hs1.awf hC
  have p1 := makeGateDDS_span hC.growth hw h1 h2 e1
  obtain ⟨g', f1, _, f3, f4⟩ := makeGateDDS_swf hC.growth hw1.swf V h1' h2' (by rw [(e3 .m).2]; exact hn)
  have hs2 := SpanReach.gate hs1 h1' h2' f1
  have p2 := makeGateDDS_span hC.growth hw1 h1' h2' f1
  refine ⟨g, e1, g', f1, fun a b => ?_⟩
  rw [(C90_matrix_partial hC hs2 (p1.mono (f3 .m).1) p2).1]
  refine Finset.sum_congr rfl fun c _ => ?_
  rw [f4, valueByPath_mono (hw1.swf.ord .m) (f3 .m).1 _ p1.lvBelow, e4]

end

/-- Without `start`, the composed gate is the ordinary one. -/
theorem C90_composed_default (P : PCfg ℝ) (s : Pkg ℝ) (n : Nat) (cs : List Ctrl) (t0 t1 : Nat) :
    Pkg.makeDCXDDS P s n cs t0 t1 0 = Pkg.makeDCXDD P s n cs t0 t1 := by
  have hX : (Pkg.XmatS : Fin 4 → Cx ℝ) = Gates.Xmat := rfl
  have hg : ∀ (s : Pkg ℝ) U cs t, Pkg.makeGateDDS P s U n cs t 0 = Pkg.makeGateDD P s U n cs t := fun s U cs t =>
    (C88_default s n (state := []) (bits := List.replicate n false) (by simp) U cs).2.2.2
  unfold Pkg.makeDCXDDS Pkg.makeDCXDD
  simp only [hg, hX]
  rfl

/-! Runs of the package in exact rational arithmetic. The diagrams are matrices, for which no square root is ever taken, so
that any function may stand for it. -/

section

/-- Stands for the square root, which is not used. -/
local instance startMulSqrt : HasSqrt ℚ := ⟨fun x => x⟩

/-- Tables of one bucket. -/
def startMulCfg : PCfg ℚ :=
  ⟨UCfg.default, fun _ _ => 0, fun _ _ => 0, fun _ _ => 0, fun _ _ => 0, fun _ => 0, fun _ => 0, fun _ => 0⟩

/-- A new package for `n` qubits. -/
def startMulNew (n : Nat) : Pkg ℚ :=
  Pkg.init startMulCfg n 1 1 ⟨0, fun _ => zeroE, 0, false, false⟩ ⟨0, fun _ => zeroE, 0, false, false⟩

theorem startMulNew_reach {n : Nat} (h0 : n ≤ 128) : SpanReach startMulCfg (startMulNew n) :=
  SpanReach.base (h := ⟨startMulNew n, fun _ => []⟩) ⟨_, .init n 1 1 _ _ h0 (by decide) (by decide), .refl⟩

/-- The gate `X` on qubit 1 in a new package. -/
def startMulX : Option (Pkg ℚ × PEdge ℚ) := Pkg.makeGateDDS startMulCfg (startMulNew 2) Pkg.XmatS 1 [] 1 1

/-- What the runs show. -/
def startMulCheck (r : Pkg ℚ × PEdge ℚ) : Bool :=
  let m := Pkg.multiplyS startMulCfg .m r.1 r.2 r.2 1
  let f := Pkg.multiply startMulCfg .m r.1 r.2 r.2
  let g := Pkg.multiplyS startMulCfg .m f.1 r.2 r.2 1
  (match r.2.p with
    | none => false
    | some a => decide (a ∈ (r.1.ut .m).all ∧ ((r.1.ut .m).mem a).v = 1 ∧ (∀ i, (((r.1.ut .m).mem a).e i).p = none) ∧
        (∃ i, (((r.1.ut .m).mem a).e i).w ≠ 0) ∧ r.2.w ≠ 0)) &&
  decide (Pkg.valueByPath (m.1.ut .m) m.2 (fun _ => 0) = 1) &&
  decide (Pkg.valueByPath (f.1.ut .m) f.2 (fun _ => 0) = 2) &&
  decide (Pkg.valueByPath (g.1.ut .m) g.2 (fun _ => 0) = 2)

set_option maxRecDepth 100000 in
theorem startMul_run : startMulX.any startMulCheck = true := by decide +kernel

theorem startMul_facts : ∃ (s : Pkg ℚ) (x : PEdge ℚ), SpanReach startMulCfg s ∧ Span (s.ut .m) 1 1 x ∧
    (let m := Pkg.multiplyS startMulCfg .m s x x 1
     Pkg.valueByPath (m.1.ut .m) m.2 (fun _ => 0) = 1) ∧
    let f := Pkg.multiply startMulCfg .m s x x
    let g := Pkg.multiplyS startMulCfg .m f.1 x x 1
    Pkg.valueByPath (f.1.ut .m) f.2 (fun _ => 0) = 2 ∧ Pkg.valueByPath (g.1.ut .m) g.2 (fun _ => 0) = 2 := by
  have h := startMul_run
  cases hX : startMulX with
  | none => rw [hX] at h; exact absurd h (by simp)
  | some r =>
    rw [hX] at h
    simp only [Option.any_some, startMulCheck, Bool.and_eq_true, decide_eq_true_eq] at h
    obtain ⟨⟨⟨h1, h3⟩, h4⟩, h5⟩ := h
    cases hp : r.2.p with
    | none => rw [hp] at h1; exact absurd h1 (by simp)
    | some a =>
      rw [hp] at h1
      obtain ⟨b1, b2, b3, b4, b5⟩ := of_decide_eq_true h1
      exact ⟨r.1, r.2, .gate (startMulNew_reach (by decide)) (by decide) (by decide) hX,
        Or.inr ⟨b5, a, hp, b1, b2, b3, b4⟩, h3, h4, h5⟩

/-- A product formed with the right `start` is wrong if the same product has been formed without it before: the square of
`X` on qubit 1 is the identity in a state of the package, but has the entry 2 after `multiply` without `start`. -/
theorem C90_cached_false : ∃ (s : Pkg ℚ) (x : PEdge ℚ), SpanReach startMulCfg s ∧ Span (s.ut .m) 1 1 x ∧
    (let m := Pkg.multiplyS startMulCfg .m s x x 1
     Pkg.valueByPath (m.1.ut .m) m.2 (fun _ => 0) = 1) ∧
    let m := Pkg.multiplyS startMulCfg .m (Pkg.multiply startMulCfg .m s x x).1 x x 1
    Pkg.valueByPath (m.1.ut .m) m.2 (fun _ => 0) = 2 := by
  obtain ⟨s, x, h1, h2, h3, _, h4⟩ := startMul_facts
  exact ⟨s, x, h1, h2, h3, h4⟩

/-- A product formed without `start` of operations on qubit 1 is wrong: the square of `X` has the entry 2. -/
theorem C90_plain_false : ∃ (s : Pkg ℚ) (x : PEdge ℚ), SpanReach startMulCfg s ∧ Span (s.ut .m) 1 1 x ∧
    let m := Pkg.multiply startMulCfg .m s x x
    Pkg.valueByPath (m.1.ut .m) m.2 (fun _ => 0) = 2 := by
  obtain ⟨s, x, h1, h2, _, h3, _⟩ := startMul_facts
  exact ⟨s, x, h1, h2, h3⟩

set_option maxRecDepth 100000 in
/-- The gate `DCX` on qubits 1 and 2 with `start = 1` is wrong: it maps the basis state of all zeros to itself, but in a new
package the diagram has the entry 2 there, since the product is formed without `start`. -/
theorem C90_composed_false : ∃ s : Pkg ℚ, SpanReach startMulCfg s ∧
    (Pkg.makeDCXDDS startMulCfg s 2 [] 1 2 1).map (fun r => Pkg.valueByPath (r.1.ut .m) r.2 (fun _ => 0)) = some 2 :=
  ⟨startMulNew 3, startMulNew_reach (by decide), by decide +kernel⟩

/-- The hypotheses of `C90_cached` are met. -/
example : ∃ (s : Pkg ℚ) (x : PEdge ℚ), 0 < max (s.lv .m x) (s.lv .m x) ∧ (Pkg.multiplyS startMulCfg .m s x x 0).2.w ≠ 0 := by
  obtain ⟨s, x, h1, hx, _, h3, _⟩ := startMul_facts
  rcases hx with ⟨hx1, hx2⟩ | ⟨_, a, h2, _⟩
  · exfalso
    have : (Pkg.multiply startMulCfg .m s x x) = (s, zeroE) := by
      unfold Pkg.multiply Pkg.multiply2F; rw [if_pos (Or.inl hx2)]
    rw [this] at h3
    exact absurd (show (0 : Cx ℚ) = 2 from h3) (by decide +kernel)
  refine ⟨s, x, by simp [Pkg.lv, UTable.lvl, h2], fun hw => ?_⟩
  rw [C90_default] at hw
  have hv : ∀ (t : UTable (Cx ℚ) 4) (e : PEdge ℚ) d, e.w = 0 → Pkg.valueByPath t e d = 0 := by
    intro t e d he
    unfold Pkg.valueByPath
    split
    · exact he
    · rw [pathLoop_mul, he]; simp
  exact absurd (h3.symm.trans (hv _ _ _ hw)) (by decide +kernel)

end

end DD

namespace DD.Ex

/-- The hypotheses of the theorems on sums and products are met: two gates on qubits 2 and 4 over the range 2 .. 4, in a
package in which other diagrams have been built, and their product. -/
example : ∃ (s : Pkg ℝ) (x y : PEdge ℝ), SpanReach (PR ℝ) s ∧ Span (s.ut .m) 2 3 x ∧ Span (s.ut .m) 2 3 y := by
  obtain ⟨h, x, y, A, B, hr, hn, vx, vy, vA, vB, hx, hA, ax, ay, aA, aB, wx, wy, wA, wB⟩ := setup (R := ℝ)
  have hC := PR_good ℝ
  have hs : SpanReach (PR ℝ) h.pkg := .base hr
  obtain ⟨g, e1, _, e3, _⟩ := makeGateDDS_swf hC.growth (hs.awf hC).swf ![0, 1, 1, 0] (n := 3) (target := 2) (start := 2)
    (by omega) (by omega) (by rw [hn]; omega)
  have hs1 := SpanReach.gate hs (by omega) (by omega) e1
  have p1 := (C90_span hC hs).2.2.2.1 _ _ (by omega) (by omega) e1
  obtain ⟨g', f1, _, f3, _⟩ := makeGateDDS_swf hC.growth (hs1.awf hC).swf ![1, 0, 0, -1] (n := 3) (target := 4) (start := 2)
    (by omega) (by omega) (by rw [(e3 .m).2, hn]; omega)
  have hs2 := SpanReach.gate hs1 (by omega) (by omega) f1
  have p2 := (C90_span hC hs1).2.2.2.1 _ _ (by omega) (by omega) f1
  have p1' := p1.mono (f3 .m).1
  have he := (multiplyS_awf hC.growth (hs2.awf hC) (k := .m) p1' p2)
  exact ⟨_, _, _, .mul hs2 p1' p2, he.2.2.1, p2.mono (he.2.1 .m).1⟩

end DD.Ex
