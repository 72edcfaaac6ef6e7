import Verif.Props.C88
import Verif.Proofs.StartMul

/-! # Histories of diagrams over ranges of qubits -/

namespace DD

open UTable

variable {R : Type} [Field R] [LinearOrder R] [IsStrictOrderedRing R] [HasSqrt R] [LawfulSqrt R] {P : PCfg R}

theorem basisLoopS_sameC (st : Nat → Option Basis) (start : Nat) : ∀ (n : Nat) (s : Pkg R) (r : Pkg R × PEdge R),
    Pkg.basisLoopS P st start n s = some r → SameC s r.1 := by
  intro n
  induction n with
  | zero => intro s r h; obtain rfl := Option.some.inj h; exact .refl _
  | succ n ih =>
    intro s r h
    unfold Pkg.basisLoopS at h
    cases h1 : Pkg.basisLoopS P st start n s with
    | none => rw [h1] at h; simp at h
    | some q =>
      rw [h1] at h
      dsimp only at h
      cases h2 : st (start + n) with
      | none => rw [h2] at h; simp at h
      | some b =>
        rw [h2] at h
        obtain rfl := Option.some.inj h
        refine (ih s q h1).trans ?_
        unfold Pkg.basisStep
        cases b <;> exact makeDDNode_sameC _ _ _ _ _

theorem wrapLoop_sameC {m : Nat} (z0 : Nat) : ∀ (n : Nat) (s : Pkg R) (em : Fin m → PEdge R), SameC s (Pkg.wrapLoop P z0 n s em).1 := by
  intro n
  induction n with
  | zero => intro s em; exact .refl _
  | succ n ih =>
    intro s em
    exact (ih s em).trans (seqFin_sameC (fun _ _ => makeDDNode_sameC _ _ _ _ _) _)

theorem gateBelowLoopS_nil (start : Nat) : ∀ (n : Nat) (s : Pkg R) (em : Fin 4 → PEdge R),
    Pkg.gateBelowLoopS P start n s em [] = (Pkg.wrapLoop P start n s em, []) := by
  intro n
  induction n with
  | zero => intro s em; rfl
  | succ n ih =>
    intro s em
    unfold Pkg.gateBelowLoopS Pkg.wrapLoop
    rw [ih]
    rfl

theorem gateAboveLoopS_nil (start q0 : Nat) : ∀ (n : Nat) (s : Pkg R) (e : PEdge R),
    Pkg.gateAboveLoopS P start q0 n s e [] =
      (((Pkg.wrapLoop P q0 n s (fun _ : Fin 1 => e)).1, (Pkg.wrapLoop P q0 n s (fun _ : Fin 1 => e)).2 0), []) := by
  intro n
  induction n with
  | zero => intro s e; rfl
  | succ n ih =>
    intro s e
    unfold Pkg.gateAboveLoopS
    rw [ih]
    rfl

theorem makeGateDDS_nil {s : Pkg R} {U : Fin 4 → Cx R} {n target start : Nat} (hn : ¬ n + start > (s.ut .m).nvars) (h1 : start ≤ target) :
    Pkg.makeGateDDS P s U n [] target start =
      let b := Pkg.wrapLoop P start (target - start) s (fun i => Pkg.gateEntry (U i))
      let e := Pkg.makeDDNode P .m b.1 target b.2 false
      let w := Pkg.wrapLoop P (target + 1) (n + start - 1 - target) e.1 (fun _ : Fin 1 => e.2)
      some (w.1, w.2 0) := by
  unfold Pkg.makeGateDDS
  rw [if_neg hn, gateBelowLoopS_nil, max_eq_right h1]
  dsimp only
  rw [gateAboveLoopS_nil]

theorem makeGateDDS_sameC {s : Pkg R} {U : Fin 4 → Cx R} {n target start : Nat} (h1 : start ≤ target) {r : Pkg R × PEdge R}
    (h : Pkg.makeGateDDS P s U n [] target start = some r) : SameC s r.1 := by
  by_cases hn : n + start > (s.ut .m).nvars
  · unfold Pkg.makeGateDDS at h; rw [if_pos hn] at h; simp at h
  · rw [makeGateDDS_nil hn h1] at h
    obtain rfl := Option.some.inj h
    exact (wrapLoop_sameC _ _ _ _).trans ((makeDDNode_sameC _ _ _ _ _).trans (wrapLoop_sameC _ _ _ _))

theorem makeTwoQubitGateDDS_sameC {s : Pkg R} {U : Fin 4 → Fin 4 → Cx R} {n t0 t1 start : Nat} {r : Pkg R × PEdge R}
    (h : Pkg.makeTwoQubitGateDDS P s U n t0 t1 start = some r) : SameC s r.1 := by
  unfold Pkg.makeTwoQubitGateDDS at h
  split at h
  · simp at h
  · dsimp only at h
    generalize hw1 : Pkg.wrapLoop P start _ s _ = r1 at h
    have c1 : SameC s r1.1 := hw1 ▸ wrapLoop_sameC _ _ _ _
    generalize hw2 : seqFin 4 _ r1.1 = r2 at h
    have c2 : SameC r1.1 r2.1 := hw2 ▸ seqFin_sameC (fun _ _ => makeDDNode_sameC _ _ _ _ _) _
    generalize hw3 : Pkg.wrapLoop P _ _ r2.1 r2.2 = r3 at h
    have c3 : SameC r2.1 r3.1 := hw3 ▸ wrapLoop_sameC _ _ _ _
    generalize hw4 : Pkg.makeDDNode P .m r3.1 _ r3.2 false = e at h
    have c4 : SameC r3.1 e.1 := hw4 ▸ makeDDNode_sameC _ _ _ _ _
    generalize hw5 : Pkg.wrapLoop P _ _ e.1 (fun _ : Fin 1 => e.2) = w at h
    have c5 : SameC e.1 w.1 := hw5 ▸ wrapLoop_sameC _ _ _ _
    obtain rfl := Option.some.inj h
    exact c1.trans (c2.trans (c3.trans (c4.trans c5)))

/-- Diagrams of an ordinary history are diagrams over the qubits from 0 on. -/
theorem Valid.span {k : Kind} {H : (Fin (ar k) → PEdge R) → Nat} {t : UTable (Cx R) (ar k)} (h : DDWF H t) : ∀ {l : Nat} {e : PEdge R}, Valid t l e → Span t 0 l e := by
  intro l
  induction l with
  | zero =>
    intro e hv
    unfold Valid at hv
    cases hp : e.p with
    | none => exact hp
    | some a => rw [hp] at hv; have := hv.2.1; omega
  | succ l ih =>
    intro e hv
    unfold Valid at hv
    cases hp : e.p with
    | none =>
      rw [hp] at hv
      exact Or.inl ⟨hp, hv.resolve_left (by omega)⟩
    | some a =>
      rw [hp] at hv
      obtain ⟨h1, h2, h3⟩ := hv
      refine Or.inr ⟨h3, a, hp, h1, by omega, fun i => ih (h.childAt h1 (by omega) i), ?_⟩
      have hn := h.norm a h1
      cases k with
      | v =>
        have hn' : IsNormV (fun i : Fin 2 => ((t.mem a).e i).w) := hn
        rcases hn' with ⟨_, h⟩ | ⟨h, _⟩ | ⟨h, _⟩
        · exact ⟨(1 : Fin 2), fun hc => one_ne_zero (h.symm.trans hc)⟩
        · exact ⟨(0 : Fin 2), fun hc => one_ne_zero (h.symm.trans hc)⟩
        · exact ⟨(0 : Fin 2), h⟩
      | m =>
        have hn' : IsNormM (fun i : Fin 4 => ((t.mem a).e i).w) := hn
        obtain ⟨j, hj, _⟩ := hn'
        exact ⟨j, fun hc => one_ne_zero (hj.symm.trans hc)⟩

theorem onRange_zero {l : Nat} (c : Fin l → Fin 2) (q : Fin l) : onRange 0 c q = c q := by
  unfold onRange
  rw [dif_pos ⟨Nat.zero_le _, by simp⟩]
  rfl

theorem PWF.awf {s : Pkg R} (h : PWF P s ∅) : AWF P s where
  swf := h.swf
  addC k := (h.addC k).mono fun x r ⟨l, h1, h2, h3, h4⟩ => ⟨0, l, Valid.span (h.tab k) h1, Valid.span (h.tab k) h2, Valid.span (h.tab k) h3, fun d => by
    rw [valueByPath_spec (h.tab k).child h1, valueByPath_spec (h.tab k).child h2, valueByPath_spec (h.tab k).child h3, h4]⟩
  mulC k := (h.mulC k).mono fun x r ⟨l, h1, h2, h3, h4⟩ => ⟨0, l, Valid.span (h.tab .m) h1, Valid.span (h.tab k) h2, Valid.span (h.tab k) h3, fun d => by
    rw [valueByPath_spec (h.tab k).child h3, h4, mulAmp_eq]
    unfold prodAt
    refine Finset.sum_congr rfl fun c _ => ?_
    rw [valueByPath_spec (h.tab .m).child h1, valueByPath_spec (h.tab k).child h2]
    simp only [onRange_zero]⟩
  kronC k := (h.kronC k).mono fun x r ⟨lx, ly, h1, _⟩ => Or.inl ⟨lx, Valid.span (h.tab k) h1⟩

theorem Span.lv {k : Kind} {s : Pkg R} (hs : SWF P s) {st l : Nat} {x : PEdge R} (h : Span (s.ut k) st l x) (hw : x.w ≠ 0) :
    s.lv k x - st = l ∧ (0 < l → s.lv k x = st + l ∧ st + l ≤ (s.ut k).nvars) := by
  cases l with
  | zero =>
    have : s.lv k x = 0 := by simp [Pkg.lv, UTable.lvl, show x.p = none from h]
    exact ⟨by omega, by omega⟩
  | succ l =>
    rcases h with ⟨_, h⟩ | ⟨_, a, h1, h2, h3, _⟩
    · exact absurd h hw
    · have : s.lv k x = st + (l + 1) := by simp [Pkg.lv, UTable.lvl, h1, h3]; omega
      have hb := ((hs.uwf k).mem_bucket h2).1
      exact ⟨by omega, fun _ => ⟨this, by omega⟩⟩

theorem multiplyS_awf (hC : 0 < P.C.growth) {s : Pkg R} (h : AWF P s) {k : Kind} {st l : Nat} {x y : PEdge R}
    (hx : Span (s.ut .m) st l x) (hy : Span (s.ut k) st l y) :
    let r := Pkg.multiplyS P k s x y st
    AWF P r.1 ∧ SExt s r.1 ∧ Span (r.1.ut k) st l r.2 ∧
      ∀ d, Pkg.valueByPath (r.1.ut k) r.2 d = prodAt (s.ut .m) (s.ut k) st l x y d := by
  unfold Pkg.multiplyS
  by_cases hz : x.w = 0 ∨ y.w = 0
  · generalize max (s.lv .m x) (s.lv k y) - st = f
    have e : Pkg.multiply2FS P k st f s x y = (s, zeroE) := by unfold Pkg.multiply2FS; rw [if_pos hz]
    rw [e]
    refine ⟨h, .refl _, Span.zero _ _ _, fun d => ?_⟩
    rw [prodAt_zero _ _ _ _ hz, valueByPath_w_zero _ rfl]
  · obtain ⟨x1, x2⟩ := hx.lv h.swf (fun e => hz (Or.inl e))
    obtain ⟨y1, y2⟩ := hy.lv h.swf (fun e => hz (Or.inr e))
    rw [show max (s.lv .m x) (s.lv k y) - st = l by omega]
    rcases Nat.eq_zero_or_pos l with rfl | hl
    · unfold Pkg.multiply2FS
      rw [if_neg hz]
      refine ⟨h, .refl _, rfl, fun d => ?_⟩
      unfold prodAt
      rw [sum_zero]
      obtain ⟨px, wx⟩ := x
      obtain ⟨py, wy⟩ := y
      obtain rfl : px = none := hx
      obtain rfl : py = none := hy
      rfl
    · exact multiply2FS_awf hC k st l s x y h (y2 hl).2 hx hy

theorem add_awf (hC : 0 < P.C.growth) {s : Pkg R} (h : AWF P s) {k : Kind} {st l : Nat} {x y : PEdge R}
    (hx : Span (s.ut k) st l x) (hy : Span (s.ut k) st l y) :
    let r := Pkg.add P k s x y
    AWF P r.1 ∧ SExt s r.1 ∧ Span (r.1.ut k) st l r.2 ∧
      ∀ d, Pkg.valueByPath (r.1.ut k) r.2 d = Pkg.valueByPath (s.ut k) x d + Pkg.valueByPath (s.ut k) y d := by
  unfold Pkg.add
  by_cases hxw : x.w = 0
  · generalize max (s.lv k x) (s.lv k y) = f
    unfold Pkg.add2F
    rw [if_pos hxw]
    by_cases hyw : y.w = 0
    · rw [if_pos hyw]
      refine ⟨h, .refl _, Span.zero _ _ _, fun d => ?_⟩
      rw [valueByPath_w_zero _ hxw, valueByPath_w_zero _ hyw, valueByPath_w_zero _ rfl, add_zero]
    · rw [if_neg hyw]
      refine ⟨h, .refl _, hy, fun d => ?_⟩
      rw [valueByPath_w_zero _ hxw, zero_add]
  · by_cases hyw : y.w = 0
    · generalize max (s.lv k x) (s.lv k y) = f
      unfold Pkg.add2F
      rw [if_neg hxw, if_pos hyw]
      refine ⟨h, .refl _, hx, fun d => ?_⟩
      rw [valueByPath_w_zero _ hyw, add_zero]
    · obtain ⟨x1, x2⟩ := hx.lv h.swf hxw
      obtain ⟨y1, y2⟩ := hy.lv h.swf hyw
      rcases Nat.eq_zero_or_pos l with rfl | hl
      · generalize max (s.lv k x) (s.lv k y) = f
        obtain ⟨px, wx⟩ := x
        obtain ⟨py, wy⟩ := y
        obtain rfl : px = none := hx
        obtain rfl : py = none := hy
        unfold Pkg.add2F
        rw [if_neg hxw, if_neg hyw, if_pos rfl]
        dsimp only
        by_cases h4 : wx + wy = 0
        · rw [if_pos h4]
          exact ⟨h, .refl _, Span.zero _ _ _, fun d => h4.symm⟩
        · rw [if_neg h4]
          exact ⟨h, .refl _, rfl, fun d => rfl⟩
      · exact add2F_awf hC k st _ l s x y h (by omega) (x2 hl).2 hx hy

omit [HasSqrt R] [LawfulSqrt R] in
theorem Span.scale {n : Nat} {t : UTable (Cx R) n} {st l : Nat} {e : PEdge R} (h : Span t st l e) {c : Cx R} (hc : c ≠ 0)
    : Span t st l ⟨e.p, e.w * c⟩ := by
  by_cases hw : e.w = 0
  · cases l with
    | zero => exact h
    | succ l =>
      rcases h with ⟨h1, _⟩ | ⟨h1, _⟩
      · exact Or.inl ⟨h1, by dsimp only; rw [hw, zero_mul]⟩
      · exact absurd hw h1
  · exact h.setW hw (mul_ne_zero hw hc)

omit [LinearOrder R] [IsStrictOrderedRing R] [HasSqrt R] [LawfulSqrt R] in
theorem NoIdent.mono {t t' : UTable (Cx R) 4} (h : Le t t') : ∀ {l st : Nat} {x : PEdge R}, NoIdent t l x → Span t st l x → NoIdent t' l x := by
  intro l
  induction l with
  | zero => intro st x _ _; trivial
  | succ l ih =>
    intro st x hn hx a ha
    rcases hx with ⟨hx, _⟩ | ⟨_, b, h2, h3, _, h5, _⟩
    · rw [hx] at ha; simp at ha
    · obtain rfl : b = a := by rw [h2] at ha; exact Option.some.inj ha
      obtain ⟨_, _, he⟩ := h b h3
      rw [he]
      exact ⟨(hn b ha).1, fun i => ih ((hn b ha).2 i) (h5 i)⟩

omit [LinearOrder R] [IsStrictOrderedRing R] [HasSqrt R] [LawfulSqrt R] in
theorem NoId.mono {k : Kind} {t t' : UTable (Cx R) (ar k)} {l st : Nat} {x : PEdge R} (hn : NoId k t l x) (h : Le t t')
    (hx : Span t st l x) : NoId k t' l x := by
  cases k with
  | v => trivial
  | m => exact NoIdent.mono h hn hx

omit [IsStrictOrderedRing R] [HasSqrt R] [LawfulSqrt R] in
theorem NoId.node {k : Kind} {s : Pkg R} {l a : Nat} {x : PEdge R} (hn : NoId k (s.ut k) (l + 1) x) (h : SWF P s) (hp : x.p = some a)
    (ha : a ∈ (s.ut k).all) : ¬(k = .m ∧ ((s.ut k).mem a).ident = true) ∧ ∀ i, NoId k (s.ut k) l (((s.ut k).mem a).e i) := by
  cases k with
  | v => exact ⟨fun hc => absurd hc.1 (by decide), fun _ => trivial⟩
  | m => exact ⟨fun hc => (hn a hp).1 (h.marks a ha hc.2), (hn a hp).2⟩

omit [LawfulSqrt R] in
theorem kron2FI_miss (k : Kind) (l : Nat) (s : Pkg R) {x y : PEdge R} {a : Nat} (hz : ¬(x.w = 0 ∨ y.w = 0)) (hp : x.p = some a)
    (h : Pkg.look (P.kronH k) (s.kronC k) (x, y) = none) (hi : ¬(k = .m ∧ ((s.ut k).mem a).ident = true)) :
    Pkg.kron2FI P k (l + 1) s x y =
      let q := seqFin (ar k) (fun i s' => Pkg.kron2FI P k l s' (((s.ut k).mem a).e i) y) s
      let r := Pkg.makeDDNode P k q.1 ((s.ut k).mem a).v q.2 true
      let e : PEdge R := ⟨r.2.p, r.2.w * x.w⟩
      ({ r.1 with kronC := Function.update r.1.kronC k ((r.1.kronC k).insert (P.kronH k) (x, y) e) }, e) := by
  conv_lhs => unfold Pkg.kron2FI
  rw [if_neg hz, hp]
  dsimp only
  rw [h]
  dsimp only
  rw [if_neg hi]

/-- Tensor products over adjacent ranges. -/
theorem kron2FI_awf (hC : 0 < P.C.growth) (k : Kind) {st ly : Nat} (hl : 0 < ly) {y : PEdge R} : ∀ (f lx : Nat) (s : Pkg R) (x : PEdge R), AWF P s →
    lx ≤ f → st + ly + lx ≤ (s.ut k).nvars → Span (s.ut k) (st + ly) lx x → Span (s.ut k) st ly y → NoId k (s.ut k) lx x →
    let r := Pkg.kron2FI P k f s x y
    AWF P r.1 ∧ SExt s r.1 ∧ Span (r.1.ut k) st (ly + lx) r.2 ∧
      ∀ d, Pkg.valueByPath (r.1.ut k) r.2 d = Pkg.valueByPath (s.ut k) x d * Pkg.valueByPath (s.ut k) y d := by
  intro f
  induction f with
  | zero =>
    intro lx s x h hf hn hx hy hni
    obtain rfl : lx = 0 := by omega
    obtain ⟨px, wx⟩ := x
    obtain rfl : px = none := hx
    unfold Pkg.kron2FI
    by_cases hz : wx = 0 ∨ y.w = 0
    · rw [if_pos hz]
      refine ⟨h, .refl _, Span.zero _ _ _, fun d => ?_⟩
      rw [valueByPath_w_zero _ rfl]
      rcases hz with hz | hz
      · rw [valueByPath_w_zero _ (show (⟨none, wx⟩ : PEdge R).w = 0 from hz), zero_mul]
      · rw [valueByPath_w_zero _ hz, mul_zero]
    · rw [if_neg hz]
      rw [not_or] at hz
      refine ⟨h, .refl _, hy.setW hz.2 (mul_ne_zero hz.1 hz.2), fun d => ?_⟩
      rw [valueByPath_weight (h.swf.ord k) d (hy.lvBelow.ptr (e' := ⟨y.p, wx * y.w⟩) rfl),
        valueByPath_weight (h.swf.ord k) d hy.lvBelow]
      show wx * y.w * _ = wx * _
      ring
  | succ f ih =>
    intro lx s x h hf hn hx hy hni
    by_cases hz : x.w = 0 ∨ y.w = 0
    · have e : Pkg.kron2FI P k (f + 1) s x y = (s, zeroE) := by unfold Pkg.kron2FI; rw [if_pos hz]
      rw [e]
      refine ⟨h, .refl _, Span.zero _ _ _, fun d => ?_⟩
      rw [valueByPath_w_zero _ rfl]
      rcases hz with hz | hz
      · rw [valueByPath_w_zero _ hz, zero_mul]
      · rw [valueByPath_w_zero _ hz, mul_zero]
    · have hx0 : x.w ≠ 0 := fun e => hz (Or.inl e)
      have hy0 : y.w ≠ 0 := fun e => hz (Or.inr e)
      cases lx with
      | zero =>
        obtain ⟨px, wx⟩ := x
        obtain rfl : px = none := hx
        have e : Pkg.kron2FI P k (f + 1) s ⟨none, wx⟩ y = (s, ⟨y.p, wx * y.w⟩) := by unfold Pkg.kron2FI; rw [if_neg hz]
        rw [e]
        refine ⟨h, .refl _, hy.setW hy0 (mul_ne_zero hx0 hy0), fun d => ?_⟩
        rw [valueByPath_weight (h.swf.ord k) d (hy.lvBelow.ptr (e' := ⟨y.p, wx * y.w⟩) rfl),
          valueByPath_weight (h.swf.ord k) d hy.lvBelow]
        show wx * y.w * _ = wx * _
        ring
      | succ lx =>
        rcases id hx with ⟨_, hx1⟩ | ⟨_, a, x2, x3, x4, x5, _⟩
        · exact absurd hx1 hx0
        cases hk : Pkg.look (P.kronH k) (s.kronC k) (x, y) with
        | some r =>
          have e : Pkg.kron2FI P k (f + 1) s x y = if r.w = 0 then (s, zeroE) else (s, r) := by
            unfold Pkg.kron2FI; rw [if_neg hz, x2]; dsimp only; rw [hk]
          rw [e]
          rcases (h.kronC k).look hk with ⟨l', g1⟩ | ⟨st', lx', ly', g1, g2, g3, g4⟩
          · have := (hx.uniq g1 hx0).2 (by omega)
            omega
          · dsimp only at g1 g2 g4
            obtain ⟨e1, e2⟩ := hx.uniq g1 hx0
            obtain ⟨e3, e4⟩ := hy.uniq g2 hy0
            obtain rfl := e4 hl
            subst e1 e3
            by_cases h1 : r.w = 0
            · rw [if_pos h1]
              refine ⟨h, .refl _, Span.zero _ _ _, fun d => ?_⟩
              rw [← g4, valueByPath_w_zero _ rfl, valueByPath_w_zero _ h1]
            · rw [if_neg h1]
              exact ⟨h, .refl _, g3, g4⟩
        | none =>
          rw [kron2FI_miss k f s hz x2 hk (hni.node h.swf x2 x3).1, x4]
          dsimp only
          have hq := seqFin_spec (fun s' => AWF P s') SExt SExt.refl (fun a b => a.trans b) (ar k)
            (fun i s' => Pkg.kron2FI P k f s' (((s.ut k).mem a).e i) y)
            (fun i s' e => Span (s'.ut k) st (ly + lx) e ∧ ∀ d, Pkg.valueByPath (s'.ut k) e d =
              Pkg.valueByPath (s.ut k) (((s.ut k).mem a).e i) d * Pkg.valueByPath (s.ut k) y d)
            (fun i s1 s2 e he h1 hQ => ⟨hQ.1.mono (he k).1, fun d => by
              rw [valueByPath_mono (h1.swf.ord k) (he k).1 d hQ.1.lvBelow]; exact hQ.2 d⟩) s h
            (fun i s' h1 h2 => by
              obtain ⟨r1, r2, r3, r4⟩ := ih lx s' (((s.ut k).mem a).e i) h1 (by omega)
                (by rw [(h2 k).2]; omega) ((x5 i).mono (h2 k).1) (hy.mono (h2 k).1) (((hni.node h.swf x2 x3).2 i).mono (h2 k).1 (x5 i))
              refine ⟨r1, r2, r3, fun d => ?_⟩
              rw [r4, valueByPath_mono (h.swf.ord k) (h2 k).1 d (x5 i).lvBelow,
                valueByPath_mono (h.swf.ord k) (h2 k).1 d hy.lvBelow])
          generalize seqFin (ar k) (fun i s' => Pkg.kron2FI P k f s' (((s.ut k).mem a).e i) y) s = q at hq
          obtain ⟨q1, q2, q3⟩ := hq
          have hm := makeDDNode_awf hC q1 (k := k) (st := st) (l := ly + lx) (by rw [(q2 k).2]; omega) (fun i => (q3 i).1) true
          dsimp only at hm
          rw [← Nat.add_assoc] at hm
          generalize Pkg.makeDDNode P k q.1 (st + ly + lx) q.2 true = r at hm
          obtain ⟨m1, m2, m3, m4⟩ := hm
          have he := q2.trans m2
          have hsp : Span (r.1.ut k) st (ly + (lx + 1)) ⟨r.2.p, r.2.w * x.w⟩ := m3.scale hx0
          have hval : ∀ d, Pkg.valueByPath (r.1.ut k) ⟨r.2.p, r.2.w * x.w⟩ d =
              Pkg.valueByPath (s.ut k) x d * Pkg.valueByPath (s.ut k) y d := by
            intro d
            obtain ⟨px, wx⟩ := x
            obtain rfl : px = some a := x2
            rw [valueByPath_weight (m1.swf.ord k) d hsp.lvBelow, valueByPath_node (h.swf.ord k) d x3 wx, x4]
            have hr := m4 d
            rw [valueByPath_weight (m1.swf.ord k) d m3.lvBelow, (q3 _).2] at hr
            dsimp only at hr ⊢
            linear_combination wx * hr
          refine ⟨⟨⟨m1.swf.uwf, m1.swf.ord, m1.swf.trans, m1.swf.marks⟩, m1.addC, m1.mulC, ?_⟩, he, hsp, hval⟩
          intro k'
          by_cases hkk : k' = k
          swap
          · simp only [Function.update_of_ne hkk]
            exact m1.kronC k'
          subst hkk
          simp only [Function.update_self]
          refine (m1.kronC k').insert _ (Or.inr ⟨st, lx + 1, ly, hx.mono (he k').1, hy.mono (he k').1, hsp, fun d => ?_⟩)
          rw [valueByPath_mono (h.swf.ord k') (he k').1 d hx.lvBelow, valueByPath_mono (h.swf.ord k') (he k').1 d hy.lvBelow]
          exact hval d

theorem kroneckerI_awf (hC : 0 < P.C.growth) {s : Pkg R} (h : AWF P s) {k : Kind} {st lx ly : Nat} (hl : 0 < ly) {x y : PEdge R}
    (hx : Span (s.ut k) (st + ly) lx x) (hy : Span (s.ut k) st ly y)
    (hi : NoId k (s.ut k) lx x) :
    let r := Pkg.kroneckerI P k s x y
    AWF P r.1 ∧ SExt s r.1 ∧ Span (r.1.ut k) st (ly + lx) r.2 ∧
      ∀ d, Pkg.valueByPath (r.1.ut k) r.2 d = Pkg.valueByPath (s.ut k) x d * Pkg.valueByPath (s.ut k) y d := by
  unfold Pkg.kroneckerI
  by_cases hz : x.w = 0 ∨ y.w = 0
  · generalize s.lv k x = f
    have e : Pkg.kron2FI P k f s x y = (s, zeroE) := by unfold Pkg.kron2FI; rw [if_pos hz]
    rw [e]
    refine ⟨h, .refl _, Span.zero _ _ _, fun d => ?_⟩
    rw [valueByPath_w_zero _ rfl]
    rcases hz with hz | hz
    · rw [valueByPath_w_zero _ hz, zero_mul]
    · rw [valueByPath_w_zero _ hz, mul_zero]
  · rw [not_or] at hz
    obtain ⟨x1, x2⟩ := hx.lv h.swf hz.1
    obtain ⟨y1, y2⟩ := hy.lv h.swf hz.2
    refine kron2FI_awf hC k hl _ lx s x h ?_ ?_ hx hy hi
    · rcases Nat.eq_zero_or_pos lx with rfl | h0
      · omega
      · have := (x2 h0).1; omega
    · rcases Nat.eq_zero_or_pos lx with rfl | h0
      · have := (y2 hl).2; omega
      · exact (x2 h0).2

theorem SpanReach.awf (hC : P.C.Good) {s : Pkg R} (hs : SpanReach P s) : AWF P s := by
  induction hs with
  | base hr => exact (hr.inv hC).wf.awf
  | zero _ h ih =>
    unfold Pkg.makeZeroStateS at h
    split at h
    · simp at h
    · obtain ⟨g1, g2, _⟩ := basisLoopS_swf hC.growth _ _ _ _ ih.swf (by omega) _ (ofOption_ok h)
      exact ih.transfer g1 g2 (basisLoopS_sameC _ _ _ _ _ (ofOption_ok h))
  | bits _ h ih =>
    unfold Pkg.makeBasisStateS at h
    split at h
    · simp at h
    · obtain ⟨g1, g2, _⟩ := basisLoopS_swf hC.growth _ _ _ _ ih.swf (by omega) _ (ofOption_ok h)
      exact ih.transfer g1 g2 (basisLoopS_sameC _ _ _ _ _ (ofOption_ok h))
  | states _ h ih =>
    unfold Pkg.makeBasisStatesS at h
    split at h
    · simp at h
    · split at h
      · simp at h
      · obtain ⟨g1, g2, _⟩ := basisLoopS_swf hC.growth _ _ _ _ ih.swf (by omega) _ (ofOption_ok h)
        exact ih.transfer g1 g2 (basisLoopS_sameC _ _ _ _ _ (ofOption_ok h))
  | @gate s' _ U n target start h1 h2 r h ih =>
    by_cases hn : n + start > (s'.ut .m).nvars
    · unfold Pkg.makeGateDDS at h; rw [if_pos hn] at h; simp at h
    · obtain ⟨r', e1, e2, e3, _⟩ := makeGateDDS_swf hC.growth ih.swf U h1 h2 (by omega)
      have hc := makeGateDDS_sameC h1 h
      rw [e1] at h
      obtain rfl := Option.some.inj h
      exact ih.transfer e2 e3 hc
  | @two s' _ U n t0 t1 start ht h0 h1 h2 h3 r h ih =>
    by_cases hn : n + start > (s'.ut .m).nvars
    · unfold Pkg.makeTwoQubitGateDDS at h; rw [if_pos hn] at h; simp at h
    · obtain ⟨r', e1, e2, e3, _⟩ := makeTwoQubitGateDDS_swf hC.growth ih.swf U ht h0 h1 h2 h3 (by omega)
      have hc := makeTwoQubitGateDDS_sameC h
      rw [e1] at h
      obtain rfl := Option.some.inj h
      exact ih.transfer e2 e3 hc
  | add _ hx hy ih => exact (add_awf hC.growth ih hx hy).1
  | mul _ hx hy ih => exact (multiplyS_awf hC.growth ih hx hy).1
  | kron _ hl hx hy hi ih => exact (kroneckerI_awf hC.growth ih hl hx hy hi).1

/-- Lines without operation. -/
theorem wrapLoop_span (hC : 0 < P.C.growth) {m st l : Nat} : ∀ (n : Nat) (s : Pkg R) (em : Fin m → PEdge R), AWF P s →
    (∀ i, Span (s.ut .m) st l (em i)) → st + l + n ≤ (s.ut .m).nvars →
    let r := Pkg.wrapLoop P (st + l) n s em
    AWF P r.1 ∧ SExt s r.1 ∧ ∀ i, Span (r.1.ut .m) st (l + n) (r.2 i) := by
  intro n
  induction n with
  | zero => intro s em h hb _; exact ⟨h, .refl _, hb⟩
  | succ n ih =>
    intro s em h hb hn
    unfold Pkg.wrapLoop
    dsimp only
    obtain ⟨h1, h2, h3⟩ := ih s em h hb (by omega)
    generalize Pkg.wrapLoop P (st + l) n s em = r at h1 h2 h3
    unfold Pkg.wrapAll
    have hq := seqFin_spec (AWF P) SExt SExt.refl (fun a b => a.trans b) m
      (fun i s' => Pkg.makeDDNode P .m s' (st + l + n) ![r.2 i, zeroE, zeroE, r.2 i] false)
      (fun i s' e => Span (s'.ut .m) st (l + (n + 1)) e) (fun i s1 s2 e he _ hQ => hQ.mono (he .m).1) r.1 h1
      (fun i s' h4 h5 => by
        have := makeDDNode_awf hC h4 (k := .m) (st := st) (l := l + n) (es := ![r.2 i, zeroE, zeroE, r.2 i])
          (by rw [(h5 .m).2, (h2 .m).2]; omega) (fun j => by
            have hr := (h3 i).mono (h5 .m).1
            have hz := Span.zero (s'.ut .m) st (l + n)
            fin_cases j
            exacts [hr, hz, hz, hr]) false
        rw [← Nat.add_assoc st l n] at this
        exact ⟨this.1, this.2.1, this.2.2.1⟩)
    exact ⟨hq.1, h2.trans hq.2.1, hq.2.2⟩

/-- A gate is a diagram over the range it is built for. -/
theorem makeGateDDS_span (hC : 0 < P.C.growth) {s : Pkg R} (h : AWF P s) {U : Fin 4 → Cx R} {n target start : Nat}
    (h1 : start ≤ target) (h2 : target < n + start) {r : Pkg R × PEdge R} (hr : Pkg.makeGateDDS P s U n [] target start = some r) :
    Span (r.1.ut .m) start n r.2 := by
  by_cases hn : n + start > (s.ut .m).nvars
  · unfold Pkg.makeGateDDS at hr; rw [if_pos hn] at hr; simp at hr
  · rw [makeGateDDS_nil hn h1] at hr
    dsimp only at hr
    obtain ⟨a1, a2, a3⟩ := wrapLoop_span hC (st := start) (l := 0) (target - start) s (fun i => Pkg.gateEntry (U i)) h
      (fun i => by unfold Pkg.gateEntry; split <;> rfl) (by omega)
    rw [Nat.add_zero] at a1 a2 a3
    generalize Pkg.wrapLoop P start (target - start) s (fun i => Pkg.gateEntry (U i)) = b at hr a1 a2 a3
    have hm := makeDDNode_awf hC a1 (k := .m) (st := start) (l := 0 + (target - start)) (es := b.2) (by rw [(a2 .m).2]; omega) a3 false
    rw [show start + (0 + (target - start)) = target by omega] at hm
    dsimp only at hm
    generalize Pkg.makeDDNode P .m b.1 target b.2 false = e at hr hm
    obtain ⟨m1, m2, m3, _⟩ := hm
    obtain ⟨b1, b2, b3⟩ := wrapLoop_span hC (m := 1) (st := start) (l := 0 + (target - start) + 1) (n + start - 1 - target) e.1 (fun _ => e.2) m1
      (fun _ => m3) (by rw [(m2 .m).2, (a2 .m).2]; omega)
    rw [show start + (0 + (target - start) + 1) = target + 1 by omega] at b1 b2 b3
    rw [show 0 + (target - start) + 1 + (n + start - 1 - target) = n by omega] at b3
    generalize Pkg.wrapLoop P (target + 1) (n + start - 1 - target) e.1 (fun _ : Fin 1 => e.2) = w at hr b3
    obtain rfl := Option.some.inj hr
    exact b3 0

/-- So is a state. -/
theorem basisLoopS_span (hC : 0 < P.C.growth) (st : Nat → Option Basis) (start : Nat) : ∀ (n : Nat) (s : Pkg R), AWF P s →
    n + start ≤ (s.ut .v).nvars → ∀ r, Pkg.basisLoopS P st start n s = some r → Span (r.1.ut .v) start n r.2 := by
  intro n
  induction n with
  | zero => intro s _ _ r hr; obtain rfl := Option.some.inj hr; rfl
  | succ n ih =>
    intro s h hn r hr
    unfold Pkg.basisLoopS at hr
    cases h0 : Pkg.basisLoopS P st start n s with
    | none => rw [h0] at hr; simp at hr
    | some q =>
      rw [h0] at hr
      dsimp only at hr
      cases hb : st (start + n) with
      | none => rw [hb] at hr; simp at hr
      | some b =>
        rw [hb] at hr
        dsimp only at hr
        obtain ⟨q1, q2, _, q4, _⟩ := basisLoopS_swf hC st start n s h.swf (by omega) q h0
        have hq := ih s h (by omega) q h0
        have ha := h.transfer q1 q2 (basisLoopS_sameC _ _ _ _ _ h0)
        rw [basisStep_eq P _ _ _ _ q4] at hr
        obtain rfl := Option.some.inj hr
        refine (makeDDNode_awf hC ha (k := .v) (st := start) (l := n) (by rw [(q2 .v).2]; omega) (fun i => ?_) false).2.2.1
        split
        · exact Span.zero _ _ _
        · rename_i hz
          exact hq.setW (by rw [q4]; exact one_ne_zero) hz

/-- So is a two-qubit gate, unless the range ends with qubit 127. -/
theorem makeTwoQubitGateDDS_span (hC : 0 < P.C.growth) {s : Pkg R} (h : AWF P s) {U : Fin 4 → Fin 4 → Cx R} {n t0 t1 start : Nat}
    (ht : t0 ≠ t1) (h0 : start ≤ t0) (h1 : start ≤ t1) (h2 : t0 < n + start) (h3 : t1 < n + start) (h128 : n + start < 128)
    {r : Pkg R × PEdge R} (hr : Pkg.makeTwoQubitGateDDS P s U n t0 t1 start = some r) : Span (r.1.ut .m) start n r.2 := by
  unfold Pkg.makeTwoQubitGateDDS at hr
  split at hr
  · simp at hr
  · rename_i hn
    have hlo : max start (min t0 t1) = min t0 t1 := by omega
    have hhi : max (min t0 t1 + 1) (max t0 t1) = max t0 t1 := by omega
    have hup : Pkg.upperLines (n + start) (max t0 t1) = n + start - 1 - max t0 t1 := by
      have := upperLines_eq h128 (hi := max t0 t1) (by omega); omega
    dsimp only at hr
    rw [hlo, hhi, hup] at hr
    generalize hlod : min t0 t1 = lo at hr
    generalize hhid : max t0 t1 = hi at hr
    have hlt : lo < hi := by omega
    obtain ⟨a1, a2, a3⟩ := wrapLoop_span hC (st := start) (l := 0) (lo - start) s
      (fun i : Fin 16 => Pkg.gateEntry (U ⟨i / 4, by omega⟩ ⟨i % 4, by omega⟩)) h
      (fun i => by unfold Pkg.gateEntry; split <;> rfl) (by omega)
    rw [Nat.add_zero] at a1 a2 a3
    generalize Pkg.wrapLoop P start (lo - start) s _ = r1 at hr a1 a2 a3
    have hsl : start + (0 + (lo - start)) = lo := by omega
    generalize hw2 : seqFin 4 _ r1.1 = r2 at hr
    have hq : AWF P r2.1 ∧ SExt r1.1 r2.1 ∧ ∀ i, Span (r2.1.ut .m) start (0 + (lo - start) + 1) (r2.2 i) := by
      rw [← hw2]
      refine seqFin_spec (AWF P) SExt SExt.refl (fun a b => a.trans b) 4 _
        (fun q s' e => Span (s'.ut .m) start (0 + (lo - start) + 1) e) (fun i s1 s2 e he hI hQ => hQ.mono (he .m).1) r1.1 a1
        (fun q s' h4 h5 => ?_)
      have hm := fun es hes => makeDDNode_awf hC h4 (k := .m) (st := start) (l := 0 + (lo - start)) (es := es)
        (by rw [(h5 .m).2, (a2 .m).2]; omega) hes false
      rw [hsl] at hm
      dsimp only at hm ⊢
      refine (fun H => ⟨(hm _ H).1, (hm _ H).2.1, (hm _ H).2.2.1⟩) fun ij => ?_
      split
      · exact (a3 _).mono (h5 .m).1
      · exact (a3 _).mono (h5 .m).1
    obtain ⟨q1, q2, q3⟩ := hq
    obtain ⟨c1, c2, c3⟩ := wrapLoop_span hC (hi - lo - 1) r2.1 r2.2 q1 q3 (by rw [(q2 .m).2, (a2 .m).2]; omega)
    rw [show start + (0 + (lo - start) + 1) = lo + 1 by omega] at c1 c2 c3
    generalize Pkg.wrapLoop P (lo + 1) (hi - lo - 1) r2.1 r2.2 = r3 at hr c1 c2 c3
    have hm := makeDDNode_awf hC c1 (k := .m) (st := start) (l := 0 + (lo - start) + 1 + (hi - lo - 1)) (es := r3.2)
      (by rw [(c2 .m).2, (q2 .m).2, (a2 .m).2]; omega) c3 false
    rw [show start + (0 + (lo - start) + 1 + (hi - lo - 1)) = hi by omega] at hm
    dsimp only at hm
    generalize Pkg.makeDDNode P .m r3.1 hi r3.2 false = e at hr hm
    obtain ⟨m1, m2, m3, _⟩ := hm
    obtain ⟨b1, b2, b3⟩ := wrapLoop_span hC (m := 1) (n + start - 1 - hi) e.1 (fun _ => e.2) m1 (fun _ => m3)
      (by rw [(m2 .m).2, (c2 .m).2, (q2 .m).2, (a2 .m).2]; omega)
    rw [show start + (0 + (lo - start) + 1 + (hi - lo - 1) + 1) = hi + 1 by omega] at b1 b2 b3
    rw [show 0 + (lo - start) + 1 + (hi - lo - 1) + 1 + (n + start - 1 - hi) = n by omega] at b3
    generalize Pkg.wrapLoop P (hi + 1) _ e.1 (fun _ : Fin 1 => e.2) = w at hr b3
    obtain rfl := Option.some.inj hr
    exact b3 0

end DD
