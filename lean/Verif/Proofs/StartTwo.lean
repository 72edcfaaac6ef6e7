import Verif.Proofs.StartCtrl
import Verif.Proofs.Gate2

/-!
# Two-qubit gates over the qubits `start .. start + n - 1`
-/

namespace DD

open UTable

variable {R : Type} [Field R] [LinearOrder R] [IsStrictOrderedRing R] [HasSqrt R] [LawfulSqrt R] {P : PCfg R}

/-- Lines without operation. -/
theorem wrapLoop_swf (hC : 0 < P.C.growth) {m : Nat} (z0 : Nat) : ∀ (n : Nat) (s : Pkg R) (em : Fin m → PEdge R), SWF P s →
    (∀ i, LvBelow (s.ut .m) z0 (em i)) → n + z0 ≤ (s.ut .m).nvars →
    let r := Pkg.wrapLoop P z0 n s em
    SWF P r.1 ∧ SExt s r.1 ∧ ∀ i, LvBelow (r.1.ut .m) (z0 + n) (r.2 i) ∧
      ∀ a b : Nat → Fin 2, Pkg.valueByPath (r.1.ut .m) (r.2 i) (fun q => rc (a q) (b q)) =
        if ∀ j < n, a (z0 + j) = b (z0 + j) then Pkg.valueByPath (s.ut .m) (em i) (fun q => rc (a q) (b q)) else 0 := by
  intro n
  induction n with
  | zero =>
    intro s em h hb _
    exact ⟨h, .refl _, fun i => ⟨hb i, fun a b => (if_pos (fun j hj => absurd hj (by omega))).symm⟩⟩
  | succ n ih =>
    intro s em h hb hn
    unfold Pkg.wrapLoop
    dsimp only
    obtain ⟨h1, h2, h3⟩ := ih s em h hb (by omega)
    generalize Pkg.wrapLoop P z0 n s em = r at h1 h2 h3
    unfold Pkg.wrapAll
    have hq := seqFin_spec (SWF P) SExt SExt.refl (fun a b => a.trans b) m
      (fun i s' => Pkg.makeDDNode P .m s' (z0 + n) ![r.2 i, zeroE, zeroE, r.2 i] false)
      (fun i s' e => LvBelow (s'.ut .m) (z0 + (n + 1)) e ∧
        ∀ a b : Nat → Fin 2, Pkg.valueByPath (s'.ut .m) e (fun q => rc (a q) (b q)) =
          if ∀ j < n + 1, a (z0 + j) = b (z0 + j) then Pkg.valueByPath (s.ut .m) (em i) (fun q => rc (a q) (b q)) else 0)
      (fun i s1 s2 e he hI hQ => by
        refine ⟨hQ.1.mono (he .m).1, fun a b => ?_⟩
        rw [valueByPath_mono (hI.ord .m) (he .m).1 _ hQ.1]
        exact hQ.2 a b) r.1 h1
      (fun i s' h4 h5 => by
        have hb := (h3 i).1.mono (h5 .m).1
        obtain ⟨m1, m2, m3, m4⟩ := plain_swf hC h4 (z := z0 + n) (by rw [(h5 .m).2, (h2 .m).2]; omega) hb
        refine ⟨m1, m2, m3, fun a b => ?_⟩
        rw [m4, valueByPath_mono (h1.ord .m) (h5 .m).1 _ (h3 i).1, (h3 i).2]
        by_cases hj : ∀ j < n, a (z0 + j) = b (z0 + j)
        · rw [if_pos hj]
          by_cases hl : a (z0 + n) = b (z0 + n)
          · rw [if_pos hl, if_pos]
            intro j hjn
            rcases Nat.lt_succ_iff_lt_or_eq.1 hjn with hj' | rfl
            · exact hj j hj'
            · exact hl
          · rw [if_neg hl, if_neg]
            intro hc
            exact hl (hc n (by omega))
        · rw [if_neg hj, ite_self, if_neg]
          intro hc
          exact hj fun j hjn => hc j (by omega))
    obtain ⟨q1, q2, q3⟩ := hq
    exact ⟨q1, h2.trans q2, fun i => q3 i⟩

theorem hi2_rcS (x y : Fin 2) : Pkg.hi2 (rc x y) = x := by revert x y; decide

theorem lo2_rcS (x y : Fin 2) : Pkg.lo2 (rc x y) = y := by revert x y; decide

theorem idx2_pairS (x y : Fin 2) : Pkg.idx2 x y = pair x y := by revert x y; decide

/-- The index under which the nodes of the lower target are entered. -/
theorem idx_sub (i j : Fin 4) : ((4 * (i : Nat) + j) / 4 = i) ∧ ((4 * (i : Nat) + j) % 4 = j) := by omega

/-- `makeTwoQubitGateDD`, on the lines it reaches. -/
theorem makeTwoQubitGateDDS_swf (hC : 0 < P.C.growth) {s : Pkg R} (h : SWF P s) (U : Fin 4 → Fin 4 → Cx R)
    {n t0 t1 start : Nat} (ht : t0 ≠ t1) (h0 : start ≤ t0) (h1 : start ≤ t1) (h2 : t0 < n + start) (h3 : t1 < n + start)
    (hn : n + start ≤ (s.ut .m).nvars) :
    ∃ r, Pkg.makeTwoQubitGateDDS P s U n t0 t1 start = some r ∧ SWF P r.1 ∧ SExt s r.1 ∧
      ∀ a b : Nat → Fin 2, Pkg.valueByPath (r.1.ut .m) r.2 (fun q => rc (a q) (b q)) =
        if ∀ q < max t0 t1 + 1 + Pkg.upperLines (n + start) (max t0 t1), start ≤ q → q ≠ t0 → q ≠ t1 → a q = b q then
          U (pair (a t0) (a t1)) (pair (b t0) (b t1)) else 0 := by
  unfold Pkg.makeTwoQubitGateDDS
  rw [if_neg (by omega)]
  have hlo : max start (min t0 t1) = min t0 t1 := by omega
  have hhi : max (min t0 t1 + 1) (max t0 t1) = max t0 t1 := by omega
  dsimp only
  rw [hlo, hhi]
  set lo := min t0 t1 with hlo'
  set hi := max t0 t1 with hhi'
  have hlt : lo < hi := by omega
  have hup := upperLines_le (n + start) hi (by omega)
  obtain ⟨a1, a2, a3⟩ := wrapLoop_swf hC start (lo - start) s
    (fun i : Fin 16 => Pkg.gateEntry (U ⟨i / 4, by omega⟩ ⟨i % 4, by omega⟩)) h
    (fun i => by unfold Pkg.gateEntry; split <;> exact LvBelow.term _ _ _) (by omega)
  generalize Pkg.wrapLoop P start (lo - start) s
    (fun i : Fin 16 => Pkg.gateEntry (U ⟨i / 4, by omega⟩ ⟨i % 4, by omega⟩)) = r1 at a1 a2 a3
  have hsl : start + (lo - start) = lo := by omega
  rw [hsl] at a3
  have a3' : ∀ i j : Fin 4, LvBelow (r1.1.ut .m) lo (r1.2 ⟨4 * i + j, by omega⟩) ∧
      ∀ a b : Nat → Fin 2, Pkg.valueByPath (r1.1.ut .m) (r1.2 ⟨4 * i + j, by omega⟩) (fun q => rc (a q) (b q)) =
        if ∀ k < lo - start, a (start + k) = b (start + k) then U i j else 0 := by
    intro i j
    refine ⟨(a3 _).1, fun a b => ?_⟩
    rw [(a3 _).2, valueByPath_entry]
    have e1 : (⟨(4 * (i : Nat) + j) / 4, by omega⟩ : Fin 4) = i := Fin.ext (idx_sub i j).1
    have e2 : (⟨(4 * (i : Nat) + j) % 4, by omega⟩ : Fin 4) = j := Fin.ext (idx_sub i j).2
    simp only [e1, e2]
  clear a3
  have hq := seqFin_spec (SWF P) SExt SExt.refl (fun a b => a.trans b) 4
      (fun q s' => Pkg.makeDDNode P .m s' lo (fun ij =>
        if t0 > t1 then r1.2 ⟨4 * (Pkg.idx2 (Pkg.hi2 q) (Pkg.hi2 ij) : Fin 4) + (Pkg.idx2 (Pkg.lo2 q) (Pkg.lo2 ij) : Fin 4), by omega⟩
        else r1.2 ⟨4 * (Pkg.idx2 (Pkg.hi2 ij) (Pkg.hi2 q) : Fin 4) + (Pkg.idx2 (Pkg.lo2 ij) (Pkg.lo2 q) : Fin 4), by omega⟩) false)
      (fun q s' e => LvBelow (s'.ut .m) (lo + 1) e ∧
        ∀ a b : Nat → Fin 2, Pkg.valueByPath (s'.ut .m) e (fun q => rc (a q) (b q)) =
          if ∀ k < lo - start, a (start + k) = b (start + k) then
            (if t0 > t1 then U (pair (Pkg.hi2 q) (a lo)) (pair (Pkg.lo2 q) (b lo))
            else U (pair (a lo) (Pkg.hi2 q)) (pair (b lo) (Pkg.lo2 q))) else 0)
      (fun i s1 s2 e he hI hQ => by
        refine ⟨hQ.1.mono (he .m).1, fun a b => ?_⟩
        rw [valueByPath_mono (hI.ord .m) (he .m).1 _ hQ.1]
        exact hQ.2 a b) r1.1 a1
      (fun q s' h4 h5 => by
        obtain ⟨m1, m2, m3, m4⟩ := makeDDNode_swf hC h4 (k := .m) (v := lo) (by rw [(h5 .m).2, (a2 .m).2]; omega)
          (es := fun ij =>
            if t0 > t1 then r1.2 ⟨4 * (Pkg.idx2 (Pkg.hi2 q) (Pkg.hi2 ij) : Fin 4) + (Pkg.idx2 (Pkg.lo2 q) (Pkg.lo2 ij) : Fin 4), by omega⟩
            else r1.2 ⟨4 * (Pkg.idx2 (Pkg.hi2 ij) (Pkg.hi2 q) : Fin 4) + (Pkg.idx2 (Pkg.lo2 ij) (Pkg.lo2 q) : Fin 4), by omega⟩)
          (fun ij => by
            split
            · exact (a3' _ _).1.mono (h5 .m).1
            · exact (a3' _ _).1.mono (h5 .m).1) false
        refine ⟨m1, m2, m3, fun a b => ?_⟩
        rw [m4]
        by_cases htt : t0 > t1
        · simp only [if_pos htt]
          rw [valueByPath_mono (a1.ord .m) (h5 .m).1 _ (a3' _ _).1, (a3' _ _).2, hi2_rcS, lo2_rcS, idx2_pairS, idx2_pairS]
        · simp only [if_neg htt]
          rw [valueByPath_mono (a1.ord .m) (h5 .m).1 _ (a3' _ _).1, (a3' _ _).2, hi2_rcS, lo2_rcS, idx2_pairS, idx2_pairS])
  generalize seqFin 4 (fun q s' => Pkg.makeDDNode P .m s' lo (fun ij =>
        if t0 > t1 then r1.2 ⟨4 * (Pkg.idx2 (Pkg.hi2 q) (Pkg.hi2 ij) : Fin 4) + (Pkg.idx2 (Pkg.lo2 q) (Pkg.lo2 ij) : Fin 4), by omega⟩
        else r1.2 ⟨4 * (Pkg.idx2 (Pkg.hi2 ij) (Pkg.hi2 q) : Fin 4) + (Pkg.idx2 (Pkg.lo2 ij) (Pkg.lo2 q) : Fin 4), by omega⟩) false) r1.1 = r2
    at hq ⊢
  obtain ⟨b1, b2, b3⟩ := hq
  have e2 := a2.trans b2
  obtain ⟨c1, c2, c3⟩ := wrapLoop_swf hC (lo + 1) (hi - lo - 1) r2.1 r2.2 b1 (fun i => (b3 i).1) (by rw [(e2 .m).2]; omega)
  generalize Pkg.wrapLoop P (lo + 1) (hi - lo - 1) r2.1 r2.2 = r3 at c1 c2 c3
  have e3 := e2.trans c2
  obtain ⟨d1, d2, d3, d4⟩ := makeDDNode_swf hC c1 (k := .m) (v := hi) (es := r3.2) (by rw [(e3 .m).2]; omega)
    (fun i => by have := (c3 i).1; rwa [show lo + 1 + (hi - lo - 1) = hi by omega] at this) false
  generalize Pkg.makeDDNode P .m r3.1 hi r3.2 false = e at d1 d2 d3 d4
  have e4 := e3.trans d2
  obtain ⟨f1, f2, f3⟩ := wrapLoop_swf hC (hi + 1) (Pkg.upperLines (n + start) hi) e.1 (fun _ : Fin 1 => e.2) d1
    (fun _ => d3) (by rw [(e4 .m).2]; omega)
  generalize Pkg.wrapLoop P (hi + 1) (Pkg.upperLines (n + start) hi) e.1 (fun _ : Fin 1 => e.2) = w at f1 f2 f3
  refine ⟨(w.1, w.2 0), rfl, f1, e4.trans f2, fun a b => ?_⟩
  rw [(f3 0).2, d4, (c3 _).2, (b3 _).2, hi2_rcS, lo2_rcS]
  have hU : (if t0 > t1 then U (pair (a hi) (a lo)) (pair (b hi) (b lo)) else U (pair (a lo) (a hi)) (pair (b lo) (b hi)))
      = U (pair (a t0) (a t1)) (pair (b t0) (b t1)) := by
    by_cases htt : t0 > t1
    · rw [if_pos htt, show hi = t0 by omega, show lo = t1 by omega]
    · rw [if_neg htt, show hi = t1 by omega, show lo = t0 by omega]
  rw [hU]
  by_cases hall : ∀ q < hi + 1 + Pkg.upperLines (n + start) hi, start ≤ q → q ≠ t0 → q ≠ t1 → a q = b q
  · rw [if_pos hall, if_pos, if_pos, if_pos]
    · intro k hk; exact hall _ (by omega) (by omega) (by omega) (by omega)
    · intro k hk; exact hall _ (by omega) (by omega) (by omega) (by omega)
    · intro k hk; exact hall _ (by omega) (by omega) (by omega) (by omega)
  · rw [if_neg hall]
    by_cases x1 : ∀ j < Pkg.upperLines (n + start) hi, a (hi + 1 + j) = b (hi + 1 + j)
    · rw [if_pos x1]
      by_cases x2 : ∀ j < hi - lo - 1, a (lo + 1 + j) = b (lo + 1 + j)
      · rw [if_pos x2, if_neg]
        intro x3
        refine hall fun q q4 q1 q2 q3 => ?_
        rcases Nat.lt_or_ge q lo with hq | hq
        · have := x3 (q - start) (by omega)
          rwa [Nat.add_sub_cancel' (by omega)] at this
        · rcases Nat.lt_or_ge q hi with hq' | hq'
          · have := x2 (q - (lo + 1)) (by omega)
            rwa [Nat.add_sub_cancel' (by omega)] at this
          · have := x1 (q - (hi + 1)) (by omega)
            rwa [Nat.add_sub_cancel' (by omega)] at this
      · rw [if_neg x2]
    · rw [if_neg x1]

end DD
