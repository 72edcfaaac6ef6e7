import Verif.Proofs.Gate

/-! # `makeTwoQubitGateDD` -/

namespace DD

variable {R : Type} [Field R]

/-- Identity on the lines in `S` below `z`, values `X` otherwise. -/
def tw (S : Nat → Prop) [DecidablePred S] (z : Nat) (X : (Nat → Fin 4) → Cx R) (D : Nat → Fin 4) : Cx R :=
  if ∀ j < z, S j → dg (D j) then X D else 0

theorem tw_line {S : Nat → Prop} [DecidablePred S] {z : Nat} {X : (Nat → Fin 4) → Cx R} (hS : S z)
    (d : Fin (z + 1) → Fin 4) (hX : X (dx d) = X (dx (Fin.init d))) :
    (if d (Fin.last z) = 0 then tw S z X (dx (Fin.init d)) else if d (Fin.last z) = 3 then
      tw S z X (dx (Fin.init d)) else 0) = tw S (z + 1) X (dx d) := by
  have h1 := forall_lt_succ_dx (Q := S) (d := d)
  simp only [hS, true_imp_iff] at h1
  unfold tw
  rw [hX]
  simp only [h1]
  generalize d (Fin.last z) = x
  fin_cases x <;> simp [dgd]

theorem tw_node {S : Nat → Prop} [DecidablePred S] {z : Nat} {X : Fin 4 → (Nat → Fin 4) → Cx R}
    {Y : (Nat → Fin 4) → Cx R} (hS : ¬ S z)
    (d : Fin (z + 1) → Fin 4) (hX : Y (dx d) = X (d (Fin.last z)) (dx (Fin.init d))) :
    tw S z (X (d (Fin.last z))) (dx (Fin.init d)) = tw S (z + 1) Y (dx d) := by
  have h1 := forall_lt_succ_dx (Q := S) (d := d)
  simp only [hS, false_imp_iff, true_and] at h1
  unfold tw
  rw [hX]
  simp only [h1]

variable [LinearOrder R] [IsStrictOrderedRing R] [HasSqrt R] [LawfulSqrt R]

theorem wrapAll_spec {P : PCfg R} (hC : 0 < P.C.growth) {m : Nat} {S : Nat → Prop} [DecidablePred S] {z : Nat}
    {X : Fin m → (Nat → Fin 4) → Cx R} (hS : S z)
    (hX : ∀ i (d : Fin (z + 1) → Fin 4), X i (dx d) = X i (dx (Fin.init d))) {s : Pkg R} {em : Fin m → PEdge R}
    (h : PWF P s ∅) (hz : z < (s.ut .m).nvars) (hem : ∀ i, HasVal s .m z (em i) (fun d => tw S z (X i) (dx d))) :
    let r := Pkg.wrapAll P z s em
    PWF P r.1 ∅ ∧ PExt s r.1 ∧ ∀ i, HasVal r.1 .m (z + 1) (r.2 i) (fun d => tw S (z + 1) (X i) (dx d)) := by
  unfold Pkg.wrapAll
  refine seqVal h (fun i s' h' he => ?_)
  have := (hem i).ext h he
  refine (diag_spec hC false h' (by rw [(he .m).nvars]; exact hz) this this).congr (fun d => ?_)
  exact tw_line hS d (hX i d)

theorem wrapLoop_spec {P : PCfg R} (hC : 0 < P.C.growth) {m : Nat} {S : Nat → Prop} [DecidablePred S] {z0 : Nat}
    {X : Fin m → (Nat → Fin 4) → Cx R} {s : Pkg R} {em : Fin m → PEdge R}
    (h : PWF P s ∅) (hem : ∀ i, HasVal s .m z0 (em i) (fun d => tw S z0 (X i) (dx d))) : ∀ n,
    (∀ j, z0 ≤ j → j < z0 + n → S j) →
    (∀ i z, z0 ≤ z → ∀ (d : Fin (z + 1) → Fin 4), X i (dx d) = X i (dx (Fin.init d))) →
    z0 + n ≤ (s.ut .m).nvars →
    let r := Pkg.wrapLoop P z0 n s em
    PWF P r.1 ∅ ∧ PExt s r.1 ∧ ∀ i, HasVal r.1 .m (z0 + n) (r.2 i) (fun d => tw S (z0 + n) (X i) (dx d)) := by
  intro n
  induction n with
  | zero => intro _ _ _; exact ⟨h, PExt.refl _, hem⟩
  | succ n ih =>
    intro hS hX hn
    obtain ⟨h1, h2, h3⟩ := ih (fun j a b => hS j a (by omega)) hX (by omega)
    unfold Pkg.wrapLoop
    dsimp only
    generalize Pkg.wrapLoop P z0 n s em = r at h1 h2 h3
    obtain ⟨k1, k2, k3⟩ := wrapAll_spec hC (hS (z0 + n) (by omega) (by omega)) (fun i d => hX i (z0 + n) (by omega) d) h1
      (by rw [(h2 .m).nvars]; omega) h3
    exact ⟨k1, h2.trans k2, k3⟩

theorem upperLines_le (n hi : Nat) : hi + 1 ≤ n → hi + 1 + Pkg.upperLines n hi ≤ n := by
  intro h
  unfold Pkg.upperLines Pkg.toQubit
  have : (n : Int).bmod 256 ≤ n := by
    rw [Int.bmod_def]; split_ifs <;> omega
  omega

theorem upperLines_eq {n hi : Nat} (h : n < 128) (hh : hi + 1 ≤ n) : hi + 1 + Pkg.upperLines n hi = n := by
  unfold Pkg.upperLines Pkg.toQubit
  have : (n : Int).bmod 256 = n := by
    rw [Int.bmod_def, if_pos (by omega)]; omega
  omega

/-- `makeTwoQubitGateDD` in terms of digits, on the lines it reaches. -/
theorem makeTwoQubitGateDD_reach {P : PCfg R} (hC : 0 < P.C.growth) {U : Fin 4 → Fin 4 → Cx R} {t0 t1 n : Nat}
    (ht : t0 ≠ t1) (h0 : t0 < n) (h1 : t1 < n) {s : Pkg R} (h : PWF P s ∅) (hn : n ≤ (s.ut .m).nvars) :
    ∃ r, Pkg.makeTwoQubitGateDD P s U n t0 t1 = some r ∧ OpSpec P ∅ s .m (max t0 t1 + 1 + Pkg.upperLines n (max t0 t1))
      (fun d => tw (fun j => j ≠ t0 ∧ j ≠ t1) (max t0 t1 + 1 + Pkg.upperLines n (max t0 t1))
        (fun D => U (Pkg.idx2 (Pkg.hi2 (D t0)) (Pkg.hi2 (D t1))) (Pkg.idx2 (Pkg.lo2 (D t0)) (Pkg.lo2 (D t1)))) (dx d)) r := by
  unfold Pkg.makeTwoQubitGateDD
  rw [if_neg (by omega)]
  refine ⟨_, rfl, ?_⟩
  dsimp only
  generalize hlo : min t0 t1 = lo
  generalize hhi : max t0 t1 = hi
  have hS : ∀ j, j ≠ lo → j ≠ hi → (j ≠ t0 ∧ j ≠ t1) := by intro j _ _; omega
  have hSlo : ¬ (lo ≠ t0 ∧ lo ≠ t1) := by omega
  have hShi : ¬ (hi ≠ t0 ∧ hi ≠ t1) := by omega
  have hlohi : lo < hi := by omega
  have hhin : hi < n := by omega
  have hup := upperLines_le n hi (by omega)
  generalize Pkg.upperLines n hi = u at hup
  obtain ⟨a1, a2, a3⟩ := wrapLoop_spec (m := 16) hC (S := fun j => j ≠ t0 ∧ j ≠ t1) (z0 := 0)
    (X := fun i _ => U ⟨i / 4, by omega⟩ ⟨i % 4, by omega⟩) (s := s)
    (em := fun i => Pkg.gateEntry (U ⟨i / 4, by omega⟩ ⟨i % 4, by omega⟩)) h
    (by
      intro i
      refine (gateEntry_val s _).congr (fun d => ?_)
      simp [tw]) lo (fun j _ _ => hS j (by omega) (by omega)) (fun _ _ _ _ => rfl) (by omega)
  rw [Nat.zero_add] at a3
  generalize Pkg.wrapLoop P 0 lo s (fun i : Fin 16 => Pkg.gateEntry (U ⟨i / 4, by omega⟩ ⟨i % 4, by omega⟩)) = r1 at a1 a2 a3
  -- the four blocks of the lower target
  have em (i j : Fin 4) : HasVal r1.1 .m lo (r1.2 ⟨4 * i + j, by omega⟩)
      (fun d => tw (fun j => j ≠ t0 ∧ j ≠ t1) lo (fun _ => U i j) (dx d)) := by
    refine (a3 ⟨4 * i + j, by omega⟩).congr (fun d => ?_)
    congr 2
    funext _
    congr 1
    · ext; simp only []; omega
    · ext; simp only []; omega
  obtain ⟨b1, b2, b3⟩ := seqVal (P := P) (k := .m) (l := lo + 1) (n := 4) a1
    (F := fun q d => tw (fun j => j ≠ t0 ∧ j ≠ t1) (lo + 1) (fun D =>
      if t0 > t1 then U (Pkg.idx2 (Pkg.hi2 q) (Pkg.hi2 (D lo))) (Pkg.idx2 (Pkg.lo2 q) (Pkg.lo2 (D lo)))
      else U (Pkg.idx2 (Pkg.hi2 (D lo)) (Pkg.hi2 q)) (Pkg.idx2 (Pkg.lo2 (D lo)) (Pkg.lo2 q))) (dx d))
    (f := fun q s => Pkg.makeDDNode P .m s lo (fun ij =>
        if t0 > t1 then r1.2 ⟨4 * Pkg.idx2 (Pkg.hi2 q) (Pkg.hi2 ij) + Pkg.idx2 (Pkg.lo2 q) (Pkg.lo2 ij), by omega⟩
        else r1.2 ⟨4 * Pkg.idx2 (Pkg.hi2 ij) (Pkg.hi2 q) + Pkg.idx2 (Pkg.lo2 ij) (Pkg.lo2 q), by omega⟩) false)
    (by
      intro q s' h' he
      refine (node_spec (k := .m) hC false h' (by rw [(he .m).nvars, (a2 .m).nvars]; omega)
        (f := fun ij d => tw (fun j => j ≠ t0 ∧ j ≠ t1) lo (fun _ =>
          if t0 > t1 then U (Pkg.idx2 (Pkg.hi2 q) (Pkg.hi2 ij)) (Pkg.idx2 (Pkg.lo2 q) (Pkg.lo2 ij))
          else U (Pkg.idx2 (Pkg.hi2 ij) (Pkg.hi2 q)) (Pkg.idx2 (Pkg.lo2 ij) (Pkg.lo2 q))) (dx d)) (fun ij => ?_)).congr (fun d => ?_)
      · by_cases hgt : t0 > t1
        · simp only [if_pos hgt]; exact (em _ _).ext a1 he
        · simp only [if_neg hgt]; exact (em _ _).ext a1 he
      · refine tw_node (X := fun ij _ => if t0 > t1 then
          U (Pkg.idx2 (Pkg.hi2 q) (Pkg.hi2 ij)) (Pkg.idx2 (Pkg.lo2 q) (Pkg.lo2 ij))
          else U (Pkg.idx2 (Pkg.hi2 ij) (Pkg.hi2 q)) (Pkg.idx2 (Pkg.lo2 ij) (Pkg.lo2 q))) hSlo d ?_
        simp only [dx_last])
  generalize seqFin 4 (fun q s => Pkg.makeDDNode P .m s lo (fun ij =>
        if t0 > t1 then r1.2 ⟨4 * Pkg.idx2 (Pkg.hi2 q) (Pkg.hi2 ij) + Pkg.idx2 (Pkg.lo2 q) (Pkg.lo2 ij), by omega⟩
        else r1.2 ⟨4 * Pkg.idx2 (Pkg.hi2 ij) (Pkg.hi2 q) + Pkg.idx2 (Pkg.lo2 ij) (Pkg.lo2 q), by omega⟩) false) r1.1 = r2
    at b1 b2 b3
  have e2 := a2.trans b2
  have stab : ∀ (q z : Nat), q < z → ∀ (d : Fin (z + 1) → Fin 4), dx d q = dx (Fin.init d) q := fun q z hq d => dx_lt d hq
  obtain ⟨c1, c2, c3⟩ := wrapLoop_spec (m := 4) hC (S := fun j => j ≠ t0 ∧ j ≠ t1) (z0 := lo + 1)
    (X := fun q D =>
      if t0 > t1 then U (Pkg.idx2 (Pkg.hi2 q) (Pkg.hi2 (D lo))) (Pkg.idx2 (Pkg.lo2 q) (Pkg.lo2 (D lo)))
      else U (Pkg.idx2 (Pkg.hi2 (D lo)) (Pkg.hi2 q)) (Pkg.idx2 (Pkg.lo2 (D lo)) (Pkg.lo2 q))) (s := r2.1)
    (em := r2.2) b1 b3 (hi - lo - 1) (fun j _ _ => hS j (by omega) (by omega))
    (fun i z hz d => by simp only [stab lo z (by omega) d]) (by rw [(e2 .m).nvars]; omega)
  have hlen : lo + 1 + (hi - lo - 1) = hi := by omega
  rw [hlen] at c3
  generalize Pkg.wrapLoop P (lo + 1) (hi - lo - 1) r2.1 r2.2 = r3 at c1 c2 c3
  have e3 := e2.trans c2
  have d1 := node_spec (k := .m) hC false c1 (by rw [(e3 .m).nvars]; omega) c3
  generalize Pkg.makeDDNode P .m r3.1 hi r3.2 false = e at d1
  have d2 : HasVal e.1 .m (hi + 1) e.2 (fun d => tw (fun j => j ≠ t0 ∧ j ≠ t1) (hi + 1)
      (fun D => U (Pkg.idx2 (Pkg.hi2 (D t0)) (Pkg.hi2 (D t1))) (Pkg.idx2 (Pkg.lo2 (D t0)) (Pkg.lo2 (D t1)))) (dx d)) := by
    refine d1.hasVal.congr (fun d => ?_)
    refine tw_node (X := fun q D =>
      if t0 > t1 then U (Pkg.idx2 (Pkg.hi2 q) (Pkg.hi2 (D lo))) (Pkg.idx2 (Pkg.lo2 q) (Pkg.lo2 (D lo)))
      else U (Pkg.idx2 (Pkg.hi2 (D lo)) (Pkg.hi2 q)) (Pkg.idx2 (Pkg.lo2 (D lo)) (Pkg.lo2 q))) hShi d ?_
    by_cases hgt : t0 > t1
    · have q1 : t1 = lo := by omega
      have q2 : t0 = hi := by omega
      simp only [if_pos hgt]
      rw [q1, q2, dx_last, dx_lt d (by omega)]
    · have q1 : t0 = lo := by omega
      have q2 : t1 = hi := by omega
      simp only [if_neg hgt]
      rw [q1, q2, dx_last, dx_lt d (by omega)]
  have e4 := e3.trans d1.ext
  obtain ⟨f1, f2, f3⟩ := wrapLoop_spec (m := 1) hC (S := fun j => j ≠ t0 ∧ j ≠ t1) (z0 := hi + 1)
    (X := fun _ D => U (Pkg.idx2 (Pkg.hi2 (D t0)) (Pkg.hi2 (D t1))) (Pkg.idx2 (Pkg.lo2 (D t0)) (Pkg.lo2 (D t1))))
    (s := e.1) (em := fun _ => e.2) d1.wf (fun _ => d2) u (fun j _ _ => hS j (by omega) (by omega))
    (fun i z hz d => by simp only [stab t0 z (by omega) d, stab t1 z (by omega) d]) (by rw [(e4 .m).nvars]; omega)
  exact ⟨f1, e4.trans f2, (f3 0).1, (f3 0).2⟩

/-- `makeTwoQubitGateDD` in terms of digits, below 128 qubits. -/
theorem makeTwoQubitGateDD_spec {P : PCfg R} (hC : 0 < P.C.growth) {U : Fin 4 → Fin 4 → Cx R} {t0 t1 n : Nat}
    (ht : t0 ≠ t1) (h0 : t0 < n) (h1 : t1 < n) {s : Pkg R} (h : PWF P s ∅) (hn : n ≤ (s.ut .m).nvars) (h128 : n < 128) :
    ∃ r, Pkg.makeTwoQubitGateDD P s U n t0 t1 = some r ∧ OpSpec P ∅ s .m n
      (fun d => tw (fun j => j ≠ t0 ∧ j ≠ t1) n
        (fun D => U (Pkg.idx2 (Pkg.hi2 (D t0)) (Pkg.hi2 (D t1))) (Pkg.idx2 (Pkg.lo2 (D t0)) (Pkg.lo2 (D t1)))) (dx d)) r := by
  obtain ⟨r, k1, k2⟩ := makeTwoQubitGateDD_reach hC (U := U) ht h0 h1 h hn
  have he := upperLines_eq (hi := max t0 t1) h128 (by omega)
  generalize max t0 t1 + 1 + Pkg.upperLines n (max t0 t1) = m at he k2
  subst he
  exact ⟨r, k1, k2⟩

end DD
