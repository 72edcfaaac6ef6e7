import Verif.Proofs.ApproxMeasureAcc

/-! # The accuracy of the probabilities of the outcomes for one qubit -/

namespace DD

open Pkg JState

variable {R : Type} [Field R] [LinearOrder R] [IsStrictOrderedRing R] [FloorRing R] [HasSqrt R] [LawfulSqrt R]
variable {J : JCfg R} {τ : R} {s : JState R}

/-- The table of the vector nodes with the numbers the weights point to. -/
def JState.vtab (J : JCfg R) (s : JState R) : UTable (Cx R) 2 := (s.tab .v).tab.mapW (s.ct.cval J.C)

/-- The squared norm of the vector of a node. -/
def JState.nodeSum (J : JCfg R) (s : JState R) (l : Nat) (p : Option Nat) : R := ∑ d, (s.namp J l p d).mag2

omit [LawfulSqrt R] in
theorem amp_vtab (l : Nat) (p : Option Nat) (d : Fin l → Fin 2) : amp (s.vtab J) l ⟨p, 1⟩ d = s.namp J l p d := by
  have h := vecJ_eq (J := J) s l ⟨p, CNum.one⟩ d
  rw [cval_one, one_mul] at h
  rw [← h]
  unfold JState.vecJ vec JState.vtab
  rw [cval_one]

omit [LawfulSqrt R] in
theorem nodeSum_nonneg (l : Nat) (p : Option Nat) : 0 ≤ s.nodeSum J l p := Finset.sum_nonneg fun _ _ => Cx.mag2_nonneg _

omit [LawfulSqrt R] in
theorem nodeSum_zero (p : Option Nat) : s.nodeSum J 0 p = 1 := by
  unfold JState.nodeSum
  have : ∀ d : Fin 0 → Fin 2, s.namp J 0 p d = 1 := fun d => rfl
  simp [this, Cx.mag2_one]

omit [LawfulSqrt R] in
theorem nodeSum_succ (l a : Nat) : s.nodeSum J (l + 1) (some a) =
    (s.ct.cval J.C (((s.tab .v).tab.mem a).e (0 : Fin 2)).w).mag2 * s.nodeSum J l (((s.tab .v).tab.mem a).e (0 : Fin 2)).p +
    (s.ct.cval J.C (((s.tab .v).tab.mem a).e (1 : Fin 2)).w).mag2 * s.nodeSum J l (((s.tab .v).tab.mem a).e (1 : Fin 2)).p := by
  have := sum_split (fun (i : Fin 2) (d : Fin l → Fin 2) =>
    (s.ct.cval J.C (((s.tab .v).tab.mem a).e i).w * s.namp J l (((s.tab .v).tab.mem a).e i).p d).mag2)
  simp only [Cx.mag2_mul, ← Finset.mul_sum, Fin.sum_univ_two] at this
  unfold JState.nodeSum
  rw [← this]
  exact Finset.sum_congr rfl fun d _ => Cx.mag2_mul _ _

omit [LawfulSqrt R] in
theorem sums_le (h : TInv J τ s) {δ : R} (hd0 : 0 ≤ δ) : ∀ (l : Nat) (p : Option Nat), s.NodeOk l p → (p = none → l = 0) → s.SumsLe J δ l p →
    s.nodeSum J l p ≤ (1 + δ) ^ l := by
  intro l
  induction l with
  | zero => intro p _ _ _; rw [nodeSum_zero, pow_zero]
  | succ l ih =>
    intro p hn h0 hs
    cases p with
    | none => exact absurd (h0 rfl) (by omega)
    | some a =>
      have hl : ((s.tab .v).tab.mem a).v = l := by have := hn.2; omega
      have vk := fun i => (h.kids a hn.1 i).1
      rw [hl] at vk
      have k : ∀ c : Fin 2, (s.ct.cval J.C (((s.tab .v).tab.mem a).e c).w).mag2 * s.nodeSum J l (((s.tab .v).tab.mem a).e c).p ≤
          (s.ct.cval J.C (((s.tab .v).tab.mem a).e c).w).mag2 * (1 + δ) ^ l := by
        intro c
        by_cases hc : s.ct.cval J.C (((s.tab .v).tab.mem a).e c).w = 0
        · rw [hc, Cx.mag2_zero]; simp
        · exact mul_le_mul_of_nonneg_left (ih _ (vk c).node (fun e => ((vk c).none e).resolve_right fun e => hc (by rw [e, cval_zero])) (hs.2 c))
            (Cx.mag2_nonneg _)
      rw [nodeSum_succ]
      have hS := abs_le.1 hs.1
      have K0 : 0 ≤ (1 + δ) ^ l := by positivity
      have := mul_le_mul_of_nonneg_right (by linarith [hS.2] : (s.ct.cval J.C (((s.tab .v).tab.mem a).e (0 : Fin 2)).w).mag2 +
        (s.ct.cval J.C (((s.tab .v).tab.mem a).e (1 : Fin 2)).w).mag2 ≤ 1 + δ) K0
      rw [pow_succ]
      have k0 := k 0
      have k1 := k 1
      linarith

omit [LawfulSqrt R] in
theorem mass_nonneg (q : Nat) (c : Fin 2) (l : Nat) (e : PEdge R) (t : UTable (Cx R) 2) : 0 ≤ mass t q c l e := by
  unfold mass
  refine Finset.sum_nonneg fun d _ => ?_
  split_ifs
  · exact Cx.mag2_nonneg _
  · exact le_refl _

omit [LawfulSqrt R] in
theorem mass_le (q : Nat) (c : Fin 2) (l : Nat) (p : Option Nat) : mass (s.vtab J) q c l ⟨p, 1⟩ ≤ s.nodeSum J l p := by
  unfold mass JState.nodeSum
  refine Finset.sum_le_sum fun d _ => ?_
  rw [amp_vtab]
  split_ifs
  · exact le_refl _
  · exact Cx.mag2_nonneg _

omit [LawfulSqrt R] in
theorem mass_below {q : Nat} (c : Fin 2) {l : Nat} (hl : l ≤ q) (p : Option Nat) : mass (s.vtab J) q c l ⟨p, 1⟩ = s.nodeSum J l p := by
  unfold mass JState.nodeSum
  refine Finset.sum_congr rfl fun d _ => ?_
  rw [amp_vtab, if_pos (fun h => absurd h (by omega))]

omit [FloorRing R] [HasSqrt R] [LawfulSqrt R] in
theorem mag2F_nonneg {fl : R → R} (hm : Monotone fl) (h0 : fl 0 = 0) (z : Cx R) : 0 ≤ mag2F fl z := by
  have p : ∀ x, 0 ≤ x → 0 ≤ fl x := fun x hx => h0 ▸ hm hx
  unfold mag2F
  exact p _ (add_nonneg (p _ (mul_self_nonneg _)) (p _ (mul_self_nonneg _)))

omit [FloorRing R] [HasSqrt R] [LawfulSqrt R] in
/-- The rounding errors at one edge. -/
theorem edge_prob {fl : R → R} {ε η : R} (h : Rnd fl τ ε η) (hm : Monotone fl) (h0 : fl 0 = 0) (hτ1 : 1000 * τ ≤ 1) {pr P : R} {w : Cx R}
    (hp : 0 ≤ pr) (hp6 : pr ≤ 6) (hP : 0 ≤ P) (hP3 : P ≤ 3) (hw : w.mag2 ≤ 2) :
    0 ≤ fl (pr * mag2F fl w) ∧ |fl (pr * mag2F fl w) - pr * w.mag2| ≤ τ / 9 ∧ 0 ≤ fl (P + fl (pr * mag2F fl w)) ∧
      |fl (P + fl (pr * mag2F fl w)) - (P + pr * w.mag2)| ≤ τ / 8 := by
  have a := mag2F_rnd h w
  have n := mag2F_nonneg hm h0 w
  have hτ := h.pos
  have w0 := Cx.mag2_nonneg w
  obtain ⟨h1, h2, h3, h4, h5, h6, herr⟩ := h
  generalize w.mag2 = M at *
  generalize mag2F fl w = m at *
  have a1 : |m - M| ≤ 3 / 200 * τ := a.trans (by nlinarith)
  have a2 : |pr * m - pr * M| ≤ 9 / 100 * τ := by
    rw [← mul_sub, abs_mul, abs_of_nonneg hp]
    have := mul_le_mul hp6 a1 (abs_nonneg _) (by norm_num)
    linarith
  have u : pr * M ≤ 12 := by nlinarith
  have u0 : 0 ≤ pr * M := mul_nonneg hp w0
  have v0 : 0 ≤ pr * m := mul_nonneg hp n
  have a2' := abs_le.1 a2
  have b := herr (pr * m)
  rw [abs_of_nonneg v0] at b
  have b1 : ε * (pr * m) ≤ ε * (121 / 10) := mul_le_mul_of_nonneg_left (by linarith) h1
  have b' := abs_le.1 b
  have t0 : 0 ≤ fl (pr * m) := h0 ▸ hm v0
  generalize fl (pr * m) = t at *
  have t1 : |t - pr * M| ≤ τ / 9 := by rw [abs_le]; constructor <;> linarith
  have t1' := abs_le.1 t1
  refine ⟨t0, t1, h0 ▸ hm (add_nonneg hP t0), ?_⟩
  have c := herr (P + t)
  rw [abs_of_nonneg (add_nonneg hP t0)] at c
  have c1 : ε * (P + t) ≤ ε * (153 / 10) := mul_le_mul_of_nonneg_left (by linarith) h1
  have c' := abs_le.1 c
  rw [abs_le]
  constructor <;> linarith

/-! ## The search -/

/-- Invariant of the search: `v` is the level of the node being expanded, `T` the mass to be conserved, up to `E`; `Y` bounds the sum of the
probabilities. `D` is a property of nodes that successors inherit. -/
structure AInv (J : JCfg R) (s : JState R) (q : Nat) (D : Option Nat → Prop) (δ : R) (T : Fin 2 → R) (E Y : R) (v : Nat) (b : Bfs R) : Prop where
  nodup : b.queue.Nodup
  node : ∀ p ∈ b.queue, D p ∧ s.SumsLe J δ (plev (s.vtab J) p + 1) p ∧ ∃ a, p = some a ∧ a ∈ (s.tab .v).tab.all ∧ q ≤ ((s.tab .v).tab.mem a).v ∧
    v ≤ ((s.tab .v).tab.mem a).v + 1 ∧ ((s.tab .v).tab.mem a).v ≤ v
  sorted : b.queue.Pairwise (fun p p' => plev (s.vtab J) p' ≤ plev (s.vtab J) p)
  sub : ∀ p ∈ b.queue, p ∈ b.visited
  seen : ∀ p ∈ b.visited, p ∉ b.queue → v ≤ plev (s.vtab J) p
  nonneg : ∀ p ∈ b.queue, 0 ≤ b.prob p
  total : ∀ c, |(b.queue.map (fun p => b.prob p * mass (s.vtab J) q c (plev (s.vtab J) p + 1) ⟨p, 1⟩)).sum - T c| ≤ E
  upper : (b.queue.map (fun p => b.prob p * (1 + δ) ^ (plev (s.vtab J) p + 1))).sum ≤ Y

omit [FloorRing R] [HasSqrt R] [LawfulSqrt R] in
theorem le_sum_of_mem {α : Type} {f : α → R} : ∀ {l : List α} {x : α}, x ∈ l → (∀ y ∈ l, 0 ≤ f y) → f x ≤ (l.map f).sum := by
  intro l
  induction l with
  | nil => intro x h; cases h
  | cons y l ih =>
    intro x hx hn
    rw [List.map_cons, List.sum_cons]
    have h1 : 0 ≤ (l.map f).sum := List.sum_nonneg fun z hz => by
      obtain ⟨w, hw, rfl⟩ := List.mem_map.1 hz
      exact hn w (List.mem_cons_of_mem _ hw)
    rcases List.mem_cons.1 hx with rfl | hx
    · linarith
    · have := ih hx fun z hz => hn z (List.mem_cons_of_mem _ hz)
      have := hn y (List.mem_cons_self ..)
      linarith

omit [LawfulSqrt R] in
theorem AInv.le {q v : Nat} {D : Option Nat → Prop} {δ E Y : R} {T : Fin 2 → R} {b : Bfs R} (hd0 : 0 ≤ δ) (hb : AInv J s q D δ T E Y v b)
    {p : Option Nat} (hp : p ∈ b.queue) : b.prob p ≤ Y := by
  have k : ∀ y ∈ b.queue, 0 ≤ b.prob y * (1 + δ) ^ (plev (s.vtab J) y + 1) := fun y hy => mul_nonneg (hb.nonneg y hy) (by positivity)
  have h1 := le_sum_of_mem hp k
  have h2 : 1 ≤ (1 + δ) ^ (plev (s.vtab J) p + 1) := one_le_pow₀ (by linarith)
  have h3 := le_mul_of_one_le_right (hb.nonneg p hp) h2
  linarith [hb.upper]

theorem bfsEdge_acc (hJ : J.Good) (hτ : 0 ≤ τ) (hτ1 : 1000 * τ ≤ 1) (h : TInv J τ s) (hf : J.Exact) (hm : Monotone J.fl) {n : Nat} {δ : R} (hd0 : 0 ≤ δ)
    (hG : (1 + δ) ^ n ≤ 3 / 2) {q v : Nat} {D : Option Nat → Prop} {T : Fin 2 → R} {E Y : R} {b : Bfs R} (hb : AInv J s q D δ T E Y v b)
    (hq : q < v) (hv : v ≤ n) {e : PtrEdge} (he : s.ValidV J v e) (hw : (s.ct.cval J.C e.w).mag2 ≤ 2) (hs : s.SumsLe J δ v e.p)
    (hD : s.ct.zeroV (s.ct.cval J.C e.w) = false → D e.p) {pr : R} (hp0 : 0 ≤ pr) (hp3 : pr ≤ 3) (hY : Y ≤ 3) :
    AInv J s q D δ (fun c => T c + pr * mass (s.vtab J) q c v ⟨e.p, s.ct.cval J.C e.w⟩) (E + τ / 5)
      (Y + pr * (s.ct.cval J.C e.w).mag2 * (1 + δ) ^ v + τ / 5) v (JState.bfsEdge J s pr b e) ∧
    (s.ct.zeroV (s.ct.cval J.C e.w) = false → e.p ∈ (JState.bfsEdge J s pr b e).queue) ∧
    (∀ p ∈ b.queue, p ∈ (JState.bfsEdge J s pr b e).queue) ∧
    unvisited (s.vtab J) (JState.bfsEdge J s pr b e) + (JState.bfsEdge J s pr b e).queue.length ≤ unvisited (s.vtab J) b + b.queue.length := by
  have hv1 : (1 + δ) ^ v ≤ 3 / 2 := (pow_le_pow_right₀ (by linarith) hv).trans hG
  have hv0 : 0 ≤ (1 + δ) ^ v := by positivity
  have htol := h.tol hJ hτ
  have w0 := Cx.mag2_nonneg (s.ct.cval J.C e.w)
  have smul : ∀ c, mass (s.vtab J) q c v ⟨e.p, s.ct.cval J.C e.w⟩ = (s.ct.cval J.C e.w).mag2 * mass (s.vtab J) q c v ⟨e.p, 1⟩ := fun c => mass_smul _ _
  unfold JState.bfsEdge
  by_cases hz : s.ct.zeroV (s.ct.cval J.C e.w) = true
  · rw [if_pos hz]
    refine ⟨⟨hb.nodup, hb.node, hb.sorted, hb.sub, hb.seen, hb.nonneg, fun c => ?_, ?_⟩, fun h => absurd (hz.symm.trans h) (by decide), fun p h => h, le_rfl⟩
    · -- the mass of the edge is small
      have hmz := zeroV_mag' (t := s.ct) (by rw [htol]; exact hτ) hz
      rw [htol] at hmz
      have m2 : (s.ct.cval J.C e.w).mag2 ≤ 9 / 4 * (τ * τ) := by
        rw [← mag_sq]
        have := mul_self_le_mul_self (mag_nonneg _) hmz
        linarith
      have mm : mass (s.vtab J) q c v ⟨e.p, s.ct.cval J.C e.w⟩ ≤ 9 / 4 * (τ * τ) * (3 / 2) := by
        by_cases hc : s.ct.cval J.C e.w = 0
        · rw [smul, hc, Cx.mag2_zero, zero_mul]
          positivity
        · rw [smul]
          refine mul_le_mul m2 ((mass_le q c v e.p).trans ((sums_le h hd0 v e.p he.node (fun e0 => ?_) hs).trans hv1)) (mass_nonneg _ _ _ _ _) (by positivity)
          exact (he.none e0).resolve_right fun e1 => hc (by rw [e1, cval_zero])
      have mm0 := mass_nonneg q c v ⟨e.p, s.ct.cval J.C e.w⟩ (s.vtab J)
      have k1 := mul_le_mul hp3 mm mm0 (by norm_num)
      have k2 : τ * τ ≤ τ * (1 / 1000) := mul_le_mul_of_nonneg_left (by linarith) hτ
      have k3 := mul_nonneg hp0 mm0
      have := abs_le.1 (hb.total c)
      rw [abs_le]
      constructor <;> linarith
    · have := mul_nonneg (mul_nonneg hp0 w0) hv0
      linarith [hb.upper]
  · rw [if_neg hz]
    have hzf : s.ct.zeroV (s.ct.cval J.C e.w) = false := by simpa using hz
    obtain ⟨v', rfl⟩ : ∃ v', v = v' + 1 := ⟨v - 1, by omega⟩
    have hne : s.ct.cval J.C e.w ≠ 0 := by
      intro e0
      rw [e0] at hz
      exact hz (zeroV_zero (by rw [htol]; exact hτ))
    have hpn : e.p = none → v' + 1 = 0 := fun e0 => (he.none e0).resolve_right fun e1 => hne (by rw [e1, cval_zero])
    obtain ⟨a, hp⟩ : ∃ a, e.p = some a := by
      cases hp : e.p with
      | none => exact absurd (hpn hp) (by omega)
      | some a => exact ⟨a, rfl⟩
    have hn := he.node
    rw [hp] at hn
    have hl : ((s.tab .v).tab.mem a).v = v' := by have := hn.2; omega
    have hlev : plev (s.vtab J) e.p = v' := by rw [hp]; exact hl
    have mle : ∀ c, mass (s.vtab J) q c (v' + 1) ⟨e.p, 1⟩ ≤ 3 / 2 := fun c =>
      (mass_le q c _ e.p).trans ((sums_le h hd0 _ e.p he.node hpn hs).trans hv1)
    have mnn : ∀ c, 0 ≤ mass (s.vtab J) q c (v' + 1) ⟨e.p, 1⟩ := fun c => mass_nonneg _ _ _ _ _
    obtain ⟨ε, η, hrnd⟩ := h.rnd
    have hRnd : Rnd J.fl τ ε η := ⟨hrnd.1, hrnd.2.1, hrnd.2.2.1, hrnd.2.2.2.1, hrnd.2.2.2.2.1, hrnd.2.2.2.2.2.1, hrnd.2.2.2.2.2.2⟩
    -- the change of the two sums
    have chg : ∀ u : R, |u - pr * (s.ct.cval J.C e.w).mag2| ≤ τ / 8 → (∀ c, |u * mass (s.vtab J) q c (v' + 1) ⟨e.p, 1⟩ -
        pr * mass (s.vtab J) q c (v' + 1) ⟨e.p, s.ct.cval J.C e.w⟩| ≤ τ / 5) ∧
        u * (1 + δ) ^ (v' + 1) ≤ pr * (s.ct.cval J.C e.w).mag2 * (1 + δ) ^ (v' + 1) + τ / 5 := by
      intro u hu
      constructor
      · intro c
        rw [smul, ← mul_assoc, ← sub_mul, abs_mul, abs_of_nonneg (mnn c)]
        have := mul_le_mul hu (mle c) (mnn c) (by linarith)
        linarith
      · have h1 := mul_le_mul_of_nonneg_right (abs_le.1 hu).2 hv0
        have h2 : τ / 8 * (1 + δ) ^ (v' + 1) ≤ τ / 8 * (3 / 2) := mul_le_mul_of_nonneg_left hv1 (by linarith)
        have h3 : (u - pr * (s.ct.cval J.C e.w).mag2) * (1 + δ) ^ (v' + 1) = u * (1 + δ) ^ (v' + 1) - pr * (s.ct.cval J.C e.w).mag2 * (1 + δ) ^ (v' + 1) := by
          ring
        linarith
    by_cases hvis : e.p ∈ b.visited
    · dsimp only
      rw [if_pos hvis]
      have hin : e.p ∈ b.queue := by
        by_contra h
        have := hb.seen _ hvis h
        omega
      have P0 := hb.nonneg _ hin
      have P3 := (hb.le hd0 hin).trans hY
      obtain ⟨-, -, k3, k4⟩ := edge_prob hRnd hm hf.1 hτ1 (P := b.prob e.p) (w := s.ct.cval J.C e.w) hp0 (by linarith) P0 P3 hw
      generalize J.fl (b.prob e.p + J.fl (pr * mag2F J.fl (s.ct.cval J.C e.w))) = N at k3 k4
      obtain ⟨c1, c2⟩ := chg (N - b.prob e.p) (by
        rw [show N - b.prob e.p - pr * (s.ct.cval J.C e.w).mag2 = N - (b.prob e.p + pr * (s.ct.cval J.C e.w).mag2) by ring]
        exact k4)
      refine ⟨⟨hb.nodup, hb.node, hb.sorted, hb.sub, hb.seen, fun p hp' => ?_, fun c => ?_, ?_⟩, fun _ => hin, fun p h => h, le_rfl⟩
      · dsimp only
        by_cases hpe : p = e.p
        · rw [hpe, Function.update_self]; exact k3
        · rw [Function.update_of_ne hpe]; exact hb.nonneg p hp'
      · dsimp only
        rw [sum_map_update hb.nodup hin, hlev]
        have := abs_le.1 (hb.total c)
        have := abs_le.1 (c1 c)
        rw [abs_le]
        constructor <;> linarith
      · dsimp only
        rw [sum_map_update hb.nodup hin, hlev]
        linarith [hb.upper]
    · dsimp only
      rw [if_neg hvis]
      have hnin : e.p ∉ b.queue := fun h => hvis (hb.sub _ h)
      obtain ⟨k1, k2, -, -⟩ := edge_prob hRnd hm hf.1 hτ1 (P := 0) (w := s.ct.cval J.C e.w) hp0 (by linarith) le_rfl (by norm_num) hw
      generalize J.fl (pr * mag2F J.fl (s.ct.cval J.C e.w)) = N at k1 k2
      obtain ⟨c1, c2⟩ := chg N (by linarith)
      have same : ∀ g : Option Nat → R, b.queue.map (fun p => Function.update b.prob e.p N p * g p) = b.queue.map (fun p => b.prob p * g p) := by
        intro g
        apply List.map_congr_left
        intro z hz
        rw [Function.update_of_ne]
        rintro rfl; exact hnin hz
      refine ⟨⟨?_, ?_, ?_, ?_, ?_, ?_, fun c => ?_, ?_⟩, fun _ => by simp, fun p h => by simp [h], ?_⟩
      · rw [List.nodup_append]
        refine ⟨hb.nodup, by simp, ?_⟩
        rintro x hx y hy rfl
        simp only [List.mem_singleton] at hy
        exact hnin (hy ▸ hx)
      · intro p h
        rcases List.mem_append.1 h with h | h
        · exact hb.node p h
        · simp only [List.mem_singleton] at h
          subst h
          rw [hlev]
          exact ⟨hD hzf, hs, a, hp, hn.1, by omega, by omega, by omega⟩
      · rw [List.pairwise_append]
        refine ⟨hb.sorted, by simp, ?_⟩
        intro x hx y hy
        simp only [List.mem_singleton] at hy
        obtain ⟨_, _, a', rfl, _, _, h2, _⟩ := hb.node x hx
        rw [hy, hlev]
        show v' ≤ ((s.tab .v).tab.mem a').v
        omega
      · intro p h
        rcases List.mem_append.1 h with h | h
        · exact List.mem_cons_of_mem _ (hb.sub p h)
        · simp only [List.mem_singleton] at h
          rw [h]; exact List.mem_cons_self
      · intro p hpv hpq
        rcases List.mem_cons.1 hpv with rfl | h
        · exact absurd (by simp) hpq
        · exact hb.seen p h (fun hh => hpq (List.mem_append_left _ hh))
      · intro p h
        dsimp only
        rcases List.mem_append.1 h with h | h
        · rw [Function.update_of_ne (by rintro rfl; exact hnin h)]; exact hb.nonneg p h
        · simp only [List.mem_singleton] at h
          rw [h, Function.update_self]; exact k1
      · dsimp only
        rw [List.map_append, List.sum_append, List.map_singleton, List.sum_singleton, Function.update_self, same, hlev]
        have := abs_le.1 (hb.total c)
        have := abs_le.1 (c1 c)
        rw [abs_le]
        constructor <;> linarith
      · dsimp only
        rw [List.map_append, List.sum_append, List.map_singleton, List.sum_singleton, Function.update_self, same, hlev]
        linarith [hb.upper]
      · unfold unvisited
        dsimp only
        have hmem : e.p ∈ (s.vtab J).all.toFinset.image some \ b.visited.toFinset := by
          rw [Finset.mem_sdiff]
          refine ⟨?_, by simpa using hvis⟩
          rw [hp]
          exact Finset.mem_image_of_mem _ (List.mem_toFinset.2 hn.1)
        have : (s.vtab J).all.toFinset.image some \ (e.p :: b.visited).toFinset =
            ((s.vtab J).all.toFinset.image some \ b.visited.toFinset).erase e.p := by
          rw [List.toFinset_cons, Finset.sdiff_insert]
        rw [this, Finset.card_erase_of_mem hmem]
        have := Finset.card_pos.2 ⟨_, hmem⟩
        simp
        omega

theorem bfsLoop_acc (hJ : J.Good) (hτ : 0 ≤ τ) (hτ1 : 1000 * τ ≤ 1) (h : TInv J τ s) (hf : J.Exact) (hm : Monotone J.fl) {n : Nat} {δ : R} (hd0 : 0 ≤ δ)
    (hd1 : δ ≤ 1 / 2) (hG : (1 + δ) ^ n ≤ 3 / 2) {q : Nat} {D : Option Nat → Prop} {T : Fin 2 → R}
    (hD : ∀ a ∈ (s.tab .v).tab.all, D (some a) → ∀ c : Fin 2, s.ct.zeroV (s.ct.cval J.C (((s.tab .v).tab.mem a).e c).w) = false → D (((s.tab .v).tab.mem a).e c).p) :
    ∀ (fuel v : Nat) (E Y : R) (b : Bfs R), AInv J s q D δ T E Y v b → v < n → b.queue ≠ [] → unvisited (s.vtab J) b + b.queue.length ≤ fuel →
    Y + 2 / 5 * τ * ((unvisited (s.vtab J) b + b.queue.length : Nat) : R) ≤ 3 →
    ∃ b' E' Y', JState.bfsLoop J s q fuel b = some b' ∧ AInv J s q D δ T E' Y' q b' ∧
      (∀ p ∈ b'.queue, ∃ a, p = some a ∧ a ∈ (s.tab .v).tab.all ∧ ((s.tab .v).tab.mem a).v = q) ∧
      E' + 2 / 5 * τ * (b'.queue.length : R) ≤ E + 2 / 5 * τ * ((unvisited (s.vtab J) b + b.queue.length : Nat) : R) ∧
      Y' + 2 / 5 * τ * (b'.queue.length : R) ≤ Y + 2 / 5 * τ * ((unvisited (s.vtab J) b + b.queue.length : Nat) : R) := by
  intro fuel
  have htol := h.tol hJ hτ
  induction fuel with
  | zero =>
    intro v E Y b _ _ hne hle
    exfalso
    have := List.length_pos_of_ne_nil hne
    omega
  | succ f ih =>
    intro v E Y b hb hvn hne hle hY
    unfold JState.bfsLoop
    cases hqq : b.queue with
    | nil => exact absurd hqq hne
    | cons p qs =>
      obtain ⟨hDp, hsp, a, rfl, ha, hqa, hv1, hv2⟩ := hb.node p (by rw [hqq]; simp)
      have hs := hb.sorted
      rw [hqq, List.pairwise_cons] at hs
      have hnd := hb.nodup
      rw [hqq, List.nodup_cons] at hnd
      dsimp only
      by_cases hv : ((s.tab .v).tab.mem a).v = q
      · rw [if_pos hv]
        have hall : ∀ p ∈ b.queue, ∃ a, p = some a ∧ a ∈ (s.tab .v).tab.all ∧ ((s.tab .v).tab.mem a).v = q := by
          intro p hp
          obtain ⟨_, _, a', rfl, h1, h2, _⟩ := hb.node p hp
          refine ⟨a', rfl, h1, ?_⟩
          rw [hqq] at hp
          rcases List.mem_cons.1 hp with h | h
          · cases h; exact hv
          · have h3 : ((s.tab .v).tab.mem a').v ≤ ((s.tab .v).tab.mem a).v := hs.1 _ h
            omega
        have hl : (b.queue.length : R) ≤ ((unvisited (s.vtab J) b + b.queue.length : Nat) : R) := by exact_mod_cast Nat.le_add_left _ _
        have := mul_le_mul_of_nonneg_left hl (by positivity : 0 ≤ 2 / 5 * τ)
        refine ⟨b, E, Y, rfl, ⟨hb.nodup, fun p hp => ?_, hb.sorted, hb.sub, fun p h1 h2 => ?_, hb.nonneg, hb.total, hb.upper⟩, hall, ?_, ?_⟩
        · obtain ⟨h0, h1, a', rfl, h2, h3, h4, h5⟩ := hb.node p hp
          obtain ⟨a'', e, h6, h7⟩ := hall _ hp
          cases e
          exact ⟨h0, h1, a', rfl, h2, by omega, by omega, by omega⟩
        · have := hb.seen p h1 h2
          omega
        · rw [hqq] at this; rw [hqq]; linarith
        · rw [hqq] at this; rw [hqq]; linarith
      · rw [if_neg hv]
        have hlt : q < ((s.tab .v).tab.mem a).v := by omega
        have hln : ((s.tab .v).tab.mem a).v ≤ n := by omega
        have pr0 := hb.nonneg (some a) (by rw [hqq]; simp)
        have τW : 0 ≤ 2 / 5 * τ * ((unvisited (s.vtab J) b + b.queue.length : Nat) : R) := by positivity
        have pr3 : b.prob (some a) ≤ 3 := (hb.le hd0 (by rw [hqq]; simp)).trans (by linarith)
        -- the state after removing the front, relative to the level of the front
        have hb0 : AInv J s q D δ (fun c => T c - b.prob (some a) * mass (s.vtab J) q c (((s.tab .v).tab.mem a).v + 1) ⟨some a, 1⟩) E
            (Y - b.prob (some a) * (1 + δ) ^ (((s.tab .v).tab.mem a).v + 1)) ((s.tab .v).tab.mem a).v { b with queue := qs } := by
          refine ⟨hnd.2, ?_, hs.2, ?_, ?_, ?_, ?_, ?_⟩
          · intro p hp
            obtain ⟨h0, h0', a', rfl, h1, h2, h3, h4⟩ := hb.node p (by rw [hqq]; exact List.mem_cons_of_mem _ hp)
            have h5 : ((s.tab .v).tab.mem a').v ≤ ((s.tab .v).tab.mem a).v := hs.1 _ hp
            exact ⟨h0, h0', a', rfl, h1, h2, by omega, h5⟩
          · intro p hp
            exact hb.sub p (by rw [hqq]; exact List.mem_cons_of_mem _ hp)
          · intro p hpv hpq
            by_cases hpa : p = some a
            · rw [hpa]; exact le_rfl
            · have := hb.seen p hpv (by
                rw [hqq]; intro h
                rcases List.mem_cons.1 h with h | h
                · exact hpa h
                · exact hpq h)
              omega
          · intro p hp
            exact hb.nonneg p (by rw [hqq]; exact List.mem_cons_of_mem _ hp)
          · intro c
            have := hb.total c
            rw [hqq, List.map_cons, List.sum_cons] at this
            refine le_of_eq_of_le ?_ this
            show |_ - (_ - b.prob (some a) * mass (s.vtab J) q c (((s.tab .v).tab.mem a).v + 1) ⟨some a, 1⟩)| =
              |b.prob (some a) * mass (s.vtab J) q c (((s.tab .v).tab.mem a).v + 1) ⟨some a, 1⟩ + _ - _|
            congr 1
            ring
          · have := hb.upper
            rw [hqq, List.map_cons, List.sum_cons] at this
            have e : (1 + δ) ^ (plev (s.vtab J) (some a) + 1) = (1 + δ) ^ (((s.tab .v).tab.mem a).v + 1) := rfl
            rw [e] at this
            dsimp only
            linarith
        have kids := h.kids a ha
        have sums := hsp
        have e : plev (s.vtab J) (some a) = ((s.tab .v).tab.mem a).v := rfl
        rw [e] at sums
        obtain ⟨sm, sk⟩ := sums
        have sm' := abs_le.1 sm
        have w0 := Cx.mag2_nonneg (s.ct.cval J.C (((s.tab .v).tab.mem a).e (0 : Fin 2)).w)
        have w1 := Cx.mag2_nonneg (s.ct.cval J.C (((s.tab .v).tab.mem a).e (1 : Fin 2)).w)
        have pp : 0 ≤ b.prob (some a) * (1 + δ) ^ (((s.tab .v).tab.mem a).v + 1) := by positivity
        have up : b.prob (some a) * (s.ct.cval J.C (((s.tab .v).tab.mem a).e (0 : Fin 2)).w).mag2 * (1 + δ) ^ ((s.tab .v).tab.mem a).v +
            b.prob (some a) * (s.ct.cval J.C (((s.tab .v).tab.mem a).e (1 : Fin 2)).w).mag2 * (1 + δ) ^ ((s.tab .v).tab.mem a).v ≤
            b.prob (some a) * (1 + δ) ^ (((s.tab .v).tab.mem a).v + 1) := by
          have k0 : 0 ≤ (1 + δ) ^ ((s.tab .v).tab.mem a).v := by positivity
          have := mul_le_mul_of_nonneg_left (mul_le_mul_of_nonneg_left (show (s.ct.cval J.C (((s.tab .v).tab.mem a).e (0 : Fin 2)).w).mag2 +
            (s.ct.cval J.C (((s.tab .v).tab.mem a).e (1 : Fin 2)).w).mag2 ≤ 1 + δ by linarith) k0) pr0
          rw [pow_succ]
          linarith
        have W1 : (1 : R) ≤ ((unvisited (s.vtab J) b + b.queue.length : Nat) : R) := by
          have := List.length_pos_of_ne_nil hne
          exact_mod_cast (by omega : 1 ≤ unvisited (s.vtab J) b + b.queue.length)
        have τW1 : 2 / 5 * τ ≤ 2 / 5 * τ * ((unvisited (s.vtab J) b + b.queue.length : Nat) : R) := le_mul_of_one_le_right (by positivity) W1
        obtain ⟨s1, s2, s3, s4⟩ := bfsEdge_acc hJ hτ hτ1 h hf hm hd0 hG hb0 hlt hln (kids (0 : Fin 2)).1 (by linarith) (sk 0) (hD a ha hDp 0) pr0 pr3 (by linarith)
        generalize JState.bfsEdge J s (b.prob (some a)) { b with queue := qs } (((s.tab .v).tab.mem a).e (0 : Fin 2)) = b1 at s1 s2 s3 s4 ⊢
        obtain ⟨u1, u2, u3, u4⟩ := bfsEdge_acc hJ hτ hτ1 h hf hm hd0 hG s1 hlt hln (kids (1 : Fin 2)).1 (by linarith) (sk 1) (hD a ha hDp 1) pr0 pr3 (by
          have : 0 ≤ b.prob (some a) * (s.ct.cval J.C (((s.tab .v).tab.mem a).e (1 : Fin 2)).w).mag2 * (1 + δ) ^ ((s.tab .v).tab.mem a).v := by
            have : 0 ≤ (1 + δ) ^ ((s.tab .v).tab.mem a).v := by positivity
            positivity
          linarith)
        generalize JState.bfsEdge J s (b.prob (some a)) b1 (((s.tab .v).tab.mem a).e (1 : Fin 2)) = b2 at u1 u2 u3 u4 ⊢
        have hT : (fun c => T c - b.prob (some a) * mass (s.vtab J) q c (((s.tab .v).tab.mem a).v + 1) ⟨some a, 1⟩ +
            b.prob (some a) * mass (s.vtab J) q c ((s.tab .v).tab.mem a).v ⟨(((s.tab .v).tab.mem a).e (0 : Fin 2)).p, s.ct.cval J.C (((s.tab .v).tab.mem a).e (0 : Fin 2)).w⟩ +
            b.prob (some a) * mass (s.vtab J) q c ((s.tab .v).tab.mem a).v ⟨(((s.tab .v).tab.mem a).e (1 : Fin 2)).p, s.ct.cval J.C (((s.tab .v).tab.mem a).e (1 : Fin 2)).w⟩) = T := by
          funext c
          rw [mass_node (a := a) rfl, Fin.sum_univ_two, if_neg (by omega), if_neg (by omega)]
          show T c - b.prob (some a) * ((1 : Cx R).mag2 * (mass (s.vtab J) q c ((s.tab .v).tab.mem a).v
              ⟨(((s.tab .v).tab.mem a).e (0 : Fin 2)).p, s.ct.cval J.C (((s.tab .v).tab.mem a).e (0 : Fin 2)).w⟩ +
              mass (s.vtab J) q c ((s.tab .v).tab.mem a).v
              ⟨(((s.tab .v).tab.mem a).e (1 : Fin 2)).p, s.ct.cval J.C (((s.tab .v).tab.mem a).e (1 : Fin 2)).w⟩)) + _ + _ = _
          rw [Cx.mag2_one]
          ring
        rw [hT] at u1
        have hW : unvisited (s.vtab J) b2 + b2.queue.length + 1 ≤ unvisited (s.vtab J) b + b.queue.length := by
          rw [hqq, List.length_cons]
          have : unvisited (s.vtab J) { b with queue := qs } = unvisited (s.vtab J) b := rfl
          rw [this] at s4
          dsimp only at s4
          omega
        have hWR : ((unvisited (s.vtab J) b2 + b2.queue.length : Nat) : R) + 1 ≤ ((unvisited (s.vtab J) b + b.queue.length : Nat) : R) := by exact_mod_cast hW
        have τWR := mul_le_mul_of_nonneg_left hWR (by positivity : 0 ≤ 2 / 5 * τ)
        rw [hqq] at hW τWR hY τW1 τW
        obtain ⟨b', E', Y', r1, r2, r3, r4, r5⟩ := ih _ _ _ b2 u1 (by omega) (by
          by_cases z0 : s.ct.zeroV (s.ct.cval J.C (((s.tab .v).tab.mem a).e (0 : Fin 2)).w) = true
          · by_cases z1 : s.ct.zeroV (s.ct.cval J.C (((s.tab .v).tab.mem a).e (1 : Fin 2)).w) = true
            · exfalso
              have t0 : 0 ≤ s.ct.tol := by rw [htol]; exact hτ
              have k0 := mul_self_le_mul_self (mag_nonneg _) (zeroV_mag' t0 z0)
              have k1 := mul_self_le_mul_self (mag_nonneg _) (zeroV_mag' t0 z1)
              rw [mag_sq, htol] at k0 k1
              have : τ * τ ≤ τ * (1 / 1000) := mul_le_mul_of_nonneg_left (by linarith) hτ
              linarith [sm'.1]
            · exact List.ne_nil_of_mem (u2 (by simpa using z1))
          · exact List.ne_nil_of_mem (u3 _ (s2 (by simpa using z0)))) (by rw [hqq] at hle; omega) (by linarith)
        exact ⟨b', E', Y', r1, r2, r3, by linarith, by linarith⟩

/-! ## The squared norms of the nodes -/

/-- What the map of `assignProbabilities` contains. -/
structure MemoA (J : JCfg R) (s : JState R) (κ : Nat → R) (m : Option Nat → Option R) : Prop where
  near : ∀ p r, m p = some r → 0 ≤ r ∧ |r - s.nodeSum J (s.lvlV p) p| ≤ κ (s.lvlV p) ∧ s.nodeSum J (s.lvlV p) p ≤ 3 / 2 ∧ κ (s.lvlV p) ≤ 1
  closed : ∀ a, m (some a) ≠ none → ∀ c : Fin 2, m (((s.tab .v).tab.mem a).e c).p ≠ none

theorem assignF_acc (hJ : J.Good) (hτ : 0 ≤ τ) (hτ1 : 1000 * τ ≤ 1) (h : TInv J τ s) (hf : J.Exact) (hm : Monotone J.fl) {n : Nat} {δ : R} (hd0 : 0 ≤ δ)
    (hd1 : δ ≤ 1 / 2) (hG : (1 + δ) ^ n ≤ 3 / 2) (hn : (n : R) * τ ≤ 1) : ∀ (l : Nat) (e : PtrEdge) (m : Option Nat → Option R), s.ValidV J l e → l ≤ n →
    (s.ct.cval J.C e.w).mag2 ≤ 2 → s.SumsLe J δ l e.p → MemoA J s (fun l => l * (1 + δ) ^ l * (τ / 4)) m →
    MemoA J s (fun l => l * (1 + δ) ^ l * (τ / 4)) (JState.assignF J s l e m).1 ∧ (∀ p, m p ≠ none → (JState.assignF J s l e m).1 p ≠ none) ∧
      (JState.assignF J s l e m).1 e.p ≠ none ∧ 0 ≤ (JState.assignF J s l e m).2 ∧
      |(JState.assignF J s l e m).2 - (s.ct.cval J.C e.w).mag2 * s.nodeSum J (s.lvlV e.p) e.p| ≤
        (s.ct.cval J.C e.w).mag2 * (s.lvlV e.p * (1 + δ) ^ s.lvlV e.p * (τ / 4)) + τ / 9 := by
  obtain ⟨ε, η, hrnd⟩ := h.rnd
  have hRnd : Rnd J.fl τ ε η := ⟨hrnd.1, hrnd.2.1, hrnd.2.2.1, hrnd.2.2.2.1, hrnd.2.2.2.2.1, hrnd.2.2.2.2.2.1, hrnd.2.2.2.2.2.2⟩
  -- the product with the squared absolute value of the weight
  have fin : ∀ (w : Cx R) (r S K : R), w.mag2 ≤ 2 → 0 ≤ r → |r - S| ≤ K → S ≤ 3 / 2 → K ≤ 1 →
      0 ≤ J.fl (mag2F J.fl w * r) ∧ |J.fl (mag2F J.fl w * r) - w.mag2 * S| ≤ w.mag2 * K + τ / 9 := by
    intro w r S K hw hr hk hS hK
    have hk' := abs_le.1 hk
    obtain ⟨k1, k2, -, -⟩ := edge_prob hRnd hm hf.1 hτ1 (P := 0) (w := w) hr (by linarith) le_rfl (by norm_num) hw
    rw [mul_comm (mag2F J.fl w)]
    refine ⟨k1, ?_⟩
    have w0 := Cx.mag2_nonneg w
    have h1 := mul_le_mul_of_nonneg_left hk'.1 w0
    have h2 := mul_le_mul_of_nonneg_left hk'.2 w0
    have k2' := abs_le.1 k2
    rw [abs_le]
    constructor <;> linarith
  have lv0 : s.lvlV none = 0 := rfl
  have memo0 : ∀ r : R, r = 1 → 0 ≤ r ∧ |r - s.nodeSum J (s.lvlV none) none| ≤ ((s.lvlV none : Nat) : R) * (1 + δ) ^ s.lvlV none * (τ / 4) ∧
      s.nodeSum J (s.lvlV none) none ≤ 3 / 2 ∧ ((s.lvlV none : Nat) : R) * (1 + δ) ^ s.lvlV none * (τ / 4) ≤ 1 := by
    rintro r rfl
    rw [lv0, nodeSum_zero]
    simp
    norm_num
  have term : ∀ (e : PtrEdge) (m : Option Nat → Option R), e.p = none → (s.ct.cval J.C e.w).mag2 ≤ 2 → MemoA J s (fun l => l * (1 + δ) ^ l * (τ / 4)) m →
      MemoA J s (fun l => l * (1 + δ) ^ l * (τ / 4)) (Function.update m none (some (1 : R))) ∧
      (∀ p, m p ≠ none → Function.update m none (some (1 : R)) p ≠ none) ∧ Function.update m none (some (1 : R)) none ≠ none ∧
      0 ≤ J.fl (mag2F J.fl (s.ct.cval J.C e.w) * 1) ∧ |J.fl (mag2F J.fl (s.ct.cval J.C e.w) * 1) - (s.ct.cval J.C e.w).mag2 * s.nodeSum J (s.lvlV none) none| ≤
        (s.ct.cval J.C e.w).mag2 * (s.lvlV none * (1 + δ) ^ s.lvlV none * (τ / 4)) + τ / 9 := by
    intro e m hp hw hm
    have key : ∀ p, m p ≠ none → Function.update m none (some (1 : R)) p ≠ none := by
      intro p h
      by_cases hpn : p = none
      · subst hpn; simp
      · rw [Function.update_of_ne hpn]; exact h
    obtain ⟨f1, f2⟩ := fin (s.ct.cval J.C e.w) 1 _ _ hw (memo0 1 rfl).1 (memo0 1 rfl).2.1 (memo0 1 rfl).2.2.1 (memo0 1 rfl).2.2.2
    refine ⟨⟨?_, ?_⟩, key, by simp, f1, f2⟩
    · intro p r h
      by_cases hpn : p = none
      · subst hpn
        exact memo0 r (by simpa using h.symm)
      · rw [Function.update_of_ne hpn] at h; exact hm.near p r h
    · intro a h c
      rw [Function.update_of_ne (by simp)] at h
      exact key _ (hm.closed a h c)
  intro l
  induction l with
  | zero =>
    intro e m hv _ hw _ hM
    have hp : e.p = none := by
      have := hv.node
      cases hp : e.p with
      | none => rfl
      | some a => rw [hp] at this; exact absurd this.2 (by omega)
    unfold JState.assignF
    cases hmn : m e.p with
    | some r =>
      dsimp only
      obtain ⟨n1, n2, n3, n4⟩ := hM.near _ _ hmn
      obtain ⟨f1, f2⟩ := fin (s.ct.cval J.C e.w) r _ _ hw n1 n2 n3 n4
      exact ⟨hM, fun p h => h, by rw [hmn]; simp, f1, f2⟩
    | none =>
      dsimp only
      rw [hp]
      exact term e m hp hw hM
  | succ l ih =>
    intro e m hv hl hw hs hM
    unfold JState.assignF
    cases hmn : m e.p with
    | some r =>
      dsimp only
      obtain ⟨n1, n2, n3, n4⟩ := hM.near _ _ hmn
      obtain ⟨f1, f2⟩ := fin (s.ct.cval J.C e.w) r _ _ hw n1 n2 n3 n4
      exact ⟨hM, fun p h => h, by rw [hmn]; simp, f1, f2⟩
    | none =>
      dsimp only
      cases hp : e.p with
      | none =>
        dsimp only
        exact term e m hp hw hM
      | some a =>
        dsimp only
        have hno := hv.node
        rw [hp] at hno hs hmn
        have hlv : ((s.tab .v).tab.mem a).v = l := by have := hno.2; omega
        have hlev : s.lvlV (some a) = l + 1 := by rw [← hlv]; rfl
        have vk := fun i => (h.kids a hno.1 i).1
        rw [hlv] at vk
        have hsum := sums_le h hd0 (l + 1) (some a) hno (fun e => by cases e) hs
        have hS : s.nodeSum J (l + 1) (some a) ≤ 3 / 2 := hsum.trans ((pow_le_pow_right₀ (by linarith) hl).trans hG)
        obtain ⟨sm, sk⟩ := hs
        have sm' := abs_le.1 sm
        have w0 := Cx.mag2_nonneg (s.ct.cval J.C (((s.tab .v).tab.mem a).e (0 : Fin 2)).w)
        have w1 := Cx.mag2_nonneg (s.ct.cval J.C (((s.tab .v).tab.mem a).e (1 : Fin 2)).w)
        obtain ⟨a1, a2, a3, a4, a5⟩ := ih (((s.tab .v).tab.mem a).e (0 : Fin 2)) m (vk (0 : Fin 2)) (by omega) (by linarith) (sk 0) hM
        generalize JState.assignF J s l (((s.tab .v).tab.mem a).e (0 : Fin 2)) m = r0 at a1 a2 a3 a4 a5
        obtain ⟨b1, b2, b3, b4, b5⟩ := ih (((s.tab .v).tab.mem a).e (1 : Fin 2)) r0.1 (vk (1 : Fin 2)) (by omega) (by linarith) (sk 1) a1
        generalize JState.assignF J s l (((s.tab .v).tab.mem a).e (1 : Fin 2)) r0.1 = r1 at b1 b2 b3 b4 b5
        -- the children are at level `l` or have weight zero
        have lev : ∀ c : Fin 2, s.lvlV (((s.tab .v).tab.mem a).e c).p = l ∨ s.ct.cval J.C (((s.tab .v).tab.mem a).e c).w = 0 := by
          intro c
          cases hc : (((s.tab .v).tab.mem a).e c).p with
          | none =>
            rcases (vk c).none hc with e | e
            · left; rw [lv0, e]
            · right; rw [e, cval_zero]
          | some a' =>
            left
            have := (vk c).node
            rw [hc] at this
            rw [← this.2]; rfl
        have norm : ∀ (c : Fin 2) (x : R), |x - (s.ct.cval J.C (((s.tab .v).tab.mem a).e c).w).mag2 * s.nodeSum J (s.lvlV (((s.tab .v).tab.mem a).e c).p)
              (((s.tab .v).tab.mem a).e c).p| ≤ (s.ct.cval J.C (((s.tab .v).tab.mem a).e c).w).mag2 *
              (s.lvlV (((s.tab .v).tab.mem a).e c).p * (1 + δ) ^ s.lvlV (((s.tab .v).tab.mem a).e c).p * (τ / 4)) + τ / 9 →
            |x - (s.ct.cval J.C (((s.tab .v).tab.mem a).e c).w).mag2 * s.nodeSum J l (((s.tab .v).tab.mem a).e c).p| ≤
              (s.ct.cval J.C (((s.tab .v).tab.mem a).e c).w).mag2 * (l * (1 + δ) ^ l * (τ / 4)) + τ / 9 := by
          intro c x hx
          rcases lev c with e | e
          · rw [e] at hx; exact hx
          · rw [e, Cx.mag2_zero, zero_mul, zero_mul] at hx
            rw [e, Cx.mag2_zero, zero_mul, zero_mul]
            exact hx
        have a6 := abs_le.1 (norm 0 _ a5)
        have b6 := abs_le.1 (norm 1 _ b5)
        have hS2 := nodeSum_succ (J := J) (s := s) l a
        have K0 : 0 ≤ (l : R) * (1 + δ) ^ l * (τ / 4) := by positivity
        have mk := mul_le_mul_of_nonneg_right (show (s.ct.cval J.C (((s.tab .v).tab.mem a).e (0 : Fin 2)).w).mag2 +
          (s.ct.cval J.C (((s.tab .v).tab.mem a).e (1 : Fin 2)).w).mag2 ≤ 1 + δ by linarith) K0
        have κS : (1 + δ) * ((l : R) * (1 + δ) ^ l * (τ / 4)) + τ / 4 ≤ ((l + 1 : Nat) : R) * (1 + δ) ^ (l + 1) * (τ / 4) := by
          have : 1 ≤ (1 + δ) ^ (l + 1) := one_le_pow₀ (by linarith)
          have := mul_le_mul_of_nonneg_right this (by positivity : 0 ≤ τ / 4)
          push_cast
          rw [pow_succ] at this ⊢
          linarith
        have κ1 : ((l + 1 : Nat) : R) * (1 + δ) ^ (l + 1) * (τ / 4) ≤ 1 := by
          have g1 : (1 + δ) ^ (l + 1) ≤ 3 / 2 := (pow_le_pow_right₀ (by linarith) hl).trans hG
          have g2 : ((l + 1 : Nat) : R) ≤ n := by exact_mod_cast hl
          have g3 : ((l + 1 : Nat) : R) * τ ≤ 1 := (mul_le_mul_of_nonneg_right g2 hτ).trans hn
          have := mul_le_mul g3 g1 (by positivity) (by norm_num)
          linarith
        have s0 : 0 ≤ r0.2 + r1.2 := add_nonneg a4 b4
        obtain ⟨e1, e2, e3, e4, e5, e6, herr⟩ := hRnd
        have hfl := herr (r0.2 + r1.2)
        rw [abs_of_nonneg s0] at hfl
        have s3 : r0.2 + r1.2 ≤ 3 := by linarith
        have hε : ε * (r0.2 + r1.2) ≤ ε * 3 := mul_le_mul_of_nonneg_left s3 e1
        have hfl' := abs_le.1 hfl
        have sum0 : 0 ≤ J.fl (r0.2 + r1.2) := hf.1 ▸ hm s0
        generalize J.fl (r0.2 + r1.2) = sum at hfl' sum0 ⊢
        have near : |sum - s.nodeSum J (s.lvlV (some a)) (some a)| ≤ ((s.lvlV (some a) : Nat) : R) * (1 + δ) ^ (s.lvlV (some a)) * (τ / 4) := by
          rw [hlev, hS2, abs_le]
          constructor <;> linarith
        obtain ⟨f1, f2⟩ := fin (s.ct.cval J.C e.w) sum _ _ hw sum0 near (by rw [hlev]; exact hS) (by rw [hlev]; exact κ1)
        have key : ∀ p, r1.1 p ≠ none → Function.update r1.1 (some a) (some sum) p ≠ none := by
          intro p h
          by_cases hpa : p = some a
          · subst hpa; simp
          · rw [Function.update_of_ne hpa]; exact h
        refine ⟨⟨?_, ?_⟩, fun p h => key _ (b2 _ (a2 _ h)), by simp, f1, f2⟩
        · intro p r h
          by_cases hpa : p = some a
          · subst hpa
            have : r = sum := by simpa using h.symm
            rw [this]
            exact ⟨sum0, near, by rw [hlev]; exact hS, by rw [hlev]; exact κ1⟩
          · rw [Function.update_of_ne hpa] at h; exact b1.near p r h
        · intro a' h c
          by_cases hpa : a' = a
          · subst hpa
            apply key
            fin_cases c
            · exact b2 _ a3
            · exact b3
          · rw [Function.update_of_ne (by simpa using hpa)] at h
            exact key _ (b1.closed a' h c)

/-! ## The two sums -/

omit [FloorRing R] [HasSqrt R] [LawfulSqrt R] in
theorem fold_num {α : Type} {f : R → α → R} {x y : α → R} {k φ : R} (hk : 0 ≤ k) (hφ : 0 ≤ φ) : ∀ (L : List α) (a : R), 0 ≤ a →
    (∀ p ∈ L, 0 ≤ x p ∧ 0 ≤ y p) → (∀ acc, ∀ p ∈ L, 0 ≤ acc → acc ≤ 3 → 0 ≤ f acc p ∧ |f acc p - (acc + x p)| ≤ k + φ * y p) →
    a + (L.map x).sum + k * L.length + φ * (L.map y).sum ≤ 3 →
    0 ≤ L.foldl f a ∧ |L.foldl f a - (a + (L.map x).sum)| ≤ k * L.length + φ * (L.map y).sum := by
  intro L
  induction L with
  | nil => intro a ha _ _ _; simpa using ha
  | cons p L ih =>
    intro a ha hxy hf h3
    rw [List.map_cons, List.map_cons, List.sum_cons, List.sum_cons, List.length_cons] at h3 ⊢
    push_cast at h3 ⊢
    have hx := hxy p (List.mem_cons_self ..)
    have sx : 0 ≤ (L.map x).sum := List.sum_nonneg fun z hz => by
      obtain ⟨w, hw, rfl⟩ := List.mem_map.1 hz
      exact (hxy w (List.mem_cons_of_mem _ hw)).1
    have sy : 0 ≤ (L.map y).sum := List.sum_nonneg fun z hz => by
      obtain ⟨w, hw, rfl⟩ := List.mem_map.1 hz
      exact (hxy w (List.mem_cons_of_mem _ hw)).2
    have m1 := mul_nonneg hφ sy
    have m2 := mul_nonneg hφ hx.2
    have m3 : 0 ≤ k * (L.length : R) := by positivity
    obtain ⟨f1, f2⟩ := hf a p (List.mem_cons_self ..) ha (by linarith)
    have f2' := abs_le.1 f2
    obtain ⟨g1, g2⟩ := ih (f a p) f1 (fun p hp => hxy p (List.mem_cons_of_mem _ hp)) (fun acc p hp => hf acc p (List.mem_cons_of_mem _ hp)) (by linarith)
    refine ⟨g1, ?_⟩
    rw [List.foldl_cons]
    have g2' := abs_le.1 g2
    rw [abs_le]
    constructor <;> linarith

/-- What one node of the queue adds. -/
theorem addOutcome_acc (hJ : J.Good) (hτ : 0 ≤ τ) (hτ1 : 1000 * τ ≤ 1) (h : TInv J τ s) (hf : J.Exact) (hm : Monotone J.fl) {n q : Nat} {δ : R} (hd0 : 0 ≤ δ)
    (hd1 : δ ≤ 1 / 2) (qn : q ≤ n) (hG : (1 + δ) ^ n ≤ 20 / 19) {probs : Option Nat → Option R} (as1 : MemoA J s (fun l => l * (1 + δ) ^ l * (τ / 4)) probs) {a' : Nat}
    (ha' : a' ∈ (s.tab .v).tab.all) (hv' : ((s.tab .v).tab.mem a').v = q) (dp : probs (some a') ≠ none) (d2 : s.SumsLe J δ (q + 1) (some a'))
    {prob : Option Nat → R} (P0 : 0 ≤ prob (some a')) (P2 : prob (some a') ≤ 7 / 4) {assumeNorm : Bool} (c : Fin 2) {acc : R} (acc0 : 0 ≤ acc) (acc3 : acc ≤ 3) {φ : R} (φ0 : 0 ≤ φ)
    (hφ : φ = n * (1 + δ) ^ n * (if assumeNorm then δ else τ / 4)) :
    0 ≤ JState.addOutcome J s prob (if assumeNorm then none else some fun p => (probs p).getD 0) c acc (some a') ∧
    |JState.addOutcome J s prob (if assumeNorm then none else some fun p => (probs p).getD 0) c acc (some a') -
      (acc + prob (some a') * mass (s.vtab J) q c (q + 1) ⟨some a', 1⟩)| ≤
      2 / 5 * τ + φ * (prob (some a') * (1 + δ) ^ (q + 1)) := by
  have htol := h.tol hJ hτ
  obtain ⟨ε, η, hrnd⟩ := h.rnd
  have hRnd : Rnd J.fl τ ε η := ⟨hrnd.1, hrnd.2.1, hrnd.2.2.1, hrnd.2.2.2.1, hrnd.2.2.2.2.1, hrnd.2.2.2.2.2.1, hrnd.2.2.2.2.2.2⟩
  obtain ⟨sm, sk⟩ := d2
  have sm' := abs_le.1 sm
  have wn : ∀ i : Fin 2, 0 ≤ (s.ct.cval J.C (((s.tab .v).tab.mem a').e i).w).mag2 := fun i => Cx.mag2_nonneg _
  have wc : (s.ct.cval J.C (((s.tab .v).tab.mem a').e c).w).mag2 ≤ 1 + δ := by
    have := wn 0
    have := wn 1
    fin_cases c
    · show (s.ct.cval J.C (((s.tab .v).tab.mem a').e (0 : Fin 2)).w).mag2 ≤ _
      linarith
    · show (s.ct.cval J.C (((s.tab .v).tab.mem a').e (1 : Fin 2)).w).mag2 ≤ _
      linarith
  have vk := (h.kids a' ha' c).1
  rw [hv'] at vk
  -- the mass of the node
  have em : mass (s.vtab J) q c (q + 1) ⟨some a', 1⟩ = (s.ct.cval J.C (((s.tab .v).tab.mem a').e c).w).mag2 *
      s.nodeSum J q (((s.tab .v).tab.mem a').e c).p := by
    rw [mass_node (a := a') rfl]
    have hsingle : ∑ c' : Fin 2, (if q = q ∧ c' ≠ c then 0 else mass (s.vtab J) q c q (((s.vtab J).mem a').e c')) =
        mass (s.vtab J) q c q (((s.vtab J).mem a').e c) := by
      rw [Finset.sum_eq_single c]
      · rw [if_neg (by simp)]
      · intro b _ hb; rw [if_pos ⟨rfl, hb⟩]
      · intro h; exact absurd (Finset.mem_univ _) h
    rw [hsingle, mass_smul, mass_below c le_rfl]
    show (1 : Cx R).mag2 * _ = _
    rw [Cx.mag2_one, one_mul]
    rfl
  rw [em]
  generalize hwe : s.ct.cval J.C (((s.tab .v).tab.mem a').e c).w = w at *
  have wn0 : 0 ≤ w.mag2 := Cx.mag2_nonneg w
  have hq1 : (1 + δ) ^ q ≤ 20 / 19 := (pow_le_pow_right₀ (by linarith) qn).trans hG
  have hqq : 1 + δ ≤ (1 + δ) ^ (q + 1) := by
    have := one_le_pow₀ (n := q) (show 1 ≤ 1 + δ by linarith)
    rw [pow_succ]
    have := mul_le_mul_of_nonneg_right this (show 0 ≤ 1 + δ by linarith)
    linarith
  have yP : prob (some a') * w.mag2 ≤ prob (some a') * (1 + δ) ^ (q + 1) := mul_le_mul_of_nonneg_left (wc.trans hqq) P0
  have y0 : 0 ≤ prob (some a') * (1 + δ) ^ (q + 1) := by positivity
  have φy : φ * (prob (some a') * w.mag2) ≤ φ * (prob (some a') * (1 + δ) ^ (q + 1)) := mul_le_mul_of_nonneg_left yP φ0
  have φy0 : 0 ≤ φ * (prob (some a') * (1 + δ) ^ (q + 1)) := mul_nonneg φ0 y0
  have pm0 : 0 ≤ prob (some a') * w.mag2 := mul_nonneg P0 wn0
  unfold JState.addOutcome
  dsimp only
  rw [hwe]
  by_cases hwz : s.ct.zeroV w = true
  · simp only [if_pos hwz]
    refine ⟨acc0, ?_⟩
    have hmz := zeroV_mag' (t := s.ct) (by rw [htol]; exact hτ) hwz
    rw [htol] at hmz
    have m2 : w.mag2 ≤ 9 / 4 * (τ * τ) := by
      rw [← mag_sq]
      have := mul_self_le_mul_self (mag_nonneg _) hmz
      linarith
    have mm : w.mag2 * s.nodeSum J q (((s.tab .v).tab.mem a').e c).p ≤ 9 / 4 * (τ * τ) * (20 / 19) := by
      by_cases hc : w = 0
      · rw [hc, Cx.mag2_zero, zero_mul]
        positivity
      · refine mul_le_mul m2 ((sums_le h hd0 q _ vk.node (fun e0 => ?_) (sk c)).trans hq1) (nodeSum_nonneg _ _) (by positivity)
        exact (vk.none e0).resolve_right fun e1 => hc (by rw [← hwe, e1, cval_zero])
    have mm0 := mul_nonneg wn0 (nodeSum_nonneg (J := J) (s := s) q (((s.tab .v).tab.mem a').e c).p)
    have k1 := mul_le_mul P2 mm mm0 (by norm_num)
    have k2 : τ * τ ≤ τ * (1 / 1000) := mul_le_mul_of_nonneg_left (by linarith) hτ
    have k3 := mul_nonneg P0 mm0
    rw [abs_le]
    constructor <;> linarith
  · simp only [if_neg hwz]
    have hwne : w ≠ 0 := fun e0 => hwz (by rw [e0]; exact zeroV_zero (by rw [htol]; exact hτ))
    have hkn : (((s.tab .v).tab.mem a').e c).p = none → q = 0 := fun e0 => (vk.none e0).resolve_right fun e1 => hwne (by rw [← hwe, e1, cval_zero])
    cases assumeNorm with
    | true =>
      simp only [if_true]
      obtain ⟨-, -, k3, k4⟩ := edge_prob hRnd hm hf.1 hτ1 (P := acc) (w := w) P0 (by linarith) acc0 acc3 (by linarith)
      refine ⟨k3, ?_⟩
      have nS := sums_norm h hd0 q _ vk.node hkn (sk c)
      have nS1 : |s.nodeSum J q (((s.tab .v).tab.mem a').e c).p - 1| ≤ φ := by
        refine nS.trans ?_
        have g1 : (q : R) ≤ n := by exact_mod_cast qn
        have g2 : (1 + δ) ^ q ≤ (1 + δ) ^ n := pow_le_pow_right₀ (by linarith) qn
        have g3 := mul_le_mul_of_nonneg_right (mul_le_mul g1 g2 (by positivity) (by positivity)) hd0
        simp only [if_true] at hφ
        linarith
      have k5 : |prob (some a') * w.mag2 * (s.nodeSum J q (((s.tab .v).tab.mem a').e c).p - 1)| ≤ φ * (prob (some a') * w.mag2) := by
        rw [abs_mul, abs_of_nonneg pm0, mul_comm φ]
        exact mul_le_mul_of_nonneg_left nS1 pm0
      have k5' := abs_le.1 k5
      have k4' := abs_le.1 k4
      rw [abs_le]
      constructor <;> linarith
    | false =>
      simp only [Bool.false_eq_true, if_false]
      have hcl := as1.closed a' dp c
      cases hr : probs (((s.tab .v).tab.mem a').e c).p with
      | none => exact absurd hr hcl
      | some r =>
        simp only [Option.getD_some]
        have elv : s.lvlV (((s.tab .v).tab.mem a').e c).p = q := by
          have := vk.node
          cases hc : (((s.tab .v).tab.mem a').e c).p with
          | none => rw [hkn hc]; rfl
          | some a'' => rw [hc] at this; rw [← this.2]; rfl
        obtain ⟨r0, r1, r2, r3⟩ := as1.near _ _ hr
        rw [elv] at r1 r2 r3
        have rφ : |r - s.nodeSum J q (((s.tab .v).tab.mem a').e c).p| ≤ φ := by
          refine r1.trans ?_
          have g1 : (q : R) ≤ n := by exact_mod_cast qn
          have g2 : (1 + δ) ^ q ≤ (1 + δ) ^ n := pow_le_pow_right₀ (by linarith) qn
          have g3 := mul_le_mul_of_nonneg_right (mul_le_mul g1 g2 (by positivity) (by positivity)) (by positivity : 0 ≤ τ / 4)
          simp only [Bool.false_eq_true, if_false] at hφ
          linarith
        have r1' := abs_le.1 r1
        have rr : r ≤ 5 / 2 := by linarith
        have pr0 : 0 ≤ prob (some a') * r := mul_nonneg P0 r0
        have pr5 : prob (some a') * r ≤ 5 := by
          have := mul_le_mul P2 rr r0 (by norm_num)
          linarith
        have u0 : 0 ≤ J.fl (prob (some a') * r) := hf.1 ▸ hm pr0
        obtain ⟨e1, e2, e3, e4, e5, e6, herr⟩ := hRnd
        have u1 := herr (prob (some a') * r)
        rw [abs_of_nonneg pr0] at u1
        have u2 : ε * (prob (some a') * r) ≤ ε * 5 := mul_le_mul_of_nonneg_left pr5 e1
        have u3 : |J.fl (prob (some a') * r) - prob (some a') * r| ≤ τ / 100 := by linarith
        have u3' := abs_le.1 u3
        obtain ⟨-, -, k3, k4⟩ := edge_prob ⟨e1, e2, e3, e4, e5, e6, herr⟩ hm hf.1 hτ1 (P := acc) (w := w) u0 (by linarith) acc0 acc3 (by linarith)
        refine ⟨k3, ?_⟩
        have k5 : |prob (some a') * w.mag2 * (r - s.nodeSum J q (((s.tab .v).tab.mem a').e c).p)| ≤ φ * (prob (some a') * w.mag2) := by
          rw [abs_mul, abs_of_nonneg pm0, mul_comm φ]
          exact mul_le_mul_of_nonneg_left rφ pm0
        have k6 : |(J.fl (prob (some a') * r) - prob (some a') * r) * w.mag2| ≤ τ / 100 * 2 := by
          rw [abs_mul, abs_of_nonneg wn0]
          exact mul_le_mul u3 (by linarith) wn0 (by positivity)
        have k5' := abs_le.1 k5
        have k4' := abs_le.1 k4
        have k6' := abs_le.1 k6
        rw [abs_le]
        constructor <;> linarith

theorem determine_acc (hJ : J.Good) (hτ : 0 ≤ τ) (hτ1 : 1000 * τ ≤ 1) (h : TInv J τ s) (hf : J.Exact) (hm : Monotone J.fl) {n : Nat} {δ : R} (hd0 : 0 ≤ δ)
    (hδ : 20 * (n * δ) ≤ 1) (hn : (n : R) * τ ≤ 1) (hN : (((s.tab .v).tab.all.toFinset.card : Nat) : R) * τ ≤ 1) {x : PtrEdge} (hx : s.ValidV J n x)
    (hz : s.ct.zeroV (s.ct.cval J.C x.w) = false) (hw : (s.ct.cval J.C x.w).mag2 ≤ 5 / 4) (hs : s.SumsLe J δ n x.p) (q : Fin n) (assumeNorm : Bool)
    {fuel : Nat} (hfuel : (s.tab .v).tab.all.toFinset.card ≤ fuel) :
    ∃ p : Fin 2 → R, JState.determineMeasurementProbabilities J s x q assumeNorm fuel = some (p 0, p 1) ∧ ∀ c, 0 ≤ p c ∧
      |p c - outProb (s.vecJ J n x) q c| ≤ τ * ((s.tab .v).tab.all.toFinset.card : Nat) + 2 * n * (if assumeNorm then δ else τ) := by
  have htol := h.tol hJ hτ
  obtain ⟨ε, η, hrnd⟩ := h.rnd
  have hRnd : Rnd J.fl τ ε η := ⟨hrnd.1, hrnd.2.1, hrnd.2.2.1, hrnd.2.2.2.1, hrnd.2.2.2.2.1, hrnd.2.2.2.2.2.1, hrnd.2.2.2.2.2.2⟩
  have hG : (1 + δ) ^ n ≤ 20 / 19 := by
    have := bernoulli hd0 n
    have k0 : 0 ≤ (1 + δ) ^ n := by positivity
    have : (1 + δ) ^ n * (19 / 20) ≤ 1 := (mul_le_mul_of_nonneg_left (by linarith) k0).trans this
    linarith
  have hG1 : (1 + δ) ^ n ≤ 3 / 2 := by linarith
  obtain ⟨l, hl⟩ : ∃ l, n = l + 1 := ⟨n - 1, by have := q.isLt; omega⟩
  have hd1 : δ ≤ 1 / 2 := by
    have : (1 : R) ≤ n := by exact_mod_cast (by omega : 1 ≤ n)
    have := le_mul_of_one_le_left hd0 this
    linarith
  have hne : s.ct.cval J.C x.w ≠ 0 := by
    intro e0
    rw [e0, zeroV_zero (by rw [htol]; exact hτ)] at hz
    cases hz
  have hpn : x.p = none → n = 0 := fun e0 => (hx.none e0).resolve_right fun e1 => hne (by rw [e1, cval_zero])
  obtain ⟨a, hp⟩ : ∃ a, x.p = some a := by
    cases hp : x.p with
    | none => exact absurd (hpn hp) (by omega)
    | some a => exact ⟨a, rfl⟩
  have hno := hx.node
  rw [hp] at hno
  have hv : ((s.tab .v).tab.mem a).v = l := by have := hno.2; omega
  have hlev : plev (s.vtab J) x.p = l := by rw [hp]; exact hv
  have hlvl : s.lvlV x.p = n := by rw [hp, ← hno.2]; rfl
  have w0 := Cx.mag2_nonneg (s.ct.cval J.C x.w)
  -- the map of assignProbabilities
  have hM0 : MemoA J s (fun l => l * (1 + δ) ^ l * (τ / 4)) (fun _ => none) := ⟨fun p r h => by simp at h, fun a h => by simp at h⟩
  obtain ⟨as1, -, as3, -, -⟩ := assignF_acc hJ hτ hτ1 h hf hm hd0 hd1 hG1 hn n x (fun _ => none) hx le_rfl (by linarith) hs hM0
  let probs := (JState.assignF J s n x (fun _ => none)).1
  let D : Option Nat → Prop := fun p => probs p ≠ none
  -- the search
  let b0 : Bfs R := ⟨Function.update (fun _ => 0) x.p (mag2F J.fl (s.ct.cval J.C x.w)), [x.p], [x.p]⟩
  have hW : unvisited (s.vtab J) b0 + b0.queue.length = (s.tab .v).tab.all.toFinset.card := by
    unfold unvisited
    have hmem : x.p ∈ (s.vtab J).all.toFinset.image some := by
      rw [hp]
      exact Finset.mem_image_of_mem _ (List.mem_toFinset.2 hno.1)
    have e : (s.vtab J).all.toFinset.image some \ b0.visited.toFinset = ((s.vtab J).all.toFinset.image some).erase x.p := by
      rw [show b0.visited.toFinset = {x.p} by simp [b0], Finset.sdiff_singleton_eq_erase]
    rw [e, Finset.card_erase_of_mem hmem, Finset.card_image_of_injective _ (Option.some_injective _)]
    have h1 : 0 < (s.vtab J).all.toFinset.card := Finset.card_pos.2 ⟨a, List.mem_toFinset.2 hno.1⟩
    have h2 : b0.queue.length = 1 := rfl
    have h3 : (s.vtab J).all = (s.tab .v).tab.all := rfl
    rw [h2]
    rw [h3] at h1 ⊢
    omega
  have hN1 : (1 : R) ≤ ((s.tab .v).tab.all.toFinset.card : Nat) := by
    have : 0 < (s.tab .v).tab.all.toFinset.card := Finset.card_pos.2 ⟨a, List.mem_toFinset.2 hno.1⟩
    exact_mod_cast this
  have mn := mag2F_nonneg hm hf.1 (s.ct.cval J.C x.w)
  have mr := mag2F_rnd hRnd (s.ct.cval J.C x.w)
  have mr1 : |mag2F J.fl (s.ct.cval J.C x.w) - (s.ct.cval J.C x.w).mag2| ≤ 9 / 800 * τ := mr.trans (by nlinarith)
  have mr' := abs_le.1 mr1
  have hb : AInv J s q D δ (fun c => outProb (s.vecJ J n x) q c) (τ / 20) (27 / 20) l b0 := by
    refine ⟨by simp [b0], ?_, by simp [b0], by simp [b0], ?_, ?_, ?_, ?_⟩
    · intro p h
      simp only [b0, List.mem_singleton] at h
      subst h
      have := q.isLt
      refine ⟨as3, ?_, a, hp, hno.1, by omega, by omega, by omega⟩
      rw [hlev, ← hl]; exact hs
    · intro p h1 h2; exact absurd h1 h2
    · intro p h
      simp only [b0, List.mem_singleton] at h
      subst h
      simpa [b0] using mn
    · intro c
      show |(List.map _ [x.p]).sum - _| ≤ _
      rw [List.map_singleton, List.sum_singleton, show b0.prob x.p = mag2F J.fl (s.ct.cval J.C x.w) from by simp [b0], hlev, ← hl]
      have e : outProb (s.vecJ J n x) q c = (s.ct.cval J.C x.w).mag2 * mass (s.vtab J) q c n ⟨x.p, 1⟩ := by
        have := mass_outProb (t := s.vtab J) (b := c) (e := ⟨x.p, s.ct.cval J.C x.w⟩) (q := q)
        rw [mass_smul] at this
        exact this.symm
      rw [e, ← sub_mul, abs_mul, abs_of_nonneg (mass_nonneg (q : Nat) c n ⟨x.p, 1⟩ (s.vtab J))]
      have m1 : mass (s.vtab J) q c n ⟨x.p, 1⟩ ≤ 3 / 2 := (mass_le q c n x.p).trans ((sums_le h hd0 n x.p hx.node hpn hs).trans hG1)
      have := mul_le_mul mr1 m1 (mass_nonneg _ _ _ _ _) (by positivity)
      linarith
    · show (List.map _ [x.p]).sum ≤ _
      rw [List.map_singleton, List.sum_singleton, show b0.prob x.p = mag2F J.fl (s.ct.cval J.C x.w) from by simp [b0], hlev, ← hl]
      have := mul_le_mul (show mag2F J.fl (s.ct.cval J.C x.w) ≤ 126 / 100 by linarith) hG (by positivity) (by norm_num)
      linarith
  obtain ⟨b', E', Y', e1, h2, h3, h4, h5⟩ := bfsLoop_acc hJ hτ hτ1 h hf hm hd0 hd1 hG1 (D := D) (fun a _ h c _ => as1.closed a h c) fuel l _ _ b0 hb (by omega)
    (by simp [b0]) (by rw [hW]; exact hfuel) (by rw [hW]; linarith)
  rw [hW] at h4 h5
  -- the factor for the sub-diagrams
  let φ : R := n * (1 + δ) ^ n * (if assumeNorm then δ else τ / 4)
  have φ0 : 0 ≤ φ := by
    dsimp only [φ]
    split_ifs <;> positivity
  have φ1 : φ ≤ 20 / 19 * (n * (if assumeNorm then δ else τ / 4)) := by
    have k : 0 ≤ (n : R) * (if assumeNorm then δ else τ / 4) := by split_ifs <;> positivity
    have := mul_le_mul_of_nonneg_right hG k
    dsimp only [φ]
    linarith
  have φ2 : φ ≤ 1 / 2 := by
    refine φ1.trans ?_
    split_ifs <;> linarith
  have key : ∀ c : Fin 2, 0 ≤ b'.queue.foldl (JState.addOutcome J s b'.prob (if assumeNorm then none else some fun p => (probs p).getD 0) c) 0 ∧
      |b'.queue.foldl (JState.addOutcome J s b'.prob (if assumeNorm then none else some fun p => (probs p).getD 0) c) 0 -
        (b'.queue.map (fun p => b'.prob p * mass (s.vtab J) q c (plev (s.vtab J) p + 1) ⟨p, 1⟩)).sum| ≤ 2 / 5 * τ * b'.queue.length + φ * (13 / 7) := by
    intro c
    have up := h2.upper
    have Y2 : Y' ≤ 7 / 4 := by
      have : 0 ≤ 2 / 5 * τ * (b'.queue.length : R) := by positivity
      linarith
    have sle : (b'.queue.map (fun p => b'.prob p * mass (s.vtab J) q c (plev (s.vtab J) p + 1) ⟨p, 1⟩)).sum ≤
        (b'.queue.map (fun p => b'.prob p * (1 + δ) ^ (plev (s.vtab J) p + 1))).sum := by
      refine List.sum_le_sum fun p hp => ?_
      obtain ⟨-, d2, a', rfl, ha', -⟩ := h2.node p hp
      exact mul_le_mul_of_nonneg_left ((mass_le _ _ _ _).trans (sums_le h hd0 _ _ ⟨ha', rfl⟩ (fun e => by cases e) d2)) (h2.nonneg _ hp)
    have φY : φ * (b'.queue.map (fun p => b'.prob p * (1 + δ) ^ (plev (s.vtab J) p + 1))).sum ≤ φ * (7 / 4) :=
      mul_le_mul_of_nonneg_left (up.trans Y2) φ0
    obtain ⟨r1, r2⟩ := fold_num (f := JState.addOutcome J s b'.prob (if assumeNorm then none else some fun p => (probs p).getD 0) c)
      (x := fun p => b'.prob p * mass (s.vtab J) q c (plev (s.vtab J) p + 1) ⟨p, 1⟩) (y := fun p => b'.prob p * (1 + δ) ^ (plev (s.vtab J) p + 1))
      (k := 2 / 5 * τ) (φ := φ) (by positivity) φ0 b'.queue 0 le_rfl
      (fun p hp => ⟨mul_nonneg (h2.nonneg p hp) (mass_nonneg _ _ _ _ _), mul_nonneg (h2.nonneg p hp) (by positivity)⟩) (by
        intro acc p hp acc0 acc3
        obtain ⟨dp, d2, -⟩ := h2.node p hp
        obtain ⟨a', rfl, ha', hv'⟩ := h3 p hp
        have elev : plev (s.vtab J) (some a') = q := hv'
        rw [elev] at d2 ⊢
        exact addOutcome_acc hJ hτ hτ1 h hf hm hd0 hd1 (by have := q.isLt; omega) hG as1 ha' hv' dp d2 (h2.nonneg _ hp) ((h2.le hd0 hp).trans Y2) c acc0 acc3 φ0 rfl) (by
        have : 0 ≤ 2 / 5 * τ * (b'.queue.length : R) := by positivity
        linarith)
    refine ⟨r1, ?_⟩
    rw [zero_add] at r2
    linarith
  refine ⟨fun c => b'.queue.foldl (JState.addOutcome J s b'.prob (if assumeNorm then none else some fun p => (probs p).getD 0) c) 0, ?_, fun c => ⟨(key c).1, ?_⟩⟩
  · unfold JState.determineMeasurementProbabilities
    dsimp only
    rw [show (⟨Function.update (fun _ => 0) x.p (mag2F J.fl (s.ct.cval J.C x.w)), [x.p], [x.p]⟩ : Bfs R) = b0 from rfl, e1]
    dsimp only
    rw [hlvl]
  · have k1 := abs_le.1 (key c).2
    have k2 := abs_le.1 (h2.total c)
    have k3 : φ * (13 / 7) ≤ 2 * n * (if assumeNorm then δ else τ) := by
      cases assumeNorm with
      | true =>
        simp only [if_true] at φ1 ⊢
        have : 0 ≤ (n : R) * δ := by positivity
        linarith
      | false =>
        simp only [Bool.false_eq_true, if_false] at φ1 ⊢
        have : 0 ≤ (n : R) * τ := by positivity
        linarith
    have k4 := le_mul_of_one_le_right hτ hN1
    rw [abs_le]
    constructor <;> linarith

end DD
