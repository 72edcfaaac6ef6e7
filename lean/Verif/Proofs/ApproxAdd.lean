import Verif.Proofs.ApproxOps

/-! # Accuracy of adding vectors -/

namespace DD

open Pkg UTable JState

variable {R : Type} [Field R] [LinearOrder R] [IsStrictOrderedRing R] [FloorRing R] {J : JCfg R} {τ : R}
variable {s s' s'' : JState R} [HasSqrt R]

/-- An operand that is a diagram over `l` qubits. -/
def JState.OOk (J : JCfg R) (s : JState R) (l : Nat) (x : OEdge R) : Prop :=
  s.NodeOk l x.p ∧ (x.p = none → l = 0 ∨ x.w.isZero = true) ∧ ∀ c, x.w = .tab c → s.ct.LiveC J.C c

omit [HasSqrt R] in
theorem Grow.oOk (g : Grow J s s') {l : Nat} {x : OEdge R} (h : s.OOk J l x) : s'.OOk J l x :=
  ⟨g.nodeOk h.1, h.2.1, fun c hc => g.liveC (h.2.2 c hc)⟩

omit [HasSqrt R] in
theorem Grow.oval (g : Grow J s s') {l : Nat} {x : OEdge R} (h : s.OOk J l x) : s'.oval J x.w = s.oval J x.w := by
  obtain ⟨p, w⟩ := x
  cases w with
  | tab c => exact g.cval (h.2.2 c rfl)
  | slot z => rfl

omit [HasSqrt R] [IsStrictOrderedRing R] in
theorem oval_zero {w : OW R} (h : w.isZero = true) : s.oval J w = 0 := by
  cases w with
  | tab c =>
    have : c = CNum.zero := of_decide_eq_true h
    subst this; rfl
  | slot z => simp [OW.isZero] at h

section
variable [LawfulSqrt R]

theorem addP_two (hτ : 0 ≤ τ) : ∀ l, 2 ≤ addP τ l
  | 0 => le_refl _
  | l + 1 => by
    have h := addP_two hτ l
    have g := kidBound_one hτ
    have h2 : addP τ l ≤ (1 + 2 * τ) * addP τ l := by nlinarith
    have h1 : (1 + 2 * τ) * addP τ l ≤ (1 + 2 * τ) * addP τ l * kidBound τ := le_mul_of_one_le_right (by linarith) g
    show 2 ≤ 3 / 2 * ((1 + 2 * τ) * addP τ l * kidBound τ)
    linarith

theorem addE_nonneg (hτ : 0 ≤ τ) : ∀ l, 0 ≤ addE τ l
  | 0 => le_refl _
  | l + 1 => by
    have h := addE_nonneg hτ l
    have g := kidBound_one hτ
    have p := addP_two hτ (l + 1)
    show 0 ≤ ((1 + 2 * τ) * addE τ l + 6 * τ * kidBound τ ^ l) * kidBound τ + 4 * τ * kidBound τ ^ (l + 1) +
      2 * τ * (1 + 3 * addP τ (l + 1)) * kidBound τ ^ l
    have : 0 ≤ kidBound τ := by linarith
    have : 0 ≤ 1 + 3 * addP τ (l + 1) := by linarith
    positivity

end

/-- Error of a sum, including that of a hit in the cache. -/
def addR (τ : R) (l : Nat) (N : R) : R := addA τ l (N + 41 / 10 * (τ * (3 / 2) ^ l)) + 5 * τ + 1 / 100 * τ * N

omit [FloorRing R] [HasSqrt R] in
theorem addR_step (hτ : 0 ≤ τ) {l : Nat} (hs : Small τ (l + 1)) {N M : R} (hN : 0 ≤ N)
    (hM : M ≤ 51 / 50 * (N + 3 / 2 * ((3 / 2) ^ l * (addR τ l (N + (3 / 2) ^ l * (41 / 10 * τ * (1 + N))) + 41 / 10 * τ * (1 + N))))) :
    addR τ l (N + (3 / 2) ^ l * (41 / 10 * τ * (1 + N))) + 41 / 10 * τ * (1 + N) + 41 / 25 * τ * (1 + 3 * M) ≤ addA τ (l + 1) N := by
  obtain ⟨u1, u2, u3⟩ := (hs.pred hτ).le hτ
  have q1 := pow32 (R := R) l
  unfold addR at *
  unfold addA at *
  set q : R := (3 / 2) ^ l with hq
  set u := τ * q with hu
  have u0 : 0 ≤ u := by positivity
  set L : R := (l : R) with hL
  have L0 : 0 ≤ L := by positivity
  have e1 : 1 + (N + q * (41 / 10 * τ * (1 + N)) + 41 / 10 * u) ≤ (1 + N) * (1 + 82 / 10 * u) := by
    have : q * (41 / 10 * τ * (1 + N)) = 41 / 10 * u * (1 + N) := by rw [hu]; ring
    rw [this]; nlinarith [mul_nonneg u0 hN]
  have e2 : (1 + 36 * u) * (1 + 82 / 10 * u) ≤ 1 + 45 * u := by nlinarith
  have e3 : (1 + 36 * u) * (1 + (N + q * (41 / 10 * τ * (1 + N)) + 41 / 10 * u)) ≤ (1 + 45 * u) * (1 + N) := by
    calc _ ≤ (1 + 36 * u) * ((1 + N) * (1 + 82 / 10 * u)) := mul_le_mul_of_nonneg_left e1 (by linarith)
      _ = (1 + 36 * u) * (1 + 82 / 10 * u) * (1 + N) := by ring
      _ ≤ _ := mul_le_mul_of_nonneg_right e2 (by linarith)
  have e4 : 20 * τ * L * (1 + 36 * u) * (1 + (N + q * (41 / 10 * τ * (1 + N)) + 41 / 10 * u)) ≤ 20 * τ * L * ((1 + 45 * u) * (1 + N)) := by
    rw [mul_assoc (20 * τ * L)]
    exact mul_le_mul_of_nonneg_left e3 (by positivity)
  set A := 20 * τ * L * (1 + 36 * u) * (1 + (N + q * (41 / 10 * τ * (1 + N)) + 41 / 10 * u)) with hA
  have n0 : 0 ≤ τ * N := mul_nonneg hτ hN
  have e50 : 1 / 100 * τ * (N + q * (41 / 10 * τ * (1 + N))) ≤ 1 / 50 * τ * (1 + N) := by
    have : q * (41 / 10 * τ * (1 + N)) = 41 / 10 * u * (1 + N) := by rw [hu]; ring
    rw [this]
    have h1 : u * (1 + N) ≤ 1 / 1000 * (1 + N) := mul_le_mul_of_nonneg_right u1 (by linarith)
    have h2 := mul_le_mul_of_nonneg_left (by linarith : N + 41 / 10 * u * (1 + N) ≤ 2 * (1 + N)) hτ
    linarith
  set Z := 1 / 100 * τ * (N + q * (41 / 10 * τ * (1 + N))) with hZ
  have e5 : A + 5 * τ + Z + 41 / 10 * τ * (1 + N) ≤ τ * (1 + N) * (20 * L * (1 + 45 * u) + 103 / 10) := by
    clear_value Z
    have : 20 * τ * L * ((1 + 45 * u) * (1 + N)) = τ * (1 + N) * (20 * L * (1 + 45 * u)) := by ring
    linarith
  have e6 : q * (A + 5 * τ + Z + 41 / 10 * τ * (1 + N)) ≤ 21 / 1000 * (1 + N) := by
    refine (mul_le_mul_of_nonneg_left e5 (by linarith)).trans ?_
    have : q * (τ * (1 + N) * (20 * L * (1 + 45 * u) + 103 / 10)) = (u * (20 * L * (1 + 45 * u) + 103 / 10)) * (1 + N) := by
      rw [hu]; ring
    rw [this]
    refine mul_le_mul_of_nonneg_right ?_ (by linarith)
    have h1 : 20 * L * (1 + 45 * u) ≤ 20 * L * (1045 / 1000) := mul_le_mul_of_nonneg_left (by linarith) (by linarith)
    have h2 : 20 * L * (1 + 45 * u) + 103 / 10 ≤ 21 * (L + 1) := by linarith
    have h3 := mul_le_mul_of_nonneg_left h2 u0
    linarith
  have e7 : M ≤ 51 / 50 * (N + 32 / 1000 * (1 + N)) := by
    refine hM.trans (mul_le_mul_of_nonneg_left ?_ (by norm_num))
    linarith
  have e8 : 41 / 25 * τ * (1 + 3 * M) ≤ 41 / 25 * τ * (33 / 10 * (1 + N)) :=
    mul_le_mul_of_nonneg_left (by linarith) (by positivity)
  have e9 : (3 / 2 : R) ^ (l + 1) = q * (3 / 2) := by rw [pow_succ]
  rw [e9]
  push_cast
  have e10 : 20 * τ * (L + 1) * (1 + 36 * (τ * (q * (3 / 2)))) * (1 + N) = τ * (1 + N) * (20 * (L + 1) * (1 + 54 * u)) := by rw [hu]; ring
  rw [e10]
  have e11 : 41 / 25 * τ * (33 / 10 * (1 + N)) ≤ τ * (1 + N) * 7 := by
    clear_value Z A q u L
    have := mul_nonneg hτ (by linarith : 0 ≤ 1 + N)
    linarith
  have e12 : τ * (1 + N) * (20 * L * (1 + 45 * u) + 103 / 10) + τ * (1 + N) * 7 ≤ τ * (1 + N) * (20 * (L + 1) * (1 + 54 * u)) := by
    rw [← mul_add]
    refine mul_le_mul_of_nonneg_left ?_ (mul_nonneg hτ (by linarith))
    have := mul_nonneg L0 u0
    linarith
  clear_value Z A q u L
  clear hZ e50 hA hM e1 e2 e3 e4 hs hL hq e6 e7 e9 e10
  linarith

omit [IsStrictOrderedRing R] [FloorRing R] in
theorem Grow.evec' {l : Nat} {e : ValEdge R} (h : ∀ d, s'.namp J l e.p d = s.namp J l e.p d) : s'.evec J l e = s.evec J l e := by
  funext d; unfold JState.evec; rw [h d]

/-- What a sum of vectors satisfies. -/
structure AddRes (J : JCfg R) (τ : R) (s : JState R) (l : Nat) (x y : OEdge R) (r : JState R × SEdge R) : Prop where
  inv : TInv J τ r.1
  grow : Grow J s r.1
  ok : r.1.SOk l r.2
  acc : ∀ U, 1 ≤ U → mag (s.oval J x.w) ≤ U → mag (s.oval J y.w) ≤ U →
    mag (sval r.2.w) ≤ (1 + 2 * τ) * addP τ l * U ∧
    ∀ d, mag (sval r.2.w * r.1.namp J l r.2.p d - (s.oval J x.w * s.namp J l x.p d + s.oval J y.w * s.namp J l y.p d)) ≤
      ((1 + 2 * τ) * addE τ l + 6 * τ * kidBound τ ^ l) * U
  fine : Small τ l → ∀ d,
    mag (sval r.2.w * r.1.namp J l r.2.p d - (s.oval J x.w * s.namp J l x.p d + s.oval J y.w * s.namp J l y.p d)) ≤
      addR τ l (vnorm (s.evec J l ⟨x.p, s.oval J x.w⟩) + vnorm (s.evec J l ⟨y.p, s.oval J y.w⟩))

variable [LawfulSqrt R]

/-- Results that are simple: the state is left alone. -/
theorem AddRes.simple (hτ : 0 ≤ τ) (h : TInv J τ s) {l : Nat} {x y : OEdge R} {r : SEdge R} (ok : s.SOk l r) (ox : s.NodeOk l x.p)
    (oy : s.NodeOk l y.p) (hm : ∀ U, 1 ≤ U → mag (s.oval J x.w) ≤ U → mag (s.oval J y.w) ≤ U → mag (sval r.w) ≤ (1 + 2 * τ) * 2 * U)
    (ha : ∀ d, mag (sval r.w * s.namp J l r.p d - (s.oval J x.w * s.namp J l x.p d + s.oval J y.w * s.namp J l y.p d)) ≤
      2 * τ * kidBound τ ^ l + 1 / 100 * τ * (mag (s.evec J l ⟨x.p, s.oval J x.w⟩ d) + mag (s.evec J l ⟨y.p, s.oval J y.w⟩ d))) :
    AddRes J τ s l x y (s, r) := by
  refine ⟨h, .refl s, ok, fun U hU hx hy => ⟨(hm U hU hx hy).trans ?_, fun d => (ha d).trans ?_⟩, fun hs d => (ha d).trans ?_⟩
  · have p := addP_two hτ l
    apply mul_le_mul_of_nonneg_right _ (by linarith)
    exact mul_le_mul_of_nonneg_left p (by linarith)
  · have e := addE_nonneg hτ l
    have g := kidBound_pow hτ l
    have a1 : 0 ≤ τ * kidBound τ ^ l := mul_nonneg hτ (by linarith)
    have a2 : 0 ≤ (1 + 2 * τ) * addE τ l := mul_nonneg (by linarith) e
    have a3 : mag (s.evec J l ⟨x.p, s.oval J x.w⟩ d) ≤ U * kidBound τ ^ l := mag_mono_mul hx (namp_bound hτ h l _ d ox)
    have a4 : mag (s.evec J l ⟨y.p, s.oval J y.w⟩ d) ≤ U * kidBound τ ^ l := mag_mono_mul hy (namp_bound hτ h l _ d oy)
    have a5 := mul_le_mul_of_nonneg_left (add_le_add a3 a4) hτ
    have a6 : 0 ≤ (1 + 2 * τ) * addE τ l * U := mul_nonneg a2 (by linarith)
    have a7 : τ * kidBound τ ^ l * 1 ≤ τ * kidBound τ ^ l * U := mul_le_mul_of_nonneg_left hU a1
    linarith
  · have g := hs.kid hτ (m := l) (by omega)
    have v1 := vnorm_nonneg (s.evec J l ⟨x.p, s.oval J x.w⟩)
    have v2 := vnorm_nonneg (s.evec J l ⟨y.p, s.oval J y.w⟩)
    have a := addA_nonneg hτ l (N := vnorm (s.evec J l ⟨x.p, s.oval J x.w⟩) + vnorm (s.evec J l ⟨y.p, s.oval J y.w⟩) +
      41 / 10 * (τ * (3 / 2) ^ l)) (by positivity)
    have c1 := mag_le_vnorm (s.evec J l ⟨x.p, s.oval J x.w⟩) d
    have c2 := mag_le_vnorm (s.evec J l ⟨y.p, s.oval J y.w⟩) d
    have c3 := mul_le_mul_of_nonneg_left (add_le_add c1 c2) hτ
    have c4 := mul_le_mul_of_nonneg_left g hτ
    unfold addR
    linarith

omit [LawfulSqrt R] in
theorem addIns_grow (hJ : J.Good) (hτ : 0 ≤ τ) (h : TInv J τ s) {x y r : ValEdge R}
    (hok : AddOk J τ s (addKey x y, .val .v r)) : TInv J τ (s.addIns J x y r) ∧ Grow J s (s.addIns J x y r) := by
  obtain ⟨pin, hi⟩ := h.reach.inv hJ (zero_tol hτ)
  obtain ⟨l, x', y', r', he, hx, hy, hr, _⟩ := id hok
  simp only [addKey, Prod.mk.injEq, List.cons.injEq, CArg.val.injEq, true_and, and_true] at he
  obtain ⟨⟨rfl, rfl⟩, rfl⟩ := he
  have kn : ∀ p : Option Nat, s.NodeOk l p → ∀ q ∈ nodeRefs .v p, s.Known J q := by
    intro p hp q hq
    cases p with
    | none => simp [nodeRefs] at hq
    | some a =>
      simp only [nodeRefs, List.mem_singleton] at hq
      subst hq
      exact hp.1
  have hst : JStep J (· = τ) s (s.addIns J x y r) := by
    refine .insert .vectorAdd (addKey x y) (.val .v r) ?_ ?_ ?_ ?_ (fun e => by cases e)
    · exact .cons rfl (.cons rfl .nil)
    · exact rfl
    · intro a ha q hq
      simp only [addKey, List.mem_cons, List.not_mem_nil, or_false] at ha
      rcases ha with rfl | rfl
      · exact kn _ hx q hq
      · exact kn _ hy q hq
    · exact fun q hq => kn _ hr q hq
  have ha := hst.agree hJ (zero_tol hτ) hi
  refine ⟨h.keep hJ hτ (h.reach.step hst) ha (fun a ha => Or.inl ha) (fun a ha => Or.inl ha) (fun i k hs => ?_)
    (fun i k hs => Or.inl hs) (fun i k hs => Or.inl hs) (fun i k hs => Or.inl hs),
    ⟨ha, fun _ a ha => ha, fun l hl => hl, fun _ => rfl⟩⟩
  have hc : (s.addIns J x y r).cache .vectorAdd = (s.cache .vectorAdd).insert (J.h .vectorAdd) (addKey x y) (.val .v r) :=
    Function.update_self (β := fun _ : CK => Cache (CKey R) (CArg R)) CK.vectorAdd _ s.cache
  rw [hc] at hs
  simp only [Cache.insert] at hs
  split_ifs at hs with h1
  · right
    simp only [Option.some.injEq] at hs
    subst hs
    have nm : ∀ l p d, (s.addIns J x y r).namp J l p d = s.namp J l p d := by
      intro l
      induction l with
      | zero => intro p d; rfl
      | succ l ih =>
        intro p d
        cases p with
        | none => rfl
        | some a => show _ * _ = _ * _; rw [ih]; rfl
    obtain ⟨l', x', y', r', he, hx, hy, hr, h0, hU, hF⟩ := hok
    refine ⟨l', x', y', r', he, hx, hy, hr, h0, fun U h1 h2 h3 => ⟨(hU U h1 h2 h3).1, fun d => ?_⟩, ?_⟩
    · rw [nm, nm, nm]
      exact (hU U h1 h2 h3).2 d
    · rw [Grow.evec' (fun d => nm l' _ d), Grow.evec' (fun d => nm l' _ d), Grow.evec' (fun d => nm l' _ d)]
      exact hF
  · exact Or.inl hs

/-- A hit in the cache of `add`. -/
theorem addLook_hit (hJ : J.Good) (hτ : 0 ≤ τ) (h : TInv J τ s) {x y r : ValEdge R} (hh : s.addLook J x y = some r) :
    ∃ x' y' : ValEdge R, AddOk J τ s (addKey x' y', .val .v r) ∧ x'.p = x.p ∧ y'.p = y.p ∧ mag (x'.w - x.w) ≤ 3 / 2 * τ ∧
      mag (y'.w - y.w) ≤ 3 / 2 * τ := by
  unfold JState.addLook Cache.lookup at hh
  cases hs : (s.cache .vectorAdd).slot (J.h .vectorAdd (addKey x y)) with
  | none => rw [hs] at hh; simp at hh
  | some kr =>
    rw [hs] at hh
    have hok := h.cache _ _ hs
    obtain ⟨l, x', y', r', rfl, _⟩ := id hok
    simp only [Bool.and_true] at hh
    split_ifs at hh with hsame
    · simp only [Option.some.injEq] at hh
      subst hh
      have ht := h.tol hJ hτ
      simp only [addKey, sameKey, sameArg, Bool.and_eq_true, decide_eq_true_eq, true_and, and_true] at hsame
      obtain ⟨⟨a1, a2⟩, b1, b2⟩ := hsame
      have a3 := eqV_mag' (by rw [ht]; exact hτ) a2
      have b3 := eqV_mag' (by rw [ht]; exact hτ) b2
      rw [ht] at a3 b3
      exact ⟨x', y', hok, a1, b1, a3, b3⟩

omit [HasSqrt R] [LawfulSqrt R] [IsStrictOrderedRing R] in
theorem nodeOk_lvl {l : Nat} {a : Nat} (h : s.NodeOk l (some a)) : s.lvlV (some a) = l := h.2

omit [LawfulSqrt R] in
theorem nodeOk_nvars (hJ : J.Good) (hτ : 0 ≤ τ) (h : TInv J τ s) {l : Nat} {a : Nat} (hp : s.NodeOk (l + 1) (some a)) :
    l < (s.tab .v).tab.nvars := by
  obtain ⟨pin, hi⟩ := h.reach.inv hJ (zero_tol hτ)
  have := (((hi.tab .v).inv hJ.U).uwf.mem_bucket hp.1).1
  have := hp.2
  omega

/-- Successors of operands. -/
theorem addChild_acc (hJ : J.Good) (hτ : 0 ≤ τ) (h : TInv J τ s) {l a : Nat} {x : OEdge R} (hx : s.OOk J (l + 1) x)
    (hp : x.p = some a) (i : Fin 2) :
    s.OOk J l (addChild J s x l i) ∧ ∀ U, 1 ≤ U → mag (s.oval J x.w) ≤ U →
      mag (s.oval J (addChild J s x l i).w) ≤ kidBound τ * U ∧
      ∀ d : Fin (l + 1) → Fin 2, d (Fin.last l) = i →
        mag (s.oval J (addChild J s x l i).w * s.namp J l (addChild J s x l i).p (Fin.init d) -
          s.oval J x.w * s.namp J (l + 1) x.p d) ≤ 2 * τ * (kidBound τ * U) * kidBound τ ^ l := by
  obtain ⟨p, w⟩ := x
  dsimp only at hp
  subst hp
  have hxo := hx.1
  have hv : ((s.tab .v).tab.mem a).v = l := by have := hxo.2; omega
  obtain ⟨v1, v2⟩ := h.kids a hxo.1 i
  rw [hv] at v1
  have ht := h.tol hJ hτ
  have g := kidBound_one hτ
  have gl := kidBound_pow hτ l
  unfold JState.addChild
  dsimp only
  rw [if_pos hv]
  split_ifs with h0
  · refine ⟨⟨v1.node, fun _ => Or.inr (by rw [h0]; rfl), fun c hc => ?_⟩, fun U hU hm => ⟨?_, fun d hd => ?_⟩⟩
    · simp only [OW.tab.injEq] at hc
      subst hc; exact v1.live
    · show mag (s.ct.cval J.C _) ≤ _
      refine (v2.trans (kidW_le hτ)).trans (le_mul_of_one_le_right (by linarith) hU)
    · subst hd
      show mag (s.ct.cval J.C (((s.tab .v).tab.mem a).e (d (Fin.last l))).w * _ -
        _ * (s.ct.cval J.C (((s.tab .v).tab.mem a).e (d (Fin.last l))).w * _)) ≤ _
      rw [h0, cval_zero]
      simp only [zero_mul, mul_zero, sub_self, mag_zero]
      have : 0 ≤ kidBound τ * U := by nlinarith
      have : 0 ≤ kidBound τ ^ l := by linarith
      positivity
  · refine ⟨⟨v1.node, fun hp => Or.inl ((v1.none hp).resolve_right h0), fun c hc => by simp at hc⟩, fun U hU hm => ?_⟩
    have ms := mulV_spec (t := s.ct) (h.ok hJ hτ) v2 hm (kidW_one hτ) hU
    rw [ht] at ms
    have kr := mul_le_mul_of_nonneg_right (kidW_rho' hτ) (by linarith : 0 ≤ U)
    refine ⟨ms.1.trans (le_trans (le_of_eq (by ring)) kr), fun d hd => ?_⟩
    have ms2 := ms.2.trans (b := 3 / 2 * τ * (kidW τ * U)) (c := 2 * τ * (kidBound τ * U)) (by
      have h1 : kidW τ * U ≤ kidBound τ * U := mul_le_mul_of_nonneg_right (kidW_le hτ) (by linarith)
      have h2 := mul_le_mul_of_nonneg_left h1 hτ
      have h3 : 0 ≤ τ * (kidBound τ * U) := mul_nonneg hτ (by nlinarith)
      linarith)
    subst hd
    show mag (s.ct.mulV J.fl _ _ * _ - _ * (s.ct.cval J.C (((s.tab .v).tab.mem a).e (d (Fin.last l))).w * _)) ≤ _
    have e : s.oval J w * (s.ct.cval J.C (((s.tab .v).tab.mem a).e (d (Fin.last l))).w *
        s.namp J l (((s.tab .v).tab.mem a).e (d (Fin.last l))).p (Fin.init d)) =
        s.ct.cval J.C (((s.tab .v).tab.mem a).e (d (Fin.last l))).w * s.oval J w *
        s.namp J l (((s.tab .v).tab.mem a).e (d (Fin.last l))).p (Fin.init d) := by ring
    rw [e, ← sub_mul]
    exact mag_mono_mul ms2 (namp_bound hτ h l _ _ v1.node)

/-- Successors of operands, in terms of norms. -/
theorem addChild_fine (hJ : J.Good) (hτ : 0 ≤ τ) (h : TInv J τ s) {l a : Nat} {x : OEdge R} (hx : s.OOk J (l + 1) x)
    (hp : x.p = some a) (hsm : Small τ (l + 1)) (i : Fin 2) :
    (∀ d : Fin (l + 1) → Fin 2, d (Fin.last l) = i →
      mag (s.oval J (addChild J s x l i).w * s.namp J l (addChild J s x l i).p (Fin.init d) -
        s.oval J x.w * s.namp J (l + 1) x.p d) ≤ τ * (2049 / 1000 + 2082 / 1000 * vnorm (s.evec J (l + 1) ⟨x.p, s.oval J x.w⟩))) ∧
    vnorm (s.evec J l ⟨(addChild J s x l i).p, s.oval J (addChild J s x l i).w⟩) ≤ vnorm (s.evec J (l + 1) ⟨x.p, s.oval J x.w⟩) +
      (3 / 2) ^ l * (τ * (2049 / 1000 + 2082 / 1000 * vnorm (s.evec J (l + 1) ⟨x.p, s.oval J x.w⟩))) := by
  have t1 := (hsm.le hτ).2.1
  have wn := weight_norm hτ (by linarith) h (e := ⟨x.p, s.oval J x.w⟩) hx.1
  obtain ⟨p, w⟩ := x
  dsimp only at hp wn ⊢
  subst hp
  set X := vnorm (s.evec J (l + 1) ⟨some a, s.oval J w⟩) with hX
  have X0 : 0 ≤ X := vnorm_nonneg _
  have wX : mag (s.oval J w) ≤ 51 / 50 * X := wn.trans (mul_le_mul_of_nonneg_right (hsm.g hτ (by omega)) X0)
  have hxo := hx.1
  have hv : ((s.tab .v).tab.mem a).v = l := by have := hxo.2; omega
  obtain ⟨v1, v2⟩ := h.kids a hxo.1 i
  rw [hv] at v1
  have ht := h.tol hJ hτ
  have B0 : 0 ≤ τ * (2049 / 1000 + 2082 / 1000 * X) := by positivity
  have main : ∀ d : Fin (l + 1) → Fin 2, d (Fin.last l) = i →
      mag (s.oval J (addChild J s ⟨some a, w⟩ l i).w * s.namp J l (addChild J s ⟨some a, w⟩ l i).p (Fin.init d) -
        s.oval J w * s.namp J (l + 1) (some a) d) ≤ τ * (2049 / 1000 + 2082 / 1000 * X) := by
    intro d hd
    unfold JState.addChild
    dsimp only
    rw [if_pos hv]
    split_ifs with h0
    · subst hd
      show mag (s.ct.cval J.C (((s.tab .v).tab.mem a).e (d (Fin.last l))).w * _ -
        _ * (s.ct.cval J.C (((s.tab .v).tab.mem a).e (d (Fin.last l))).w * _)) ≤ _
      rw [h0, cval_zero]
      simp only [zero_mul, mul_zero, sub_self, mag_zero]
      exact B0
    · subst hd
      show mag (s.ct.mulV J.fl _ _ * _ - _ * (s.ct.cval J.C (((s.tab .v).tab.mem a).e (d (Fin.last l))).w * _)) ≤ _
      have e : s.oval J w * (s.ct.cval J.C (((s.tab .v).tab.mem a).e (d (Fin.last l))).w *
          s.namp J l (((s.tab .v).tab.mem a).e (d (Fin.last l))).p (Fin.init d)) =
          s.ct.cval J.C (((s.tab .v).tab.mem a).e (d (Fin.last l))).w * s.oval J w *
          s.namp J l (((s.tab .v).tab.mem a).e (d (Fin.last l))).p (Fin.init d) := by ring
      rw [e, ← sub_mul]
      have me := mulV_err (t := s.ct) (h.ok hJ hτ) (s.ct.cval J.C (((s.tab .v).tab.mem a).e (d (Fin.last l))).w) (s.oval J w)
      rw [ht] at me
      have nb := (namp_bound' hτ h l _ (Fin.init d) v1.node).trans (hsm.kidW hτ (by omega))
      have kb : mag (s.ct.cval J.C (((s.tab .v).tab.mem a).e (d (Fin.last l))).w) ≤ 1004 / 1000 := by
        refine v2.trans ?_
        unfold kidW; linarith
      set W := mag (s.ct.cval J.C (((s.tab .v).tab.mem a).e (d (Fin.last l))).w)
      have W0 : 0 ≤ W := mag_nonneg _
      have Y0 := mag_nonneg (s.oval J w)
      have WY : W * mag (s.oval J w) ≤ 1004 / 1000 * mag (s.oval J w) := mul_le_mul_of_nonneg_right kb Y0
      have mx : max W (mag (s.oval J w)) ≤ W + mag (s.oval J w) := max_le (by linarith) (by linarith)
      have me' : mag (s.ct.mulV J.fl (s.ct.cval J.C (((s.tab .v).tab.mem a).e (d (Fin.last l))).w) (s.oval J w) -
          s.ct.cval J.C (((s.tab .v).tab.mem a).e (d (Fin.last l))).w * s.oval J w) ≤ τ * (3 / 2 * (1004 / 1000 + 51 / 50 * X)) := by
        rcases me with me | me
        · refine me.trans ?_
          have := mul_le_mul_of_nonneg_left (by linarith : max W (mag (s.oval J w)) ≤ 1004 / 1000 + 51 / 50 * X) hτ
          linarith
        · refine me.trans ?_
          have := mul_le_mul_of_nonneg_left (by linarith : W * mag (s.oval J w) ≤ 2 * (1004 / 1000 + 51 / 50 * X)) hτ
          have := mul_nonneg hτ (by linarith : 0 ≤ 1004 / 1000 + 51 / 50 * X)
          linarith
      refine (mag_mono_mul me' nb).trans ?_
      have : 0 ≤ τ * X := mul_nonneg hτ X0
      linarith
  refine ⟨main, ?_⟩
  have part := vnorm_part (fun (i : Fin 2) d => s.oval J w * (s.ct.cval J.C (((s.tab .v).tab.mem a).e i).w *
    s.namp J l (((s.tab .v).tab.mem a).e i).p d)) i
  have near := vnorm_near (f := s.evec J l ⟨(addChild J s ⟨some a, w⟩ l i).p, s.oval J (addChild J s ⟨some a, w⟩ l i).w⟩)
    (g := fun d => s.oval J w * (s.ct.cval J.C (((s.tab .v).tab.mem a).e i).w * s.namp J l (((s.tab .v).tab.mem a).e i).p d)) B0 (by
      intro d
      have := main (Fin.snoc (α := fun _ => Fin 2) d i) (by simp)
      rw [Fin.init_snoc] at this
      have e : s.namp J (l + 1) (some a) (Fin.snoc (α := fun _ => Fin 2) d i) =
          s.ct.cval J.C (((s.tab .v).tab.mem a).e i).w * s.namp J l (((s.tab .v).tab.mem a).e i).p d := by
        show s.ct.cval J.C (((s.tab .v).tab.mem a).e (Fin.snoc (α := fun _ => Fin 2) d i (Fin.last l))).w *
          s.namp J l (((s.tab .v).tab.mem a).e (Fin.snoc (α := fun _ => Fin 2) d i (Fin.last l))).p
            (Fin.init (Fin.snoc (α := fun _ => Fin 2) d i)) = _
        rw [Fin.init_snoc, Fin.snoc_last]
      rw [e] at this
      exact this)
  exact near.trans (add_le_add part (le_refl _))

/-- The recursive case of `add2`. -/
theorem addRec_acc (hJ : J.Good) (hτ : 0 ≤ τ) {n l a b : Nat} {x y : OEdge R} (h : TInv J τ s) (hx : s.OOk J (l + 1) x)
    (hy : s.OOk J (l + 1) y) (hxp : x.p = some a) (hyp : y.p = some b) (hn : l < (s.tab .v).tab.nvars)
    (ih : ∀ (s : JState R) (x y : OEdge R), TInv J τ s → s.OOk J l x → s.OOk J l y →
      AddRes J τ s l x y (addF J n s x y)) {r0 r1 m : JState R × SEdge R}
    (e0 : r0 = addF J n s (addChild J s x l 0) (addChild J s y l 0))
    (e1 : r1 = addF J n r0.1 (addChild J s x l 1) (addChild J s y l 1))
    (em : m = makeV J r1.1 l ![r0.2, r1.2]) :
    AddRes J τ s (l + 1) x y (m.1.addIns J ⟨x.p, s.oval J x.w⟩ ⟨y.p, s.oval J y.w⟩ ⟨m.2.p, sval m.2.w⟩, m.2) := by
  have cx := addChild_acc hJ hτ h hx hxp
  have cy := addChild_acc hJ hτ h hy hyp
  have i0 := ih s _ _ h (cx 0).1 (cy 0).1
  rw [← e0] at i0
  have i1 := ih r0.1 _ _ i0.inv (i0.grow.oOk (cx 1).1) (i0.grow.oOk (cy 1).1)
  rw [← e1] at i1
  have mk := makeV_spec hJ hτ i1.inv (l := l) (by rw [i1.grow.nvars .v, i0.grow.nvars .v]; exact hn) (es := ![r0.2, r1.2]) (by
    rw [Fin.forall_fin_two]; exact ⟨i1.grow.sOk i0.ok, i1.ok⟩)
  rw [← em] at mk
  have gm := i0.grow.trans (i1.grow.trans mk.grow)
  have g := kidBound_one hτ
  have gl := kidBound_pow hτ l
  have hP := addP_two hτ l
  -- bounds
  have key : ∀ U, 1 ≤ U → mag (s.oval J x.w) ≤ U → mag (s.oval J y.w) ≤ U →
      mag (sval m.2.w) ≤ addP τ (l + 1) * U ∧
      ∀ d, mag (sval m.2.w * m.1.namp J (l + 1) m.2.p d -
        (s.oval J x.w * s.namp J (l + 1) x.p d + s.oval J y.w * s.namp J (l + 1) y.p d)) ≤ addE τ (l + 1) * U := by
    intro U hU hxU hyU
    have hgU : 1 ≤ kidBound τ * U := by nlinarith
    have b0 := i0.acc (kidBound τ * U) hgU ((cx 0).2 U hU hxU).1 ((cy 0).2 U hU hyU).1
    have b1 := i1.acc (kidBound τ * U) hgU (by rw [i0.grow.oval (cx 1).1]; exact ((cx 1).2 U hU hxU).1)
      (by rw [i0.grow.oval (cy 1).1]; exact ((cy 1).2 U hU hyU).1)
    have hm : mag (sval m.2.w) ≤ addP τ (l + 1) * U := by
      set M := (1 + 2 * τ) * addP τ l * (kidBound τ * U) with hM
      have hM0 : 0 ≤ M := (mag_nonneg _).trans b0.1
      have e : addP τ (l + 1) * U = 3 / 2 * M := by
        show 3 / 2 * ((1 + 2 * τ) * addP τ l * kidBound τ) * U = _
        rw [hM]; ring
      rw [e]
      have nn := mk.norm (1415 / 1000 * M) (by linarith) (by
        simp only [Matrix.cons_val_zero, Matrix.cons_val_one]
        rw [← mag_sq (sval r0.2.w), ← mag_sq (sval r1.2.w)]
        have q0 := mul_self_le_mul_self (mag_nonneg _) b0.1
        have q1 := mul_self_le_mul_self (mag_nonneg _) b1.1
        have q2 := mul_self_nonneg M
        linarith)
      refine nn.trans ?_
      have := mul_le_mul_of_nonneg_right (rho_le' τ) (by linarith : 0 ≤ 1415 / 1000 * M)
      linarith
    refine ⟨hm, fun d => ?_⟩
    have t1 := mk.acc d
    have t2 : 8 / 5 * τ * (1 + 3 * mag (sval m.2.w)) * kidW τ ^ l ≤ 2 * τ * (1 + 3 * addP τ (l + 1)) * kidBound τ ^ l * U := by
      have : 2 * τ * (1 + 3 * addP τ (l + 1)) * kidBound τ ^ l * U = 2 * τ * (U + 3 * (addP τ (l + 1) * U)) * kidBound τ ^ l := by ring
      rw [this]
      have m0 := mag_nonneg (sval m.2.w)
      have p0 : 0 ≤ τ * (U + 3 * (addP τ (l + 1) * U)) := mul_nonneg hτ (by linarith)
      have h1 := mul_le_mul_of_nonneg_left (by linarith : 1 + 3 * mag (sval m.2.w) ≤ U + 3 * (addP τ (l + 1) * U)) hτ
      exact mul_le_mul (by linarith) (pow_le_pow_left₀ (by linarith [kidW_one hτ]) (kidW_le hτ) l) (by linarith [kidW_pow hτ l]) (by linarith)
    have sub : mag (sval ((![r0.2, r1.2] : Fin 2 → SEdge R) (d (Fin.last l))).w *
        r1.1.namp J l ((![r0.2, r1.2] : Fin 2 → SEdge R) (d (Fin.last l))).p (Fin.init d) -
        (s.oval J (addChild J s x l (d (Fin.last l))).w * s.namp J l (addChild J s x l (d (Fin.last l))).p (Fin.init d) +
         s.oval J (addChild J s y l (d (Fin.last l))).w * s.namp J l (addChild J s y l (d (Fin.last l))).p (Fin.init d))) ≤
        ((1 + 2 * τ) * addE τ l + 6 * τ * kidBound τ ^ l) * (kidBound τ * U) := by
      generalize d (Fin.last l) = i
      revert i
      rw [Fin.forall_fin_two]
      constructor
      · have := b0.2 (Fin.init d)
        rw [← i1.grow.namp i0.inv i1.inv _ i0.ok.1] at this
        exact this
      · have := b1.2 (Fin.init d)
        rw [i0.grow.oval (cx 1).1, i0.grow.oval (cy 1).1, i0.grow.namp h i0.inv _ (cx 1).1.1,
          i0.grow.namp h i0.inv _ (cy 1).1.1] at this
        exact this
    have sx := ((cx (d (Fin.last l))).2 U hU hxU).2 d rfl
    have sy := ((cy (d (Fin.last l))).2 U hU hyU).2 d rfl
    refine (mag_tri _ _ _).trans ((add_le_add (t1.trans t2) ((mag_tri _ _ _).trans (add_le_add sub
      (d := 4 * τ * kidBound τ ^ (l + 1) * U) ?_))).trans ?_)
    · rw [add_sub_add_comm]
      refine (mag_add _ _).trans ((add_le_add sx sy).trans (le_of_eq ?_))
      rw [pow_succ]; ring
    · show _ ≤ (((1 + 2 * τ) * addE τ l + 6 * τ * kidBound τ ^ l) * kidBound τ + 4 * τ * kidBound τ ^ (l + 1) +
        2 * τ * (1 + 3 * addP τ (l + 1)) * kidBound τ ^ l) * U
      apply le_of_eq
      ring
  have keyF : Small τ (l + 1) → ∀ d, mag (sval m.2.w * m.1.namp J (l + 1) m.2.p d -
        (s.oval J x.w * s.namp J (l + 1) x.p d + s.oval J y.w * s.namp J (l + 1) y.p d)) ≤
        addA τ (l + 1) (vnorm (s.evec J (l + 1) ⟨x.p, s.oval J x.w⟩) + vnorm (s.evec J (l + 1) ⟨y.p, s.oval J y.w⟩)) := by
    intro hsm d
    have sm := hsm.pred hτ
    have fx := addChild_fine hJ hτ h hx hxp hsm
    have fy := addChild_fine hJ hτ h hy hyp hsm
    set X := vnorm (s.evec J (l + 1) ⟨x.p, s.oval J x.w⟩) with hX
    set Y := vnorm (s.evec J (l + 1) ⟨y.p, s.oval J y.w⟩) with hY
    have X0 : 0 ≤ X := vnorm_nonneg _
    have Y0 : 0 ≤ Y := vnorm_nonneg _
    have tN : 0 ≤ τ * (X + Y) := mul_nonneg hτ (by linarith)
    have err : τ * (2049 / 1000 + 2082 / 1000 * X) + τ * (2049 / 1000 + 2082 / 1000 * Y) ≤ 41 / 10 * τ * (1 + (X + Y)) := by nlinarith
    have nrm : ∀ i, vnorm (s.evec J l ⟨(addChild J s x l i).p, s.oval J (addChild J s x l i).w⟩) +
        vnorm (s.evec J l ⟨(addChild J s y l i).p, s.oval J (addChild J s y l i).w⟩) ≤
        X + Y + (3 / 2) ^ l * (41 / 10 * τ * (1 + (X + Y))) := by
      intro i
      have := mul_le_mul_of_nonneg_left err (by positivity : (0 : R) ≤ (3 / 2) ^ l)
      linarith [(fx i).2, (fy i).2]
    have rmono : ∀ {N N' : R}, N ≤ N' → addR τ l N ≤ addR τ l N' := by
      intro N N' hN
      unfold addR
      have := addA_mono hτ l (N := N + 41 / 10 * (τ * (3 / 2) ^ l)) (N' := N' + 41 / 10 * (τ * (3 / 2) ^ l)) (by linarith)
      have := mul_le_mul_of_nonneg_left hN hτ
      linarith
    set E := addR τ l (X + Y + (3 / 2) ^ l * (41 / 10 * τ * (1 + (X + Y)))) with hE
    have E0 : 0 ≤ E := by
      rw [hE]; unfold addR
      have := addA_nonneg hτ l (N := X + Y + (3 / 2) ^ l * (41 / 10 * τ * (1 + (X + Y))) + 41 / 10 * (τ * (3 / 2) ^ l)) (by positivity)
      have : 0 ≤ 1 / 100 * τ * (X + Y + (3 / 2) ^ l * (41 / 10 * τ * (1 + (X + Y)))) := by positivity
      linarith
    have sub : ∀ (i : Fin 2) (d : Fin l → Fin 2), mag (sval ((![r0.2, r1.2] : Fin 2 → SEdge R) i).w *
        r1.1.namp J l ((![r0.2, r1.2] : Fin 2 → SEdge R) i).p d -
        (s.oval J (addChild J s x l i).w * s.namp J l (addChild J s x l i).p d +
         s.oval J (addChild J s y l i).w * s.namp J l (addChild J s y l i).p d)) ≤ E := by
      rw [Fin.forall_fin_two]
      constructor
      · intro d
        have := i0.fine sm d
        rw [← i1.grow.namp i0.inv i1.inv _ i0.ok.1] at this
        exact this.trans (rmono (nrm 0))
      · intro d
        have := i1.fine sm d
        have ex : r0.1.evec J l ⟨(addChild J s x l 1).p, s.oval J (addChild J s x l 1).w⟩ =
            s.evec J l ⟨(addChild J s x l 1).p, s.oval J (addChild J s x l 1).w⟩ :=
          Grow.evec' (fun d => i0.grow.namp h i0.inv d (cx 1).1.1)
        have ey : r0.1.evec J l ⟨(addChild J s y l 1).p, s.oval J (addChild J s y l 1).w⟩ =
            s.evec J l ⟨(addChild J s y l 1).p, s.oval J (addChild J s y l 1).w⟩ :=
          Grow.evec' (fun d => i0.grow.namp h i0.inv d (cy 1).1.1)
        rw [i0.grow.oval (cx 1).1, i0.grow.oval (cy 1).1, i0.grow.namp h i0.inv _ (cx 1).1.1,
          i0.grow.namp h i0.inv _ (cy 1).1.1, ex, ey] at this
        exact this.trans (rmono (nrm 1))
    have near := make_near hτ sm (es := ![r0.2, r1.2]) i1.inv (by
        rw [Fin.forall_fin_two]; exact ⟨i1.grow.sOk i0.ok, i1.ok⟩) mk
      (F := fun i d => s.oval J x.w * s.namp J (l + 1) x.p (Fin.snoc (α := fun _ => Fin 2) d i) +
        s.oval J y.w * s.namp J (l + 1) y.p (Fin.snoc (α := fun _ => Fin 2) d i))
      (e := E + 41 / 10 * τ * (1 + (X + Y))) (by positivity) (by
        intro i d
        have h1 := (fx i).1 (Fin.snoc (α := fun _ => Fin 2) d i) (by simp)
        have h2 := (fy i).1 (Fin.snoc (α := fun _ => Fin 2) d i) (by simp)
        rw [Fin.init_snoc] at h1 h2
        refine (mag_tri _ _ _).trans (add_le_add (sub i d) ?_)
        rw [add_sub_add_comm]
        exact (mag_add _ _).trans ((add_le_add h1 h2).trans err))
    obtain ⟨n1, n2⟩ := near
    have eF : (fun d : Fin (l + 1) → Fin 2 => s.oval J x.w * s.namp J (l + 1) x.p (Fin.snoc (α := fun _ => Fin 2) (Fin.init d) (d (Fin.last l))) +
        s.oval J y.w * s.namp J (l + 1) y.p (Fin.snoc (α := fun _ => Fin 2) (Fin.init d) (d (Fin.last l)))) =
        fun d => s.evec J (l + 1) ⟨x.p, s.oval J x.w⟩ d + s.evec J (l + 1) ⟨y.p, s.oval J y.w⟩ d := by
      funext d
      rw [Fin.snoc_init_self]
      rfl
    have vn := vnorm_add (s.evec J (l + 1) ⟨x.p, s.oval J x.w⟩) (s.evec J (l + 1) ⟨y.p, s.oval J y.w⟩)
    rw [← hX, ← hY] at vn
    rw [eF] at n1
    have n3 := n2 d
    rw [Fin.snoc_init_self] at n3
    refine n3.trans ?_
    refine addR_step hτ hsm (by linarith) (n1.trans ?_)
    linarith
  have hok : AddOk J τ m.1 (addKey ⟨x.p, s.oval J x.w⟩ ⟨y.p, s.oval J y.w⟩, .val .v ⟨m.2.p, sval m.2.w⟩) := by
    refine ⟨l + 1, _, _, _, rfl, gm.nodeOk hx.1, gm.nodeOk hy.1, mk.ok.1, fun hp => ?_, fun U h1 h2 h3 => ?_, fun hsm d => ?_⟩
    · refine (mk.ok.2 hp).imp id (fun e => ?_)
      dsimp only
      rw [e]; rfl
    · refine ⟨(key U h1 h2 h3).1, fun d => ?_⟩
      dsimp only
      rw [gm.namp h mk.inv _ hx.1, gm.namp h mk.inv _ hy.1]
      exact (key U h1 h2 h3).2 d
    · rw [Grow.evec' (s := s) (e := ⟨x.p, s.oval J x.w⟩) (fun d => gm.namp h mk.inv d hx.1),
        Grow.evec' (s := s) (e := ⟨y.p, s.oval J y.w⟩) (fun d => gm.namp h mk.inv d hy.1)]
      exact keyF hsm d
  obtain ⟨j1, j2⟩ := addIns_grow hJ hτ mk.inv hok
  refine ⟨j1, gm.trans j2, j2.sOk mk.ok, fun U h1 h2 h3 => ?_, fun hsm d => ?_⟩
  swap
  · dsimp only
    rw [j2.namp mk.inv j1 _ mk.ok.1]
    refine (keyF hsm d).trans ?_
    unfold addR
    have := addA_mono hτ (l + 1) (N := vnorm (s.evec J (l + 1) ⟨x.p, s.oval J x.w⟩) + vnorm (s.evec J (l + 1) ⟨y.p, s.oval J y.w⟩))
      (N' := vnorm (s.evec J (l + 1) ⟨x.p, s.oval J x.w⟩) + vnorm (s.evec J (l + 1) ⟨y.p, s.oval J y.w⟩) +
        41 / 10 * (τ * (3 / 2) ^ (l + 1))) (by
          have : 0 ≤ 41 / 10 * (τ * (3 / 2) ^ (l + 1)) := by positivity
          linarith)
    have v1 := vnorm_nonneg (s.evec J (l + 1) ⟨x.p, s.oval J x.w⟩)
    have v2 := vnorm_nonneg (s.evec J (l + 1) ⟨y.p, s.oval J y.w⟩)
    have := mul_nonneg hτ (add_nonneg v1 v2)
    linarith
  obtain ⟨k1, k2⟩ := key U h1 h2 h3
  have hP' := addP_two hτ (l + 1)
  have hE := addE_nonneg hτ (l + 1)
  refine ⟨k1.trans ?_, fun d => ?_⟩
  · apply mul_le_mul_of_nonneg_right _ (by linarith)
    nlinarith
  · dsimp only
    rw [j2.namp mk.inv j1 _ mk.ok.1]
    refine (k2 d).trans ?_
    apply mul_le_mul_of_nonneg_right _ (by linarith)
    have := kidBound_pow hτ (l + 1)
    have : 0 ≤ τ * kidBound τ ^ (l + 1) := mul_nonneg hτ (by linarith)
    nlinarith

theorem addF_acc (hJ : J.Good) (hτ : 0 ≤ τ) : ∀ (n l : Nat) (s : JState R) (x y : OEdge R), TInv J τ s →
    s.OOk J l x → s.OOk J l y → (x.w.isZero = false → y.w.isZero = false → x.p ≠ y.p → l ≤ n) →
    AddRes J τ s l x y (addF J n s x y) := by
  intro n
  induction n using Nat.strong_induction_on with
  | _ n ih =>
  intro l s x y h hx hy hf
  have ht := h.tol hJ hτ
  have ht0 : 0 ≤ s.ct.tol := by rw [ht]; exact hτ
  have gl := kidBound_pow hτ l
  have g0 : 0 ≤ 2 * τ * kidBound τ ^ l := mul_nonneg (by linarith) (by linarith)
  have g00 : ∀ d, 2 * τ * kidBound τ ^ l ≤ 2 * τ * kidBound τ ^ l +
      1 / 100 * τ * (mag (s.evec J l ⟨x.p, s.oval J x.w⟩ d) + mag (s.evec J l ⟨y.p, s.oval J y.w⟩ d)) := by
    intro d
    have := mul_nonneg hτ (add_nonneg (mag_nonneg (s.evec J l ⟨x.p, s.oval J x.w⟩ d)) (mag_nonneg (s.evec J l ⟨y.p, s.oval J y.w⟩ d)))
    linarith
  have one2 : ∀ U w : R, 1 ≤ U → w ≤ U → w ≤ (1 + 2 * τ) * 2 * U := by
    intro U w h1 h2
    have := mul_nonneg hτ (by linarith : 0 ≤ U)
    linarith
  have sumErr : mag (addC J.fl (s.oval J x.w) (s.oval J y.w) - (s.oval J x.w + s.oval J y.w)) ≤
      3 / 2000 * mag (s.oval J x.w + s.oval J y.w) + 3 / 2000 * τ := by
    obtain ⟨ε, η, hR⟩ := h.rnd.ok
    refine (hR.add _ _).trans ?_
    have := mul_le_mul_of_nonneg_right (by linarith [hR.one] : ε ≤ 1 / 1000) (mag_nonneg (s.oval J x.w + s.oval J y.w))
    linarith [hR.eta1, hR.tol]
  have sumErr' : mag (addC J.fl (s.oval J x.w) (s.oval J y.w) - (s.oval J x.w + s.oval J y.w)) ≤
      3 / 2000 * τ * mag (s.oval J x.w + s.oval J y.w) + 3 / 2000 * τ := by
    obtain ⟨ε, η, hR⟩ := h.rnd.ok
    refine (hR.add _ _).trans ?_
    have := mul_le_mul_of_nonneg_right (by linarith [hR.tol] : ε ≤ 1 / 1000 * τ) (mag_nonneg (s.oval J x.w + s.oval J y.w))
    linarith [hR.eta1, hR.tol]
  rw [addF.eq_def]
  dsimp only
  split_ifs with zx zy zy hp hz
  · refine .simple hτ h ⟨trivial, fun _ => Or.inr rfl⟩ hx.1 hy.1 (fun U hU _ _ => ?_) (fun d => ?_)
    · show mag (0 : Cx R) ≤ _
      rw [mag_zero]; exact mul_nonneg (by linarith) (by linarith)
    · refine le_trans ?_ (g00 d)
      show mag (0 * _ - _) ≤ _
      rw [oval_zero zx, oval_zero zy]
      simpa [mag_zero] using g0
  · refine .simple hτ h ⟨hy.1, fun hp => (hy.2.1 hp).imp id (fun e => absurd e zy)⟩ hx.1 hy.1 (fun U hU _ hm => ?_) (fun d => ?_)
    · show mag (s.oval J y.w) ≤ _
      exact one2 U _ hU hm
    · refine le_trans ?_ (g00 d)
      show mag (s.oval J y.w * _ - _) ≤ _
      rw [oval_zero zx]
      simpa [mag_zero] using g0
  · refine .simple hτ h ⟨hx.1, fun hp => (hx.2.1 hp).imp id (fun e => absurd e zx)⟩ hx.1 hy.1 (fun U hU hm _ => ?_) (fun d => ?_)
    · show mag (s.oval J x.w) ≤ _
      exact one2 U _ hU hm
    · refine le_trans ?_ (g00 d)
      show mag (s.oval J x.w * _ - _) ≤ _
      rw [oval_zero zy]
      simpa [mag_zero] using g0
  · refine .simple hτ h ⟨trivial, fun _ => Or.inr rfl⟩ hx.1 hy.1 (fun U hU _ _ => ?_) (fun d => ?_)
    · show mag (0 : Cx R) ≤ _
      rw [mag_zero]; exact mul_nonneg (by linarith) (by linarith)
    · refine le_trans ?_ (g00 d)
      show mag (0 * _ - _) ≤ _
      rw [hp, ← add_mul, zero_mul, zero_sub, mag_neg]
      have h1 := zeroV_mag' ht0 hz
      rw [ht] at h1
      have h2 := mag_le_add (s.oval J x.w + s.oval J y.w) (addC J.fl (s.oval J x.w) (s.oval J y.w))
      rw [mag_sub_comm] at h2
      have h3 : mag (s.oval J x.w + s.oval J y.w) ≤ 2 * τ := by linarith [sumErr, mag_nonneg (s.oval J x.w + s.oval J y.w)]
      exact mag_mono_mul h3 (namp_bound hτ h l _ d hy.1)
  · refine .simple hτ h ⟨hy.1, fun hp => (hy.2.1 hp).imp id (fun e => absurd e zy)⟩ hx.1 hy.1 (fun U hU hm hm' => ?_) (fun d => ?_)
    · show mag (addC J.fl (s.oval J x.w) (s.oval J y.w)) ≤ _
      have h1 := mag_le_add (addC J.fl (s.oval J x.w) (s.oval J y.w)) (s.oval J x.w + s.oval J y.w)
      have h2 := (mag_add (s.oval J x.w) (s.oval J y.w)).trans (add_le_add hm hm')
      have h3 := mul_le_mul_of_nonneg_left h2 hτ
      have h4 := mul_le_mul_of_nonneg_left hU hτ
      linarith
    · show mag (addC J.fl (s.oval J x.w) (s.oval J y.w) * _ - _) ≤ _
      have e : addC J.fl (s.oval J x.w) (s.oval J y.w) * s.namp J l y.p d - (s.oval J x.w * s.namp J l x.p d + s.oval J y.w * s.namp J l y.p d) =
          (addC J.fl (s.oval J x.w) (s.oval J y.w) - (s.oval J x.w + s.oval J y.w)) * s.namp J l y.p d := by rw [hp]; ring
      rw [e, mag_mul]
      have n0 := mag_nonneg (s.namp J l y.p d)
      refine (mul_le_mul_of_nonneg_right sumErr' n0).trans ?_
      have h1 : mag (s.oval J x.w + s.oval J y.w) * mag (s.namp J l y.p d) ≤
          mag (s.evec J l ⟨x.p, s.oval J x.w⟩ d) + mag (s.evec J l ⟨y.p, s.oval J y.w⟩ d) := by
        rw [← mag_mul, add_mul]
        refine (mag_add _ _).trans ?_
        rw [hp]
        exact le_refl _
      have h2 := mul_le_mul_of_nonneg_left h1 hτ
      have h3 := mul_le_mul_of_nonneg_left (namp_bound hτ h l _ d hy.1) hτ
      have h4 := g00 d
      linarith
  · have zx' : x.w.isZero = false := by simpa using zx
    have zy' : y.w.isZero = false := by simpa using zy
    have hln := hf zx' zy' hp
    have hxs : ∃ a, x.p = some a := by
      cases hxp : x.p with
      | some a => exact ⟨a, rfl⟩
      | none =>
        exfalso
        rcases hx.2.1 hxp with h0 | h0
        · subst h0
          cases hyp : y.p with
          | none => exact hp (hxp.trans hyp.symm)
          | some b => have := hy.1; rw [hyp] at this; have := this.2; omega
        · exact zx h0
    have hys : ∃ a, y.p = some a := by
      cases hyp : y.p with
      | some a => exact ⟨a, rfl⟩
      | none =>
        exfalso
        rcases hy.2.1 hyp with h0 | h0
        · subst h0
          obtain ⟨a, ha⟩ := hxs
          have := hx.1; rw [ha] at this; have := this.2; omega
        · exact zy h0
    obtain ⟨a, hxa⟩ := hxs
    obtain ⟨b, hyb⟩ := hys
    have na : s.NodeOk l (some a) := hxa ▸ hx.1
    have nb : s.NodeOk l (some b) := hyb ▸ hy.1
    obtain ⟨l', rfl⟩ : ∃ l', l = l' + 1 := ⟨l - 1, by have := na.2; omega⟩
    cases hc : s.addLook J ⟨x.p, s.oval J x.w⟩ ⟨y.p, s.oval J y.w⟩ with
    | some r =>
      dsimp only
      obtain ⟨x', y', ⟨k, x1, y1, r1, he, ox, oy, or', o0, oU, oF⟩, px, py, ex, ey⟩ := addLook_hit hJ hτ h hc
      simp only [addKey, Prod.mk.injEq, List.cons.injEq, CArg.val.injEq, true_and, and_true] at he
      obtain ⟨⟨rfl, rfl⟩, rfl⟩ := he
      dsimp only at px py ex ey
      have hk : k = l' + 1 := by
        rw [px, hxa] at ox
        have := ox.2; have := na.2; omega
      subst hk
      have body : ∀ U, 1 ≤ U → mag (s.oval J x.w) ≤ U → mag (s.oval J y.w) ≤ U →
          mag r.w ≤ (1 + 2 * τ) * addP τ (l' + 1) * U ∧
          ∀ d, mag (r.w * s.namp J (l' + 1) r.p d -
            (s.oval J x.w * s.namp J (l' + 1) x.p d + s.oval J y.w * s.namp J (l' + 1) y.p d)) ≤
            (1 + 2 * τ) * addE τ (l' + 1) * U + 4 * τ * kidBound τ ^ (l' + 1) := by
        intro U hU hxU hyU
        obtain ⟨w1, w2⟩ := oU ((1 + 2 * τ) * U) (by nlinarith) ((mag_le_add _ (s.oval J x.w)).trans (by nlinarith))
          ((mag_le_add _ (s.oval J y.w)).trans (by nlinarith))
        refine ⟨by linarith, fun d => ?_⟩
        have b1 := mag_mono_mul ex (namp_bound hτ h _ _ d hx.1)
        have b2 := mag_mono_mul ey (namp_bound hτ h _ _ d hy.1)
        refine (mag_tri _ _ _).trans ((add_le_add (w2 d) (d := 4 * τ * kidBound τ ^ (l' + 1)) ?_).trans (le_of_eq (by ring)))
        rw [px, py, add_sub_add_comm, ← sub_mul, ← sub_mul]
        refine (mag_add _ _).trans ((add_le_add b1 b2).trans ?_)
        have := mul_nonneg hτ (by linarith : 0 ≤ kidBound τ ^ (l' + 1))
        linarith
      have bodyF : Small τ (l' + 1) → ∀ d, mag (r.w * s.namp J (l' + 1) r.p d -
          (s.oval J x.w * s.namp J (l' + 1) x.p d + s.oval J y.w * s.namp J (l' + 1) y.p d)) ≤
          addA τ (l' + 1) (vnorm (s.evec J (l' + 1) ⟨x.p, s.oval J x.w⟩) + vnorm (s.evec J (l' + 1) ⟨y.p, s.oval J y.w⟩) +
            41 / 10 * (τ * (3 / 2) ^ (l' + 1))) + 31 / 10 * τ := by
        intro hsm d
        have kb := hsm.kid hτ (m := l' + 1) (by omega)
        have b1 := mag_mono_mul ex ((namp_bound hτ h _ _ d hx.1).trans kb)
        have b2 := mag_mono_mul ey ((namp_bound hτ h _ _ d hy.1).trans kb)
        have nh : ∀ (z z' : Cx R) (p : Option Nat), s.NodeOk (l' + 1) p → mag (z' - z) ≤ 3 / 2 * τ →
            vnorm (s.evec J (l' + 1) ⟨p, z'⟩) ≤ vnorm (s.evec J (l' + 1) ⟨p, z⟩) + 204 / 100 * (τ * (3 / 2) ^ (l' + 1)) := by
          intro z z' p hp hzz
          rw [vnorm_evec, vnorm_evec]
          dsimp only
          have h1 := namp_high hτ h (l' + 1) p hp
          have h2 := mag_le_add z' z
          have h3 := vnorm_nonneg (s.namp J (l' + 1) p)
          have h4 : mag z' * vnorm (s.namp J (l' + 1) p) ≤ (mag z + 3 / 2 * τ) * vnorm (s.namp J (l' + 1) p) :=
            mul_le_mul_of_nonneg_right (by linarith) h3
          have h5 : vnorm (s.namp J (l' + 1) p) ≤ (3 / 2) ^ (l' + 1) * (51 / 50) :=
            h1.trans (mul_le_mul_of_nonneg_left kb (by positivity))
          have h6 := mul_le_mul_of_nonneg_left h5 (by linarith : 0 ≤ 3 / 2 * τ)
          have h7 : 0 ≤ τ * (3 / 2) ^ (l' + 1) := by positivity
          linarith
        have n1 := nh _ _ _ hx.1 ex
        have n2 := nh _ _ _ hy.1 ey
        have w := oF hsm d
        have w' : mag (r.w * s.namp J (l' + 1) r.p d - (x'.w * s.namp J (l' + 1) x'.p d + y'.w * s.namp J (l' + 1) y'.p d)) ≤
            addA τ (l' + 1) (vnorm (s.evec J (l' + 1) ⟨x.p, s.oval J x.w⟩) + vnorm (s.evec J (l' + 1) ⟨y.p, s.oval J y.w⟩) +
            41 / 10 * (τ * (3 / 2) ^ (l' + 1))) := by
          refine w.trans (addA_mono hτ _ ?_)
          have e1 : x' = ⟨x.p, x'.w⟩ := by cases x'; dsimp only at px; rw [px]
          have e2 : y' = ⟨y.p, y'.w⟩ := by cases y'; dsimp only at py; rw [py]
          rw [e1, e2]
          have : 0 ≤ τ * (3 / 2) ^ (l' + 1) := by positivity
          linarith
        refine (mag_tri _ _ _).trans (add_le_add w' ?_)
        rw [px, py, add_sub_add_comm, ← sub_mul, ← sub_mul]
        refine (mag_add _ _).trans ((add_le_add b1 b2).trans ?_)
        linarith
      split_ifs with hz
      · refine ⟨h, .refl s, ⟨trivial, fun _ => Or.inr rfl⟩, fun U hU hxU hyU => ?_, fun hsm d => ?_⟩
        swap
        · have hz' := zeroV_mag' ht0 hz
          rw [ht] at hz'
          have nn : 0 ≤ τ * (vnorm (s.evec J (l' + 1) ⟨x.p, s.oval J x.w⟩) + vnorm (s.evec J (l' + 1) ⟨y.p, s.oval J y.w⟩)) :=
            mul_nonneg hτ (add_nonneg (vnorm_nonneg _) (vnorm_nonneg _))
          have kb := hsm.kid hτ (m := l' + 1) (by omega)
          have b := mag_mono_mul hz' ((namp_bound hτ h _ r.p d or').trans kb)
          have e1 : mag (0 * s.namp J (l' + 1) none d - r.w * s.namp J (l' + 1) r.p d) ≤ 3 / 2 * τ * (51 / 50) := by
            rw [zero_mul, zero_sub, mag_neg]; exact b
          refine (mag_tri _ _ _).trans ((add_le_add e1 (bodyF hsm d)).trans ?_)
          unfold addR
          linarith
        obtain ⟨w1, w2⟩ := body U hU hxU hyU
        have hz' := zeroV_mag ht0 hz
        rw [ht] at hz'
        refine ⟨?_, fun d => ?_⟩
        · show mag (0 : Cx R) ≤ _
          rw [mag_zero]
          exact (mag_nonneg _).trans w1
        · show mag (0 * _ - _) ≤ _
          have b := mag_mono_mul hz' (namp_bound hτ h _ r.p d or')
          have e1 : mag (0 * s.namp J (l' + 1) none d - r.w * s.namp J (l' + 1) r.p d) ≤ 2 * τ * kidBound τ ^ (l' + 1) := by
            rw [zero_mul, zero_sub, mag_neg]; exact b
          refine (mag_tri _ _ _).trans ((add_le_add e1 (w2 d)).trans ?_)
          nlinarith
      · refine ⟨h, .refl s, ⟨or', fun hp => Or.inr ?_⟩, fun U hU hxU hyU => ?_, fun hsm d => ?_⟩
        rotate_left 2
        · refine (bodyF hsm d).trans ?_
          have nn : 0 ≤ τ * (vnorm (s.evec J (l' + 1) ⟨x.p, s.oval J x.w⟩) + vnorm (s.evec J (l' + 1) ⟨y.p, s.oval J y.w⟩)) :=
            mul_nonneg hτ (add_nonneg (vnorm_nonneg _) (vnorm_nonneg _))
          unfold addR
          linarith
        · rcases o0 hp with h0 | h0
          · omega
          · rw [h0] at hz
            exact absurd (zeroV_zero ht0) hz
        · obtain ⟨w1, w2⟩ := body U hU hxU hyU
          refine ⟨w1, fun d => (w2 d).trans ?_⟩
          nlinarith
    | none =>
      dsimp only
      obtain ⟨n', rfl⟩ : ∃ n', n = n' + 1 := ⟨n - 1, by omega⟩
      dsimp only
      have hw : max (s.lvlV x.p) (s.lvlV y.p) - 1 = l' := by
        rw [hxa, hyb, nodeOk_lvl na, nodeOk_lvl nb]; simp
      rw [hw]
      exact addRec_acc hJ hτ h hx hy hxa hyb (nodeOk_nvars hJ hτ h na)
        (fun s x y h hx hy => ih n' (by omega) l' s x y h hx hy (fun _ _ _ => by omega)) rfl rfl rfl

end DD
