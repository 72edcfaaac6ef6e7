import Verif.Proofs.ApproxGateNode
import Verif.Proofs.Gate

/-! # Accuracy of identities and gates -/

namespace DD

open Pkg UTable JState

variable {R : Type} [Field R] [LinearOrder R] [IsStrictOrderedRing R] [FloorRing R] {J : JCfg R} {τ : R}
variable {s s' s'' : JState R} [HasSqrt R] [LawfulSqrt R]

omit [LawfulSqrt R] in
theorem seqFin_grow' {β : Type} : ∀ (n : Nat) (f : Fin n → JState R → JState R × β) (P : JState R → Fin n → β → Prop) (s0 : JState R),
    (∀ i s, TInv J τ s → Grow J s0 s → TInv J τ (f i s).1 ∧ Grow J s (f i s).1 ∧ P (f i s).1 i (f i s).2) →
    (∀ s s' i b, TInv J τ s → TInv J τ s' → Grow J s s' → P s i b → P s' i b) → ∀ s, TInv J τ s → Grow J s0 s →
    TInv J τ (seqFin n f s).1 ∧ Grow J s (seqFin n f s).1 ∧ ∀ i, P (seqFin n f s).1 i ((seqFin n f s).2 i) := by
  intro n
  induction n with
  | zero => intro f P s0 _ _ s h g; exact ⟨h, .refl _, fun i => i.elim0⟩
  | succ n ih =>
    intro f P s0 hf hm s h g
    obtain ⟨a1, a2, a3⟩ := hf 0 s h g
    obtain ⟨b1, b2, b3⟩ := ih (fun i => f i.succ) (fun s i b => P s i.succ b) s0 (fun i s => hf i.succ s)
      (fun s s' i b => hm s s' i.succ b) (f 0 s).1 a1 (g.trans a2)
    refine ⟨b1, a2.trans b2, fun i => ?_⟩
    refine Fin.cases ?_ (fun j => ?_) i
    · exact hm _ _ _ _ a1 b1 b2 a3
    · exact b3 j

omit [LawfulSqrt R] [IsStrictOrderedRing R] [FloorRing R] in
theorem nearZero_zero [IsStrictOrderedRing R] (hτ : 0 ≤ τ) : NearZero τ (0 : Cx R) :=
  ⟨by show |(0 : R)| ≤ τ; simpa using hτ, by show |(0 : R)| ≤ τ; simpa using hτ⟩

theorem GRes.congr {K : Nat → R} {l : Nat} {D D' : (Fin l → Fin 4) → Cx R} {E : R} {e : PtrEdge} (h : GRes J τ s K l D E e)
    (hD : ∀ d, D d = D' d) : GRes J τ s K l D' E e := by
  have : D = D' := funext hD
  rwa [this] at h

theorem RowCol.mono {K K' : Nat → R} (hK : ∀ j, K j ≤ K' j) : ∀ l p, s.RowCol J K l p → s.RowCol J K' l p := by
  intro l
  induction l with
  | zero => intro p _; exact trivial
  | succ l ih =>
    intro p h
    cases p with
    | none => exact trivial
    | some a => exact ⟨fun i => ⟨(h.1 i).1.trans (hK l), (h.1 i).2.trans (hK l)⟩, fun i => ih _ (h.2 i)⟩

theorem knM_zero (l : Nat) : s.KnM J τ l zeroP := by
  exact ⟨⟨trivial, trivial⟩, ⟨fun b hb => (by simp [zeroP] at hb), fun _ _ => Or.inr rfl⟩⟩

theorem gres_zero (K : Nat → R) (l : Nat) : GRes J τ s K l (fun _ => 0) 0 zeroP := by
  refine ⟨knM_zero l, RowCol.none l, fun r => le_of_eq (Finset.sum_eq_zero fun c _ => ?_)⟩
  show mag (s.ct.cval J.C CNum.zero * _ - 0) = 0
  rw [cval_zero, zero_mul, sub_zero, mag_zero]

theorem gres_one (K : Nat → R) : GRes J τ s K 0 (fun _ => 1) 0 oneP := by
  refine ⟨⟨⟨trivial, trivial⟩, ⟨fun b hb => (by simp [oneP] at hb), fun _ _ => Or.inl rfl⟩⟩, trivial, fun r => le_of_eq (Finset.sum_eq_zero fun c _ => ?_)⟩
  show mag (s.ct.cval J.C CNum.one * 1 - 1) = 0
  rw [cval_one, mul_one, sub_self, mag_zero]

/-- A diagonal node. -/
theorem diagN_acc (hJ : J.Good) (hτ : 0 ≤ τ) (hτ1 : 1000 * τ ≤ 1) (h : TInv J τ s) {z : Nat} (hz : z < (s.tab .m).tab.nvars)
    {K : Nat → R} (hK : ∀ j, 1 + 30 * τ ≤ K j) {a b : PtrEdge} {Da Db : (Fin z → Fin 4) → Cx R} {Ea Eb : R}
    (ha : GRes J τ s K z Da Ea a) (hb : GRes J τ s K z Db Eb b) {M : R} (hM : 1 ≤ M) (hM' : M ≤ 51 / 50)
    (ba : mag (s.ct.cval J.C a.w) ≤ M) (bb : mag (s.ct.cval J.C b.w) ≤ M)
    (hsh : 1 / 2 ≤ mag (s.ct.cval J.C a.w) ∨ 1 / 2 ≤ mag (s.ct.cval J.C b.w) ∨ a.w = CNum.zero ∨ b.w = CNum.zero ∨
      s.ct.cval J.C a.w = s.ct.cval J.C b.w)
    {E' : R} (hEa : Ea + 17 * M * kappa K z * τ ≤ E') (hEb : Eb + 17 * M * kappa K z * τ ≤ E') :
    TInv J τ (s.diagN J z a b).1 ∧ Grow J s (s.diagN J z a b).1 ∧
    GRes J τ (s.diagN J z a b).1 K (z + 1)
      (fun d => if d (Fin.last z) = 0 then Da (Fin.init d) else if d (Fin.last z) = 3 then Db (Fin.init d) else 0) E' (s.diagN J z a b).2 ∧
    (((s.diagN J z a b).2.w = CNum.zero ∧ NearZero τ (s.ct.cval J.C a.w) ∧ NearZero τ (s.ct.cval J.C b.w)) ∨
      ((s.diagN J z a b).2.w = a.w ∧ ¬ NearZero τ (s.ct.cval J.C a.w)) ∨ ((s.diagN J z a b).2.w = b.w ∧ ¬ NearZero τ (s.ct.cval J.C b.w))) := by
  have hK1 : ∀ j, 1 ≤ K j := fun j => by linarith [hK j]
  have hz0 : mag (s.ct.cval J.C CNum.zero) ≤ M := by rw [cval_zero, mag_zero]; linarith
  obtain ⟨n1, n2, n3, n4⟩ := makeN_acc hJ hτ hτ1 (transposeF_grow hJ hτ z) h hz hK1 (es := ![a, zeroP, zeroP, b])
    (D := ![Da, fun _ => 0, fun _ => 0, Db]) (E := ![Ea, 0, 0, Eb]) (by
      intro i
      fin_cases i
      · exact ha
      · exact gres_zero K z
      · exact gres_zero K z
      · exact hb) hM hM' (by
      intro i
      fin_cases i
      · exact ba
      · exact hz0
      · exact hz0
      · exact bb) (by
      rcases hsh with h1 | h1 | h1 | h1 | h1
      · exact Or.inl ⟨0, h1⟩
      · exact Or.inl ⟨3, h1⟩
      · refine Or.inr ⟨s.ct.cval J.C b.w, fun i => ?_⟩
        fin_cases i
        · exact Or.inl h1
        · exact Or.inl rfl
        · exact Or.inl rfl
        · exact Or.inr rfl
      · refine Or.inr ⟨s.ct.cval J.C a.w, fun i => ?_⟩
        fin_cases i
        · exact Or.inr rfl
        · exact Or.inl rfl
        · exact Or.inl rfl
        · exact Or.inl h1
      · refine Or.inr ⟨s.ct.cval J.C a.w, fun i => ?_⟩
        fin_cases i
        · exact Or.inr rfl
        · exact Or.inl rfl
        · exact Or.inl rfl
        · exact Or.inr h1.symm) (Or.inr ⟨rfl, rfl, hK z⟩) (E' := E') (by
      intro i
      fin_cases i
      · show Ea + 0 + _ ≤ E'; linarith
      · show 0 + Eb + _ ≤ E'; linarith)
  refine ⟨n1, n2, n3.congr (fun d => ?_), ?_⟩
  · show ![Da, fun _ => 0, fun _ => 0, Db] (d (Fin.last z)) (Fin.init d) = _
    generalize d (Fin.last z) = x
    fin_cases x <;> rfl
  · rcases n4 with ⟨h1, h2⟩ | ⟨m, h1, h2⟩
    · exact Or.inl ⟨h1, h2 0, h2 3⟩
    · right
      have nz0 : NearZero τ (s.ct.cval J.C CNum.zero) := by rw [cval_zero]; exact nearZero_zero hτ
      fin_cases m
      · exact Or.inl ⟨h1, h2⟩
      · exact absurd nz0 h2
      · exact absurd nz0 h2
      · exact Or.inr ⟨h1, h2⟩

/-! ## Identities -/

theorem kappa_const (hτ : 0 ≤ τ) {l : Nat} (hl : 1000 * ((l : R) + 1) * τ ≤ 1) : kappa (fun _ => 1 + 30 * τ) l ≤ 26 / 25 := by
  unfold kappa
  rw [Finset.prod_const, Finset.card_range]
  have := bernoulli (x := 30 * τ) (by linarith) l
  have l0 : (0 : R) ≤ l := Nat.cast_nonneg l
  have h1 : (l : R) * τ ≤ 1 / 1000 := by nlinarith
  have h0 : 0 ≤ (1 + 30 * τ) ^ l := by positivity
  have h2 : (1 + 30 * τ) ^ l * (97 / 100) ≤ (1 + 30 * τ) ^ l * (1 - l * (30 * τ)) := mul_le_mul_of_nonneg_left (by linarith) h0
  linarith

theorem ident_step (hJ : J.Good) (hτ : 0 ≤ τ) (h : TInv J τ s) {l : Nat} (hl : 1000 * ((l : R) + 1) * τ ≤ 1)
    (hn : l < (s.tab .m).tab.nvars) {e : PtrEdge} (he : GRes J τ s (fun _ => 1 + 30 * τ) l (idD l) (60 * τ * l) e) (hw : e.w = CNum.one) :
    TInv J τ (s.diagN J l e e).1 ∧ Grow J s (s.diagN J l e e).1 ∧
    GRes J τ (s.diagN J l e e).1 (fun _ => 1 + 30 * τ) (l + 1) (idD (l + 1)) (60 * τ * ((l : R) + 1)) (s.diagN J l e e).2 ∧
    (s.diagN J l e e).2.w = CNum.one := by
  have l0 : (0 : R) ≤ l := Nat.cast_nonneg l
  have hτ1 : 1000 * τ ≤ 1 := by nlinarith
  have h1 : mag (s.ct.cval J.C e.w) = 1 := by rw [hw, cval_one, mag_one]
  have hk := kappa_const hτ hl
  have hE : 60 * τ * (l : R) + 17 * 1 * kappa (fun _ => 1 + 30 * τ) l * τ ≤ 60 * τ * ((l : R) + 1) := by
    have := mul_le_mul_of_nonneg_right hk hτ
    linarith
  obtain ⟨a1, a2, a3, a4⟩ := diagN_acc hJ hτ hτ1 h hn (fun _ => le_refl _) he he (le_refl 1) (by norm_num) h1.le h1.le
    (Or.inl (by rw [h1]; norm_num)) hE hE
  refine ⟨a1, a2, a3.congr (fun d => idD_step d), ?_⟩
  rcases a4 with ⟨_, h2, _⟩ | ⟨h2, _⟩ | ⟨h2, _⟩
  · have := h2.mag hτ
    rw [h1] at this
    linarith
  · rw [h2, hw]
  · rw [h2, hw]

theorem identLoop_acc (hJ : J.Good) (hτ : 0 ≤ τ) : ∀ (n k : Nat) (s : JState R) (e : PtrEdge), TInv J τ s → 1000 * ((k : R) + n + 1) * τ ≤ 1 →
    k + n ≤ (s.tab .m).tab.nvars → GRes J τ s (fun _ => 1 + 30 * τ) k (idD k) (60 * τ * k) e → e.w = CNum.one →
    TInv J τ (identLoop J n k s e).1 ∧ Grow J s (identLoop J n k s e).1 ∧
    GRes J τ (identLoop J n k s e).1 (fun _ => 1 + 30 * τ) (k + n) (idD (k + n)) (60 * τ * ((k : R) + n)) (identLoop J n k s e).2 ∧
    (identLoop J n k s e).2.w = CNum.one := by
  intro n
  induction n with
  | zero =>
    intro k s e h _ _ he hw
    refine ⟨h, .refl _, ?_, hw⟩
    have e0 : 60 * τ * ((k : R) + ((0 : Nat) : R)) = 60 * τ * k := by rw [Nat.cast_zero, add_zero]
    rw [e0]
    exact he
  | succ n ih =>
    intro k s e h hk hn he hw
    push_cast at hk
    have n0 : (0 : R) ≤ n := Nat.cast_nonneg n
    obtain ⟨a1, a2, a3, a4⟩ := ident_step hJ hτ h (by nlinarith) (by omega) he hw
    obtain ⟨b1, b2, b3, b4⟩ := ih (k + 1) _ _ a1 (by push_cast; linarith) (by rw [a2.nvars .m]; omega) (by push_cast; exact a3) a4
    refine ⟨b1, a2.trans b2, ?_, b4⟩
    have e1 : k + 1 + n = k + (n + 1) := by omega
    rw [e1] at b3
    push_cast at b3 ⊢
    have e2 : (k : R) + 1 + n = k + (n + 1) := by ring
    rw [e2] at b3
    exact b3

theorem gres_ident {m : Nat} {e : PtrEdge} (hw : e.w = CNum.one) :
    GRes J τ s (fun _ => 1 + 30 * τ) (m + 1) (idD (m + 1)) (60 * τ * ((m : R) + 1)) e ↔
    (s.KnM J τ (m + 1) e ∧ s.RowCol J (fun _ => 1 + 30 * τ) (m + 1) e.p ∧
      ∀ r : Fin (m + 1) → Fin 2, ∑ c : Fin (m + 1) → Fin 2,
        mag (s.nampM J (m + 1) e.p (fun i => rc (r i) (c i)) - if r = c then 1 else 0) ≤ 60 * τ * ((m : R) + 1)) := by
  have key : ∀ r c : Fin (m + 1) → Fin 2, s.ct.cval J.C e.w * s.nampM J (m + 1) e.p (fun i => rc (r i) (c i)) - idD (m + 1) (fun i => rc (r i) (c i)) =
      s.nampM J (m + 1) e.p (fun i => rc (r i) (c i)) - if r = c then 1 else 0 := by
    intro r c
    rw [hw, cval_one, one_mul, ← one_apply_rc, Matrix.one_apply]
  constructor
  · intro h
    refine ⟨h.kn, h.rc, fun r => ?_⟩
    simp only [← key]
    exact h.err r
  · rintro ⟨h1, h2, h3⟩
    refine ⟨h1, h2, fun r => ?_⟩
    simp only [key]
    exact h3 r

theorem idIns_grow (hJ : J.Good) (hτ : 0 ≤ τ) (h : TInv J τ s) {m : Nat} {e : PtrEdge} (hw : e.w = CNum.one)
    (he : GRes J τ s (fun _ => 1 + 30 * τ) (m + 1) (idD (m + 1)) (60 * τ * ((m : R) + 1)) e) :
    TInv J τ (s.idIns J m e) ∧ Grow J s (s.idIns J m e) := by
  obtain ⟨pin, hi⟩ := h.reach.inv hJ (zero_tol hτ)
  have hst : JStep J (· = τ) s (s.idIns J m e) := by
    refine .insert .idTable (idKey m) (.ptr .m e) .nil rfl ?_ (knM_known he.kn) (fun _ e' h' => ?_)
    swap
    · cases h'; exact hw
    intro x hx
    simp [idKey] at hx
  have hag := hst.agree hJ (zero_tol hτ) hi
  refine ⟨h.keep hJ hτ (h.reach.step hst) hag (fun a ha => Or.inl ha) (fun a ha => Or.inl ha) (fun i k hs => Or.inl hs)
      (fun i k hs => Or.inl hs) (fun i k hs => Or.inl hs) (fun i k hs => ?_),
    ⟨hag, fun _ a ha => ha, fun l hl => hl, fun _ => rfl⟩⟩
  have hc : (s.idIns J m e).cache .idTable = (s.cache .idTable).insert (J.h .idTable) (idKey m) (.ptr .m e) :=
    Function.update_self (β := fun _ : CK => Cache (CKey R) (CArg R)) CK.idTable _ s.cache
  rw [hc] at hs
  simp only [Cache.insert] at hs
  split_ifs at hs with h1
  · right
    simp only [Option.some.injEq] at hs
    subst hs
    obtain ⟨g1, g2, g3⟩ := (gres_ident hw).1 he
    have kM : ∀ a ∈ ((s.idIns J m e).tab .m).tab.all, ∀ i, (s.idIns J m e).KnM J τ (((s.idIns J m e).tab .m).tab.mem a).v
      ((((s.idIns J m e).tab .m).tab.mem a).e i) := h.kidsM
    refine ⟨m, e, rfl, hw, g1, rowCol_agree kM h.kidsM hag.symm _ _ g1.node g1.node g2, fun r => ?_⟩
    refine (Finset.sum_congr rfl (fun c _ => ?_)).trans_le (g3 r)
    rw [nampM_agree h.kidsM kM hag _ _ _ g1.node g1.node]
  · exact Or.inl hs

theorem idLook_hit (h : TInv J τ s) {m : Nat} {e : PtrEdge} (hh : s.idLook J m = some e) :
    e.w = CNum.one ∧ GRes J τ s (fun _ => 1 + 30 * τ) (m + 1) (idD (m + 1)) (60 * τ * ((m : R) + 1)) e := by
  unfold JState.idLook Cache.lookup at hh
  cases hs : (s.cache .idTable).slot (J.h .idTable (idKey m)) with
  | none => rw [hs] at hh; simp at hh
  | some kr =>
    rw [hs] at hh
    obtain ⟨m', e', rfl, hw, hg⟩ := h.ident _ _ hs
    simp only [Bool.and_true] at hh
    split_ifs at hh with hsame
    · simp only [Option.some.injEq] at hh
      subst hh
      simp only [idKey, decide_eq_true_eq, List.cons.injEq, and_true, Nat.cast_inj] at hsame
      subst hsame
      exact ⟨hw, (gres_ident hw).2 hg⟩

/-- `makeIdent`. -/
theorem makeIdent_acc (hJ : J.Good) (hτ : 0 ≤ τ) (h : TInv J τ s) {l : Nat} (hl : 1000 * ((l : R) + 1) * τ ≤ 1)
    (hn : l ≤ (s.tab .m).tab.nvars) :
    TInv J τ (s.makeIdent J l).1 ∧ Grow J s (s.makeIdent J l).1 ∧
    GRes J τ (s.makeIdent J l).1 (fun _ => 1 + 30 * τ) l (idD l) (60 * τ * l) (s.makeIdent J l).2 ∧
    (s.makeIdent J l).2.w = CNum.one := by
  cases l with
  | zero =>
    refine ⟨h, .refl _, ?_, rfl⟩
    have := gres_one (J := J) (τ := τ) (s := s) (fun _ => 1 + 30 * τ)
    show GRes J τ s _ 0 (idD 0) (60 * τ * ((0 : Nat) : R)) oneP
    rw [Nat.cast_zero, mul_zero]
    exact this.congr (fun _ => rfl)
  | succ m =>
    have m0 : (0 : R) ≤ m := Nat.cast_nonneg m
    push_cast at hl ⊢
    have fin : ∀ {r : JState R × PtrEdge}, TInv J τ r.1 → Grow J s r.1 →
        GRes J τ r.1 (fun _ => 1 + 30 * τ) (m + 1) (idD (m + 1)) (60 * τ * ((m : R) + 1)) r.2 → r.2.w = CNum.one →
        TInv J τ (r.1.idIns J m r.2) ∧ Grow J s (r.1.idIns J m r.2) ∧
        GRes J τ (r.1.idIns J m r.2) (fun _ => 1 + 30 * τ) (m + 1) (idD (m + 1)) (60 * τ * ((m : R) + 1)) r.2 ∧ r.2.w = CNum.one := by
      intro r r1 r2 r3 r4
      obtain ⟨i1, i2⟩ := idIns_grow hJ hτ r1 r4 r3
      exact ⟨i1, r2.trans i2, i2.gres r1 i1 r3, r4⟩
    unfold JState.makeIdent
    dsimp only
    cases hh : s.idLook J m with
    | some e =>
      obtain ⟨w, g⟩ := idLook_hit h hh
      exact ⟨h, .refl _, g, w⟩
    | none =>
      dsimp only
      cases hh2 : (if 1 ≤ m then s.idLook J (m - 1) else none) with
      | some e =>
        dsimp only
        split_ifs at hh2 with hm
        obtain ⟨w, g⟩ := idLook_hit h hh2
        obtain ⟨k, rfl⟩ : ∃ k, m = k + 1 := ⟨m - 1, by omega⟩
        rw [Nat.add_sub_cancel] at g
        obtain ⟨a1, a2, a3, a4⟩ := ident_step hJ hτ h (l := k + 1) (by push_cast at hl m0 ⊢; nlinarith) (by omega) (by push_cast; exact g) w
        exact fin a1 a2 a3 a4
      | none =>
        dsimp only
        have g0 : GRes J τ s (fun _ => 1 + 30 * τ) 0 (idD 0) (60 * τ * ((0 : Nat) : R)) oneP := by
          rw [Nat.cast_zero, mul_zero]
          exact (gres_one (J := J) (τ := τ) (s := s) (fun _ => 1 + 30 * τ)).congr (fun _ => rfl)
        obtain ⟨a1, a2, a3, a4⟩ := ident_step hJ hτ h (l := 0) (by push_cast; nlinarith) (by omega) g0 rfl
        obtain ⟨b1, b2, b3, b4⟩ := identLoop_acc hJ hτ m 1 _ _ a1 (by push_cast; linarith) (by rw [a2.nvars .m]; omega) (by push_cast at a3 ⊢; rw [zero_add] at a3; exact a3) a4
        refine fin b1 (a2.trans b2) ?_ b4
        have e1 : 1 + m = m + 1 := by omega
        rw [e1] at b3
        have e2 : ((1 : Nat) : R) + m = m + 1 := by push_cast; ring
        rw [e2] at b3
        exact b3

/-! ## Gates -/

/-- Bounds for the rows and columns of a gate with target `t`. -/
def gateK (τ : R) (t : Nat) : Nat → R := fun j => if j = t then 2 + 56 * τ else 1 + 30 * τ

theorem gateK_lo (hτ : 0 ≤ τ) (t j : Nat) : 1 + 30 * τ ≤ gateK τ t j := by
  unfold gateK
  split_ifs
  · linarith
  · exact le_refl _

theorem gateK_kappa (hτ : 0 ≤ τ) (t : Nat) {l : Nat} (hl : 1000 * ((l : R) + 1) * τ ≤ 1) : kappa (gateK τ t) l ≤ 53 / 25 := by
  have key : ∀ l : Nat, kappa (gateK τ t) l ≤ kappa (fun _ => 1 + 30 * τ) l * (if t < l then 2 + 56 * τ else 1) := by
    intro l
    have h1 : ∀ l, 1 ≤ kappa (fun _ => 1 + 30 * τ) l := fun l => kappa_one (fun _ => by linarith) l
    induction l with
    | zero => simp [kappa]
    | succ l ih =>
      rw [kappa_succ, kappa_succ]
      unfold gateK at ih ⊢
      have h2 := h1 l
      by_cases e : l = t
      · subst e
        rw [if_neg (lt_irrefl _), mul_one] at ih
        rw [if_pos rfl, if_pos (Nat.lt_succ_self _)]
        have := mul_le_mul_of_nonneg_right ih (by linarith : 0 ≤ 2 + 56 * τ)
        have h3 : 0 ≤ kappa (fun _ => 1 + 30 * τ) l * (2 + 56 * τ) * (30 * τ) := by positivity
        linarith
      · rw [if_neg e]
        have e2 : (t < l + 1) = (t < l) := by rw [eq_iff_iff]; omega
        simp only [e2]
        have := mul_le_mul_of_nonneg_right ih (by linarith : 0 ≤ 1 + 30 * τ)
        linarith
  have l0 : (0 : R) ≤ l := Nat.cast_nonneg l
  have hτ1 : 1000 * τ ≤ 1 := by nlinarith
  have k1 := kappa_one (K := fun _ => 1 + 30 * τ) (fun _ => by linarith) l
  have k2 : kappa (fun _ => 1 + 30 * τ) l ≤ 100 / 97 := by
    unfold kappa
    rw [Finset.prod_const, Finset.card_range]
    have := bernoulli (x := 30 * τ) (by linarith) l
    have h1 : (l : R) * τ ≤ 1 / 1000 := by nlinarith
    have h0 : 0 ≤ (1 + 30 * τ) ^ l := by positivity
    have h2 : (1 + 30 * τ) ^ l * (97 / 100) ≤ (1 + 30 * τ) ^ l * (1 - l * (30 * τ)) := mul_le_mul_of_nonneg_left (by linarith) h0
    linarith
  refine (key l).trans ?_
  have h3 : (if t < l then 2 + 56 * τ else 1) ≤ 2 + 56 * τ := by split_ifs <;> linarith
  have := mul_le_mul k2 h3 (by split_ifs <;> linarith) (by norm_num)
  linarith

theorem gate_kap (hτ : 0 ≤ τ) (t : Nat) {l : Nat} (hl : 1000 * ((l : R) + 1) * τ ≤ 1) :
    17 * (1 + 3 / 2 * τ) * kappa (gateK τ t) l * τ ≤ 60 * τ := by
  have l0 : (0 : R) ≤ l := Nat.cast_nonneg l
  have hτ1 : 1000 * τ ≤ 1 := by nlinarith
  have k0 := kappa_one (K := gateK τ t) (fun j => by linarith [gateK_lo hτ t j]) l
  have h1 := mul_le_mul (by linarith : 1 + 3 / 2 * τ ≤ 1003 / 1000) (gateK_kappa hτ t hl) (by linarith) (by norm_num)
  have := mul_le_mul_of_nonneg_right h1 hτ
  linarith

/-- The diagram of a block below the target. -/
structure GBlk (J : JCfg R) (τ : R) (s : JState R) (t : Nat) (U : Fin 4 → Cx R) (cs : List Ctrl) (z : Nat) (i : Fin 4) (e : PtrEdge) : Prop where
  gr : GRes J τ s (gateK τ t) z (fun d => lowVal U cs i z (dx d)) (60 * τ * ((z : R) + 1)) e
  le : mag (s.ct.cval J.C e.w) ≤ 1 + 3 / 2 * τ
  ge : 3 / 5 ≤ mag (U i) → 1 / 2 ≤ mag (s.ct.cval J.C e.w)

theorem Grow.gblk (h : TInv J τ s) (h' : TInv J τ s') (g : Grow J s s') {t : Nat} {U : Fin 4 → Cx R} {cs : List Ctrl} {z : Nat} {i : Fin 4}
    {e : PtrEdge} (hb : GBlk J τ s t U cs z i e) : GBlk J τ s' t U cs z i e := by
  refine ⟨g.gres h h' hb.gr, ?_, fun hu => ?_⟩
  · rw [g.cval hb.gr.kn.1]; exact hb.le
  · rw [g.cval hb.gr.kn.1]; exact hb.ge hu

theorem gateEntry_acc (hJ : J.Good) (hτ : 0 ≤ τ) (hτ1 : 1000 * τ ≤ 1) (h : TInv J τ s) (t : Nat) {U : Fin 4 → Cx R} (cs : List Ctrl) {i : Fin 4}
    (hU : mag (U i) ≤ 1 + τ / 20) :
    TInv J τ (s.gateEntry J (U i)).1 ∧ Grow J s (s.gateEntry J (U i)).1 ∧ GBlk J τ (s.gateEntry J (U i)).1 t U cs 0 i (s.gateEntry J (U i)).2 := by
  have lv : ∀ d : Fin 0 → Fin 4, lowVal U cs i 0 (dx d) = U i := by intro d; simp [lowVal]
  unfold JState.gateEntry
  split_ifs with h0
  · have hz : U i = 0 := by ext; exact h0.1; exact h0.2
    refine ⟨h, .refl _, ⟨((gres_zero _ 0).congr (fun d => ?_)).mono ?_, ?_, fun hu => ?_⟩⟩
    · rw [lv d, hz]
    · push_cast; linarith
    · show mag (s.ct.cval J.C CNum.zero) ≤ _
      rw [cval_zero, mag_zero]; linarith
    · rw [hz, mag_zero] at hu
      norm_num at hu
  · dsimp only
    obtain ⟨l1, l2, l3, l4⟩ := lookupC_grow' hJ hτ h (U i)
    refine ⟨l1, l2, ⟨⟨⟨l3, ⟨fun b hb => (by simp at hb), fun _ _ => Or.inl rfl⟩⟩, trivial, fun r => ?_⟩, ?_, fun hu => ?_⟩⟩
    · simp only [lv]
      show ∑ c : Fin 0 → Fin 2, mag (_ * 1 - U i) ≤ _
      rw [mul_one]
      simp only [Finset.univ_unique, Finset.sum_const, Finset.card_singleton, one_smul]
      push_cast
      linarith
    · have := mag_le_add ((s.lookupC J (U i)).1.ct.cval J.C (s.lookupC J (U i)).2) (U i)
      dsimp only
      linarith
    · have := mag_le_add (U i) ((s.lookupC J (U i)).1.ct.cval J.C (s.lookupC J (U i)).2)
      rw [mag_sub_comm] at this
      dsimp only
      linarith

/-- A line below the target without a control. -/
theorem below_plain (hJ : J.Good) (hτ : 0 ≤ τ) (h : TInv J τ s) {t : Nat} {U : Fin 4 → Cx R} {cs : List Ctrl} {z : Nat} {i : Fin 4}
    (hz : 1000 * ((z : R) + 1) * τ ≤ 1) (hn : z < (s.tab .m).tab.nvars) (hno : ∀ c ∈ cs, c.qubit ≠ z) {e : PtrEdge}
    (he : GBlk J τ s t U cs z i e) :
    TInv J τ (s.diagN J z e e).1 ∧ Grow J s (s.diagN J z e e).1 ∧ GBlk J τ (s.diagN J z e e).1 t U cs (z + 1) i (s.diagN J z e e).2 := by
  have l0 : (0 : R) ≤ z := Nat.cast_nonneg z
  have hτ1 : 1000 * τ ≤ 1 := by nlinarith
  have hE : 60 * τ * ((z : R) + 1) + 17 * (1 + 3 / 2 * τ) * kappa (gateK τ t) z * τ ≤ 60 * τ * (((z + 1 : Nat) : R) + 1) := by
    push_cast; linarith [gate_kap hτ t hz]
  obtain ⟨a1, a2, a3, a4⟩ := diagN_acc hJ hτ hτ1 h hn (gateK_lo hτ t) he.gr he.gr (by linarith : 1 ≤ 1 + 3 / 2 * τ) (by linarith) he.le he.le
    (Or.inr (Or.inr (Or.inr (Or.inr rfl)))) hE hE
  refine ⟨a1, a2, ⟨a3.congr (fun d => lowVal_plain hno i d), ?_, fun hu => ?_⟩⟩
  · rcases a4 with ⟨h2, _, _⟩ | ⟨h2, _⟩ | ⟨h2, _⟩
    · rw [h2, cval_zero, mag_zero]; linarith
    · rw [h2, a2.cval he.gr.kn.1]; exact he.le
    · rw [h2, a2.cval he.gr.kn.1]; exact he.le
  · have hg := he.ge hu
    rcases a4 with ⟨_, h2, _⟩ | ⟨h2, _⟩ | ⟨h2, _⟩
    · have := h2.mag hτ
      linarith
    · rw [h2, a2.cval he.gr.kn.1]; exact hg
    · rw [h2, a2.cval he.gr.kn.1]; exact hg

/-- A line below the target with a control. -/
theorem below_ctrl (hJ : J.Good) (hτ : 0 ≤ τ) (h : TInv J τ s) {t : Nat} {U : Fin 4 → Cx R} {cs : List Ctrl} {c : Ctrl} {i : Fin 4}
    (hz : 1000 * ((c.qubit : R) + 1) * τ ≤ 1) (hn : c.qubit < (s.tab .m).tab.nvars) (hc : c ∈ cs) (hu1 : ∀ c' ∈ cs, c'.qubit = c.qubit → c' = c)
    {e f : PtrEdge} (he : GBlk J τ s t U cs c.qubit i e)
    (hf : GRes J τ s (gateK τ t) c.qubit (fun d => if dg i then idD c.qubit d else 0) (60 * τ * c.qubit) f)
    (hfw : f.w = CNum.one ∨ f.w = CNum.zero) :
    let r := if c.neg then s.diagN J c.qubit e f else s.diagN J c.qubit f e
    TInv J τ r.1 ∧ Grow J s r.1 ∧ GBlk J τ r.1 t U cs (c.qubit + 1) i r.2 := by
  have l0 : (0 : R) ≤ c.qubit := Nat.cast_nonneg _
  have hτ1 : 1000 * τ ≤ 1 := by nlinarith
  have hE : 60 * τ * ((c.qubit : R) + 1) + 17 * (1 + 3 / 2 * τ) * kappa (gateK τ t) c.qubit * τ ≤ 60 * τ * (((c.qubit + 1 : Nat) : R) + 1) := by
    push_cast; linarith [gate_kap hτ t hz]
  have hE2 : 60 * τ * (c.qubit : R) + 17 * (1 + 3 / 2 * τ) * kappa (gateK τ t) c.qubit * τ ≤ 60 * τ * (((c.qubit + 1 : Nat) : R) + 1) := by
    linarith
  have fle : mag (s.ct.cval J.C f.w) ≤ 1 + 3 / 2 * τ := by
    rcases hfw with h0 | h0
    · rw [h0, cval_one, mag_one]; linarith
    · rw [h0, cval_zero, mag_zero]; linarith
  have wle : ∀ {s' : JState R} {w : CNum Loc}, Grow J s s' → (w = CNum.zero ∨ w = e.w ∨ w = f.w) → mag (s'.ct.cval J.C w) ≤ 1 + 3 / 2 * τ := by
    rintro s' w g (h0 | h0 | h0)
    · rw [h0, cval_zero, mag_zero]; linarith
    · rw [h0, g.cval he.gr.kn.1]; exact he.le
    · rw [h0, g.cval hf.kn.1]; exact fle
  have wge : ∀ {s' : JState R} {w : CNum Loc}, Grow J s s' → 3 / 5 ≤ mag (U i) → ((w = CNum.zero ∧ NearZero τ (s.ct.cval J.C e.w)) ∨ w = e.w ∨
      (w = f.w ∧ ¬ NearZero τ (s.ct.cval J.C f.w))) → 1 / 2 ≤ mag (s'.ct.cval J.C w) := by
    rintro s' w g hu (⟨h0, h1⟩ | h0 | ⟨h0, h1⟩)
    · have := he.ge hu
      have := h1.mag hτ
      linarith
    · rw [h0, g.cval he.gr.kn.1]; exact he.ge hu
    · rcases hfw with h2 | h2
      · rw [h0, h2, cval_one, mag_one]; norm_num
      · exfalso; apply h1; rw [h2, cval_zero]; exact nearZero_zero hτ
  dsimp only
  cases hneg : c.neg with
  | true =>
    simp only [if_true]
    obtain ⟨a1, a2, a3, a4⟩ := diagN_acc hJ hτ hτ1 h hn (gateK_lo hτ t) he.gr hf (by linarith : 1 ≤ 1 + 3 / 2 * τ) (by linarith) he.le fle
      (by
        rcases hfw with h0 | h0
        · right; left; rw [h0, cval_one, mag_one]; norm_num
        · right; right; right; left; exact h0) hE hE2
    refine ⟨a1, a2, ⟨a3.congr (fun d => ?_), wle a2 ?_, fun hu => wge a2 hu ?_⟩⟩
    · rw [← lowVal_ctrl hc hu1]
      have : c.dig = 0 := by simp [Ctrl.dig, hneg]
      rw [this]
      by_cases h0 : d (Fin.last c.qubit) = 0 <;> by_cases h3 : d (Fin.last c.qubit) = 3 <;> simp [h0, h3, dg]
    · rcases a4 with ⟨h2, _⟩ | ⟨h2, _⟩ | ⟨h2, _⟩
      · exact Or.inl h2
      · exact Or.inr (Or.inl h2)
      · exact Or.inr (Or.inr h2)
    · rcases a4 with ⟨h2, h3, _⟩ | ⟨h2, _⟩ | ⟨h2, h3⟩
      · exact Or.inl ⟨h2, h3⟩
      · exact Or.inr (Or.inl h2)
      · exact Or.inr (Or.inr ⟨h2, h3⟩)
  | false =>
    simp only [Bool.false_eq_true, if_false]
    obtain ⟨a1, a2, a3, a4⟩ := diagN_acc hJ hτ hτ1 h hn (gateK_lo hτ t) hf he.gr (by linarith : 1 ≤ 1 + 3 / 2 * τ) (by linarith) fle he.le
      (by
        rcases hfw with h0 | h0
        · left; rw [h0, cval_one, mag_one]; norm_num
        · right; right; left; exact h0) hE2 hE
    refine ⟨a1, a2, ⟨a3.congr (fun d => ?_), wle a2 ?_, fun hu => wge a2 hu ?_⟩⟩
    · rw [← lowVal_ctrl hc hu1]
      have : c.dig = 3 := by simp [Ctrl.dig, hneg]
      rw [this]
      by_cases h0 : d (Fin.last c.qubit) = 0 <;> by_cases h3 : d (Fin.last c.qubit) = 3 <;> simp [h0, h3, dg]
    · rcases a4 with ⟨h2, _⟩ | ⟨h2, _⟩ | ⟨h2, _⟩
      · exact Or.inl h2
      · exact Or.inr (Or.inr h2)
      · exact Or.inr (Or.inl h2)
    · rcases a4 with ⟨h2, _, h3⟩ | ⟨h2, h3⟩ | ⟨h2, h3⟩
      · exact Or.inl ⟨h2, h3⟩
      · exact Or.inr (Or.inr ⟨h2, h3⟩)
      · exact Or.inr (Or.inl h2)

theorem gateBelow_acc (hJ : J.Good) (hτ : 0 ≤ τ) (h : TInv J τ s) {t : Nat} {U : Fin 4 → Cx R} {cs : List Ctrl}
    (hs : cs.Pairwise (fun a b => a.qubit < b.qubit)) {z : Nat} (hz : 1000 * ((z : R) + 1) * τ ≤ 1) (hn : z < (s.tab .m).tab.nvars)
    {em : Fin 4 → PtrEdge} {it : List Ctrl} (hem : ∀ i, GBlk J τ s t U cs z i (em i)) (hit : AtLine cs it z) :
    let r := gateBelow J z s em it
    TInv J τ r.1.1 ∧ Grow J s r.1.1 ∧ (∀ i, GBlk J τ r.1.1 t U cs (z + 1) i (r.1.2 i)) ∧ AtLine cs r.2 (z + 1) := by
  have plain : (∀ c ∈ cs, c.qubit ≠ z) →
      let q := seqFin 4 (fun i s => diagN J s z (em i) (em i)) s
      TInv J τ q.1 ∧ Grow J s q.1 ∧ ∀ i, GBlk J τ q.1 t U cs (z + 1) i (q.2 i) := by
    intro hno
    refine seqFin_grow' 4 _ (fun s' i b => GBlk J τ s' t U cs (z + 1) i b) s (fun i s1 h1 g1 => ?_)
      (fun s1 s2 i b h1 h2 g hb => g.gblk h1 h2 hb) s h (.refl _)
    exact below_plain hJ hτ h1 hz (by rw [g1.nvars .m]; exact hn) hno (g1.gblk h h1 (hem i))
  unfold JState.gateBelow
  cases it with
  | nil =>
    dsimp only
    obtain ⟨m1, m2⟩ := hit.miss hs (by intro c rest e; simp at e)
    obtain ⟨p1, p2, p3⟩ := plain m2
    exact ⟨p1, p2, p3, m1⟩
  | cons c rest =>
    dsimp only
    by_cases hc : c.qubit = z
    · rw [if_pos hc]
      subst hc
      obtain ⟨m1, m2⟩ := hit.hit hs
      have hmem : c ∈ cs := by
        obtain ⟨pre, h1, _⟩ := hit
        rw [h1]; simp
      obtain ⟨q1, q2, q3⟩ := seqFin_grow' 4 (fun i s =>
          let id := if i = 0 ∨ i = 3 then makeIdent J s c.qubit else (s, zeroP)
          if c.neg then diagN J id.1 c.qubit (em i) id.2 else diagN J id.1 c.qubit id.2 (em i))
        (fun s' i b => GBlk J τ s' t U cs (c.qubit + 1) i b) s (fun i s1 h1 g1 => by
          have hid : TInv J τ (if i = 0 ∨ i = 3 then makeIdent J s1 c.qubit else (s1, zeroP)).1 ∧
              Grow J s1 (if i = 0 ∨ i = 3 then makeIdent J s1 c.qubit else (s1, zeroP)).1 ∧
              GRes J τ (if i = 0 ∨ i = 3 then makeIdent J s1 c.qubit else (s1, zeroP)).1 (gateK τ t) c.qubit
                (fun d => if dg i then idD c.qubit d else 0) (60 * τ * c.qubit) (if i = 0 ∨ i = 3 then makeIdent J s1 c.qubit else (s1, zeroP)).2 ∧
              ((if i = 0 ∨ i = 3 then makeIdent J s1 c.qubit else (s1, zeroP)).2.w = CNum.one ∨
                (if i = 0 ∨ i = 3 then makeIdent J s1 c.qubit else (s1, zeroP)).2.w = CNum.zero) := by
            by_cases hi : i = 0 ∨ i = 3
            · rw [if_pos hi]
              obtain ⟨i1, i2, i3, i4⟩ := makeIdent_acc hJ hτ h1 hz (by rw [g1.nvars .m]; exact hn.le)
              refine ⟨i1, i2, ⟨i3.kn, RowCol.mono (gateK_lo hτ t) _ _ i3.rc, ?_⟩, Or.inl i4⟩
              simp only [if_pos (show dg i from hi)]
              exact i3.err
            · rw [if_neg hi]
              refine ⟨h1, .refl _, ((gres_zero _ _).congr (fun d => ?_)).mono (by positivity), Or.inr rfl⟩
              rw [if_neg (show ¬ dg i from hi)]
          dsimp only
          generalize (if i = 0 ∨ i = 3 then makeIdent J s1 c.qubit else (s1, zeroP)) = id at hid
          obtain ⟨i1, i2, i3, i4⟩ := hid
          obtain ⟨r1, r2, r3⟩ := below_ctrl hJ hτ i1 hz (by rw [i2.nvars .m, g1.nvars .m]; exact hn) hmem m2
            ((g1.trans i2).gblk h i1 (hem i)) i3 i4
          exact ⟨r1, i2.trans r2, r3⟩)
        (fun s1 s2 i b h1 h2 g hb => g.gblk h1 h2 hb) s h (.refl _)
      exact ⟨q1, q2, q3, m1⟩
    · rw [if_neg hc]
      obtain ⟨m1, m2⟩ := hit.miss hs (by
        intro c' rest' e
        simp only [List.cons.injEq] at e
        rw [← e.1]; exact hc)
      obtain ⟨p1, p2, p3⟩ := plain m2
      exact ⟨p1, p2, p3, m1⟩

theorem gateBelowLoop_acc (hJ : J.Good) (hτ : 0 ≤ τ) {t : Nat} {U : Fin 4 → Cx R} {cs : List Ctrl}
    (hs : cs.Pairwise (fun a b => a.qubit < b.qubit)) : ∀ (z : Nat) (s : JState R) (em : Fin 4 → PtrEdge), TInv J τ s →
    1000 * ((z : R) + 1) * τ ≤ 1 → z ≤ (s.tab .m).tab.nvars → (∀ i, GBlk J τ s t U cs 0 i (em i)) →
    let r := gateBelowLoop J z s em cs
    TInv J τ r.1.1 ∧ Grow J s r.1.1 ∧ (∀ i, GBlk J τ r.1.1 t U cs z i (r.1.2 i)) ∧ AtLine cs r.2 z := by
  intro z
  induction z with
  | zero =>
    intro s em h _ _ hem
    exact ⟨h, .refl _, hem, ⟨[], rfl, by simp, by simp⟩⟩
  | succ z ih =>
    intro s em h hz hn hem
    push_cast at hz
    have hz' : 1000 * ((z : R) + 1) * τ ≤ 1 := by nlinarith
    obtain ⟨h1, h2, h3, h4⟩ := ih s em h hz' (by omega) hem
    unfold JState.gateBelowLoop
    dsimp only
    generalize gateBelowLoop J z s em cs = r at h1 h2 h3 h4
    obtain ⟨k1, k2, k3, k4⟩ := gateBelow_acc hJ hτ h1 hs hz' (by rw [h2.nvars .m]; omega) h3 h4
    exact ⟨k1, h2.trans k2, k3, k4⟩

/-- The diagram with the target. -/
structure GTop (J : JCfg R) (τ : R) (s : JState R) (t : Nat) (U : Fin 4 → Cx R) (cs : List Ctrl) (z : Nat) (e : PtrEdge) : Prop where
  gr : GRes J τ s (gateK τ t) z (fun d => highVal U cs t z (dx d)) (120 * τ * ((z : R) + 1)) e
  le : mag (s.ct.cval J.C e.w) ≤ 1 + 3 / 2 * τ

theorem Grow.gtop (h : TInv J τ s) (h' : TInv J τ s') (g : Grow J s s') {t : Nat} {U : Fin 4 → Cx R} {cs : List Ctrl} {z : Nat}
    {e : PtrEdge} (hb : GTop J τ s t U cs z e) : GTop J τ s' t U cs z e :=
  ⟨g.gres h h' hb.gr, by rw [g.cval hb.gr.kn.1]; exact hb.le⟩

theorem gateAbove_acc (hJ : J.Good) (hτ : 0 ≤ τ) (h : TInv J τ s) {t : Nat} {U : Fin 4 → Cx R} {cs : List Ctrl}
    (hs : cs.Pairwise (fun a b => a.qubit < b.qubit)) {z : Nat} (ht : t < z) (hz : 1000 * ((z : R) + 1) * τ ≤ 1) (hn : z < (s.tab .m).tab.nvars)
    {e : PtrEdge} {it : List Ctrl} (he : GTop J τ s t U cs z e) (hit : AtLine cs it z) :
    let r := gateAbove J z s e it
    TInv J τ r.1.1 ∧ Grow J s r.1.1 ∧ GTop J τ r.1.1 t U cs (z + 1) r.1.2 ∧ AtLine cs r.2 (z + 1) := by
  have l0 : (0 : R) ≤ z := Nat.cast_nonneg z
  have hτ1 : 1000 * τ ≤ 1 := by nlinarith
  have hE : 120 * τ * ((z : R) + 1) + 17 * (1 + 3 / 2 * τ) * kappa (gateK τ t) z * τ ≤ 120 * τ * (((z + 1 : Nat) : R) + 1) := by
    push_cast; linarith [gate_kap hτ t hz]
  have hE2 : 60 * τ * (z : R) + 17 * (1 + 3 / 2 * τ) * kappa (gateK τ t) z * τ ≤ 120 * τ * (((z + 1 : Nat) : R) + 1) := by
    have := mul_nonneg hτ l0
    linarith
  have plain : (∀ c ∈ cs, c.qubit ≠ z) →
      TInv J τ (s.diagN J z e e).1 ∧ Grow J s (s.diagN J z e e).1 ∧ GTop J τ (s.diagN J z e e).1 t U cs (z + 1) (s.diagN J z e e).2 := by
    intro hno
    obtain ⟨a1, a2, a3, a4⟩ := diagN_acc hJ hτ hτ1 h hn (gateK_lo hτ t) he.gr he.gr (by linarith : 1 ≤ 1 + 3 / 2 * τ) (by linarith) he.le he.le
      (Or.inr (Or.inr (Or.inr (Or.inr rfl)))) hE hE
    refine ⟨a1, a2, ⟨a3.congr (fun d => highVal_plain ht hno d), ?_⟩⟩
    rcases a4 with ⟨h2, _, _⟩ | ⟨h2, _⟩ | ⟨h2, _⟩
    · rw [h2, cval_zero, mag_zero]; linarith
    · rw [h2, a2.cval he.gr.kn.1]; exact he.le
    · rw [h2, a2.cval he.gr.kn.1]; exact he.le
  unfold JState.gateAbove
  cases it with
  | nil =>
    dsimp only
    obtain ⟨m1, m2⟩ := hit.miss hs (by intro c rest e; simp at e)
    obtain ⟨p1, p2, p3⟩ := plain m2
    exact ⟨p1, p2, p3, m1⟩
  | cons c rest =>
    dsimp only
    by_cases hc : c.qubit = z
    · rw [if_pos hc]
      subst hc
      obtain ⟨m1, m2⟩ := hit.hit hs
      have hmem : c ∈ cs := by
        obtain ⟨pre, h1, _⟩ := hit
        rw [h1]; simp
      dsimp only
      obtain ⟨i1, i2, i3, i4⟩ := makeIdent_acc hJ hτ h hz hn.le
      generalize makeIdent J s c.qubit = id at i1 i2 i3 i4
      have hf : GRes J τ id.1 (gateK τ t) c.qubit (idD c.qubit) (60 * τ * c.qubit) id.2 := ⟨i3.kn, RowCol.mono (gateK_lo hτ t) _ _ i3.rc, i3.err⟩
      have he' := i2.gtop h i1 he
      have fle : mag (id.1.ct.cval J.C id.2.w) = 1 := by rw [i4, cval_one, mag_one]
      have hn' : c.qubit < (id.1.tab .m).tab.nvars := by rw [i2.nvars .m]; exact hn
      have wle : ∀ {s' : JState R} {w : CNum Loc}, Grow J id.1 s' → (w = CNum.zero ∨ w = e.w ∨ w = id.2.w) → mag (s'.ct.cval J.C w) ≤ 1 + 3 / 2 * τ := by
        rintro s' w g (h0 | h0 | h0)
        · rw [h0, cval_zero, mag_zero]; linarith
        · rw [h0, g.cval he'.gr.kn.1]; exact he'.le
        · rw [h0, g.cval hf.kn.1, fle]; linarith
      cases hneg : c.neg with
      | true =>
        simp only [if_true]
        obtain ⟨a1, a2, a3, a4⟩ := diagN_acc hJ hτ hτ1 i1 hn' (gateK_lo hτ t) he'.gr hf (by linarith : 1 ≤ 1 + 3 / 2 * τ) (by linarith) he'.le
          (by rw [fle]; linarith) (by right; left; rw [fle]; norm_num) hE hE2
        refine ⟨a1, i2.trans a2, ⟨a3.congr (fun d => ?_), wle a2 ?_⟩, m1⟩
        · rw [← highVal_ctrl ht hmem m2]
          have : c.dig = 0 := by simp [Ctrl.dig, hneg]
          rw [this]
          by_cases h0 : d (Fin.last c.qubit) = 0 <;> by_cases h3 : d (Fin.last c.qubit) = 3 <;> simp [h0, h3, dg]
        · rcases a4 with ⟨h2, _⟩ | ⟨h2, _⟩ | ⟨h2, _⟩
          · exact Or.inl h2
          · exact Or.inr (Or.inl h2)
          · exact Or.inr (Or.inr h2)
      | false =>
        simp only [Bool.false_eq_true, if_false]
        obtain ⟨a1, a2, a3, a4⟩ := diagN_acc hJ hτ hτ1 i1 hn' (gateK_lo hτ t) hf he'.gr (by linarith : 1 ≤ 1 + 3 / 2 * τ) (by linarith)
          (by rw [fle]; linarith) he'.le (by left; rw [fle]; norm_num) hE2 hE
        refine ⟨a1, i2.trans a2, ⟨a3.congr (fun d => ?_), wle a2 ?_⟩, m1⟩
        · rw [← highVal_ctrl ht hmem m2]
          have : c.dig = 3 := by simp [Ctrl.dig, hneg]
          rw [this]
          by_cases h0 : d (Fin.last c.qubit) = 0 <;> by_cases h3 : d (Fin.last c.qubit) = 3 <;> simp [h0, h3, dg]
        · rcases a4 with ⟨h2, _⟩ | ⟨h2, _⟩ | ⟨h2, _⟩
          · exact Or.inl h2
          · exact Or.inr (Or.inr h2)
          · exact Or.inr (Or.inl h2)
    · rw [if_neg hc]
      obtain ⟨m1, m2⟩ := hit.miss hs (by
        intro c' rest' e
        simp only [List.cons.injEq] at e
        rw [← e.1]; exact hc)
      obtain ⟨p1, p2, p3⟩ := plain m2
      exact ⟨p1, p2, p3, m1⟩

theorem gateAboveLoop_acc (hJ : J.Good) (hτ : 0 ≤ τ) {t : Nat} {U : Fin 4 → Cx R} {cs : List Ctrl}
    (hs : cs.Pairwise (fun a b => a.qubit < b.qubit)) {q0 : Nat} (ht : t < q0) : ∀ (n : Nat) (s : JState R) (e : PtrEdge) (it : List Ctrl),
    TInv J τ s → 1000 * (((q0 + n : Nat) : R) + 1) * τ ≤ 1 → q0 + n ≤ (s.tab .m).tab.nvars → GTop J τ s t U cs q0 e → AtLine cs it q0 →
    let r := gateAboveLoop J q0 n s e it
    TInv J τ r.1.1 ∧ Grow J s r.1.1 ∧ GTop J τ r.1.1 t U cs (q0 + n) r.1.2 ∧ AtLine cs r.2 (q0 + n) := by
  intro n
  induction n with
  | zero =>
    intro s e it h _ _ he hit
    exact ⟨h, .refl _, he, hit⟩
  | succ n ih =>
    intro s e it h hz hn he hit
    have hz' : 1000 * (((q0 + n : Nat) : R) + 1) * τ ≤ 1 := by push_cast at hz ⊢; nlinarith
    obtain ⟨h1, h2, h3, h4⟩ := ih s e it h hz' (by omega) he hit
    unfold JState.gateAboveLoop
    dsimp only
    generalize gateAboveLoop J q0 n s e it = r at h1 h2 h3 h4
    obtain ⟨k1, k2, k3, k4⟩ := gateAbove_acc hJ hτ h1 hs (by omega : t < q0 + n) hz' (by rw [h2.nvars .m]; omega) h3 h4
    exact ⟨k1, h2.trans k2, k3, k4⟩

/-- `makeGateDD`. -/
theorem makeGate_acc (hJ : J.Good) (hτ : 0 ≤ τ) (h : TInv J τ s) {t n : Nat} {U : Fin 4 → Cx R} {cs : List Ctrl}
    (hs : cs.Pairwise (fun a b => a.qubit < b.qubit)) (htn : t < n) (hct : ∀ c ∈ cs, c.qubit ≠ t)
    (hz : 1000 * ((n : R) + 1) * τ ≤ 1) (hn : n ≤ (s.tab .m).tab.nvars) (hU : ∀ i, mag (U i) ≤ 1 + τ / 20) (hU' : ∃ i, 3 / 5 ≤ mag (U i)) :
    ∃ r, s.makeGateDD J U n cs t = some r ∧ TInv J τ r.1 ∧ Grow J s r.1 ∧ GTop J τ r.1 t U cs n r.2 := by
  have n0 : (1 : R) ≤ n := by exact_mod_cast (by omega : 1 ≤ n)
  have hτ1 : 1000 * τ ≤ 1 := by nlinarith
  have hzt : ∀ k : Nat, k ≤ n → 1000 * ((k : R) + 1) * τ ≤ 1 := by
    intro k hk
    have : (k : R) ≤ n := by exact_mod_cast hk
    have := mul_le_mul_of_nonneg_right this hτ
    linarith
  unfold JState.makeGateDD
  rw [if_neg (by omega)]
  refine ⟨_, rfl, ?_⟩
  obtain ⟨e1, e2, e3⟩ := seqFin_grow' 4 (fun i s => gateEntry J s (U i)) (fun s' i b => GBlk J τ s' t U cs 0 i b) s
    (fun i s1 h1 _ => gateEntry_acc hJ hτ hτ1 h1 t cs (hU i)) (fun s1 s2 i b h1 h2 g hb => g.gblk h1 h2 hb) s h (.refl _)
  generalize seqFin 4 (fun i s => gateEntry J s (U i)) s = em at e1 e2 e3
  obtain ⟨b1, b2, b3, b4⟩ := gateBelowLoop_acc hJ hτ hs t em.1 em.2 e1 (hzt t htn.le) (by rw [e2.nvars .m]; omega) e3
  generalize gateBelowLoop J t em.1 em.2 cs = b at b1 b2 b3 b4
  have hE : ∀ a : Fin 2, (fun _ : Fin 4 => 60 * τ * ((t : R) + 1)) (rc a 0) + (fun _ : Fin 4 => 60 * τ * ((t : R) + 1)) (rc a 1) +
      17 * (1 + 3 / 2 * τ) * kappa (gateK τ t) t * τ ≤ 120 * τ * (((t + 1 : Nat) : R) + 1) := by
    intro a
    dsimp only
    push_cast
    linarith [gate_kap hτ t (hzt t htn.le)]
  obtain ⟨m1, m2, m3, m4⟩ := makeN_acc hJ hτ hτ1 (transposeF_grow hJ hτ t) b1 (by rw [b2.nvars .m, e2.nvars .m]; omega)
    (K := gateK τ t) (fun j => by linarith [gateK_lo hτ t j]) (fun i => (b3 i).gr) (by linarith : 1 ≤ 1 + 3 / 2 * τ) (by linarith)
    (fun i => (b3 i).le) (Or.inl (by obtain ⟨i, hi⟩ := hU'; exact ⟨i, (b3 i).ge hi⟩)) (Or.inl (by unfold gateK; rw [if_pos rfl])) hE
  generalize b.1.1.makeN J (transposeF J t) t b.1.2 = e at m1 m2 m3 m4
  have top : GTop J τ e.1 t U cs (t + 1) e.2 := by
    refine ⟨m3.congr (fun d => highVal_target hct d), ?_⟩
    rcases m4 with ⟨h2, _⟩ | ⟨m, h2, _⟩
    · rw [h2, cval_zero, mag_zero]; linarith
    · rw [h2, m2.cval (b3 m).gr.kn.1]; exact (b3 m).le
  have hit : AtLine cs b.2 (t + 1) := by
    obtain ⟨pre, h1, h2, h3⟩ := b4
    refine ⟨pre, h1, fun c hc => by have := h2 c hc; omega, fun c hc => ?_⟩
    have h4 := h3 c hc
    have h5 := hct c (by rw [h1]; exact List.mem_append_right _ hc)
    omega
  have hlen : t + 1 + (n - 1 - t) = n := by omega
  obtain ⟨a1, a2, a3, -⟩ := gateAboveLoop_acc hJ hτ hs (Nat.lt_succ_self t) (n - 1 - t) e.1 e.2 b.2 m1
    (by rw [hlen]; exact hz) (by rw [hlen, m2.nvars .m, b2.nvars .m, e2.nvars .m]; exact hn) top hit
  rw [hlen] at a3
  exact ⟨a1, e2.trans (b2.trans (m2.trans a2)), a3⟩

end DD
