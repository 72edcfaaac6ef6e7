import Verif.Proofs.Add
import Mathlib.Algebra.BigOperators.Fin

/-! # `multiply` -/

namespace DD

variable {R : Type} [Field R]

/-- Sums over bit strings, by the top bit. -/
theorem sum_snoc {M : Type} [AddCommMonoid M] {l n : Nat} (f : (Fin (l + 1) → Fin n) → M) :
    ∑ j, f j = ∑ i : Fin n, ∑ j : Fin l → Fin n, f (Fin.snoc (α := fun _ => Fin n) j i) := by
  rw [← Fintype.sum_prod_type' (f := fun (i : Fin n) (j : Fin l → Fin n) => f (Fin.snoc (α := fun _ => Fin n) j i))]
  exact (Fintype.sum_equiv (Fin.snocEquiv (fun _ : Fin (l + 1) => Fin n))
    (fun x => f (Fin.snoc (α := fun _ => Fin n) x.2 x.1)) f (fun x => rfl)).symm

theorem sum_zero {M : Type} [AddCommMonoid M] {n : Nat} (f : (Fin 0 → Fin n) → M) : ∑ j, f j = f Fin.elim0 := by
  rw [Fintype.sum_unique]
  congr 1

/-- Combining digit strings commutes with `Fin.snoc`. -/
theorem snoc_comb {α β γ : Type} (g : α → β → γ) {l : Nat} (d : Fin l → α) (i : α) (e : Fin l → β) (j : β) :
    (fun x : Fin (l + 1) => g (Fin.snoc (α := fun _ => α) d i x) (Fin.snoc (α := fun _ => β) e j x)) =
      Fin.snoc (α := fun _ => γ) (fun x => g (d x) (e x)) (g i j) := by
  funext x
  refine Fin.lastCases ?_ ?_ x
  · simp
  · intro y; simp

variable [LinearOrder R] [IsStrictOrderedRing R]

theorem mulAmp_eq (tm : UTable (Cx R) 4) {k : Kind} (t : UTable (Cx R) (ar k)) {l : Nat} (x y : PEdge R)
    (d : Fin l → Fin (ar k)) :
    mulAmp tm t l x y d = ∑ j : Fin l → Fin 2, amp tm l x (fun i => Pkg.mulL k (d i) (j i)) *
      amp t l y (fun i => Pkg.mulR k (d i) (j i)) := by
  cases k with
  | v => rfl
  | m =>
    unfold mulAmp
    dsimp only
    have h1 : ∀ a : Fin 4, ∀ b : Fin 2, Pkg.mulL .m a b = rc (![0, 0, 1, 1] a) b := by decide
    have h2 : ∀ a : Fin 4, ∀ b : Fin 2, Pkg.mulR .m a b = rc b (![0, 1, 0, 1] a) := by decide
    simp only [h1, h2]

theorem mulAmp_smul (tm : UTable (Cx R) 4) {k : Kind} (t : UTable (Cx R) (ar k)) {l : Nat} (x y : PEdge R)
    (d : Fin l → Fin (ar k)) :
    mulAmp tm t l x y d = x.w * y.w * mulAmp tm t l ⟨x.p, 1⟩ ⟨y.p, 1⟩ d := by
  rw [mulAmp_eq, mulAmp_eq, Finset.mul_sum]
  refine Finset.sum_congr rfl (fun j _ => ?_)
  rw [amp_eq_smul _ _ x, amp_eq_smul _ _ y]; ring

theorem mulAmp_succ {tm : UTable (Cx R) 4} {k : Kind} {t : UTable (Cx R) (ar k)} {l : Nat} {x y : PEdge R} {a b : Nat}
    (hx : x.p = some a) (hy : y.p = some b) (d : Fin l → Fin (ar k)) (i : Fin (ar k)) :
    mulAmp tm t (l + 1) x y (Fin.snoc (α := fun _ => Fin (ar k)) d i) =
      x.w * y.w * (mulAmp tm t l ((tm.mem a).e (Pkg.mulL k i 0)) ((t.mem b).e (Pkg.mulR k i 0)) d +
        mulAmp tm t l ((tm.mem a).e (Pkg.mulL k i 1)) ((t.mem b).e (Pkg.mulR k i 1)) d) := by
  simp only [mulAmp_eq]
  rw [sum_snoc, Fin.sum_univ_two, ← Finset.sum_add_distrib, ← Finset.sum_add_distrib, Finset.mul_sum]
  refine Finset.sum_congr rfl (fun j _ => ?_)
  rw [snoc_comb, snoc_comb, snoc_comb, snoc_comb, amp_snoc hx, amp_snoc hx, amp_snoc hy, amp_snoc hy]
  ring

theorem mulAmp_zero_left {tm : UTable (Cx R) 4} {k : Kind} {t : UTable (Cx R) (ar k)} {l : Nat} {x y : PEdge R}
    (h : x.w = 0 ∨ y.w = 0) (d : Fin l → Fin (ar k)) : mulAmp tm t l x y d = 0 := by
  rw [mulAmp_smul]
  rcases h with h | h <;> simp [h]

omit [LinearOrder R] [IsStrictOrderedRing R] in
theorem mulChild_eq {s : Pkg R} {k : Kind} {l a : Nat} {x : PEdge R} (hp : x.p = some a)
    (hl : ((s.ut k).mem a).v = l) (i : Fin (ar k)) : Pkg.mulChild s k x l i = ((s.ut k).mem a).e i := by
  unfold Pkg.mulChild
  rw [hp]
  dsimp only
  rw [if_pos hl]

variable [HasSqrt R] [LawfulSqrt R]

theorem multiply2F_spec {P : PCfg R} (hC : 0 < P.C.growth) {k : Kind} : ∀ (l : Nat) (s : Pkg R) (x y : PEdge R),
    PWF P s ∅ → Valid (s.ut .m) l x → Valid (s.ut k) l y →
    OpSpec P ∅ s k l (mulAmp (s.ut .m) (s.ut k) l x y) (Pkg.multiply2F P k l s x y) := by
  intro l
  induction l with
  | zero =>
    intro s x y h hx hy
    unfold Pkg.multiply2F
    dsimp only
    split_ifs with h1
    · exact .pure h (valid_zeroE _ _) (fun d => by rw [mulAmp_zero_left h1, amp_zeroE])
    · refine .pure h (valid_term _ _) (fun d => ?_)
      rw [mulAmp_eq, sum_zero]; rfl
  | succ l ih =>
    intro s x y h hx hy
    unfold Pkg.multiply2F
    dsimp only
    by_cases h1 : x.w = 0 ∨ y.w = 0
    · rw [if_pos h1]
      exact .pure h (valid_zeroE _ _) (fun d => by rw [mulAmp_zero_left h1, amp_zeroE])
    · rw [if_neg h1]
      push Not at h1
      obtain ⟨hxw, hyw⟩ := h1
      -- scaling of a result for the operands with weight one
      have scale : ∀ r : Pkg R × PEdge R, OpSpec P ∅ s k (l + 1) (mulAmp (s.ut .m) (s.ut k) (l + 1) ⟨x.p, 1⟩ ⟨y.p, 1⟩) r →
          OpSpec P ∅ s k (l + 1) (mulAmp (s.ut .m) (s.ut k) (l + 1) x y) (r.1, ⟨r.2.p, r.2.w * x.w * y.w⟩) := by
        intro r hr
        have hxy : x.w * y.w ≠ 0 := mul_ne_zero hxw hyw
        refine ⟨hr.wf, hr.ext, ?_, fun d => ?_⟩
        · rw [mul_assoc, mul_comm]; exact hr.valid.scale hxy
        · rw [mul_assoc, mul_comm, amp_smul, mulAmp_smul, ← hr.val d]
      have hkx := hx.reweight hxw (one_ne_zero (α := Cx R))
      have hky := hy.reweight hyw (one_ne_zero (α := Cx R))
      cases hk : Pkg.look (P.mulH k) (s.mulC k) (⟨x.p, 1⟩, ⟨y.p, 1⟩) with
      | some r =>
        dsimp only
        obtain ⟨l', a1, a2, a3, a4⟩ := (h.mulC k).look hk
        have hl := hkx.level a1 one_ne_zero
        subst hl
        have hs := scale (s, r) (.pure h a3 a4)
        have hs0 : r.w = 0 → OpSpec P ∅ s k (l + 1) (mulAmp (s.ut .m) (s.ut k) (l + 1) x y) (s, zeroE) := by
          intro hr
          refine .pure h (valid_zeroE _ _) (fun d => ?_)
          rw [← hs.val d, amp_zeroE, amp_w_zero]
          show r.w * x.w * y.w = 0
          rw [hr]; ring
        split_ifs with hr hr2
        · exact hs0 hr
        · refine hs0 ?_
          simpa [hxw, hyw] using hr2
        · exact hs
      | none =>
        dsimp only
        obtain ⟨a, hpa, ha, hla⟩ := hx.exists_node hxw
        obtain ⟨b, hpb, hb, hlb⟩ := hy.exists_node hyw
        simp only [mulChild_eq hpa hla, mulChild_eq hpb hlb]
        have hcx := fun i => (h.tab .m).childAt ha hla i
        have hcy := fun i => (h.tab k).childAt hb hlb i
        obtain ⟨q1, q2, q3⟩ := seqOp (k := k) (l := l) (n := ar k)
          (f := fun idx s' =>
            let m0 := Pkg.multiply2F P k l s' (((s.ut .m).mem a).e (Pkg.mulL k idx 0))
              (((s.ut k).mem b).e (Pkg.mulR k idx 0))
            let m1 := Pkg.multiply2F P k l m0.1 (((s.ut .m).mem a).e (Pkg.mulL k idx 1))
              (((s.ut k).mem b).e (Pkg.mulR k idx 1))
            if m0.2.w = 0 then m1
            else if m1.2.w ≠ 0 then Pkg.add2F P k l m1.1 m0.2 m1.2
            else (m1.1, m0.2))
          (F := fun idx d =>
            mulAmp (s.ut .m) (s.ut k) l (((s.ut .m).mem a).e (Pkg.mulL k idx 0)) (((s.ut k).mem b).e (Pkg.mulR k idx 0)) d +
            mulAmp (s.ut .m) (s.ut k) l (((s.ut .m).mem a).e (Pkg.mulL k idx 1)) (((s.ut k).mem b).e (Pkg.mulR k idx 1)) d)
          h (by
            intro idx s' hs' he
            dsimp only
            have x0 := (hcx (Pkg.mulL k idx 0)).mono (he.le .m)
            have y0 := (hcy (Pkg.mulR k idx 0)).mono (he.le k)
            have m0 := ih s' _ _ hs' x0 y0
            generalize Pkg.multiply2F P k l s' (((s.ut .m).mem a).e (Pkg.mulL k idx 0))
              (((s.ut k).mem b).e (Pkg.mulR k idx 0)) = r0 at m0
            have he0 := he.trans m0.ext
            have x1 := (hcx (Pkg.mulL k idx 1)).mono (he0.le .m)
            have y1 := (hcy (Pkg.mulR k idx 1)).mono (he0.le k)
            have m1 := ih r0.1 _ _ m0.wf x1 y1
            generalize Pkg.multiply2F P k l r0.1 (((s.ut .m).mem a).e (Pkg.mulL k idx 1))
              (((s.ut k).mem b).e (Pkg.mulR k idx 1)) = r1 at m1
            have v0 : ∀ d, mulAmp (s.ut .m) (s.ut k) l (((s.ut .m).mem a).e (Pkg.mulL k idx 0))
                (((s.ut k).mem b).e (Pkg.mulR k idx 0)) d = amp (r0.1.ut k) l r0.2 d := by
              intro d
              rw [m0.val, mulAmp_mono (he.le .m) (h.tab .m).child (he.le k) (h.tab k).child (hcx _) (hcy _)]
            have v1 : ∀ d, mulAmp (s.ut .m) (s.ut k) l (((s.ut .m).mem a).e (Pkg.mulL k idx 1))
                (((s.ut k).mem b).e (Pkg.mulR k idx 1)) d = amp (r1.1.ut k) l r1.2 d := by
              intro d
              rw [m1.val, mulAmp_mono (he0.le .m) (h.tab .m).child (he0.le k) (h.tab k).child (hcx _) (hcy _)]
            have v0' : ∀ d, amp (r1.1.ut k) l r0.2 d = amp (r0.1.ut k) l r0.2 d :=
              fun d => amp_mono (m1.ext.le k) (m0.wf.tab k).child m0.valid d
            split_ifs with z0 z1
            · refine ⟨m1.wf, m0.ext.trans m1.ext, m1.valid, fun d => ?_⟩
              rw [v0, v1, amp_w_zero z0, zero_add]
            · have ha := add2F_spec hC l r1.1 r0.2 r1.2 m1.wf (m0.valid.mono (m1.ext.le k)) m1.valid
              refine ⟨ha.wf, (m0.ext.trans m1.ext).trans ha.ext, ha.valid, fun d => ?_⟩
              rw [ha.val, v0, v1, v0']
            · push Not at z1
              refine ⟨m1.wf, m0.ext.trans m1.ext, m0.valid.mono (m1.ext.le k), fun d => ?_⟩
              rw [v0, v1, amp_w_zero z1, add_zero]
              exact v0' d)
        generalize hqq : seqFin (ar k) _ s = q at q1 q2 q3
        have hnv : l < (q.1.ut k).nvars := by
          rw [(q2 k).nvars, ← hlb]
          exact ((h.tab k).uwf.mem_bucket hb).1
        have hm := makeDDNode_spec hC true q1 hnv noX (fun i => (q3 i).1)
        generalize Pkg.makeDDNode P k q.1 l q.2 true = r at hm
        have hext := q2.trans hm.ext
        have hval : ∀ d, amp (r.1.ut k) (l + 1) r.2 d = mulAmp (s.ut .m) (s.ut k) (l + 1) ⟨x.p, 1⟩ ⟨y.p, 1⟩ d := by
          rw [forall_snoc]
          intro d i
          rw [hm.val, Fin.snoc_last, Fin.init_snoc, (q3 i).2,
            mulAmp_succ (x := ⟨x.p, 1⟩) (y := ⟨y.p, 1⟩) hpa hpb]
          simp
        have hwf : PWF P { r.1 with
            mulC := Function.update r.1.mulC k ((r.1.mulC k).insert (P.mulH k) (⟨x.p, 1⟩, ⟨y.p, 1⟩) r.2) } ∅ := by
          refine ⟨hm.wf.tab, hm.wf.marks, hm.wf.addC, ?_, hm.wf.kronC, hm.wf.innerC, hm.wf.transC, hm.wf.conjC,
            hm.wf.idTab⟩
          intro k'
          by_cases hkk : k' = k
          · subst hkk
            dsimp only
            rw [Function.update_self]
            refine (hm.wf.mulC k').insert _ ⟨l + 1, hkx.mono (hext.le .m), hky.mono (hext.le k'), hm.valid, fun d => ?_⟩
            rw [hval, mulAmp_mono (hext.le .m) (h.tab .m).child (hext.le k') (h.tab k').child hkx hky]
          · dsimp only
            rw [Function.update_of_ne hkk]
            exact hm.wf.mulC k'
        have hs := scale ({ r.1 with
            mulC := Function.update r.1.mulC k ((r.1.mulC k).insert (P.mulH k) (⟨x.p, 1⟩, ⟨y.p, 1⟩) r.2) }, r.2)
            ⟨hwf, hext, hm.valid, hval⟩
        split_ifs with hr hr2
        · refine ⟨hs.wf, hs.ext, valid_zeroE _ _, fun d => ?_⟩
          rw [← hs.val d, amp_zeroE, amp_w_zero]
          exact hr2
        · exact hs
        · push Not at hr
          refine ⟨hs.wf, hs.ext, hm.valid, fun d => ?_⟩
          rw [← hs.val d]
          rw [amp_w_zero hr, amp_w_zero]
          show r.2.w * x.w * y.w = 0
          rw [hr]; ring

/-- `multiply` of a matrix with a vector or matrix of the same number of qubits. -/
theorem multiply_spec {P : PCfg R} (hC : 0 < P.C.growth) {k : Kind} {l : Nat} {s : Pkg R} {x y : PEdge R} (h : PWF P s ∅)
    (hx : Valid (s.ut .m) l x) (hy : Valid (s.ut k) l y) :
    OpSpec P ∅ s k l (mulAmp (s.ut .m) (s.ut k) l x y) (Pkg.multiply P k s x y) := by
  unfold Pkg.multiply
  by_cases h0 : x.w = 0 ∨ y.w = 0
  · unfold Pkg.multiply2F
    rw [if_pos h0]
    exact .pure h (valid_zeroE _ _) (fun d => by rw [mulAmp_zero_left h0, amp_zeroE])
  · push Not at h0
    have : max (s.lv .m x) (s.lv k y) = l := by
      unfold Pkg.lv; rw [hx.lvl h0.1, hy.lvl h0.2]; simp
    rw [this]
    exact multiply2F_spec hC l s x y h hx hy

end DD
