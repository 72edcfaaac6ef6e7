import Verif.Proofs.Use

/-! # Diagrams of different packages that represent the same object -/

namespace DD

variable {R : Type} [Field R] [LinearOrder R] [IsStrictOrderedRing R] {k : Kind}

/-- Edges of two packages that represent the same object have the same weight. -/
theorem cross_w {H H' : (Fin (ar k) → PEdge R) → Nat} {t t' : UTable (Cx R) (ar k)} (h : DDWF H t) (h' : DDWF H' t') :
    ∀ {l : Nat} {x y : PEdge R}, Valid t l x → Valid t' l y → (∀ d, amp t l x d = amp t' l y d) → x.w = y.w := by
  intro l
  induction l with
  | zero => intro x y hx hy hxy; exact hxy Fin.elim0
  | succ l ih =>
    intro x y hx hy hxy
    by_cases hxw : x.w = 0
    · rw [hxw, h'.w_zero hy (fun d => by rw [← hxy d, amp_w_zero hxw])]
    · have hyw : y.w ≠ 0 := fun hyw => hxw (h.w_zero hx (fun d => by rw [hxy d, amp_w_zero hyw]))
      obtain ⟨a, hpa, ha, hla⟩ := hx.exists_node hxw
      obtain ⟨b, hpb, hb, hlb⟩ := hy.exists_node hyw
      have hu : x.w / y.w ≠ 0 := div_ne_zero hxw hyw
      have hch : ∀ i, x.w / y.w * ((t.mem a).e i).w = ((t'.mem b).e i).w := by
        intro i
        refine ih (x := ⟨((t.mem a).e i).p, x.w / y.w * ((t.mem a).e i).w⟩) ((h.childAt ha hla i).scale hu)
          (h'.childAt hb hlb i) (fun d => ?_)
        have h1 := hxy (Fin.snoc (α := fun _ => Fin (ar k)) d i)
        rw [amp_snoc hpa, amp_snoc hpb] at h1
        rw [amp_smul]
        field_simp
        exact h1
      have hu1 : x.w / y.w = 1 := by
        apply IsNorm.unique (h.norm a ha)
        rw [funext hch]; exact h'.norm b hb
      field_simp at hu1; exact hu1

/-- So do the corresponding successors represent the same objects. -/
theorem cross_child {H H' : (Fin (ar k) → PEdge R) → Nat} {t t' : UTable (Cx R) (ar k)} (h : DDWF H t) (h' : DDWF H' t')
    {l a b : Nat} {x y : PEdge R} (hx : Valid t (l + 1) x) (hy : Valid t' (l + 1) y)
    (hxy : ∀ d, amp t (l + 1) x d = amp t' (l + 1) y d) (ha : x.p = some a) (hb : y.p = some b) (i : Fin (ar k)) (d) :
    amp t l ((t.mem a).e i) d = amp t' l ((t'.mem b).e i) d := by
  have hw := cross_w h h' hx hy hxy
  have hx0 : x.w ≠ 0 := by intro h0; have := hx.p_none h0; rw [ha] at this; cases this
  have h1 := hxy (Fin.snoc (α := fun _ => Fin (ar k)) d i)
  rw [amp_snoc ha, amp_snoc hb, ← hw] at h1
  exact mul_left_cancel₀ hx0 h1

theorem cross_none {H H' : (Fin (ar k) → PEdge R) → Nat} {t t' : UTable (Cx R) (ar k)} (h : DDWF H t) (h' : DDWF H' t')
    {l : Nat} {x y : PEdge R} (hx : Valid t (l + 1) x) (hy : Valid t' (l + 1) y)
    (hxy : ∀ d, amp t (l + 1) x d = amp t' (l + 1) y d) : x.p = none ↔ y.p = none := by
  have hw := cross_w h h' hx hy hxy
  constructor
  · intro hp
    have : x.w = 0 := by
      unfold Valid at hx; rw [hp] at hx; rcases hx with h0 | h0
      · omega
      · exact h0
    exact hy.p_none (hw ▸ this)
  · intro hp
    have : y.w = 0 := by
      unfold Valid at hy; rw [hp] at hy; rcases hy with h0 | h0
      · omega
      · exact h0
    exact hx.p_none (hw ▸ this)

theorem cross_kamp {H H' : (Fin (ar k) → PEdge R) → Nat} {t t' : UTable (Cx R) (ar k)} (h : DDWF H t) (h' : DDWF H' t') :
    ∀ {l : Nat} {x y : PEdge R}, Valid t l x → Valid t' l y → (∀ d, amp t l x d = amp t' l y d) →
      ∀ d, kamp t l x d = kamp t' l y d := by
  cases k with
  | v => intro l x y _ _ hxy d; exact hxy d
  | m =>
    intro l
    induction l with
    | zero => intro x y hx hy hxy d; exact hxy d
    | succ l ih =>
      intro x y hx hy hxy d
      show kampM t (l + 1) x d = kampM t' (l + 1) y d
      have hw := cross_w h h' hx hy hxy
      have hn := cross_none h h' hx hy hxy
      rw [kampM, kampM]
      cases hp : x.p with
      | none => rw [hn.1 hp]; exact hw
      | some a =>
        cases hq : y.p with
        | none => rw [hn.2 hq] at hp; cases hp
        | some b =>
          dsimp only
          have hx0 : x.w ≠ 0 := by intro h0; have := hx.p_none h0; rw [hp] at this; cases this
          have hva : Valid t (l + 1) (⟨some a, 1⟩ : PEdge R) := by unfold Valid at hx ⊢; rw [hp] at hx; exact ⟨hx.1, hx.2.1, one_ne_zero⟩
          have hvb : Valid t' (l + 1) (⟨some b, 1⟩ : PEdge R) := by unfold Valid at hy ⊢; rw [hq] at hy; exact ⟨hy.1, hy.2.1, one_ne_zero⟩
          have hab : ∀ d, amp t (l + 1) (⟨some a, 1⟩ : PEdge R) d = amp t' (l + 1) (⟨some b, 1⟩ : PEdge R) d := by
            refine forall_snoc.2 (fun d i => ?_)
            rw [amp_snoc rfl, amp_snoc rfl, cross_child h h' hx hy hxy hp hq]
          have hm : mat t (l + 1) (⟨some a, 1⟩ : PEdge R) = mat t' (l + 1) ⟨some b, 1⟩ := mat_ext_amp.2 hab
          by_cases h1 : mat t (l + 1) (⟨some a, 1⟩ : PEdge R) = 1
          · rw [if_pos h1, if_pos (hm ▸ h1)]; exact hab d
          · rw [if_neg h1, if_neg (hm ▸ h1), hw]
            congr 1
            have ca := h.childAt (a := a) (l := l) (by unfold Valid at hva; exact hva.1) (by have := hva.2.1; omega) (d (Fin.last l))
            have cb := h'.childAt (a := b) (l := l) (by unfold Valid at hvb; exact hvb.1) (by have := hvb.2.1; omega) (d (Fin.last l))
            exact ih ca cb (fun d' => cross_child h h' hx hy hxy hp hq _ d') _

end DD
