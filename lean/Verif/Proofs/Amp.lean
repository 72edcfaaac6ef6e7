import Verif.Spec
import Verif.Proofs.Norm
import Verif.Proofs.UniqueTable

/-! # Reading diagrams: basic facts, canonicity -/

namespace DD

variable {R : Type} [Field R] {n : Nat}

theorem amp_zero (t : UTable (Cx R) n) (e : PEdge R) (d : Fin 0 → Fin n) : amp t 0 e d = e.w := rfl

theorem amp_none {t : UTable (Cx R) n} {l : Nat} {e : PEdge R} (h : e.p = none) (d : Fin l → Fin n) :
    amp t l e d = e.w := by
  cases l with
  | zero => rfl
  | succ l => rw [amp, h]

theorem amp_some {t : UTable (Cx R) n} {l : Nat} {e : PEdge R} {a : Nat} (h : e.p = some a) (d : Fin (l + 1) → Fin n) :
    amp t (l + 1) e d = e.w * amp t l ((t.mem a).e (d (Fin.last l))) (Fin.init d) := by
  rw [amp, h]

theorem amp_snoc {t : UTable (Cx R) n} {l : Nat} {e : PEdge R} {a : Nat} (h : e.p = some a) (d : Fin l → Fin n)
    (i : Fin n) : amp t (l + 1) e (Fin.snoc (α := fun _ => Fin n) d i) = e.w * amp t l ((t.mem a).e i) d := by
  rw [amp_some h, Fin.snoc_last, Fin.init_snoc]

theorem amp_smul (t : UTable (Cx R) n) (l : Nat) (p : Option Nat) (c w : Cx R) (d : Fin l → Fin n) :
    amp t l ⟨p, c * w⟩ d = c * amp t l ⟨p, w⟩ d := by
  cases l with
  | zero => rfl
  | succ l =>
    cases p with
    | none => rfl
    | some a => rw [amp_some rfl, amp_some rfl]; simp only; ring

theorem amp_eq_smul (t : UTable (Cx R) n) (l : Nat) (e : PEdge R) (d : Fin l → Fin n) :
    amp t l e d = e.w * amp t l ⟨e.p, 1⟩ d := by
  rw [← amp_smul, mul_one]

theorem amp_w_zero {t : UTable (Cx R) n} {l : Nat} {e : PEdge R} (h : e.w = 0) (d : Fin l → Fin n) :
    amp t l e d = 0 := by
  rw [amp_eq_smul, h, zero_mul]

@[simp] theorem amp_zeroE (t : UTable (Cx R) n) (l : Nat) (d : Fin l → Fin n) : amp t l zeroE d = 0 :=
  amp_w_zero rfl d

theorem valid_zeroE (t : UTable (Cx R) n) (l : Nat) : Valid t l zeroE := Or.inr rfl

theorem valid_none {t : UTable (Cx R) n} {l : Nat} {e : PEdge R} (h : e.p = none) :
    Valid t l e ↔ l = 0 ∨ e.w = 0 := by
  unfold Valid; rw [h]

theorem valid_some {t : UTable (Cx R) n} {l : Nat} {e : PEdge R} {a : Nat} (h : e.p = some a) :
    Valid t l e ↔ a ∈ t.all ∧ (t.mem a).v + 1 = l ∧ e.w ≠ 0 := by
  unfold Valid; rw [h]

theorem Valid.p_none {t : UTable (Cx R) n} {l : Nat} {e : PEdge R} (h : Valid t l e) (hw : e.w = 0) : e.p = none := by
  cases hp : e.p with
  | none => rfl
  | some a => rw [valid_some hp] at h; exact absurd hw h.2.2

theorem Valid.eq_zeroE {t : UTable (Cx R) n} {l : Nat} {e : PEdge R} (h : Valid t l e) (hw : e.w = 0) : e = zeroE := by
  have := h.p_none hw
  cases e; simp_all [zeroE]

theorem Valid.term {t : UTable (Cx R) n} {e : PEdge R} (h : Valid t 0 e) : e.p = none := by
  cases hp : e.p with
  | none => rfl
  | some a => rw [valid_some hp] at h; exact absurd h.2.1 (by omega)

theorem valid_term (t : UTable (Cx R) n) (w : Cx R) : Valid t 0 ⟨none, w⟩ := Or.inl rfl

theorem Valid.exists_node {t : UTable (Cx R) n} {l : Nat} {e : PEdge R} (h : Valid t (l + 1) e) (hw : e.w ≠ 0) :
    ∃ a, e.p = some a ∧ a ∈ t.all ∧ (t.mem a).v = l := by
  cases hp : e.p with
  | none => rw [valid_none hp] at h; rcases h with h | h
            · omega
            · exact absurd h hw
  | some a => rw [valid_some hp] at h; exact ⟨a, rfl, h.1, by omega⟩

theorem Valid.level {t : UTable (Cx R) n} {l l' : Nat} {e : PEdge R} (h : Valid t l e) (h' : Valid t l' e) (hw : e.w ≠ 0) :
    l = l' := by
  cases hp : e.p with
  | none =>
    rw [valid_none hp] at h h'
    have h1 := h.resolve_right hw
    have h2 := h'.resolve_right hw
    omega
  | some a => rw [valid_some hp] at h h'; omega

theorem Valid.lvl {t : UTable (Cx R) n} {l : Nat} {e : PEdge R} (h : Valid t l e) (hw : e.w ≠ 0) : t.lvl e = l := by
  unfold UTable.lvl
  cases hp : e.p with
  | none => rw [valid_none hp] at h; exact (h.resolve_right hw).symm
  | some a => rw [valid_some hp] at h; exact h.2.1

theorem Valid.lvl_le {t : UTable (Cx R) n} {l : Nat} {e : PEdge R} (h : Valid t l e) : t.lvl e ≤ l := by
  unfold UTable.lvl
  cases hp : e.p with
  | none => exact Nat.zero_le _
  | some a => rw [valid_some hp] at h; exact h.2.1.le

theorem Valid.lvl_pos {t : UTable (Cx R) n} {l a : Nat} {e : PEdge R} (h : Valid t l e) (hp : e.p = some a) :
    t.lvl e = l := by
  rw [valid_some hp] at h
  unfold UTable.lvl; rw [hp]; exact h.2.1

theorem Valid.scale [LinearOrder R] [IsStrictOrderedRing R] {t : UTable (Cx R) n} {l : Nat} {p : Option Nat}
    {w : Cx R} (h : Valid t l ⟨p, w⟩) {c : Cx R} (hc : c ≠ 0) : Valid t l ⟨p, c * w⟩ := by
  cases p with
  | none =>
    rw [valid_none rfl] at h ⊢
    rcases h with h | h
    · exact Or.inl h
    · right; show c * w = 0; change w = 0 at h; rw [h, mul_zero]
  | some a =>
    rw [valid_some rfl] at h ⊢
    exact ⟨h.1, h.2.1, mul_ne_zero hc h.2.2⟩

/-- The weight of a valid edge that is not zero can be replaced. -/
theorem Valid.reweight {t : UTable (Cx R) n} {l : Nat} {e : PEdge R} (h : Valid t l e) (hw : e.w ≠ 0) {c : Cx R}
    (hc : c ≠ 0) : Valid t l ⟨e.p, c⟩ := by
  cases hp : e.p with
  | none =>
    rw [valid_none hp] at h
    exact Or.inl (h.resolve_right hw)
  | some a =>
    rw [valid_some hp] at h
    exact ⟨h.1, h.2.1, hc⟩

/-- All stored nodes of `t` are stored in `t'` with the same level and edges. -/
def Le (t t' : UTable (Cx R) n) : Prop :=
  ∀ a ∈ t.all, a ∈ t'.all ∧ (t'.mem a).v = (t.mem a).v ∧ (t'.mem a).e = (t.mem a).e

theorem Le.refl (t : UTable (Cx R) n) : Le t t := fun _ h => ⟨h, rfl, rfl⟩

theorem Le.trans {t t' t'' : UTable (Cx R) n} (h : Le t t') (h' : Le t' t'') : Le t t'' := by
  intro a ha
  obtain ⟨h1, h2, h3⟩ := h a ha
  obtain ⟨h4, h5, h6⟩ := h' a h1
  exact ⟨h4, h5.trans h2, h6.trans h3⟩

theorem Valid.mono {t t' : UTable (Cx R) n} (h : Le t t') {l : Nat} {e : PEdge R} (hv : Valid t l e) : Valid t' l e := by
  cases hp : e.p with
  | none => rw [valid_none hp] at hv ⊢; exact hv
  | some a =>
    rw [valid_some hp] at hv ⊢
    obtain ⟨h1, h2, _⟩ := h a hv.1
    exact ⟨h1, by rw [h2]; exact hv.2.1, hv.2.2⟩

/-- All stored nodes have valid children one level below. -/
def Children (t : UTable (Cx R) n) : Prop :=
  ∀ a ∈ t.all, ∀ i, Valid t (t.mem a).v ((t.mem a).e i)

theorem amp_mono {t t' : UTable (Cx R) n} (h : Le t t') (hc : Children t) : ∀ {l : Nat} {e : PEdge R},
    Valid t l e → ∀ d, amp t' l e d = amp t l e d := by
  intro l
  induction l with
  | zero => intro e _ d; rfl
  | succ l ih =>
    intro e hv d
    cases hp : e.p with
    | none => rw [amp_none hp, amp_none hp]
    | some a =>
      rw [valid_some hp] at hv
      rw [amp_some hp, amp_some hp, (h a hv.1).2.2]
      have hv' : (t.mem a).v = l := by omega
      have := hc a hv.1 (d (Fin.last l))
      rw [hv'] at this
      rw [ih this]

/-- The tables of a well-formed package: hash-consed, with children one level below and normalised weights. -/
structure DDWF [LinearOrder R] [IsStrictOrderedRing R] {k : Kind} (H : (Fin (ar k) → PEdge R) → Nat)
    (t : UTable (Cx R) (ar k)) : Prop where
  uwf : UTable.UWF H t
  child : Children t
  norm : ∀ a ∈ t.all, IsNorm k (fun i => ((t.mem a).e i).w)

section canon
variable [LinearOrder R] [IsStrictOrderedRing R] {k : Kind} {H : (Fin (ar k) → PEdge R) → Nat}
  {t : UTable (Cx R) (ar k)}

theorem DDWF.childAt (h : DDWF H t) {a l : Nat} (ha : a ∈ t.all) (hv : (t.mem a).v = l) (i : Fin (ar k)) :
    Valid t l ((t.mem a).e i) := hv ▸ h.child a ha i

/-- A valid edge whose weight is not zero has a value different from zero somewhere. -/
theorem DDWF.exists_ne (h : DDWF H t) : ∀ {l : Nat} {e : PEdge R}, Valid t l e → e.w ≠ 0 → ∃ d, amp t l e d ≠ 0 := by
  intro l
  induction l with
  | zero => intro e _ hw; exact ⟨Fin.elim0, hw⟩
  | succ l ih =>
    intro e hv hw
    obtain ⟨a, hp, ha, hl⟩ := hv.exists_node hw
    obtain ⟨i, hi⟩ := (h.norm a ha).ne_zero
    obtain ⟨d, hd⟩ := ih (h.childAt ha hl i) hi
    exact ⟨Fin.snoc (α := fun _ => Fin (ar k)) d i, by rw [amp_snoc hp]; exact mul_ne_zero hw hd⟩

theorem DDWF.w_zero (h : DDWF H t) {l : Nat} {e : PEdge R} (hv : Valid t l e) (hz : ∀ d, amp t l e d = 0) : e.w = 0 := by
  by_contra hw
  obtain ⟨d, hd⟩ := h.exists_ne hv hw
  exact hd (hz d)

/-- Canonicity: two valid edges with the same values are the same edge. -/
theorem DDWF.canonical (h : DDWF H t) : ∀ {l : Nat} {x y : PEdge R}, Valid t l x → Valid t l y →
    (∀ d, amp t l x d = amp t l y d) → x = y := by
  intro l
  induction l with
  | zero =>
    intro x y hx hy hxy
    have h1 := hx.term
    have h2 := hy.term
    have h3 : x.w = y.w := hxy Fin.elim0
    cases x; cases y; simp_all
  | succ l ih =>
    intro x y hx hy hxy
    by_cases hxw : x.w = 0
    · have hyw : y.w = 0 := h.w_zero hy (fun d => by rw [← hxy d, amp_w_zero hxw])
      rw [hx.eq_zeroE hxw, hy.eq_zeroE hyw]
    · by_cases hyw : y.w = 0
      · exact absurd (h.w_zero hx (fun d => by rw [hxy d, amp_w_zero hyw])) hxw
      · obtain ⟨a, hpa, ha, hla⟩ := hx.exists_node hxw
        obtain ⟨b, hpb, hb, hlb⟩ := hy.exists_node hyw
        have hu : x.w / y.w ≠ 0 := div_ne_zero hxw hyw
        have hch : ∀ i, (⟨((t.mem a).e i).p, x.w / y.w * ((t.mem a).e i).w⟩ : PEdge R) = (t.mem b).e i := by
          intro i
          apply ih
          · exact (h.childAt ha hla i).scale hu
          · exact h.childAt hb hlb i
          · intro d
            have h1 := hxy (Fin.snoc (α := fun _ => Fin (ar k)) d i)
            rw [amp_snoc hpa, amp_snoc hpb] at h1
            rw [amp_smul]
            field_simp
            exact h1
        have hu1 : x.w / y.w = 1 := by
          apply IsNorm.unique (h.norm a ha)
          have : (fun i => x.w / y.w * ((t.mem a).e i).w) = fun i => ((t.mem b).e i).w := by
            funext i; rw [← hch i]
          rw [this]; exact h.norm b hb
        have hw : x.w = y.w := by field_simp at hu1; exact hu1
        have hee : (t.mem a).e = (t.mem b).e := by
          funext i
          have := hch i
          rw [hu1, one_mul] at this
          exact this
        have hab : a = b := h.uwf.uniq a ha b hb (hla.trans hlb.symm) hee
        cases x; cases y; simp_all

end canon

end DD
