import Verif.Proofs.UniqueTable
import Mathlib.Algebra.BigOperators.Group.Finset.Basic
import Mathlib.Algebra.BigOperators.Group.Finset.Piecewise
import Mathlib.Algebra.Order.BigOperators.Group.Finset
import Mathlib.Data.List.Count
import Mathlib.Tactic.Linarith

/-!
# Reference counting in the unique table
-/

namespace DD
namespace UTable

variable {W : Type} {n : Nat}

/-- Everything but reference counts and activity statistics is the same. -/
structure SameShape (t t' : UTable W n) : Prop where
  nvars : t'.nvars = t.nvars
  nbucket : t'.nbucket = t.nbucket
  chain : t'.chain = t.chain
  brk : t'.brk = t.brk
  allocations : t'.allocations = t.allocations
  allocationSize : t'.allocationSize = t.allocationSize
  avail : t'.avail = t.avail
  nodeCount : t'.nodeCount = t.nodeCount
  v : ∀ a, (t'.mem a).v = (t.mem a).v
  e : ∀ a, (t'.mem a).e = (t.mem a).e
  ident : ∀ a, (t'.mem a).ident = (t.mem a).ident
  symm : ∀ a, (t'.mem a).symm = (t.mem a).symm
  ref : ∀ a, a ∉ t.all → (t'.mem a).ref = (t.mem a).ref

theorem SameShape.all {t t' : UTable W n} (h : SameShape t t') : t'.all = t.all := by
  simp [UTable.all, buckets, h.nvars, h.nbucket, h.chain]

theorem SameShape.refl (t : UTable W n) : SameShape t t := by
  constructor <;> simp

theorem SameShape.trans {t t' t'' : UTable W n} (h : SameShape t t') (h' : SameShape t' t'') : SameShape t t'' where
  nvars := h'.nvars.trans h.nvars
  nbucket := h'.nbucket.trans h.nbucket
  chain := h'.chain.trans h.chain
  brk := h'.brk.trans h.brk
  allocations := h'.allocations.trans h.allocations
  allocationSize := h'.allocationSize.trans h.allocationSize
  avail := h'.avail.trans h.avail
  nodeCount := h'.nodeCount.trans h.nodeCount
  v a := (h'.v a).trans (h.v a)
  e a := (h'.e a).trans (h.e a)
  ident a := (h'.ident a).trans (h.ident a)
  symm a := (h'.symm a).trans (h.symm a)
  ref a ha := (h'.ref a (h.all ▸ ha)).trans (h.ref a ha)

theorem SameShape.uwf {H : (Fin n → Edge W) → Nat} {t t' : UTable W n} (h : SameShape t t') (w : UWF H t) :
    UWF H t' where
  nb := h.nbucket ▸ w.nb
  nodup := h.all ▸ w.nodup
  availNodup := h.avail ▸ w.availNodup
  disj a ha := by rw [h.avail]; exact w.disj a (h.all ▸ ha)
  allLt a ha := by rw [h.brk]; exact w.allLt a (h.all ▸ ha)
  availLt a ha := by rw [h.brk]; exact w.availLt a (h.avail ▸ ha)
  brkLe := by rw [h.brk, h.allocations]; exact w.brkLe
  szPos := by rw [h.allocationSize]; exact w.szPos
  bucket v k a ha := by
    rw [h.chain] at ha
    have := w.bucket v k a ha
    rw [h.nvars, h.nbucket, h.v, h.e]
    simpa [key, h.nbucket] using this
  uniq a ha b hb := by
    rw [h.v, h.v, h.e, h.e]
    exact w.uniq a (h.all ▸ ha) b (h.all ▸ hb)
  count := by rw [h.nodeCount, h.all]; exact w.count
  refZero a ha := by
    rw [h.all] at ha
    rw [h.ref a ha]; exact w.refZero a ha

/-- The children of stored nodes are stored and have a smaller level. -/
def Closed (t : UTable W n) : Prop :=
  ∀ a ∈ t.all, ∀ i b, ((t.mem a).e i).p = some b → b ∈ t.all ∧ (t.mem b).v < (t.mem a).v

theorem SameShape.closed {t t' : UTable W n} (h : SameShape t t') (c : Closed t) : Closed t' := by
  intro a ha i b hb
  rw [h.e] at hb
  rw [h.all, h.v, h.v]
  exact c a (h.all ▸ ha) i b hb

theorem SameShape.lvl {t t' : UTable W n} (h : SameShape t t') (e : Edge W) : t'.lvl e = t.lvl e := by
  unfold UTable.lvl
  cases e.p with
  | none => rfl
  | some a => simp [h.v]

/-- Number of edges among the indices `L` of `es` that point to `a`. -/
def cntL (es : Fin n → Edge W) (L : List (Fin n)) (a : Nat) : Nat := L.countP (fun i => (es i).p = some a)

/-- Number of edges to `a` from stored nodes that are themselves referenced. -/
def par (t : UTable W n) (a : Nat) : Nat :=
  ∑ b ∈ t.all.toFinset, if 0 < (t.mem b).ref then cntL (t.mem b).e (List.finRange n) a else 0

/-- Edges with weight `w` among the indices `L`. -/
def cntWL [DecidableEq W] (es : Fin n → Edge W) (L : List (Fin n)) (w : W) : Nat := L.countP (fun i => (es i).w = w)

/-- Number of edges with weight `w` out of stored, referenced nodes. -/
def parW [DecidableEq W] (t : UTable W n) (w : W) : Nat :=
  ∑ b ∈ t.all.toFinset, if 0 < (t.mem b).ref then cntWL (t.mem b).e (List.finRange n) w else 0

/-- Number of referenced nodes of level `v`. -/
def act (t : UTable W n) (v : Nat) : Nat :=
  ∑ b ∈ t.all.toFinset, if 0 < (t.mem b).ref then (if (t.mem b).v = v then 1 else 0) else 0

/-- Number of referenced nodes. -/
def actAll (t : UTable W n) : Nat :=
  ∑ b ∈ t.all.toFinset, if 0 < (t.mem b).ref then 1 else 0

/-- Generalised reference count equation: `p` counts increments still to be done, `q` the references from outside
(including decrements still to be done). -/
def GInv (C : UCfg) (t : UTable W n) (p q : Nat → Nat) : Prop :=
  ∀ a ∈ t.all, (t.mem a).ref = C.maxRef ∨ (t.mem a).ref + p a = q a + t.par a

/-- Unit of reference for the target of an edge. -/
def dlt (e : Edge W) (a : Nat) : Nat := if e.p = some a then 1 else 0

theorem setRef_mem_ref (t : UTable W n) (a r b : Nat) :
    ((t.setRef a r).mem b).ref = if b = a then r else (t.mem b).ref := by
  by_cases h : b = a
  · subst h; simp [setRef, setMem]
  · simp [setRef, setMem, h]

theorem setRef_shape (t : UTable W n) {a : Nat} (ha : a ∈ t.all) (r : Nat) : SameShape t (t.setRef a r) := by
  have : ∀ b, (t.setRef a r).mem b = { t.mem b with ref := ((t.setRef a r).mem b).ref } := by
    intro b
    by_cases h : b = a
    · subst h; simp [setRef, setMem]
    · simp [setRef, setMem, h]
  refine ⟨rfl, rfl, rfl, rfl, rfl, rfl, rfl, rfl, ?_, ?_, ?_, ?_, ?_⟩
  · intro b; rw [this]
  · intro b; rw [this]
  · intro b; rw [this]
  · intro b; rw [this]
  · intro b hb
    rw [setRef_mem_ref, if_neg (fun (h : b = a) => hb (h ▸ ha))]

/-- General form of the sums over referenced nodes: raising the count of `a` from 0 adds the term of `a`. -/
theorem sum_setRef_up (t : UTable W n) {a : Nat} (ha : a ∈ t.all) (h0 : (t.mem a).ref = 0) (r : Nat) (hr : 0 < r)
    (F : Nat → (Fin n → Edge W) → Nat → Nat) :
    (∑ b ∈ (t.setRef a r).all.toFinset,
      if 0 < ((t.setRef a r).mem b).ref then F b ((t.setRef a r).mem b).e ((t.setRef a r).mem b).v else 0) =
    (∑ b ∈ t.all.toFinset, if 0 < (t.mem b).ref then F b (t.mem b).e (t.mem b).v else 0) +
      F a (t.mem a).e (t.mem a).v := by
  have hs := t.setRef_shape ha r
  rw [hs.all]
  have hmem : a ∈ t.all.toFinset := List.mem_toFinset.2 ha
  rw [← Finset.add_sum_erase _ _ hmem]
  rw [← Finset.add_sum_erase (a := a) (f := fun b => if 0 < (t.mem b).ref then F b (t.mem b).e (t.mem b).v else 0) _
    hmem]
  rw [setRef_mem_ref, if_pos rfl, if_pos hr, hs.e, hs.v, h0, if_neg (lt_irrefl 0), zero_add, add_comm]
  congr 1
  apply Finset.sum_congr rfl
  intro b hb
  have hb' : b ≠ a := (Finset.mem_erase.1 hb).1
  rw [setRef_mem_ref, if_neg hb', hs.e, hs.v]

theorem sum_setRef_same (t : UTable W n) {a : Nat} (ha : a ∈ t.all) (h0 : 0 < (t.mem a).ref) (r : Nat) (hr : 0 < r)
    (F : Nat → (Fin n → Edge W) → Nat → Nat) :
    (∑ b ∈ (t.setRef a r).all.toFinset,
      if 0 < ((t.setRef a r).mem b).ref then F b ((t.setRef a r).mem b).e ((t.setRef a r).mem b).v else 0) =
    (∑ b ∈ t.all.toFinset, if 0 < (t.mem b).ref then F b (t.mem b).e (t.mem b).v else 0) := by
  have hs := t.setRef_shape ha r
  rw [hs.all]
  apply Finset.sum_congr rfl
  intro b hb
  rw [setRef_mem_ref, hs.e, hs.v]
  by_cases h : b = a
  · subst h; rw [if_pos rfl, if_pos hr, if_pos h0]
  · rw [if_neg h]

theorem setRef_setRef (t : UTable W n) (a r s : Nat) : (t.setRef a r).setRef a s = t.setRef a s := by
  simp [setRef, setMem]

theorem setRef_self (t : UTable W n) (a : Nat) : t.setRef a (t.mem a).ref = t := by
  simp [setRef, setMem]

/-- Lowering the count of `a` to 0 removes the term of `a`. -/
theorem sum_setRef_down (t : UTable W n) {a : Nat} (ha : a ∈ t.all) (h0 : 0 < (t.mem a).ref)
    (F : Nat → (Fin n → Edge W) → Nat → Nat) :
    (∑ b ∈ (t.setRef a 0).all.toFinset,
      if 0 < ((t.setRef a 0).mem b).ref then F b ((t.setRef a 0).mem b).e ((t.setRef a 0).mem b).v else 0) +
      F a (t.mem a).e (t.mem a).v =
    (∑ b ∈ t.all.toFinset, if 0 < (t.mem b).ref then F b (t.mem b).e (t.mem b).v else 0) := by
  have hs := t.setRef_shape ha 0
  have := (t.setRef a 0).sum_setRef_up (a := a) (hs.all ▸ ha) (by rw [setRef_mem_ref, if_pos rfl]) _ h0 F
  rw [setRef_setRef, setRef_self, hs.e, hs.v] at this
  exact this.symm

/-! ### `incRef` -/

/-- What `incRefF` guarantees. -/
structure IncSpec [DecidableEq W] (C : UCfg) (t : UTable W n) (e : Edge W) (t' : UTable W n) (ws : List W) : Prop where
  shape : SameShape t t'
  mono : ∀ a, (t.mem a).ref ≤ (t'.mem a).ref
  sat : ∀ a, (t.mem a).ref = C.maxRef → (t'.mem a).ref = C.maxRef
  le : (∀ a, (t.mem a).ref ≤ C.maxRef) → ∀ a, (t'.mem a).ref ≤ C.maxRef
  ginv : ∀ p q, GInv C t (fun a => p a + dlt e a) q → GInv C t' p q
  weights : ∀ w, ws.count w + t.parW w = t'.parW w + (if e.w = w then 1 else 0)
  act : ∀ v, t'.active v + t.act v = t.active v + t'.act v
  actAll : t'.activeNodeCount + t.actAll = t.activeNodeCount + t'.actAll

/-- The fold over the children. -/
theorem incFold_spec [DecidableEq W] (C : UCfg) (f : Nat) (es : Fin n → Edge W)
    (ih : ∀ (t : UTable W n) (e : Edge W), Closed t → (∀ b, e.p = some b → b ∈ t.all ∧ (t.mem b).v < f) →
      IncSpec C t e (incRefF C f t e).1 (incRefF C f t e).2)
    (L : List (Fin n)) : ∀ (s : UTable W n × List W), Closed s.1 →
      (∀ i b, (es i).p = some b → b ∈ s.1.all ∧ (s.1.mem b).v < f) →
      ∀ r, r = L.foldl (fun (s : UTable W n × List W) i =>
                let r := incRefF C f s.1 (es i)
                (r.1, s.2 ++ r.2)) s →
      SameShape s.1 r.1 ∧ (∀ a, (s.1.mem a).ref ≤ (r.1.mem a).ref) ∧
      (∀ a, (s.1.mem a).ref = C.maxRef → (r.1.mem a).ref = C.maxRef) ∧
      ((∀ a, (s.1.mem a).ref ≤ C.maxRef) → ∀ a, (r.1.mem a).ref ≤ C.maxRef) ∧
      (∀ p q, GInv C s.1 (fun a => p a + cntL es L a) q → GInv C r.1 p q) ∧
      (∀ w, r.2.count w + s.1.parW w = r.1.parW w + s.2.count w + cntWL es L w) ∧
      (∀ v, r.1.active v + s.1.act v = s.1.active v + r.1.act v) ∧
      r.1.activeNodeCount + s.1.actAll = s.1.activeNodeCount + r.1.actAll := by
  induction L with
  | nil =>
    intro s hc hb r hr
    subst hr
    refine ⟨SameShape.refl _, fun _ => le_refl _, fun _ h => h, fun h => h, ?_, ?_, ?_, ?_⟩
    · intro p q h; simpa [cntL] using h
    · intro w; simp [cntWL]; omega
    · intro v; simp
    · simp
  | cons i L IH =>
    intro s hc hb r hr
    have h1 := ih s.1 (es i) hc (hb i)
    set r1 := incRefF C f s.1 (es i) with hr1
    have hc1 := h1.shape.closed hc
    have hb1 : ∀ j b, (es j).p = some b → b ∈ r1.1.all ∧ (r1.1.mem b).v < f := by
      intro j b hj
      rw [h1.shape.all, h1.shape.v]
      exact hb j b hj
    have h2 := IH (r1.1, s.2 ++ r1.2) hc1 hb1 r hr
    refine ⟨h1.shape.trans h2.1, fun a => (h1.mono a).trans (h2.2.1 a), fun a h => h2.2.2.1 a (h1.sat a h),
      fun h => h2.2.2.2.1 (h1.le h), ?_, ?_, ?_, ?_⟩
    · intro p q h
      apply h2.2.2.2.2.1 p q
      apply h1.ginv (fun a => p a + cntL es L a) q
      intro a ha
      have := h a ha
      beta_reduce at this
      have hcnt : cntL es (i :: L) a = cntL es L a + dlt (es i) a := by
        simp [cntL, dlt, List.countP_cons]
      rw [hcnt] at this
      simpa [add_assoc] using this
    · intro w
      have a1 := h1.weights w
      have a2 := h2.2.2.2.2.2.1 w
      have hcnt : cntWL es (i :: L) w = cntWL es L w + (if (es i).w = w then 1 else 0) := by
        simp [cntWL, List.countP_cons]
      rw [hcnt]
      simp only [List.count_append] at a2
      omega
    · intro v
      have a1 := h1.act v
      have a2 := h2.2.2.2.2.2.2.1 v
      simp only at a2
      omega
    · have a1 := h1.actAll
      have a2 := h2.2.2.2.2.2.2.2
      simp only at a2
      omega

theorem incRefF_spec [DecidableEq W] (C : UCfg) (f : Nat) : ∀ (t : UTable W n) (e : Edge W), Closed t →
    (∀ b, e.p = some b → b ∈ t.all ∧ (t.mem b).v < f) →
      IncSpec C t e (incRefF C f t e).1 (incRefF C f t e).2 := by
  induction f with
  | zero =>
    intro t e hc hb
    cases hp : e.p with
    | some b => exact absurd (hb b hp).2 (Nat.not_lt_zero _)
    | none =>
      unfold incRefF; rw [hp]
      refine ⟨SameShape.refl _, fun _ => le_refl _, fun _ h => h, fun h => h, ?_, ?_, ?_, ?_⟩
      · intro p q h; simpa [dlt, hp] using h
      · intro w; simp [List.count_cons]; omega
      · intro v; rfl
      · rfl
  | succ f ih =>
    intro t e hc hb
    cases hp : e.p with
    | none =>
      unfold incRefF; rw [hp]
      refine ⟨SameShape.refl _, fun _ => le_refl _, fun _ h => h, fun h => h, ?_, ?_, ?_, ?_⟩
      · intro p q h; simpa [dlt, hp] using h
      · intro w; simp [List.count_cons]; omega
      · intro v; rfl
      · rfl
    | some a =>
      obtain ⟨ha, hlv⟩ := hb a hp
      unfold incRefF; rw [hp]
      dsimp only
      by_cases hmax : (t.mem a).ref = C.maxRef
      · rw [if_pos hmax]
        refine ⟨SameShape.refl _, fun _ => le_refl _, fun _ h => h, fun h => h, ?_, ?_, ?_, ?_⟩
        · intro p q h b hbm
          rcases h b hbm with h1 | h1
          · exact Or.inl h1
          · by_cases hba : b = a
            · left; rw [hba]; exact hmax
            · right
              have : dlt e b = 0 := by simp [dlt, hp, Ne.symm hba]
              simpa [this] using h1
        · intro w; simp [List.count_cons]; omega
        · intro v; rfl
        · rfl
      · rw [if_neg hmax]
        by_cases h0 : (t.mem a).ref = 0
        · -- first reference
          rw [if_pos (by omega)]
          dsimp only
          have hs1 := t.setRef_shape ha ((t.mem a).ref + 1)
          set t1 := t.setRef a ((t.mem a).ref + 1) with ht1
          have hc1 := hs1.closed hc
          have hb1 : ∀ i b, ((t.mem a).e i).p = some b → b ∈ t1.all ∧ (t1.mem b).v < f := by
            intro i b hib
            rw [hs1.all, hs1.v]
            have := hc a ha i b hib
            exact ⟨this.1, by omega⟩
          have hf := incFold_spec C f (t.mem a).e ih (List.finRange n) (t1, [e.w]) hc1 hb1 _ rfl
          set r := (List.finRange n).foldl (fun (s : UTable W n × List W) i =>
                let r := incRefF C f s.1 ((t.mem a).e i)
                (r.1, s.2 ++ r.2)) (t1, [e.w]) with hr
          obtain ⟨hs2, hm2, hsat2, hle2, hg2, hw2, ha2, hA2⟩ := hf
          have hpar : ∀ c, t1.par c = t.par c + cntL (t.mem a).e (List.finRange n) c := fun c =>
            t.sum_setRef_up ha h0 _ (by omega) (fun _ es _ => cntL es (List.finRange n) c)
          have hparW : ∀ w, t1.parW w = t.parW w + cntWL (t.mem a).e (List.finRange n) w := fun w =>
            t.sum_setRef_up ha h0 _ (by omega) (fun _ es _ => cntWL es (List.finRange n) w)
          have hact : ∀ v, t1.act v = t.act v + (if (t.mem a).v = v then 1 else 0) := fun v =>
            t.sum_setRef_up ha h0 _ (by omega) (fun _ _ u => if u = v then 1 else 0)
          have hactA : t1.actAll = t.actAll + 1 :=
            t.sum_setRef_up ha h0 _ (by omega) (fun _ _ _ => 1)
          have hs : SameShape t r.1 := hs1.trans hs2
          refine ⟨⟨hs.nvars, hs.nbucket, hs.chain, hs.brk, hs.allocations, hs.allocationSize, hs.avail, hs.nodeCount,
            hs.v, hs.e, hs.ident, hs.symm, hs.ref⟩, ?_, ?_, ?_, ?_, ?_, ?_, ?_⟩
          · intro b
            refine le_trans ?_ (hm2 b)
            rw [ht1, setRef_mem_ref]; split
            · rename_i hba; subst hba; omega
            · exact le_refl _
          · intro b hbm
            apply hsat2
            show (t1.mem b).ref = _
            rw [ht1, setRef_mem_ref]; split
            · rename_i hba; subst hba; exact absurd hbm hmax
            · exact hbm
          · intro hle
            apply hle2
            intro b
            show (t1.mem b).ref ≤ _
            rw [ht1, setRef_mem_ref]; split
            · have := hle a; omega
            · exact hle b
          · intro p q h
            apply hg2 p q
            intro b hbm
            rw [hs1.all] at hbm
            rw [hpar]
            have hrb : (t1.mem b).ref = if b = a then (t.mem a).ref + 1 else (t.mem b).ref := by
              rw [ht1, setRef_mem_ref]
            rcases h b hbm with h1 | h1
            · by_cases hba : b = a
              · subst hba; exact absurd h1 hmax
              · left; rw [hrb, if_neg hba]; exact h1
            · right
              rw [hrb]
              by_cases hba : b = a
              · subst hba
                have : dlt e b = 1 := by simp [dlt, hp]
                rw [if_pos rfl]
                simp only [this] at h1
                beta_reduce
                omega
              · have : dlt e b = 0 := by simp [dlt, hp, Ne.symm hba]
                rw [if_neg hba]
                simp only [this] at h1
                beta_reduce
                omega
          · intro w
            have := hw2 w
            rw [hparW] at this
            simp only [List.count_cons, List.count_nil] at this
            show r.2.count w + t.parW w = r.1.parW w + _
            simp only [beq_iff_eq] at this
            omega
          · intro v
            have := ha2 v
            simp only [hact] at this
            show (Function.update r.1.active (t.mem a).v (r.1.active (t.mem a).v + 1)) v + t.act v =
              t.active v + r.1.act v
            have hta : t1.active = t.active := rfl
            rw [hta] at this
            by_cases hv : v = (t.mem a).v
            · subst hv
              simp only [if_true, Function.update_self] at this ⊢
              omega
            · rw [Function.update_of_ne hv]
              rw [if_neg (Ne.symm hv)] at this
              omega
          · have := hA2
            simp only [hactA] at this
            show r.1.activeNodeCount + 1 + t.actAll = t.activeNodeCount + r.1.actAll
            have hta : t1.activeNodeCount = t.activeNodeCount := rfl
            rw [hta] at this
            omega
        · rw [if_neg (by omega)]
          have hs1 := t.setRef_shape ha ((t.mem a).ref + 1)
          have hpos : 0 < (t.mem a).ref := by omega
          have hpar : ∀ c, (t.setRef a ((t.mem a).ref + 1)).par c = t.par c := fun c =>
            t.sum_setRef_same ha hpos _ (by omega) (fun _ es _ => cntL es (List.finRange n) c)
          have hparW : ∀ w, (t.setRef a ((t.mem a).ref + 1)).parW w = t.parW w := fun w =>
            t.sum_setRef_same ha hpos _ (by omega) (fun _ es _ => cntWL es (List.finRange n) w)
          have hact : ∀ v, (t.setRef a ((t.mem a).ref + 1)).act v = t.act v := fun v =>
            t.sum_setRef_same ha hpos _ (by omega) (fun _ _ u => if u = v then 1 else 0)
          have hactA : (t.setRef a ((t.mem a).ref + 1)).actAll = t.actAll :=
            t.sum_setRef_same ha hpos _ (by omega) (fun _ _ _ => 1)
          refine ⟨hs1, ?_, ?_, ?_, ?_, ?_, ?_, ?_⟩
          · intro b
            rw [setRef_mem_ref]; split
            · rename_i hba; subst hba; omega
            · exact le_refl _
          · intro b hbm
            rw [setRef_mem_ref]; split
            · rename_i hba; subst hba; exact absurd hbm hmax
            · exact hbm
          · intro hle b
            rw [setRef_mem_ref]; split
            · have := hle a; omega
            · exact hle b
          · intro p q h b hbm
            rw [hs1.all] at hbm
            rw [hpar, setRef_mem_ref]
            rcases h b hbm with h1 | h1
            · by_cases hba : b = a
              · subst hba; exact absurd h1 hmax
              · left; rw [if_neg hba]; exact h1
            · right
              by_cases hba : b = a
              · subst hba
                have : dlt e b = 1 := by simp [dlt, hp]
                rw [if_pos rfl]
                simp only [this] at h1
                beta_reduce
                omega
              · have : dlt e b = 0 := by simp [dlt, hp, Ne.symm hba]
                rw [if_neg hba]
                simp only [this] at h1
                beta_reduce
                omega
          · intro w
            rw [hparW]
            simp [List.count_cons]; omega
          · intro v; rw [hact]; rfl
          · rw [hactA]; rfl

/-! ### `decRef` -/

/-- What `decRefF` guarantees when the reference being given up is accounted for. -/
structure DecSpec [DecidableEq W] (C : UCfg) (t : UTable W n) (e : Edge W) (p q : Nat → Nat) (pa : Nat → Nat) (pA : Nat)
    (t' : UTable W n) (ws : List W) : Prop where
  shape : SameShape t t'
  mono : ∀ a, (t'.mem a).ref ≤ (t.mem a).ref
  ginv : GInv C t' p q
  weights : ∀ w, ws.count w + t'.parW w = t.parW w + (if e.w = w then 1 else 0)
  act : ∀ v, t'.active v = t'.act v + pa v
  actAll : t'.activeNodeCount = t'.actAll + pA

theorem decFold_spec [DecidableEq W] (C : UCfg) (f : Nat) (es : Fin n → Edge W)
    (ih : ∀ (t : UTable W n) (e : Edge W) (p q pa : Nat → Nat) (pA : Nat), Closed t →
      (∀ b, e.p = some b → b ∈ t.all ∧ (t.mem b).v < f) →
      (∀ a, p a = 0) → GInv C t p (fun a => q a + dlt e a) → (∀ v, t.active v = t.act v + pa v) →
      t.activeNodeCount = t.actAll + pA →
      ∃ r, decRefF C f t e = some r ∧ DecSpec C t e p q pa pA r.1 r.2)
    (p pa : Nat → Nat) (pA : Nat) (hp : ∀ a, p a = 0)
    (L : List (Fin n)) : ∀ (q : Nat → Nat) (s : UTable W n × List W), Closed s.1 →
      (∀ i b, (es i).p = some b → b ∈ s.1.all ∧ (s.1.mem b).v < f) →
      GInv C s.1 p (fun a => q a + cntL es L a) → (∀ v, s.1.active v = s.1.act v + pa v) →
      s.1.activeNodeCount = s.1.actAll + pA →
      ∃ r, L.foldl (fun (s : Option (UTable W n × List W)) i => s.bind fun s =>
                (decRefF C f s.1 (es i)).map fun r => (r.1, s.2 ++ r.2)) (some s) = some r ∧
      SameShape s.1 r.1 ∧ (∀ a, (r.1.mem a).ref ≤ (s.1.mem a).ref) ∧
      GInv C r.1 p q ∧
      (∀ w, r.2.count w + r.1.parW w = s.1.parW w + s.2.count w + cntWL es L w) ∧
      (∀ v, r.1.active v = r.1.act v + pa v) ∧ r.1.activeNodeCount = r.1.actAll + pA := by
  induction L with
  | nil =>
    intro q s hc hb hg hA hAA
    refine ⟨s, rfl, SameShape.refl _, fun _ => le_refl _, ?_, ?_, hA, hAA⟩
    · simpa [cntL] using hg
    · intro w; simp [cntWL]; omega
  | cons i L IH =>
    intro q s hc hb hg hA hAA
    have hcnt : ∀ a, cntL es (i :: L) a = cntL es L a + dlt (es i) a := by
      intro a; simp [cntL, dlt, List.countP_cons]
    obtain ⟨r1, hr1, h1⟩ := ih s.1 (es i) p (fun a => q a + cntL es L a) pa pA hc (hb i) hp
      (by
        intro a ha
        have := hg a ha
        beta_reduce at this
        rw [hcnt] at this
        simpa [add_assoc] using this) hA hAA
    have hc1 := h1.shape.closed hc
    have hb1 : ∀ j b, (es j).p = some b → b ∈ r1.1.all ∧ (r1.1.mem b).v < f := by
      intro j b hj
      rw [h1.shape.all, h1.shape.v]
      exact hb j b hj
    obtain ⟨r, hr, h2⟩ := IH q (r1.1, s.2 ++ r1.2) hc1 hb1 h1.ginv h1.act h1.actAll
    refine ⟨r, ?_, h1.shape.trans h2.1, fun a => (h2.2.1 a).trans (h1.mono a), h2.2.2.1, ?_, h2.2.2.2.2⟩
    · simp only [List.foldl_cons, Option.bind_some, hr1, Option.map_some]
      exact hr
    · intro w
      have a1 := h1.weights w
      have a2 := h2.2.2.2.1 w
      have hcntw : cntWL es (i :: L) w = cntWL es L w + (if (es i).w = w then 1 else 0) := by
        simp [cntWL, List.countP_cons]
      rw [hcntw]
      simp only [List.count_append] at a2
      omega

theorem decRefF_spec [DecidableEq W] (C : UCfg) (hC : 0 < C.maxRef) (f : Nat) :
    ∀ (t : UTable W n) (e : Edge W) (p q pa : Nat → Nat) (pA : Nat), Closed t →
      (∀ b, e.p = some b → b ∈ t.all ∧ (t.mem b).v < f) →
      (∀ a, p a = 0) → GInv C t p (fun a => q a + dlt e a) → (∀ v, t.active v = t.act v + pa v) →
      t.activeNodeCount = t.actAll + pA →
      ∃ r, decRefF C f t e = some r ∧ DecSpec C t e p q pa pA r.1 r.2 := by
  induction f with
  | zero =>
    intro t e p q pa pA hc hb hp0 hg hA hAA
    cases hp : e.p with
    | some b => exact absurd (hb b hp).2 (Nat.not_lt_zero _)
    | none =>
      unfold decRefF; rw [hp]
      refine ⟨_, rfl, SameShape.refl _, fun _ => le_refl _, ?_, ?_, hA, hAA⟩
      · simpa [dlt, hp] using hg
      · intro w; simp [List.count_cons]; omega
  | succ f ih =>
    intro t e p q pa pA hc hb hp0 hg hA hAA
    cases hp : e.p with
    | none =>
      unfold decRefF; rw [hp]
      refine ⟨_, rfl, SameShape.refl _, fun _ => le_refl _, ?_, ?_, hA, hAA⟩
      · simpa [dlt, hp] using hg
      · intro w; simp [List.count_cons]; omega
    | some a =>
      obtain ⟨ha, hlv⟩ := hb a hp
      unfold decRefF; rw [hp]
      dsimp only
      by_cases hmax : (t.mem a).ref = C.maxRef
      · rw [if_pos hmax]
        refine ⟨_, rfl, SameShape.refl _, fun _ => le_refl _, ?_, ?_, hA, hAA⟩
        · intro b hbm
          rcases hg b hbm with h1 | h1
          · exact Or.inl h1
          · by_cases hba : b = a
            · left; rw [hba]; exact hmax
            · right
              have : dlt e b = 0 := by simp [dlt, hp, Ne.symm hba]
              simpa [this] using h1
        · intro w; simp [List.count_cons]; omega
      · have hda : dlt e a = 1 := by simp [dlt, hp]
        have hga : (t.mem a).ref + p a = q a + dlt e a + t.par a := (hg a ha).resolve_left hmax
        have hpos : 0 < (t.mem a).ref := by have := hp0 a; omega
        rw [if_neg hmax, if_neg (by omega)]
        by_cases h0 : (t.mem a).ref = 1
        · -- last reference
          rw [if_pos (by omega)]
          have h10 : (t.mem a).ref - 1 = 0 := by omega
          rw [h10]
          have hs1 := t.setRef_shape ha 0
          set t1 := t.setRef a 0 with ht1
          have hc1 := hs1.closed hc
          have hb1 : ∀ i b, ((t.mem a).e i).p = some b → b ∈ t1.all ∧ (t1.mem b).v < f := by
            intro i b hib
            rw [hs1.all, hs1.v]
            have := hc a ha i b hib
            exact ⟨this.1, by omega⟩
          have hpar : ∀ c, t1.par c + cntL (t.mem a).e (List.finRange n) c = t.par c := fun c =>
            t.sum_setRef_down ha hpos (fun _ es _ => cntL es (List.finRange n) c)
          have hparW : ∀ w, t1.parW w + cntWL (t.mem a).e (List.finRange n) w = t.parW w := fun w =>
            t.sum_setRef_down ha hpos (fun _ es _ => cntWL es (List.finRange n) w)
          have hact : ∀ v, t1.act v + (if (t.mem a).v = v then 1 else 0) = t.act v := fun v =>
            t.sum_setRef_down ha hpos (fun _ _ u => if u = v then 1 else 0)
          have hactA : t1.actAll + 1 = t.actAll :=
            t.sum_setRef_down ha hpos (fun _ _ _ => 1)
          have hg1 : GInv C t1 p (fun c => q c + cntL (t.mem a).e (List.finRange n) c) := by
            intro b hbm
            rw [hs1.all] at hbm
            have hrb : (t1.mem b).ref = if b = a then 0 else (t.mem b).ref := by
              rw [ht1, setRef_mem_ref]
            have hpb := hpar b
            rcases hg b hbm with h1 | h1
            · by_cases hba : b = a
              · subst hba; exact absurd h1 hmax
              · left; rw [hrb, if_neg hba]; exact h1
            · right
              rw [hrb]
              by_cases hba : b = a
              · subst hba
                rw [if_pos rfl]
                beta_reduce; omega
              · have : dlt e b = 0 := by simp [dlt, hp, Ne.symm hba]
                rw [if_neg hba]
                simp only [this] at h1
                beta_reduce
                omega
          have hA1 : ∀ v, t1.active v = t1.act v + (pa v + if (t.mem a).v = v then 1 else 0) := by
            intro v
            have h1 := hA v
            have h2 := hact v
            have hta : t1.active = t.active := rfl
            rw [hta]; omega
          have hAA1 : t1.activeNodeCount = t1.actAll + (pA + 1) := by
            have hta : t1.activeNodeCount = t.activeNodeCount := rfl
            rw [hta]; omega
          obtain ⟨r, hr, hs2, hm2, hg2, hw2, ha2, hA2⟩ := decFold_spec C f (t.mem a).e ih p
            (fun v => pa v + if (t.mem a).v = v then 1 else 0) (pA + 1) hp0 (List.finRange n) q (t1, [e.w])
            hc1 hb1 hg1 hA1 hAA1
          rw [hr]
          refine ⟨_, rfl, ?_⟩
          have hs : SameShape t r.1 := hs1.trans hs2
          refine ⟨⟨hs.nvars, hs.nbucket, hs.chain, hs.brk, hs.allocations, hs.allocationSize, hs.avail, hs.nodeCount,
            hs.v, hs.e, hs.ident, hs.symm, hs.ref⟩, ?_, ?_, ?_, ?_, ?_⟩
          · intro b
            refine le_trans (hm2 b) ?_
            show (t1.mem b).ref ≤ _
            rw [ht1, setRef_mem_ref]; split
            · omega
            · exact le_refl _
          · exact hg2
          · intro w
            have := hw2 w
            have h3 := hparW w
            simp only [List.count_cons, List.count_nil, beq_iff_eq] at this
            show r.2.count w + r.1.parW w = t.parW w + _
            omega
          · intro v
            have := ha2 v
            show (Function.update r.1.active (t.mem a).v (r.1.active (t.mem a).v - 1)) v = r.1.act v + pa v
            by_cases hv : v = (t.mem a).v
            · subst hv
              simp only [if_true, Function.update_self] at this ⊢
              omega
            · rw [Function.update_of_ne hv]
              rw [if_neg (Ne.symm hv)] at this
              omega
          · show r.1.activeNodeCount - 1 = r.1.actAll + pA
            omega
        · rw [if_neg (by omega)]
          refine ⟨_, rfl, ?_⟩
          have hs1 := t.setRef_shape ha ((t.mem a).ref - 1)
          have hpar : ∀ c, (t.setRef a ((t.mem a).ref - 1)).par c = t.par c := fun c =>
            t.sum_setRef_same ha hpos _ (by omega) (fun _ es _ => cntL es (List.finRange n) c)
          have hparW : ∀ w, (t.setRef a ((t.mem a).ref - 1)).parW w = t.parW w := fun w =>
            t.sum_setRef_same ha hpos _ (by omega) (fun _ es _ => cntWL es (List.finRange n) w)
          have hact : ∀ v, (t.setRef a ((t.mem a).ref - 1)).act v = t.act v := fun v =>
            t.sum_setRef_same ha hpos _ (by omega) (fun _ _ u => if u = v then 1 else 0)
          have hactA : (t.setRef a ((t.mem a).ref - 1)).actAll = t.actAll :=
            t.sum_setRef_same ha hpos _ (by omega) (fun _ _ _ => 1)
          refine ⟨hs1, ?_, ?_, ?_, ?_, ?_⟩
          · intro b
            rw [setRef_mem_ref]; split
            · rename_i hba; subst hba; omega
            · exact le_refl _
          · intro b hbm
            rw [hs1.all] at hbm
            rw [hpar, setRef_mem_ref]
            rcases hg b hbm with h1 | h1
            · by_cases hba : b = a
              · subst hba; exact absurd h1 hmax
              · left; rw [if_neg hba]; exact h1
            · right
              by_cases hba : b = a
              · subst hba
                rw [if_pos rfl]
                omega
              · have : dlt e b = 0 := by simp [dlt, hp, Ne.symm hba]
                rw [if_neg hba]
                simp only [this] at h1
                beta_reduce
                omega
          · intro w
            rw [hparW]
            simp [List.count_cons]; omega
          · intro v; rw [hact]; exact hA v
          · rw [hactA]; exact hAA

end UTable
end DD
