import Verif.DensitySpec
import Verif.Props.C09
import Verif.Proofs.Read

/-! # Density matrix nodes: applying and reverting the flags, reading the matrix -/

namespace DD

variable {α R : Type} [DecidableEq α] [Field R]

namespace DNode

/-- What `applyDmChangesToNode` does to the node. -/
def applied (z : α) (f : DFlags) (n : DNode α) : DNode α :=
  if f.dm then
    if n.v ≤ -1 then n
    else if f.nonRed && !f.conj then { n with tmp := n.tmp.or f }
    else if !f.conj then { n with e := DMem.densEdges z n.e, tmp := n.tmp.or f }
    else { n with e := DMem.conjEdges z n.e, tmp := n.tmp.or f }
  else n

/-- What `revertDmChangesToNode` does to the node. -/
def reverted (z : α) (n : DNode α) : DNode α :=
  if n.tmp.dm then { n with e := DMem.revertEdges z n.tmp n.e, tmp := .none } else n

/-- The same node up to flags of the pointers to its successors that have been cleared. -/
structure Sim (n' n : DNode α) : Prop where
  v : n'.v = n.v
  tmp : n'.tmp = n.tmp
  rest : n'.rest = n.rest
  w : ∀ k, (n'.e k).w = (n.e k).w
  p : ∀ k, (n'.e k).p = (n.e k).p ∨ (n'.e k).p = (n.e k).p.align

theorem Sim.refl (n : DNode α) : n.Sim n := ⟨rfl, rfl, rfl, fun _ => rfl, fun _ => Or.inl rfl⟩

theorem Sim.addr {n' n : DNode α} (h : n'.Sim n) (k : Fin 4) : (n'.e k).p.addr = (n.e k).p.addr := by
  rcases h.p k with h | h <;> rw [h]; rfl

theorem Sim.trans {a b c : DNode α} (h : a.Sim b) (h2 : b.Sim c) : a.Sim c := by
  refine ⟨h.v.trans h2.v, h.tmp.trans h2.tmp, h.rest.trans h2.rest, fun k => (h.w k).trans (h2.w k), fun k => ?_⟩
  rcases h.p k with h | h
  · rw [h]; exact h2.p k
  · rw [h]
    rcases h2.p k with h | h
    · rw [h]; exact Or.inr rfl
    · rw [h]; exact Or.inr rfl

omit [DecidableEq α] in
theorem ext' {a b : DNode α} (hv : a.v = b.v) (ht : a.tmp = b.tmp) (hr : a.rest = b.rest) (he : ∀ k, a.e k = b.e k) : a = b := by
  cases a; cases b
  simp only at hv ht hr he
  subst hv ht hr
  congr
  funext k; exact he k

omit [DecidableEq α] in
theorem edge_ext {a b : DEdge α} (hp : a.p = b.p) (hw : a.w = b.w) : a = b := by
  cases a; cases b; simp only at hp hw; subst hp hw; rfl

end DNode

theorem CNum.conj_conj' {z : α} {c : CNum α} (h : c.i ≠ ⟨true, z⟩) : (c.conj z).conj z = c := by
  cases c
  simp only [CNum.conj] at h ⊢
  rw [TPtr.flip_flip h]

theorem CNum.conj_val {nv : α → R} {z : α} (hz : nv z = 0) (c : CNum α) : (c.conj z).val nv = (c.val nv).conj := by
  ext
  · rfl
  · simp only [CNum.val, CNum.conj, Cx.conj_im]; rw [TPtr.flip_val hz]

namespace DMem

theorem swap12_swap12 (k : Fin 4) : swap12 (swap12 k) = k := by fin_cases k <;> rfl

/-- The pointer `applyDmChangesToNode` leaves behind. -/
theorem apply_eq (z : α) (m : DMem α) (p : DPtr) :
    apply z m p = (Function.update m p.addr ((m p.addr).applied z p.f), if p.f.dm then p.align else p) := by
  unfold apply DNode.applied alignNode
  by_cases h : p.f.dm = true
  · simp only [h, if_true]
    split_ifs <;> simp [DPtr.align, DFlags.or, DFlags.none]
  · simp [h]

theorem revert_eq (z : α) (m : DMem α) (p : DPtr) :
    revert z m p = Function.update m p.addr ((m p.addr).reverted z) := by
  unfold revert DNode.reverted
  by_cases h : (m p.addr).tmp.dm = true
  · simp only [h, if_true]
  · simp only [h]; simp

theorem revertEdges_plain {z : α} {f : DFlags} (h : (f.nonRed && !f.conj) = true) (e : Fin 4 → DEdge α) (k : Fin 4) :
    revertEdges z f e k = ⟨(e k).p.align, (e k).w⟩ := by
  unfold revertEdges; rw [if_pos h]

theorem revertEdges_dens {z : α} {f : DFlags} (h : ¬ (f.nonRed && !f.conj) = true) (h2 : (!f.conj) = true) (e : Fin 4 → DEdge α)
    (k : Fin 4) : revertEdges z f e k = ⟨(e k).p.align, if k = 2 then (e k).w.conj z else (e k).w⟩ := by
  unfold revertEdges; rw [if_neg h, if_pos h2]; dsimp only; split_ifs <;> rfl

theorem revertEdges_conj {z : α} {f : DFlags} (h : ¬ (f.nonRed && !f.conj) = true) (h2 : ¬ (!f.conj) = true) (e : Fin 4 → DEdge α)
    (k : Fin 4) : revertEdges z f e k = ⟨(e (swap12 k)).p.align, (e (swap12 k)).w.conj z⟩ := by
  unfold revertEdges; rw [if_neg h, if_neg h2]

end DMem

/-- Reverting undoes applying, also if flags of pointers in the node have been cleared in between. -/
theorem DNode.reverted_applied {z : α} {f : DFlags} {n n' : DNode α} (hq : n.Quiet z) (hs : n'.Sim (n.applied z f)) :
    n'.reverted z = n := by
  have hal : ∀ k, (n.e k).p.align = (n.e k).p := by
    intro k
    have := hq.ptr k
    cases hp : (n.e k).p with
    | mk f a => rw [hp] at this; simp only at this; subst this; rfl
  have hor : n.tmp.or f = f := by rw [hq.tmp]; cases f; simp [DFlags.or, DFlags.none]
  have hsame : ∀ n'' : DNode α, n''.e = n.e → n'.Sim n'' → ∀ k, n'.e k = n.e k := by
    intro n'' he hs k
    refine DNode.edge_ext ?_ ?_
    · rcases hs.p k with h | h <;> rw [h, he]
      exact hal k
    · rw [hs.w k, he]
  unfold DNode.applied at hs
  by_cases hd : f.dm = true
  · rw [if_pos hd] at hs
    by_cases hv : n.v ≤ -1
    · rw [if_pos hv] at hs
      unfold DNode.reverted
      rw [if_neg (by rw [hs.tmp, hq.tmp]; simp [DFlags.none])]
      exact DNode.ext' hs.v hs.tmp hs.rest (hsame _ rfl hs)
    · rw [if_neg hv] at hs
      by_cases h1 : (f.nonRed && !f.conj) = true
      · rw [if_pos h1, hor] at hs
        unfold DNode.reverted
        rw [if_pos (by rw [hs.tmp]; exact hd)]
        refine DNode.ext' hs.v hq.tmp.symm hs.rest fun k => ?_
        have ht : n'.tmp = f := hs.tmp
        dsimp only
        rw [ht, DMem.revertEdges_plain h1, hsame { n with tmp := f } rfl hs k, hal]
      · rw [if_neg h1, hor] at hs
        by_cases h2 : (!f.conj) = true
        · rw [if_pos h2] at hs
          unfold DNode.reverted
          rw [if_pos (by rw [hs.tmp]; exact hd)]
          refine DNode.ext' hs.v hq.tmp.symm hs.rest fun k => ?_
          have ht : n'.tmp = f := hs.tmp
          dsimp only
          rw [ht, DMem.revertEdges_dens h1 h2]
          have hp : (n'.e k).p.align = (n.e k).p := by
            rw [← hal k]
            have := hs.addr k
            simp only [DMem.densEdges] at this
            simp only [DPtr.align, this]
          have hw : (n'.e k).w = if k = 2 then (n.e k).w.conj z else (n.e k).w := hs.w k
          refine DNode.edge_ext hp ?_
          dsimp only
          rw [hw]
          by_cases hk : k = 2
          · rw [if_pos hk, if_pos hk]
            exact CNum.conj_conj' (hq.neg k)
          · rw [if_neg hk, if_neg hk]
        · rw [if_neg h2] at hs
          unfold DNode.reverted
          rw [if_pos (by rw [hs.tmp]; exact hd)]
          refine DNode.ext' hs.v hq.tmp.symm hs.rest fun k => ?_
          have ht : n'.tmp = f := hs.tmp
          dsimp only
          rw [ht, DMem.revertEdges_conj h1 h2]
          have hp : (n'.e (DMem.swap12 k)).p.align = (n.e k).p := by
            rw [← hal k]
            have := hs.addr (DMem.swap12 k)
            simp only [DMem.conjEdges, DMem.swap12_swap12] at this
            simp only [DPtr.align, this]
          have hw : (n'.e (DMem.swap12 k)).w = (n.e k).w.conj z := by
            have := hs.w (DMem.swap12 k)
            simpa only [DMem.conjEdges, DMem.swap12_swap12] using this
          refine DNode.edge_ext hp ?_
          dsimp only
          rw [hw]
          exact CNum.conj_conj' (hq.neg k)
  · rw [if_neg hd] at hs
    unfold DNode.reverted
    rw [if_neg (by rw [hs.tmp, hq.tmp]; simp [DFlags.none])]
    exact DNode.ext' hs.v hs.tmp hs.rest (hsame _ rfl hs)

/-! ## Meaning -/

omit [DecidableEq α] in
/-- The meaning of a node depends only on the nodes at its level and below. -/
theorem plainN_congr {nv : α → R} {m m' : DMem α} {n : Int} (hc : ∀ a, (m a).v < n → a ≠ 0 → ∀ k, ((m a).e k).w.val nv ≠ 0 →
    (m ((m a).e k).p.addr).v = (m a).v - 1) (ht : (m 0).v = -1) (h : ∀ a, (m a).v < n → m' a = m a) :
    ∀ (l : Nat) (a : Nat), (m a).v = (l : Int) - 1 → (l : Int) - 1 < n → ∀ r c, plainN nv m' l a r c = plainN nv m l a r c := by
  intro l
  induction l with
  | zero => intros; rfl
  | succ l ih =>
    intro a hv hn r c
    have ha : m' a = m a := h a (by omega)
    have h0 : a ≠ 0 := by rintro rfl; omega
    simp only [plainN]
    rw [ha]
    by_cases hw : ((m a).e (rc (r (Fin.last l)) (c (Fin.last l)))).w.val nv = 0
    · rw [hw, zero_mul, zero_mul]
    · rw [ih _ (by have := hc a (by omega) h0 _ hw; push_cast at hv; omega) (by push_cast at hn; omega)]

omit [DecidableEq α] in
theorem densN_congr {nv : α → R} {m m' : DMem α} {n : Int} (hc : ∀ a, (m a).v < n → a ≠ 0 → ∀ k, ((m a).e k).w.val nv ≠ 0 →
    (m ((m a).e k).p.addr).v = (m a).v - 1) (ht : (m 0).v = -1) (h : ∀ a, (m a).v < n → m' a = m a) :
    ∀ (l : Nat) (a : Nat), (m a).v = (l : Int) - 1 → (l : Int) - 1 < n → ∀ r c, densN nv m' l a r c = densN nv m l a r c := by
  intro l
  induction l with
  | zero => intros; rfl
  | succ l ih =>
    intro a hv hn r c
    have ha : m' a = m a := h a (by omega)
    have h0 : a ≠ 0 := by rintro rfl; omega
    have hd : ∀ k, ((m a).e k).w.val nv ≠ 0 → (m ((m a).e k).p.addr).v = (l : Int) - 1 := by
      intro k hk; have := hc a (by omega) h0 k hk; push_cast at hv; omega
    have hl : (l : Int) - 1 < n := by push_cast at hn; omega
    have k1 : ∀ k, ((m a).e k).w.val nv * densN nv m' l ((m a).e k).p.addr (Fin.init r) (Fin.init c) =
        ((m a).e k).w.val nv * densN nv m l ((m a).e k).p.addr (Fin.init r) (Fin.init c) := by
      intro k
      by_cases hw : ((m a).e k).w.val nv = 0
      · rw [hw, zero_mul, zero_mul]
      · rw [ih _ (hd k hw) hl]
    have k2 : ∀ k, ((m a).e k).w.val nv * plainN nv m' l ((m a).e k).p.addr (Fin.init r) (Fin.init c) =
        ((m a).e k).w.val nv * plainN nv m l ((m a).e k).p.addr (Fin.init r) (Fin.init c) := by
      intro k
      by_cases hw : ((m a).e k).w.val nv = 0
      · rw [hw, zero_mul, zero_mul]
      · rw [plainN_congr hc ht h l _ (hd k hw) hl]
    have k3 : ∀ k, (((m a).e k).w.val nv).conj * conjN nv m' l ((m a).e k).p.addr (Fin.init r) (Fin.init c) =
        (((m a).e k).w.val nv).conj * conjN nv m l ((m a).e k).p.addr (Fin.init r) (Fin.init c) := by
      intro k
      by_cases hw : ((m a).e k).w.val nv = 0
      · rw [hw, Cx.conj_zero, zero_mul, zero_mul]
      · unfold conjN
        rw [plainN_congr hc ht h l _ (hd k hw) hl]
    simp only [densN]
    rw [ha, k1, k1, k2, k3]

omit [DecidableEq α] in
theorem semN_congr {nv : α → R} {m m' : DMem α} {n : Int} (hc : ∀ a, (m a).v < n → a ≠ 0 → ∀ k, ((m a).e k).w.val nv ≠ 0 →
    (m ((m a).e k).p.addr).v = (m a).v - 1) (ht : (m 0).v = -1) (h : ∀ a, (m a).v < n → m' a = m a) (f : DFlags)
    {l a : Nat} (hv : (m a).v = (l : Int) - 1) (hn : (l : Int) - 1 < n) (r c) : semN nv m' f l a r c = semN nv m f l a r c := by
  unfold semN conjN
  split_ifs
  · dsimp only; rw [plainN_congr hc ht h l a hv hn]
  · exact plainN_congr hc ht h l a hv hn r c
  · exact densN_congr hc ht h l a hv hn r c
  · exact plainN_congr hc ht h l a hv hn r c

/-- The matrix of a node whose pointers to successors carry flags. -/
def rawN (nv : α → R) (m : DMem α) : (l : Nat) → Nat → (Fin l → Fin 2) → (Fin l → Fin 2) → Cx R
  | 0, _, _, _ => 1
  | l + 1, a, r, c =>
    let x := (m a).e (rc (r (Fin.last l)) (c (Fin.last l)))
    x.w.val nv * semN nv m x.p.f l x.p.addr (Fin.init r) (Fin.init c)


/-- An unflagged pointer has no other flags either. -/
def DFlags.OK (f : DFlags) : Prop := f.dm = false → f = .none

theorem DNode.applied_v (z : α) (f : DFlags) (n : DNode α) : (n.applied z f).v = n.v := by
  unfold DNode.applied; split_ifs <;> rfl

theorem semN_plain {nv : α → R} {m : DMem α} {f : DFlags} (h : f.dm = true → (f.nonRed && !f.conj) = true) (l a : Nat) :
    semN nv m f l a = plainN nv m l a := by
  unfold semN
  by_cases hd : f.dm = true
  · have := h hd
    simp only [Bool.and_eq_true, Bool.not_eq_true'] at this
    simp [hd, this.1, this.2]
  · simp [hd]

theorem semN_dens {nv : α → R} {m : DMem α} {f : DFlags} (hd : f.dm = true) (h1 : f.nonRed = false) (h2 : f.conj = false) (l a : Nat) :
    semN nv m f l a = densN nv m l a := by
  unfold semN; simp [hd, h1, h2]

theorem semN_conj {nv : α → R} {m : DMem α} {f : DFlags} (hd : f.dm = true) (h2 : f.conj = true) (l a : Nat) :
    semN nv m f l a = conjN nv m l a := by
  unfold semN; simp [hd, h2]

/-- After the flags of a pointer have been applied, the node represents what the pointer referred to. -/
theorem rawN_applied {z : α} {nv : α → R} (hz : nv z = 0) {m m1 : DMem α} {l b : Nat} {f : DFlags} (hv : (m b).v = (l : Int) - 1)
    (ht : (m 0).v = -1) (hq : (m b).Quiet z)
    (hc : ∀ a, (m a).v < (l : Int) → a ≠ 0 → ∀ k, ((m a).e k).w.val nv ≠ 0 → (m ((m a).e k).p.addr).v = (m a).v - 1)
    (hb : m1 b = (m b).applied z f) (h : ∀ a, (m a).v < (l : Int) - 1 → m1 a = m a) (r c) :
    rawN nv m1 l b r c = semN nv m f l b r c := by
  cases l with
  | zero =>
    unfold rawN semN conjN
    split_ifs <;> first | rfl | (simp only [plainN]; exact Cx.conj_one.symm)
  | succ l =>
    have h0 : b ≠ 0 := by rintro rfl; omega
    have hcong : ∀ (g : DFlags) (k : Fin 4) r c, ((m b).e k).w.val nv ≠ 0 →
        semN nv m1 g l ((m b).e k).p.addr r c = semN nv m g l ((m b).e k).p.addr r c := by
      intro g k r c hk
      refine semN_congr (n := (l : Int)) (fun a ha => hc a (by push_cast; omega)) ht (fun a ha => h a (by push_cast; omega)) g ?_ (by omega) r c
      have := hc b (by omega) h0 k hk
      push_cast at hv; omega
    have hcw : ∀ (g : DFlags) (k : Fin 4) r c (w : Cx R), (((m b).e k).w.val nv = 0 → w = 0) →
        w * semN nv m1 g l ((m b).e k).p.addr r c = w * semN nv m g l ((m b).e k).p.addr r c := by
      intro g k r c w hw
      by_cases hk : ((m b).e k).w.val nv = 0
      · rw [hw hk, zero_mul, zero_mul]
      · rw [hcong g k r c hk]
    have hnv : ¬ (m b).v ≤ -1 := by push_cast at hv; omega
    unfold rawN
    dsimp only
    unfold DNode.applied at hb
    by_cases hd : f.dm = true
    · rw [if_pos hd, if_neg hnv] at hb
      by_cases h1 : (f.nonRed && !f.conj) = true
      · rw [if_pos h1] at hb
        rw [semN_plain (fun _ => h1), hb]
        dsimp only
        rw [hcw _ _ _ _ _ id, hq.ptr, semN_plain (by simp [DFlags.none])]
        rfl
      · rw [if_neg h1] at hb
        by_cases h2 : (!f.conj) = true
        · rw [if_pos h2] at hb
          have h2' : f.conj = false := by simpa using h2
          rw [semN_dens hd (by simpa [h2'] using h1) h2', hb]
          simp only [DMem.densEdges]
          have hp : ∀ k, ((m b).e k).p.f.conj = false ∧ ((m b).e k).p.f.nonRed = false := fun k => by
            rw [hq.ptr k]; exact ⟨rfl, rfl⟩
          rw [hcw _ _ _ _ _ (by intro h; split_ifs <;> simp [CNum.conj_val hz, h])]
          unfold densN
          dsimp only
          have hr : r (Fin.last l) = 0 ∨ r (Fin.last l) = 1 := by generalize r (Fin.last l) = x; fin_cases x <;> simp
          have hcc : c (Fin.last l) = 0 ∨ c (Fin.last l) = 1 := by generalize c (Fin.last l) = x; fin_cases x <;> simp
          rcases hr with hr | hr <;> rcases hcc with hcc | hcc <;> rw [hr, hcc]
          · rw [show rc 0 0 = 0 from rfl, (hp 0).1, (hp 0).2, semN_dens rfl rfl rfl]
            simp
          · rw [show rc 0 1 = 1 from rfl, (hp 1).1, (hp 1).2, semN_plain (by simp)]
            simp
          · rw [show rc 1 0 = 2 from rfl, (hp 2).1, (hp 2).2, semN_conj rfl rfl]
            simp [CNum.conj_val hz]
          · rw [show rc 1 1 = 3 from rfl, (hp 3).1, (hp 3).2, semN_dens rfl rfl rfl]
            simp
        · rw [if_neg h2] at hb
          have h2' : f.conj = true := by simpa using h2
          rw [semN_conj hd h2', hb]
          simp only [DMem.conjEdges]
          rw [hcw _ _ _ _ _ (by intro h; simp [CNum.conj_val hz, h]), semN_conj rfl rfl]
          unfold conjN
          simp only [plainN]
          have hsw : ∀ x y : Fin 2, DMem.swap12 (rc x y) = rc y x := by decide
          rw [hsw, Cx.conj_mul, CNum.conj_val hz]
    · rw [if_neg hd] at hb
      rw [semN_plain (fun h => absurd h hd), hb, hcw _ _ _ _ _ id, hq.ptr, semN_plain (by simp [DFlags.none])]
      rfl


/-! ## Reading the matrix -/

/-- The state in which the recursive `getDensityMatrix` visits the node at `a`: everything below is at rest. -/
structure DPre (z : α) (nv : α → R) (l : Nat) (m : DMem α) (a : Nat) : Prop where
  zero : nv z = 0
  term : (m 0).v = -1
  inner : ∀ b, b ≠ 0 → 0 ≤ (m b).v
  v : (m a).v = (l : Int) - 1
  low : ∀ b, (m b).v < (l : Int) - 1 → (m b).Quiet z
  child : ∀ b, (m b).v < (l : Int) - 1 → b ≠ 0 → ∀ k, ((m b).e k).w.val nv ≠ 0 → (m ((m b).e k).p.addr).v = (m b).v - 1
  ptr : a ≠ 0 → ∀ k, ((m a).e k).p.f.OK
  own : a ≠ 0 → ∀ k, ((m a).e k).w.val nv ≠ 0 → (m ((m a).e k).p.addr).v = (l : Int) - 2

/-- What the recursive `getDensityMatrix` does. -/
def DRes (nv : α → R) (l : Nat) (m : DMem α) (a : Nat) (w am : Cx R) (p q : Nat) (M : Nat → Nat → Cx R)
    (res : DMem α × (Nat → Nat → Cx R)) : Prop :=
  (∃ n', res.1 = Function.update m a n' ∧ n'.Sim (m a)) ∧ ∀ i j, res.2 i j =
    if i / 2 ^ l = p ∧ j / 2 ^ l = q then am * (w * rawN nv m l a (bitsOf l (i % 2 ^ l)) (bitsOf l (j % 2 ^ l))) else M i j

theorem DFlags.none_ok : DFlags.none.OK := fun _ => rfl

theorem DPre.sim {z : α} {nv : α → R} {l : Nat} {m : DMem α} {a : Nat} (h : DPre z nv l m a) {n' : DNode α} (hs : n'.Sim (m a)) :
    DPre z nv l (Function.update m a n') a := by
  have hv : ∀ b, (Function.update m a n' b).v = (m b).v := by
    intro b
    by_cases hb : b = a
    · subst hb; simp [hs.v]
    · simp [hb]
  have hlow : ∀ b, (m b).v < (l : Int) - 1 → Function.update m a n' b = m b := by
    intro b hb
    have : b ≠ a := by rintro rfl; have := h.v; omega
    simp [this]
  refine ⟨h.zero, by rw [hv]; exact h.term, fun b hb => by rw [hv]; exact h.inner b hb, by rw [hv]; exact h.v, ?_, ?_, ?_, ?_⟩
  · intro b hb
    rw [hv] at hb
    rw [hlow b hb]; exact h.low b hb
  · intro b hb h0 k hk
    rw [hv] at hb
    rw [hlow b hb] at hk ⊢
    rw [hv]
    exact h.child b hb h0 k hk
  · intro h0 k
    simp only [Function.update_self]
    rcases hs.p k with hp | hp <;> rw [hp]
    · exact h.ptr h0 k
    · exact DFlags.none_ok
  · intro h0 k hk
    simp only [Function.update_self] at hk ⊢
    rw [hv, hs.addr]
    rw [hs.w] at hk
    exact h.own h0 k hk

theorem DPre.apply {z : α} {nv : α → R} {l : Nat} {m : DMem α} {a : Nat} (h : DPre z nv (l + 1) m a) (ha : a ≠ 0) {k : Fin 4}
    (hk : ((m a).e k).w.val nv ≠ 0) {m1 : DMem α} {b : Nat} {f : DFlags} (hb : b = ((m a).e k).p.addr)
    (h1 : m1 b = (m b).applied z f) (hva : (m1 a).v = (m a).v) (h2 : ∀ c, c ≠ a → c ≠ b → m1 c = m c) : DPre z nv l m1 b := by
  have hvb : (m b).v = (l : Int) - 1 := by
    have := h.own ha k hk
    rw [hb]; push_cast at this; omega
  have hav : (m a).v = (l : Int) := by have := h.v; push_cast at this; omega
  have hv : ∀ c, (m1 c).v = (m c).v := by
    intro c
    by_cases hc : c = b
    · subst hc; rw [h1, DNode.applied_v]
    · by_cases hca : c = a
      · subst hca; exact hva
      · rw [h2 c hca hc]
  have hlow : ∀ c, (m c).v < (l : Int) - 1 → m1 c = m c := by
    intro c hc
    refine h2 c ?_ ?_ <;> rintro rfl <;> omega
  have hqb : (m b).Quiet z := h.low b (by push_cast; omega)
  refine ⟨h.zero, by rw [hv]; exact h.term, fun b hb => by rw [hv]; exact h.inner b hb, by rw [hv]; exact hvb, ?_, ?_, ?_, ?_⟩
  · intro c hc
    rw [hv] at hc
    rw [hlow c hc]; exact h.low c (by push_cast; omega)
  · intro c hc h0 k hk
    rw [hv] at hc
    rw [hlow c hc] at hk ⊢
    rw [hv]
    exact h.child c (by push_cast; omega) h0 k hk
  · intro h0 k
    rw [h1]
    unfold DNode.applied
    split_ifs
    · rw [hqb.ptr]; exact DFlags.none_ok
    · dsimp only; rw [hqb.ptr]; exact DFlags.none_ok
    · intro hd; simp [DMem.densEdges] at hd
    · intro hd; simp [DMem.conjEdges] at hd
    · rw [hqb.ptr]; exact DFlags.none_ok
  · intro h0 k hk
    have hch : ∀ k, ((m b).e k).w.val nv ≠ 0 → (m ((m b).e k).p.addr).v = (l : Int) - 2 := by
      intro k hk
      have := h.child b (by push_cast; omega) h0 k hk
      omega
    rw [hv]
    rw [h1] at hk ⊢
    revert hk
    unfold DNode.applied
    have hcv : ∀ c : CNum α, (c.conj z).val nv ≠ 0 → c.val nv ≠ 0 := by
      intro c hc h0; rw [CNum.conj_val h.zero, h0, Cx.conj_zero] at hc; exact hc rfl
    split_ifs
    · exact hch k
    · exact hch k
    · intro hk
      simp only [DMem.densEdges] at hk ⊢
      refine hch k ?_
      split_ifs at hk
      · exact hcv _ hk
      · exact hk
    · intro hk
      simp only [DMem.conjEdges] at hk ⊢
      exact hch _ (hcv _ hk)
    · exact hch k

/-- One of the four blocks. -/
theorem block_spec [DecidableEq R] {z : α} {nv : α → R} {l : Nat} {m : DMem α} {a : Nat} (h : DPre z nv (l + 1) m a) (ha : a ≠ 0) (k : Fin 4)
    {c : Cx R} {p q : Nat} {M : Nat → Nat → Cx R} (hM : ∀ i j, i / 2 ^ l = p → j / 2 ^ l = q → M i j = 0)
    {descend : DMem α → Nat → Cx R → (Nat → Nat → Cx R) → DMem α × (Nat → Nat → Cx R)}
    (ih : ∀ m b w, DPre z nv l m b → DRes nv l m b w c p q M (descend m b w M)) :
    (∃ n', (DMem.block z nv descend a k (m, M)).1 = Function.update m a n' ∧ n'.Sim (m a) ∧ ∀ j, j ≠ k → n'.e j = (m a).e j) ∧
    ∀ i j, (DMem.block z nv descend a k (m, M)).2 i j = if i / 2 ^ l = p ∧ j / 2 ^ l = q then
      c * (((m a).e k).w.val nv * semN nv m ((m a).e k).p.f l ((m a).e k).p.addr (bitsOf l (i % 2 ^ l)) (bitsOf l (j % 2 ^ l)))
      else M i j := by
  unfold DMem.block
  dsimp only
  by_cases hw : ((m a).e k).w.val nv = 0
  · rw [if_pos hw]
    refine ⟨⟨m a, by simp, .refl _, fun _ _ => rfl⟩, ?_⟩
    intro i j
    by_cases hij : i / 2 ^ l = p ∧ j / 2 ^ l = q
    · rw [if_pos hij, hw, zero_mul, mul_zero]; exact hM i j hij.1 hij.2
    · rw [if_neg hij]
  · rw [if_neg hw]
    set x := (m a).e k with hx
    have hptr : (if x.p.f.dm then x.p.align else x.p) = x.p.align := by
      by_cases hd : x.p.f.dm = true
      · rw [if_pos hd]
      · rw [if_neg hd]
        have := h.ptr ha k (by simpa using hd)
        rw [← hx] at this
        cases hp : x.p with
        | mk f b => rw [hp] at this; simp only at this; subst this; rfl
    rw [DMem.apply_eq, hptr]
    dsimp only
    have hal : x.p.align.addr = x.p.addr := rfl
    rw [hal]
    set b := x.p.addr with hb
    have hvb : (m b).v = (l : Int) - 1 := by
      have := h.own ha k hw
      rw [← hx, ← hb] at this; push_cast at this; omega
    have hva : (m a).v = (l : Int) := by have := h.v; push_cast at this; omega
    have hab : a ≠ b := by intro e; rw [e] at hva; omega
    set n1 : DNode α := { m a with e := Function.update (m a).e k { (m a).e k with p := x.p.align } } with hn1
    have hm1 : DMem.setChild (Function.update m b ((m b).applied z x.p.f)) a k x.p.align =
        Function.update (Function.update m b ((m b).applied z x.p.f)) a n1 := by
      unfold DMem.setChild
      rw [Function.update_of_ne hab]
    rw [hm1]
    set m1 := Function.update (Function.update m b ((m b).applied z x.p.f)) a n1 with hm1d
    have e1 : m1 b = (m b).applied z x.p.f := by rw [hm1d, Function.update_of_ne hab.symm, Function.update_self]
    have e2 : m1 a = n1 := by rw [hm1d, Function.update_self]
    have e3 : ∀ c, c ≠ a → c ≠ b → m1 c = m c := by
      intro c hca hcb; rw [hm1d, Function.update_of_ne hca, Function.update_of_ne hcb]
    have hpre : DPre z nv l m1 b := h.apply ha hw (by rw [hb, hx]) e1 (by rw [e2]) e3
    obtain ⟨⟨n', r1, r2⟩, r3⟩ := ih m1 b (x.w.val nv) hpre
    have hqb : (m b).Quiet z := h.low b (by push_cast; omega)
    have sim1 : n1.Sim (m a) := by
      refine ⟨rfl, rfl, rfl, fun j => ?_, fun j => ?_⟩
      · by_cases hj : j = k
        · subst hj; simp [hn1]
        · simp [hn1, hj]
      · by_cases hj : j = k
        · subst hj; right; simp [hn1, hx]
        · left; simp [hn1, hj]
    constructor
    · refine ⟨n1, ?_, sim1, fun j hj => by simp [hn1, hj]⟩
      rw [DMem.revert_eq, r1]
      have : (Function.update m1 b n' a).e k = { (m a).e k with p := x.p.align } := by
        rw [Function.update_of_ne hab, e2]; simp [hn1]
      rw [this]
      dsimp only
      rw [hal]
      change Function.update (Function.update m1 b n') b _ = _
      rw [Function.update_self, Function.update_idem, DNode.reverted_applied hqb (by rw [← e1]; exact r2), hm1d,
        Function.update_comm hab, Function.update_idem, Function.update_eq_self]
    · intro i j
      rw [r3]
      by_cases hij : i / 2 ^ l = p ∧ j / 2 ^ l = q
      · rw [if_pos hij, if_pos hij]
        rw [rawN_applied h.zero hvb h.term hqb (fun c hc => h.child c (by push_cast; omega)) e1 (fun c hc => e3 c ?_ ?_)]
        · rintro rfl; omega
        · rintro rfl; omega
      · rw [if_neg hij, if_neg hij]


/-- What the recursive `getDensityMatrix` does to the memory and writes. -/
theorem getF_spec [DecidableEq R] {z : α} {nv : α → R} : ∀ (l : Nat) (m : DMem α) (a : Nat) (w am : Cx R) (p q : Nat) (M : Nat → Nat → Cx R),
    DPre z nv l m a → (∀ i j, i / 2 ^ l = p → j / 2 ^ l = q → M i j = 0) →
    DRes nv l m a w am p q M (DMem.getF z nv l m a w am (p * 2 ^ l) (q * 2 ^ l) M) := by
  intro l
  induction l with
  | zero =>
    intro m a w am p q M h hz
    refine ⟨⟨m a, by simp [DMem.getF], .refl _⟩, ?_⟩
    intro i j
    simp only [DMem.getF, rawN, pow_zero, mul_one, Nat.div_one, Function.update_apply]
    by_cases h : i = p
    · subst h
      by_cases h2 : j = q
      · subst h2; simp [mul_comm]
      · simp [h2]
    · simp [h]
  | succ l ih =>
    intro m a w am p q M h hz
    have ha : a ≠ 0 := by rintro rfl; have := h.v; rw [h.term] at this; push_cast at this; omega
    have hva : (m a).v.toNat = l := by have := h.v; push_cast at this; omega
    unfold DMem.getF
    dsimp only
    rw [if_neg ha, hva, or_pow, or_pow]
    have b0 : ∀ b, b * 2 ^ (l + 1) = (2 * b) * 2 ^ l := fun b => by rw [pow_succ]; ring
    have b1 : ∀ b, (2 * b) * 2 ^ l + 2 ^ l = (2 * b + 1) * 2 ^ l := fun b => by ring
    rw [b0, b0, b1, b1]
    have hdiv : ∀ j, j / 2 ^ (l + 1) = j / 2 ^ l / 2 := fun j => by rw [pow_succ, Nat.div_div_eq_div_mul]
    have z0 : ∀ i j, i / 2 ^ l / 2 = p → j / 2 ^ l / 2 = q → M i j = 0 :=
      fun i j h1 h2 => hz i j (by rw [hdiv]; exact h1) (by rw [hdiv]; exact h2)
    have zz0 : ∀ i j, i / 2 ^ l = 2 * p → j / 2 ^ l = 2 * q → M i j = 0 := fun i j h1 h2 => z0 i j (by omega) (by omega)
    -- first block
    obtain ⟨⟨n0, q0, s0, o0⟩, k0⟩ := block_spec h ha 0 (c := w * am) (p := 2 * p) (q := 2 * q) (M := M) zz0
      (descend := fun m b w' M => DMem.getF z nv l m b w' (w * am) (2 * p * 2 ^ l) (2 * q * 2 ^ l) M)
      (fun m b w' hp => ih m b w' _ _ _ M hp zz0)
    set t0 := DMem.block z nv (fun m b w' M => DMem.getF z nv l m b w' (w * am) (2 * p * 2 ^ l) (2 * q * 2 ^ l) M) a 0 (m, M)
    have t0e : t0 = (t0.1, t0.2) := rfl
    have h0 : DPre z nv (l + 1) t0.1 a := by rw [q0]; exact h.sim s0
    have a0 : t0.1 a = n0 := by rw [q0, Function.update_self]
    have zz1 : ∀ i j, i / 2 ^ l = 2 * p → j / 2 ^ l = 2 * q + 1 → t0.2 i j = 0 := fun i j h1 h2 => by
      rw [k0, if_neg (by omega)]; exact z0 i j (by omega) (by omega)
    -- second block
    obtain ⟨⟨n1, q1, s1, o1⟩, k1⟩ := block_spec h0 ha 1 (c := w * am) (p := 2 * p) (q := 2 * q + 1) (M := t0.2) zz1
      (descend := fun m b w' M => DMem.getF z nv l m b w' (w * am) (2 * p * 2 ^ l) ((2 * q + 1) * 2 ^ l) M)
      (fun m b w' hp => ih m b w' _ _ _ _ hp zz1)
    rw [← t0e] at q1 k1
    set t1 := DMem.block z nv (fun m b w' M => DMem.getF z nv l m b w' (w * am) (2 * p * 2 ^ l) ((2 * q + 1) * 2 ^ l) M) a 1 t0
    have t1e : t1 = (t1.1, t1.2) := rfl
    have h1 : DPre z nv (l + 1) t1.1 a := by rw [q1]; exact h0.sim s1
    have a1 : t1.1 a = n1 := by rw [q1, Function.update_self]
    have zz2 : ∀ i j, i / 2 ^ l = 2 * p + 1 → j / 2 ^ l = 2 * q → t1.2 i j = 0 := fun i j h1 h2 => by
      rw [k1, if_neg (by omega), k0, if_neg (by omega)]; exact z0 i j (by omega) (by omega)
    -- third block
    obtain ⟨⟨n2, q2, s2, o2⟩, k2⟩ := block_spec h1 ha 2 (c := w * am) (p := 2 * p + 1) (q := 2 * q) (M := t1.2) zz2
      (descend := fun m b w' M => DMem.getF z nv l m b w' (w * am) ((2 * p + 1) * 2 ^ l) (2 * q * 2 ^ l) M)
      (fun m b w' hp => ih m b w' _ _ _ _ hp zz2)
    rw [← t1e] at q2 k2
    set t2 := DMem.block z nv (fun m b w' M => DMem.getF z nv l m b w' (w * am) ((2 * p + 1) * 2 ^ l) (2 * q * 2 ^ l) M) a 2 t1
    have t2e : t2 = (t2.1, t2.2) := rfl
    have h2 : DPre z nv (l + 1) t2.1 a := by rw [q2]; exact h1.sim s2
    have a2 : t2.1 a = n2 := by rw [q2, Function.update_self]
    have zz3 : ∀ i j, i / 2 ^ l = 2 * p + 1 → j / 2 ^ l = 2 * q + 1 → t2.2 i j = 0 := fun i j h1 h2 => by
      rw [k2, if_neg (by omega), k1, if_neg (by omega), k0, if_neg (by omega)]; exact z0 i j (by omega) (by omega)
    -- fourth block
    obtain ⟨⟨n3, q3, s3, o3⟩, k3⟩ := block_spec h2 ha 3 (c := w * am) (p := 2 * p + 1) (q := 2 * q + 1) (M := t2.2) zz3
      (descend := fun m b w' M => DMem.getF z nv l m b w' (w * am) ((2 * p + 1) * 2 ^ l) ((2 * q + 1) * 2 ^ l) M)
      (fun m b w' hp => ih m b w' _ _ _ _ hp zz3)
    rw [← t2e] at q3 k3
    set t3 := DMem.block z nv (fun m b w' M => DMem.getF z nv l m b w' (w * am) ((2 * p + 1) * 2 ^ l) ((2 * q + 1) * 2 ^ l) M) a 3 t2
    -- all together
    rw [a0] at s1 o1 k1
    rw [a1] at s2 o2 k2
    rw [a2] at s3 o3 k3
    have f1 : n0.e 1 = (m a).e 1 := o0 1 (by decide)
    have f2 : n1.e 2 = (m a).e 2 := by rw [o1 2 (by decide), o0 2 (by decide)]
    have f3 : n2.e 3 = (m a).e 3 := by rw [o2 3 (by decide), o1 3 (by decide), o0 3 (by decide)]
    have hbase : ∀ (t : DMem α) (n : DNode α), t = Function.update m a n → ∀ (f : DFlags) (k : Fin 4) (r c : Fin l → Fin 2),
        ((m a).e k).w.val nv * semN nv t f l ((m a).e k).p.addr r c = ((m a).e k).w.val nv * semN nv m f l ((m a).e k).p.addr r c := by
      intro t n ht f k r c
      by_cases hk : ((m a).e k).w.val nv = 0
      · rw [hk, zero_mul, zero_mul]
      · congr 1
        have hlv := h.v
        refine semN_congr (n := (l : Int)) (fun b hb => h.child b (by push_cast; omega)) h.term (fun b hb => ?_) f ?_ (by omega) r c
        · have : b ≠ a := by rintro rfl; push_cast at hlv; omega
          rw [ht, Function.update_of_ne this]
        · have := h.own ha k hk
          push_cast at this; omega
    have u1 : t1.1 = Function.update m a n1 := by rw [q1, q0, Function.update_idem]
    have u2 : t2.1 = Function.update m a n2 := by rw [q2, u1, Function.update_idem]
    rw [f1] at k1
    rw [f2] at k2
    rw [f3] at k3
    refine ⟨⟨n3, by rw [q3, u2, Function.update_idem], s3.trans (s2.trans (s1.trans s0))⟩, ?_⟩
    intro i j
    have hbits : ∀ j (b : Nat) (x : Fin 2), j / 2 ^ l = 2 * b + x → bitsOf (l + 1) (j % 2 ^ (l + 1)) (Fin.last l) = x := by
      intro j b x hx
      simp only [bitsOf, Fin.val_last, Nat.testBit_mod_two_pow]
      rw [Nat.testBit_eq_decide_div_mod_eq, hx]
      fin_cases x
      · simp [Nat.add_mod]
      · simp [Nat.add_mod]
    have hinit : ∀ j, (Fin.init (bitsOf (l + 1) (j % 2 ^ (l + 1))) : Fin l → Fin 2) = bitsOf l (j % 2 ^ l) := by
      intro j
      funext q
      simp only [Fin.init, bitsOf, Nat.testBit_mod_two_pow, Fin.val_castSucc]
      have : (q : Nat) < l := q.isLt
      simp [this, Nat.lt_succ_of_lt this]
    have hmat : ∀ x y : Fin 2, i / 2 ^ l = 2 * p + x → j / 2 ^ l = 2 * q + y →
        rawN nv m (l + 1) a (bitsOf (l + 1) (i % 2 ^ (l + 1))) (bitsOf (l + 1) (j % 2 ^ (l + 1))) =
          ((m a).e (rc x y)).w.val nv * semN nv m ((m a).e (rc x y)).p.f l ((m a).e (rc x y)).p.addr
            (bitsOf l (i % 2 ^ l)) (bitsOf l (j % 2 ^ l)) := by
      intro x y hx hy
      unfold rawN
      dsimp only
      rw [hbits i p x hx, hbits j q y hy, hinit i, hinit j]
    rw [k3, k2, k1, k0, hdiv, hdiv, hbase _ _ u2, hbase _ _ u1, hbase _ _ q0]
    have e3 := hmat 1 1
    have e2 := hmat 1 0
    have e1 := hmat 0 1
    have e0 := hmat 0 0
    simp only [Fin.val_one, Fin.val_zero, Nat.add_zero, show rc 1 1 = 3 from rfl, show rc 1 0 = 2 from rfl,
      show rc 0 1 = 1 from rfl, show rc 0 0 = 0 from rfl] at e0 e1 e2 e3
    by_cases g3 : i / 2 ^ l = 2 * p + 1 ∧ j / 2 ^ l = 2 * q + 1
    · rw [if_pos g3, if_pos (by omega), e3 g3.1 g3.2]; ring
    · rw [if_neg g3]
      by_cases g2 : i / 2 ^ l = 2 * p + 1 ∧ j / 2 ^ l = 2 * q
      · rw [if_pos g2, if_pos (by omega), e2 g2.1 g2.2]; ring
      · rw [if_neg g2]
        by_cases g1 : i / 2 ^ l = 2 * p ∧ j / 2 ^ l = 2 * q + 1
        · rw [if_pos g1, if_pos (by omega), e1 g1.1 g1.2]; ring
        · rw [if_neg g1]
          by_cases g0 : i / 2 ^ l = 2 * p ∧ j / 2 ^ l = 2 * q
          · rw [if_pos g0, if_pos (by omega), e0 g0.1 g0.2]; ring
          · rw [if_neg g0, if_neg (by omega)]

/-- `getDensityMatrix` reads the matrix the edge refers to, leaves every node as it was, and clears the flags of the edge. -/
theorem getDensityMatrix_spec [DecidableEq R] {z : α} {nv : α → R} {m : DMem α} {e : DEdge α} {l : Nat} (hq : m.Quiet z nv)
    (hf : e.p.f.OK) (h0 : (m e.p.addr).v = (l : Int)) :
    DMem.getDensityMatrix z nv m e = some (m, { e with p := e.p.align }, (List.range (2 ^ (l + 1))).map fun i =>
      (List.range (2 ^ (l + 1))).map fun j => e.w.val nv * semN nv m e.p.f (l + 1) e.p.addr (bitsOf (l + 1) i) (bitsOf (l + 1) j)) := by
  have ha : e.p.addr ≠ 0 := by intro h; rw [h, hq.term] at h0; omega
  have hptr : (if e.p.f.dm then e.p.align else e.p) = e.p.align := by
    by_cases hd : e.p.f.dm = true
    · rw [if_pos hd]
    · rw [if_neg hd]
      have := hf (by simpa using hd)
      cases hp : e.p with
      | mk f b => rw [hp] at this; simp only at this; subst this; rfl
  unfold DMem.getDensityMatrix
  rw [DMem.apply_eq, hptr]
  dsimp only
  rw [show e.p.align.addr = e.p.addr from rfl, if_neg ha]
  set a := e.p.addr with hae
  set m1 := Function.update m a ((m a).applied z e.p.f) with hm1
  have e1 : m1 a = (m a).applied z e.p.f := by rw [hm1, Function.update_self]
  have hv1 : ∀ b, (m1 b).v = (m b).v := by
    intro b
    by_cases hb : b = a
    · subst hb; rw [e1, DNode.applied_v]
    · rw [hm1, Function.update_of_ne hb]
  have hv : (m1 a).v.toNat = l := by rw [hv1, h0]; rfl
  rw [hv, Nat.shiftLeft_eq, mul_comm, ← pow_succ]
  have hpre : DPre z nv (l + 1) m1 a := by
    have hlow : ∀ b, (m b).v < ((l + 1 : Nat) : Int) - 1 → m1 b = m b := by
      intro b hb
      have : b ≠ a := by rintro rfl; push_cast at hb; omega
      rw [hm1, Function.update_of_ne this]
    refine ⟨hq.zero, by rw [hv1]; exact hq.term, fun b hb => by rw [hv1]; exact hq.inner b hb, by rw [hv1, h0]; push_cast; omega, ?_, ?_, ?_, ?_⟩
    · intro b hb
      rw [hv1] at hb
      rw [hlow b hb]; exact hq.node b
    · intro b hb hb0 k hk
      rw [hv1] at hb
      rw [hlow b hb] at hk ⊢
      rw [hv1]; exact hq.child b hb0 k hk
    · intro _ k
      rw [e1]
      unfold DNode.applied
      split_ifs
      · rw [(hq.node a).ptr]; exact DFlags.none_ok
      · dsimp only; rw [(hq.node a).ptr]; exact DFlags.none_ok
      · intro hd; simp [DMem.densEdges] at hd
      · intro hd; simp [DMem.conjEdges] at hd
      · rw [(hq.node a).ptr]; exact DFlags.none_ok
    · intro _ k
      have hch : ∀ k, ((m a).e k).w.val nv ≠ 0 → (m ((m a).e k).p.addr).v = ((l + 1 : Nat) : Int) - 2 := by
        intro k hk
        have := hq.child a ha k hk
        push_cast; omega
      have hcv : ∀ c : CNum α, (c.conj z).val nv ≠ 0 → c.val nv ≠ 0 := by
        intro c hc h0; rw [CNum.conj_val hq.zero, h0, Cx.conj_zero] at hc; exact hc rfl
      rw [hv1, e1]
      unfold DNode.applied
      split_ifs
      · exact hch k
      · exact hch k
      · intro hk
        simp only [DMem.densEdges] at hk ⊢
        refine hch k ?_
        split_ifs at hk
        · exact hcv _ hk
        · exact hk
      · intro hk
        simp only [DMem.conjEdges] at hk ⊢
        exact hch _ (hcv _ hk)
      · exact hch k
  obtain ⟨⟨n', r1, r2⟩, r3⟩ := getF_spec (l + 1) m1 a (e.w.val nv) 1 0 0 (fun _ _ => 0) hpre (fun _ _ _ _ => rfl)
  simp only [Nat.zero_mul] at r1 r3
  congr 1
  refine Prod.ext ?_ (Prod.ext rfl ?_)
  · dsimp only
    rw [DMem.revert_eq, r1]
    rw [show e.p.align.addr = a from rfl, Function.update_self, Function.update_idem,
      DNode.reverted_applied (hq.node a) (by rw [← e1]; exact r2), hm1, Function.update_idem, Function.update_eq_self]
  · dsimp only
    apply List.map_congr_left
    intro i hi
    apply List.map_congr_left
    intro j hj
    rw [List.mem_range] at hi hj
    rw [r3, if_pos ⟨Nat.div_eq_of_lt hi, Nat.div_eq_of_lt hj⟩, one_mul, Nat.mod_eq_of_lt hi, Nat.mod_eq_of_lt hj]
    rw [rawN_applied hq.zero (by rw [h0]; push_cast; omega) hq.term (hq.node a) (fun b _ hb => hq.child b hb) e1 (fun b hb => ?_)]
    have : b ≠ a := by rintro rfl; push_cast at hb; omega
    rw [hm1, Function.update_of_ne this]

end DD
