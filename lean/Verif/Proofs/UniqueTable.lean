import Verif.Model.UniqueTable
import Mathlib.Data.List.Perm.Basic
import Mathlib.Data.List.Nodup
import Mathlib.Tactic.Ring

/-!
# Invariant of the unique table and its preservation
-/

namespace DD
namespace UTable

variable {W : Type} {n : Nat}

theorem flatMap_update_cons {α β : Type} [DecidableEq α] (L : List α) (hL : L.Nodup) (f : α → List β) (x : α)
    (hx : x ∈ L) (a : β) :
    (L.flatMap (Function.update f x (a :: f x))).Perm (a :: L.flatMap f) := by
  induction L with
  | nil => simp at hx
  | cons y L ih =>
    rw [List.nodup_cons] at hL
    simp only [List.flatMap_cons]
    by_cases hy : y = x
    · subst hy
      have : L.flatMap (Function.update f y (a :: f y)) = L.flatMap f := by
        apply List.flatMap_congr
        intro z hz
        have : z ≠ y := fun e => hL.1 (e ▸ hz)
        simp [this]
      rw [this]
      simp
    · have hx' : x ∈ L := by
        rcases List.mem_cons.1 hx with h | h
        · exact absurd h.symm hy
        · exact h
      have := ih hL.2 hx'
      rw [Function.update_of_ne hy]
      refine (List.Perm.append_left _ this).trans ?_
      exact List.perm_middle

theorem flatMap_filter {α β : Type} (L : List α) (f : α → List β) (p : β → Bool) :
    L.flatMap (fun x => (f x).filter p) = (L.flatMap f).filter p := by
  induction L with
  | nil => rfl
  | cons y L ih => simp [List.flatMap_cons, ih]

theorem buckets_nodup (t : UTable W n) : t.buckets.Nodup :=
  List.Nodup.product List.nodup_range List.nodup_range

theorem mem_buckets {t : UTable W n} {b : Nat × Nat} : b ∈ t.buckets ↔ b.1 < t.nvars ∧ b.2 < t.nbucket := by
  obtain ⟨v, k⟩ := b
  simp [buckets, List.mem_product]

theorem mem_all {t : UTable W n} {a : Nat} :
    a ∈ t.all ↔ ∃ v k, v < t.nvars ∧ k < t.nbucket ∧ a ∈ t.chain (v, k) := by
  simp only [all, List.mem_flatMap]
  constructor
  · rintro ⟨⟨v, k⟩, hb, ha⟩
    exact ⟨v, k, (mem_buckets.1 hb).1, (mem_buckets.1 hb).2, ha⟩
  · rintro ⟨v, k, hv, hk, ha⟩
    exact ⟨(v, k), mem_buckets.2 ⟨hv, hk⟩, ha⟩

/-- Invariant of the unique table. -/
structure UWF (H : (Fin n → Edge W) → Nat) (t : UTable W n) : Prop where
  nb : 0 < t.nbucket
  nodup : t.all.Nodup
  availNodup : t.avail.Nodup
  disj : ∀ a ∈ t.all, a ∉ t.avail
  allLt : ∀ a ∈ t.all, a < t.brk
  availLt : ∀ a ∈ t.avail, a < t.brk
  brkLe : t.brk ≤ t.allocations
  szPos : 0 < t.allocationSize
  bucket : ∀ v k, ∀ a ∈ t.chain (v, k), v < t.nvars ∧ k < t.nbucket ∧ (t.mem a).v = v ∧ t.key H (t.mem a).e = k
  uniq : ∀ a ∈ t.all, ∀ b ∈ t.all, (t.mem a).v = (t.mem b).v → (t.mem a).e = (t.mem b).e → a = b
  count : t.nodeCount = t.all.length
  refZero : ∀ a, a ∉ t.all → (t.mem a).ref = 0

/-- A cell that has been handed out and is neither stored nor free. -/
def Fresh (t : UTable W n) (a : Nat) : Prop := a < t.brk ∧ a ∉ t.all ∧ a ∉ t.avail

theorem UWF.chain_mem_all {H : (Fin n → Edge W) → Nat} {t : UTable W n} (h : UWF H t) {a : Nat} {b : Nat × Nat}
    (ha : a ∈ t.chain b) : a ∈ t.all := by
  obtain ⟨v, k⟩ := b
  have := h.bucket v k a ha
  exact mem_all.2 ⟨v, k, this.1, this.2.1, ha⟩

theorem UWF.mem_bucket {H : (Fin n → Edge W) → Nat} {t : UTable W n} (h : UWF H t) {a : Nat} (ha : a ∈ t.all) :
    (t.mem a).v < t.nvars ∧ a ∈ t.chain ((t.mem a).v, t.key H (t.mem a).e) := by
  obtain ⟨v, k, hv, hk, hm⟩ := mem_all.1 ha
  obtain ⟨_, _, h1, h2⟩ := h.bucket v k a hm
  rw [h1, h2]
  exact ⟨hv, hm⟩

/-- Writing to a cell that is not stored keeps the invariant as long as the count stays 0. -/
theorem UWF.setMem {H : (Fin n → Edge W) → Nat} {t : UTable W n} (h : UWF H t) {a : Nat} (ha : a ∉ t.all)
    (nd : Node W n) (hr : nd.ref = 0) : UWF H (t.setMem a nd) := by
  have hall : (t.setMem a nd).all = t.all := rfl
  have hmem : ∀ b ∈ t.all, (t.setMem a nd).mem b = t.mem b := by
    intro b hb
    have : b ≠ a := fun e => ha (e ▸ hb)
    simp [UTable.setMem, this]
  refine ⟨h.nb, h.nodup, h.availNodup, h.disj, h.allLt, h.availLt, h.brkLe, h.szPos, ?_, ?_, h.count, ?_⟩
  · intro v k b hb
    have := h.bucket v k b hb
    rw [hmem b (h.chain_mem_all hb)]
    exact this
  · intro b hb c hc
    rw [hmem b hb, hmem c hc]
    exact h.uniq b hb c hc
  · intro b hb
    by_cases hba : b = a
    · subst hba; simp [UTable.setMem, hr]
    · simp [UTable.setMem, hba]; exact h.refZero b hb

theorem getNode_spec {H : (Fin n → Edge W) → Nat} {C : UCfg} (hC : 0 < C.growth) {t : UTable W n} (h : UWF H t) :
    let r := t.getNode C
    UWF H r.1 ∧ Fresh r.1 r.2 ∧ r.2 ∉ t.all ∧ r.1.all = t.all ∧ r.1.chain = t.chain ∧ r.1.nvars = t.nvars ∧
      r.1.nbucket = t.nbucket ∧ r.1.mem = t.mem ∧ t.brk ≤ r.1.brk ∧ (r.1.mem r.2).ref = 0 := by
  unfold getNode
  cases hav : t.avail with
  | cons a rest =>
    have ha : a ∉ t.all := fun hm => h.disj a hm (by simp [hav])
    have hmem : Function.update t.mem a { t.mem a with ref := 0 } = t.mem := by
      rw [Function.update_eq_self_iff]
      have := h.refZero a ha
      rw [← this]
    have hnd : (a :: rest).Nodup := hav ▸ h.availNodup
    rw [List.nodup_cons] at hnd
    refine ⟨⟨h.nb, h.nodup, hnd.2, ?_, h.allLt, ?_, h.brkLe, h.szPos, ?_, ?_, h.count, ?_⟩, ⟨?_, ha, hnd.1⟩, ha, rfl,
      rfl, rfl, rfl, hmem, le_refl _, ?_⟩
    · intro b hb hb'
      exact h.disj b hb (by simp [hav, hb'])
    · intro b hb
      exact h.availLt b (by simp [hav, hb])
    · simp only [hmem]; exact h.bucket
    · simp only [hmem]; exact h.uniq
    · simp only [hmem]; exact h.refZero
    · exact h.availLt a (by simp [hav])
    · simp
  | nil =>
    have hfresh : t.brk ∉ t.all := fun hm => absurd (h.allLt _ hm) (lt_irrefl _)
    have hr := h.refZero _ hfresh
    dsimp only
    split
    · rename_i hb
      have hsz := h.szPos
      refine ⟨⟨h.nb, h.nodup, (by simp [hav]), ?_, ?_, ?_, ?_, ?_, h.bucket, h.uniq, h.count, h.refZero⟩,
        ⟨?_, hfresh, ?_⟩, hfresh, rfl, rfl, rfl, rfl, rfl, ?_, hr⟩
      · simp [hav]
      · intro b hb
        have := h.allLt b hb
        show b < t.brk + 1
        omega
      · simp [hav]
      · show t.brk + 1 ≤ t.allocations + t.allocationSize
        omega
      · exact Nat.mul_pos hsz hC
      · show t.brk < t.brk + 1
        omega
      · simp [hav]
      · show t.brk ≤ t.brk + 1
        omega
    · rename_i hb
      have := h.brkLe
      refine ⟨⟨h.nb, h.nodup, (by simp [hav]), ?_, ?_, ?_, ?_, h.szPos, h.bucket, h.uniq, h.count, h.refZero⟩,
        ⟨?_, hfresh, ?_⟩, hfresh, rfl, rfl, rfl, rfl, rfl, ?_, hr⟩
      · simp [hav]
      · intro b hb
        have := h.allLt b hb
        show b < t.brk + 1
        omega
      · simp [hav]
      · show t.brk + 1 ≤ t.allocations
        omega
      · show t.brk < t.brk + 1
        omega
      · simp [hav]
      · show t.brk ≤ t.brk + 1
        omega

theorem returnNode_spec {H : (Fin n → Edge W) → Nat} {t : UTable W n} (h : UWF H t) {a : Nat} (ha : Fresh t a) :
    UWF H (t.returnNode a) := by
  refine ⟨h.nb, h.nodup, ?_, ?_, h.allLt, ?_, h.brkLe, h.szPos, h.bucket, h.uniq, h.count, h.refZero⟩
  · exact List.nodup_cons.2 ⟨ha.2.2, h.availNodup⟩
  · intro b hb hb'
    rcases List.mem_cons.1 hb' with h1 | h1
    · exact ha.2.1 (h1 ▸ hb)
    · exact h.disj b hb h1
  · intro b hb
    rcases List.mem_cons.1 hb with h1 | h1
    · exact h1 ▸ ha.1
    · exact h.availLt b h1

/-- `lookupBy` of a fresh cell: the memory is unchanged, the result is stored, has the same level, and its edges are the same according to
the comparison; either it was stored before, or it is the given cell and is the only new stored node. -/
theorem lookupBy_spec {same : (Fin n → Edge W) → (Fin n → Edge W) → Bool} (hsame : ∀ es, same es es = true) {H : (Fin n → Edge W) → Nat} {t : UTable W n} (h : UWF H t) {a : Nat}
    (ha : Fresh t a) (hv : (t.mem a).v < t.nvars) :
    let r := t.lookupBy same H a
    UWF H r.1 ∧ r.1.mem = t.mem ∧ r.1.nvars = t.nvars ∧ r.1.nbucket = t.nbucket ∧ r.1.brk = t.brk ∧
      same (t.mem r.2).e (t.mem a).e = true ∧ (t.mem r.2).v = (t.mem a).v ∧
      ((r.2 ∈ t.all ∧ r.2 ≠ a ∧ r.1.all = t.all) ∨
       (r.2 = a ∧ r.1.all.Perm (a :: t.all) ∧
        ∀ q ∈ t.all, (t.mem q).v = (t.mem a).v → (t.mem q).e ≠ (t.mem a).e)) := by
  unfold lookupBy
  dsimp only
  cases hf : (t.chain ((t.mem a).v, t.key H (t.mem a).e)).find? (fun q => same (t.mem q).e (t.mem a).e) with
  | some q =>
    have hq := List.mem_of_find?_eq_some hf
    have he := List.find?_some hf
    have hqa : q ∈ t.all := h.chain_mem_all hq
    have hne : q ≠ a := fun e => ha.2.1 (e ▸ hqa)
    dsimp only
    rw [if_neg hne]
    refine ⟨returnNode_spec h ha, rfl, rfl, rfl, rfl, he, ?_, Or.inl ⟨hqa, hne, rfl⟩⟩
    exact (h.bucket _ _ q hq).2.2.1
  | none =>
    dsimp only
    set b := ((t.mem a).v, t.key H (t.mem a).e) with hb
    have hbk : b ∈ t.buckets := mem_buckets.2 ⟨hv, Nat.mod_lt _ h.nb⟩
    set t' : UTable W n := { t with
        chain := Function.update t.chain b (a :: t.chain b)
        nodeCount := t.nodeCount + 1
        peakNodeCount := max t.peakNodeCount (t.nodeCount + 1) } with ht'
    have hperm : t'.all.Perm (a :: t.all) := flatMap_update_cons _ t.buckets_nodup t.chain b hbk a
    have hmem : ∀ {c}, c ∈ t'.all ↔ c = a ∨ c ∈ t.all := by
      intro c; rw [hperm.mem_iff, List.mem_cons]
    have hnew : ∀ q ∈ t.all, (t.mem q).v = (t.mem a).v → (t.mem q).e ≠ (t.mem a).e := by
      intro q hq hqv hqe
      obtain ⟨_, hqc⟩ := h.mem_bucket hq
      rw [hqv, hqe] at hqc
      have := List.find?_eq_none.1 hf q hqc
      simp [hqe, hsame] at this
    refine ⟨⟨h.nb, ?_, h.availNodup, ?_, ?_, h.availLt, h.brkLe, h.szPos, ?_, ?_, ?_, ?_⟩, rfl, rfl, rfl, rfl, hsame _,
      rfl, Or.inr ⟨rfl, hperm, hnew⟩⟩
    · exact hperm.symm.nodup (List.nodup_cons.2 ⟨ha.2.1, h.nodup⟩)
    · intro c hc
      rcases hmem.1 hc with h1 | h1
      · exact h1 ▸ ha.2.2
      · exact h.disj c h1
    · intro c hc
      rcases hmem.1 hc with h1 | h1
      · exact h1 ▸ ha.1
      · exact h.allLt c h1
    · intro v k c hc
      by_cases hvk : (v, k) = b
      · have hc' : c ∈ a :: t.chain b := by
          have : t'.chain (v, k) = a :: t.chain b := by rw [hvk]; simp [ht']
          rwa [this] at hc
        have h1 : v = (t.mem a).v := congrArg Prod.fst hvk
        have h2 : k = t.key H (t.mem a).e := congrArg Prod.snd hvk
        rcases List.mem_cons.1 hc' with h3 | h3
        · subst h3
          exact ⟨h1 ▸ hv, h2 ▸ Nat.mod_lt _ h.nb, h1.symm, h2.symm⟩
        · rw [← hvk] at h3
          exact h.bucket v k c h3
      · have hc' : c ∈ t.chain (v, k) := by
          have : t'.chain (v, k) = t.chain (v, k) := by simp [ht', hvk]
          rwa [this] at hc
        exact h.bucket v k c hc'
    · intro c hc d hd hcd hce
      rcases hmem.1 hc with h1 | h1 <;> rcases hmem.1 hd with h2 | h2
      · rw [h1, h2]
      · subst h1
        exact absurd hce.symm (hnew d h2 hcd.symm)
      · subst h2
        exact absurd hce (hnew c h1 hcd)
      · exact h.uniq c h1 d h2 hcd hce
    · show t.nodeCount + 1 = _
      rw [hperm.length_eq, List.length_cons, h.count]
    · intro c hc
      exact h.refZero c (fun hm => hc (hmem.2 (Or.inr hm)))

theorem lookup_eq [DecidableEq W] (H : (Fin n → Edge W) → Nat) (t : UTable W n) (a : Nat) :
    t.lookup H a = t.lookupBy (fun x y => decide (x = y)) H a := rfl

theorem lookup_spec [DecidableEq W] {H : (Fin n → Edge W) → Nat} {t : UTable W n} (h : UWF H t) {a : Nat}
    (ha : Fresh t a) (hv : (t.mem a).v < t.nvars) :
    let r := t.lookup H a
    UWF H r.1 ∧ r.1.mem = t.mem ∧ r.1.nvars = t.nvars ∧ r.1.nbucket = t.nbucket ∧ r.1.brk = t.brk ∧
      (t.mem r.2).e = (t.mem a).e ∧ (t.mem r.2).v = (t.mem a).v ∧
      ((r.2 ∈ t.all ∧ r.2 ≠ a ∧ r.1.all = t.all) ∨
       (r.2 = a ∧ r.1.all.Perm (a :: t.all) ∧
        ∀ q ∈ t.all, (t.mem q).v = (t.mem a).v → (t.mem q).e ≠ (t.mem a).e)) := by
  have := lookupBy_spec (same := fun x y => decide (x = y)) (fun _ => decide_eq_true rfl) h ha hv
  simp only [decide_eq_true_eq] at this
  exact this

/-- The initial table satisfies the invariant. -/
theorem init_UWF (H : (Fin n → Edge W) → Nat) (C : UCfg) (hC : 0 < C.growth) (hI : 0 < C.initAlloc)
    (nvars nbucket : Nat) (hnb : 0 < nbucket) (cell : Node W n) : UWF H (init C nvars nbucket cell) := by
  have hall : (init C nvars nbucket cell).all = [] := by
    simp [all, init]
  refine ⟨hnb, by simp [hall], List.nodup_nil, by simp [hall], by simp [hall], by simp [init], Nat.zero_le _,
    Nat.mul_pos hI hC, by simp [init], by simp [hall], by rw [hall]; rfl, ?_⟩
  intro a _; rfl

/-- `clear` establishes the invariant again. -/
theorem clear_UWF {H : (Fin n → Edge W) → Nat} {C : UCfg} (hC : 0 < C.growth) (hI : 0 < C.initAlloc)
    {t : UTable W n} (hnb : 0 < t.nbucket) : UWF H (t.clear C) := by
  have hall : (t.clear C).all = [] := by
    simp [all, clear]
  refine ⟨hnb, by simp [hall], List.nodup_nil, by simp [hall], by simp [hall], by simp [clear], Nat.zero_le _,
    Nat.mul_pos hI hC, by simp [clear], by simp [hall], by rw [hall]; rfl, ?_⟩
  intro a _; rfl

end UTable
end DD
