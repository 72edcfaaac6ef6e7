import Verif.Proofs.CTabHash
import Verif.Proofs.UniqueTable
import Mathlib.Data.List.TakeDrop
import Mathlib.Data.List.TakeWhile

/-! # The invariant of the number table -/

namespace DD
namespace CTab

variable {R : Type} [Field R] [LinearOrder R] [IsStrictOrderedRing R] [FloorRing R]
variable {C : CCfg R} {t t' : CTab R}

/-- Well-formed tables: what holds at every moment for any sequence of non-negative tolerances. -/
structure WF (C : CCfg R) (t : CTab R) : Prop where
  tol : 0 ≤ t.tol
  pos : ∀ k a, a ∈ t.bucket k → 0 < t.val a
  key : ∀ k a, a ∈ t.bucket k → hash C (t.val a) = (k : Int)
  sorted : ∀ k, (t.bucket k).Pairwise (fun a b => t.val a ≤ t.val b)
  nodup : ∀ k, (t.bucket k).Nodup
  tail : ∀ k, t.tail k = (t.bucket k).getLast?
  avail_nodup : t.avail.Nodup
  avail_out : ∀ a ∈ t.avail, ∀ k, a ∉ t.bucket k
  avail_lt : ∀ a ∈ t.avail, a < t.brk
  lt_brk : ∀ k a, a ∈ t.bucket k → a < t.brk
  brk_le : t.brk ≤ t.allocations
  asize : 0 < t.allocationSize
  fresh : ∀ a, t.brk ≤ a → a < t.allocations → t.ref (.cell a) = 0
  count : t.count = (t.stored C).length
  peak : t.count ≤ t.peakCount

/-- Configurations for which the allocator works. -/
structure _root_.DD.CCfg.Good (C : CCfg R) : Prop where
  nb : 0 < C.nb
  init : 0 < C.initAlloc
  growth : 0 < C.growth
  maxRef : 0 < C.maxRef

theorem WF.bucket_lt (h : WF C t) (hnb : 0 < C.nb) {k a} (ha : a ∈ t.bucket k) : k < C.nb := by
  have h1 := h.key k a ha
  have h2 := hash_toNat_lt C hnb (h.pos k a ha).le
  rw [h1] at h2
  simpa using h2

theorem WF.mem_stored (h : WF C t) (hnb : 0 < C.nb) {a} : a ∈ t.stored C ↔ ∃ k, a ∈ t.bucket k := by
  simp only [stored, List.mem_flatMap, List.mem_range]
  constructor
  · rintro ⟨k, _, hk⟩; exact ⟨k, hk⟩
  · rintro ⟨k, hk⟩; exact ⟨k, h.bucket_lt hnb hk, hk⟩

theorem WF.same_bucket (h : WF C t) {j k a} (hj : a ∈ t.bucket j) (hk : a ∈ t.bucket k) : j = k := by
  have h1 := h.key j a hj
  have h2 := h.key k a hk
  rw [h1] at h2
  exact_mod_cast h2

theorem WF.stored_nodup (h : WF C t) : (t.stored C).Nodup := by
  unfold stored
  rw [List.nodup_flatMap]
  refine ⟨fun k _ => h.nodup k, ?_⟩
  apply List.nodup_range.imp
  intro j k hjk a haj hak
  exact hjk (h.same_bucket haj hak)

/-- Two tables that agree on everything but the lookup statistics. -/
structure Same (t t' : CTab R) : Prop where
  tol : t'.tol = t.tol
  val : t'.val = t.val
  ref : t'.ref = t.ref
  bucket : t'.bucket = t.bucket
  tail : t'.tail = t.tail
  avail : t'.avail = t.avail
  brk : t'.brk = t.brk
  allocations : t'.allocations = t.allocations
  allocationSize : t'.allocationSize = t.allocationSize
  count : t'.count = t.count
  peakCount : t'.peakCount = t.peakCount
  gcLimit : t'.gcLimit = t.gcLimit

theorem Same.wf (s : Same t t') (h : WF C t) : WF C t' where
  tol := by rw [s.tol]; exact h.tol
  pos := by rw [s.val, s.bucket]; exact h.pos
  key := by rw [s.val, s.bucket]; exact h.key
  sorted := by rw [s.val, s.bucket]; exact h.sorted
  nodup := by rw [s.bucket]; exact h.nodup
  tail := by rw [s.bucket, s.tail]; exact h.tail
  avail_nodup := by rw [s.avail]; exact h.avail_nodup
  avail_out := by rw [s.avail, s.bucket]; exact h.avail_out
  avail_lt := by rw [s.avail, s.brk]; exact h.avail_lt
  lt_brk := by rw [s.bucket, s.brk]; exact h.lt_brk
  brk_le := by rw [s.brk, s.allocations]; exact h.brk_le
  asize := by rw [s.allocationSize]; exact h.asize
  fresh := by rw [s.brk, s.allocations, s.ref]; exact h.fresh
  count := by unfold stored; rw [s.count, s.bucket]; exact h.count
  peak := by rw [s.count, s.peakCount]; exact h.peak

theorem Same.stored (s : Same t t') : t'.stored C = t.stored C := by
  unfold CTab.stored; rw [s.bucket]

theorem Same.trans {t''} (s : Same t t') (s' : Same t' t'') : Same t t'' where
  tol := s'.tol.trans s.tol
  val := s'.val.trans s.val
  ref := s'.ref.trans s.ref
  bucket := s'.bucket.trans s.bucket
  tail := s'.tail.trans s.tail
  avail := s'.avail.trans s.avail
  brk := s'.brk.trans s.brk
  allocations := s'.allocations.trans s.allocations
  allocationSize := s'.allocationSize.trans s.allocationSize
  count := s'.count.trans s.count
  peakCount := s'.peakCount.trans s.peakCount
  gcLimit := s'.gcLimit.trans s.gcLimit

theorem init_wf (hC : C.Good) {τ : R} (hτ : 0 ≤ τ) : WF C (init C τ) where
  tol := hτ
  pos := by simp [init]
  key := by simp [init]
  sorted := by simp [init]
  nodup := by simp [init]
  tail := by simp [init]
  avail_nodup := by simp [init]
  avail_out := by simp [init]
  avail_lt := by simp [init]
  lt_brk := by simp [init]
  brk_le := by simp [init]
  asize := Nat.mul_pos hC.init hC.growth
  fresh := by simp [init]
  count := by simp [init, stored]
  peak := by simp [init]

/-! ## The allocator -/

/-- What `getEntry` guarantees. -/
structure GetSpec (t : CTab R) (r : CTab R × Nat) : Prop where
  tol : r.1.tol = t.tol
  bucket : r.1.bucket = t.bucket
  tail : r.1.tail = t.tail
  count : r.1.count = t.count
  peakCount : r.1.peakCount = t.peakCount
  gcLimit : r.1.gcLimit = t.gcLimit
  inserts : r.1.inserts = t.inserts
  hits : r.1.hits = t.hits
  lookups : r.1.lookups = t.lookups
  val : ∀ k a, a ∈ t.bucket k → r.1.val a = t.val a
  ref : ∀ k a, a ∈ t.bucket k → r.1.ref (.cell a) = t.ref (.cell a)
  refS : ∀ l : Loc, l.isStatic = true → r.1.ref l = t.ref l
  ref0 : r.1.ref (.cell r.2) = 0
  new : ∀ k, r.2 ∉ t.bucket k
  out : r.2 ∉ r.1.avail
  lt : r.2 < r.1.brk
  avail_nodup : r.1.avail.Nodup
  avail_sub : ∀ a ∈ r.1.avail, a ∈ t.avail
  brk_ge : t.brk ≤ r.1.brk
  brk_le : r.1.brk ≤ r.1.allocations
  asize : 0 < r.1.allocationSize
  fresh : ∀ a, r.1.brk ≤ a → a < r.1.allocations → r.1.ref (.cell a) = 0

theorem getEntry_spec (hC : C.Good) (h : WF C t) : GetSpec t (t.getEntry C) := by
  unfold getEntry
  match ha : t.avail with
  | a :: rest =>
    have hnd := h.avail_nodup
    rw [ha] at hnd
    have hlt := h.avail_lt a (by rw [ha]; simp)
    refine ⟨rfl, rfl, rfl, rfl, rfl, rfl, rfl, rfl, rfl, fun _ _ _ => rfl, ?_, ?_, by simp, ?_, ?_, ?_, ?_, ?_, le_rfl,
      h.brk_le, h.asize, ?_⟩
    · intro k b hb
      have : b ≠ a := by rintro rfl; exact h.avail_out b (by rw [ha]; simp) k hb
      simp [Function.update_of_ne, this]
    · intro l hl
      have : l ≠ .cell a := by rintro rfl; simp [Loc.isStatic] at hl
      simp [Function.update_of_ne, this]
    · exact fun k => h.avail_out a (by rw [ha]; simp) k
    · exact (List.nodup_cons.1 hnd).1
    · exact hlt
    · exact (List.nodup_cons.1 hnd).2
    · intro b hb; rw [ha]; exact List.mem_cons_of_mem _ hb
    · intro b hb hb'
      have : b ≠ a := by rintro rfl; exact absurd hb (by simpa using hlt)
      simpa [Function.update_of_ne, this] using h.fresh b hb hb'
  | [] =>
    dsimp only
    by_cases hb : t.brk = t.allocations
    · rw [if_pos hb]
      have has := h.asize
      refine ⟨rfl, rfl, rfl, rfl, rfl, rfl, rfl, rfl, rfl, ?_, ?_, ?_, ?_, ?_, ?_, ?_, ?_, ?_, ?_, ?_, ?_, ?_⟩
      · intro k a hak
        have := h.lt_brk k a hak
        dsimp only
        rw [if_neg (by omega)]
      · intro k a hak
        have := h.lt_brk k a hak
        dsimp only
        rw [if_neg (by omega)]
      · intro l hl
        cases l <;> simp_all [Loc.isStatic]
      · dsimp only
        rw [if_pos (by omega)]
      · intro k hk
        have := h.lt_brk k _ hk
        dsimp only at this
        omega
      · simp [ha]
      · simp
      · simp [ha]
      · simp [ha]
      · simp
      · dsimp only; omega
      · exact Nat.mul_pos has hC.growth
      · intro a h1 h2
        dsimp only at h1 h2 ⊢
        rw [if_pos (by omega)]
    · rw [if_neg hb]
      have hle := h.brk_le
      refine ⟨rfl, rfl, rfl, rfl, rfl, rfl, rfl, rfl, rfl, fun _ _ _ => rfl, fun _ _ _ => rfl, fun _ _ => rfl, ?_, ?_, ?_,
        ?_, ?_, ?_, ?_, ?_, h.asize, ?_⟩
      · exact h.fresh _ le_rfl (by omega)
      · intro k hk
        have := h.lt_brk k _ hk
        dsimp only at this
        omega
      · simp [ha]
      · simp
      · simp [ha]
      · simp [ha]
      · simp
      · dsimp only; omega
      · intro a h1 h2
        dsimp only at h1 h2 ⊢
        exact h.fresh a (by omega) h2

/-! ## Sorted insertion -/

theorem mem_takeWhile_append_dropWhile {l : List Nat} {p : Nat → Bool} {e a : Nat} :
    a ∈ l.takeWhile p ++ e :: l.dropWhile p ↔ a = e ∨ a ∈ l := by
  conv_rhs => rw [← List.takeWhile_append_dropWhile (p := p) (l := l)]
  simp only [List.mem_append, List.mem_cons]
  tauto

theorem getLast?_insert {l : List Nat} {p : Nat → Bool} {e : Nat} :
    (l.takeWhile p ++ e :: l.dropWhile p).getLast? = if l.dropWhile p = [] then some e else l.getLast? := by
  by_cases h : l.dropWhile p = []
  · rw [if_pos h, h]; simp
  · rw [if_neg h]
    have hl : l.getLast? = (l.takeWhile p ++ l.dropWhile p).getLast? := by rw [List.takeWhile_append_dropWhile]
    rw [hl, List.getLast?_append_of_ne_nil _ h, List.getLast?_append_of_ne_nil _ (by simp)]
    rw [List.getLast?_cons]
    cases hg : (l.dropWhile p).getLast? with
    | none => simp [List.getLast?_eq_none_iff] at hg; exact absurd (by simpa using hg) h
    | some x => simp

theorem dropWhile_gt {val : Nat → R} {bound : R} {l : List Nat} (hs : l.Pairwise (fun a b => val a ≤ val b)) :
    ∀ a ∈ l.dropWhile (fun a => decide (val a ≤ bound)), bound < val a := by
  induction l with
  | nil => simp
  | cons b l ih =>
    rw [List.pairwise_cons] at hs
    by_cases hb : val b ≤ bound
    · rw [List.dropWhile_cons_of_pos (by simpa using hb)]
      exact ih hs.2
    · rw [List.dropWhile_cons_of_neg (by simpa using hb)]
      push Not at hb
      intro a ha
      rcases List.mem_cons.1 ha with rfl | ha
      · exact hb
      · exact hb.trans_le (hs.1 a ha)

/-- Linking a new value into its bucket. -/
structure LinkSpec (C : CCfg R) (t : CTab R) (v : R) (r : CTab R × Nat) : Prop where
  wf : WF C r.1
  tol : r.1.tol = t.tol
  new : r.2 ∉ t.stored C
  val : r.1.val r.2 = v
  ref : r.1.ref (.cell r.2) = 0
  mem : ∀ k a, a ∈ r.1.bucket k ↔ a ∈ t.bucket k ∨ (a = r.2 ∧ k = (hash C v).toNat)
  keepVal : ∀ k a, a ∈ t.bucket k → r.1.val a = t.val a
  keepRef : ∀ k a, a ∈ t.bucket k → r.1.ref (.cell a) = t.ref (.cell a)
  keepS : ∀ l : Loc, l.isStatic = true → r.1.ref l = t.ref l
  count : r.1.count = t.count + 1
  lt : r.2 < r.1.allocations
  inserts : r.1.inserts = t.inserts + 1
  hits : r.1.hits = t.hits
  lookups : r.1.lookups = t.lookups
  gcLimit : r.1.gcLimit = t.gcLimit

theorem link_spec (hC : C.Good) (h : WF C t) {v bound : R} (hv : 0 < v) (hb : v ≤ bound) {k : Nat}
    (hk : hash C v = (k : Int)) (hlow : ∀ a ∈ t.bucket k, t.val a ≤ bound → t.val a ≤ v) :
    LinkSpec C t v (t.link C k bound v) := by
  have g := getEntry_spec hC h
  unfold link
  generalize hr : t.getEntry C = r at g
  obtain ⟨u, e⟩ := r
  dsimp only at g ⊢
  have gb := g.bucket
  have hne : ∀ j a, a ∈ t.bucket j → a ≠ e := by
    rintro j a ha rfl; exact g.new j ha
  have hval : ∀ j a, a ∈ t.bucket j → Function.update u.val e v a = t.val a := by
    intro j a ha
    rw [Function.update_of_ne (hne j a ha), g.val j a ha]
  set nv := Function.update u.val e v with hnv
  rw [gb]
  set p := (fun a => decide (nv a ≤ bound)) with hp
  have hsort : (t.bucket k).Pairwise (fun a b => nv a ≤ nv b) := by
    apply (h.sorted k).imp_of_mem
    intro a b ha hb hab
    rw [hval k a ha, hval k b hb]; exact hab
  have hpre : ∀ a ∈ (t.bucket k).takeWhile p, nv a ≤ v := by
    intro a ha
    have h1 := List.mem_takeWhile_imp ha
    have h2 := List.takeWhile_subset _ ha
    simp only [hp, decide_eq_true_eq] at h1
    rw [hval k a h2] at h1 ⊢
    exact hlow a h2 h1
  have hpost : ∀ a ∈ (t.bucket k).dropWhile p, v < nv a := fun a ha =>
    hb.trans_lt (dropWhile_gt hsort a ha)
  have hnve : nv e = v := by simp [hnv]
  have hknb : k < C.nb := by
    have := hash_toNat_lt C hC.nb hv.le
    rw [hk] at this; simpa using this
  have hmem : ∀ j a, a ∈ Function.update t.bucket k ((t.bucket k).takeWhile p ++ e :: (t.bucket k).dropWhile p) j ↔
      a ∈ t.bucket j ∨ (a = e ∧ j = k) := by
    intro j a
    by_cases hj : j = k
    · subst hj
      rw [Function.update_self, mem_takeWhile_append_dropWhile]
      tauto
    · rw [Function.update_of_ne hj]; tauto
  refine ⟨⟨?_, ?_, ?_, ?_, ?_, ?_, ?_, ?_, ?_, ?_, ?_, ?_, ?_, ?_, ?_⟩, ?_, ?_, ?_, ?_, ?_, ?_, ?_, ?_, ?_, ?_, ?_, ?_, ?_, ?_⟩
  all_goals dsimp only
  · rw [g.tol]; exact h.tol
  · intro j a ha
    rcases (hmem j a).1 ha with ha | ⟨rfl, rfl⟩
    · rw [hval j a ha]; exact h.pos j a ha
    · rw [hnve]; exact hv
  · intro j a ha
    rcases (hmem j a).1 ha with ha | ⟨rfl, rfl⟩
    · rw [hval j a ha]; exact h.key j a ha
    · rw [hnve]; exact hk
  · intro j
    by_cases hj : j = k
    · subst hj
      rw [Function.update_self, List.pairwise_append, List.pairwise_cons]
      refine ⟨hsort.sublist (List.takeWhile_sublist _), ⟨?_, hsort.sublist (List.dropWhile_sublist _)⟩, ?_⟩
      · intro a ha; rw [hnve]; exact (hpost a ha).le
      · intro a ha b hb'
        rcases List.mem_cons.1 hb' with rfl | hb'
        · rw [hnve]; exact hpre a ha
        · exact (hpre a ha).trans (hpost b hb').le
    · rw [Function.update_of_ne hj]
      apply (h.sorted j).imp_of_mem
      intro a b ha hb hab
      rw [hval j a ha, hval j b hb]; exact hab
  · intro j
    by_cases hj : j = k
    · subst hj
      rw [Function.update_self]
      have hperm : ((t.bucket j).takeWhile p ++ e :: (t.bucket j).dropWhile p).Perm (e :: t.bucket j) := by
        conv_rhs => rw [← List.takeWhile_append_dropWhile (p := p) (l := t.bucket j)]
        exact List.perm_middle
      rw [hperm.nodup_iff, List.nodup_cons]
      exact ⟨g.new j, h.nodup j⟩
    · rw [Function.update_of_ne hj]; exact h.nodup j
  · intro j
    by_cases hj : j = k
    · subst hj
      rw [Function.update_self, getLast?_insert]
      by_cases hd : (t.bucket j).dropWhile p = []
      · rw [if_pos hd, if_pos hd, Function.update_self]
      · rw [if_neg hd, if_neg hd, g.tail]; exact h.tail j
    · rw [Function.update_of_ne hj]
      by_cases hd : (t.bucket k).dropWhile p = []
      · rw [if_pos hd, Function.update_of_ne hj, g.tail]; exact h.tail j
      · rw [if_neg hd, g.tail]; exact h.tail j
  · exact g.avail_nodup
  · intro a ha j haj
    rcases (hmem j a).1 haj with haj | ⟨rfl, rfl⟩
    · exact h.avail_out a (g.avail_sub a ha) j haj
    · exact g.out ha
  · intro a ha
    exact (h.avail_lt a (g.avail_sub a ha)).trans_le g.brk_ge
  · intro j a haj
    rcases (hmem j a).1 haj with haj | ⟨rfl, rfl⟩
    · exact (h.lt_brk j a haj).trans_le g.brk_ge
    · exact g.lt
  · exact g.brk_le
  · exact g.asize
  · exact g.fresh
  · rw [g.count, h.count]
    unfold stored
    dsimp only
    have hperm : ((t.bucket k).takeWhile p ++ e :: (t.bucket k).dropWhile p).Perm (e :: t.bucket k) := by
      conv_rhs => rw [← List.takeWhile_append_dropWhile (p := p) (l := t.bucket k)]
      exact List.perm_middle
    have h1 := (UTable.flatMap_update_cons (List.range C.nb) List.nodup_range t.bucket k (List.mem_range.2 hknb) e).length_eq
    rw [List.length_cons] at h1
    rw [← h1]
    rw [List.length_flatMap, List.length_flatMap]
    congr 1
    apply List.map_congr_left
    intro j _
    by_cases hj : j = k
    · subst hj; rw [Function.update_self, Function.update_self, hperm.length_eq]
    · rw [Function.update_of_ne hj, Function.update_of_ne hj]
  · exact le_max_right _ _
  · exact g.tol
  · rw [h.mem_stored hC.nb]; rintro ⟨j, hj⟩; exact g.new j hj
  · exact hnve
  · exact g.ref0
  · intro j a
    rw [hmem, hk]; simp
  · exact hval
  · exact g.ref
  · exact g.refS
  · rw [g.count]
  · exact g.lt.trans_le g.brk_le
  · rw [g.inserts]
  · exact g.hits
  · exact g.lookups
  · exact g.gcLimit

end CTab
end DD
