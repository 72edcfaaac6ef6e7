import Verif.Proofs.CTabInv
import Mathlib.Algebra.Order.Group.Abs

/-! # Lookup, collection and the invariant of all reachable number tables -/

namespace DD
namespace CTab

variable {R : Type} [Field R] [LinearOrder R] [IsStrictOrderedRing R] [FloorRing R]
variable {C : CCfg R} {t t' : CTab R}

theorem approxEq_iff (hT : 0 ≤ t.tol) {a b : R} : t.approxEq a b = true ↔ |a - b| ≤ t.tol := by
  unfold approxEq
  simp only [Bool.or_eq_true, decide_eq_true_eq]
  constructor
  · rintro (rfl | h)
    · simpa using hT
    · exact h
  · exact Or.inr

theorem approxEq_false (hT : 0 ≤ t.tol) {a b : R} (h : ¬ t.approxEq a b = true) : t.tol < |a - b| := by
  rw [approxEq_iff hT] at h; exact not_le.1 h

/-! ## Searching a bucket -/

theorem findIn_some (hT : 0 ≤ t.tol) {v : R} {l : List Nat} {a : Nat} (h : t.findIn v l = some a) :
    a ∈ l ∧ |t.val a - v| ≤ t.tol := by
  induction l with
  | nil => simp [findIn] at h
  | cons b l ih =>
    rw [findIn.eq_def] at h
    dsimp only at h
    by_cases h1 : t.val b ≤ v + t.tol
    · rw [if_pos h1] at h
      by_cases h2 : t.approxEq (t.val b) v = true
      · rw [if_pos h2] at h
        rw [approxEq_iff hT] at h2
        match l, h with
        | [], h =>
          simp only [Option.some.injEq] at h; subst h
          exact ⟨by simp, h2⟩
        | c :: l, h =>
          dsimp only at h
          by_cases h3 : v + t.tol ≥ t.val c ∧ |t.val c - v| < |t.val b - v|
          · rw [if_pos h3] at h
            simp only [Option.some.injEq] at h; subst h
            exact ⟨by simp, h3.2.le.trans h2⟩
          · rw [if_neg h3] at h
            simp only [Option.some.injEq] at h; subst h
            exact ⟨by simp, h2⟩
      · rw [if_neg h2] at h
        have := ih h
        exact ⟨List.mem_cons_of_mem _ this.1, this.2⟩
    · rw [if_neg h1] at h; simp at h

theorem findIn_none (hT : 0 ≤ t.tol) {v : R} {l : List Nat} (hs : l.Pairwise (fun a b => t.val a ≤ t.val b))
    (h : t.findIn v l = none) : ∀ a ∈ l, t.tol < |t.val a - v| := by
  induction l with
  | nil => simp
  | cons b l ih =>
    rw [List.pairwise_cons] at hs
    rw [findIn.eq_def] at h
    dsimp only at h
    by_cases h1 : t.val b ≤ v + t.tol
    · rw [if_pos h1] at h
      by_cases h2 : t.approxEq (t.val b) v = true
      · rw [if_pos h2] at h
        match l, h with
        | [], h => simp at h
        | c :: l, h => dsimp only at h; split_ifs at h
      · rw [if_neg h2] at h
        intro a ha
        rcases List.mem_cons.1 ha with rfl | ha
        · exact approxEq_false hT h2
        · exact ih hs.2 h a ha
    · push Not at h1
      intro a ha
      have : t.val b ≤ t.val a := by
        rcases List.mem_cons.1 ha with rfl | ha
        · exact le_rfl
        · exact hs.1 a ha
      rw [lt_abs]; left; linarith

/-- The entry found in a bucket is a nearest one of the bucket if entries are further apart than the tolerance. -/
theorem findIn_nearest (hT : 0 ≤ t.tol) {v : R} {l : List Nat} (hs : l.Pairwise (fun a b => t.val a ≤ t.val b))
    (hd : l.Pairwise (fun a b => t.tol < |t.val a - t.val b|)) {a : Nat} (h : t.findIn v l = some a) :
    ∀ b ∈ l, |t.val a - v| ≤ |t.val b - v| := by
  induction l with
  | nil => simp
  | cons b l ih =>
    rw [List.pairwise_cons] at hs hd
    rw [findIn.eq_def] at h
    dsimp only at h
    by_cases h1 : t.val b ≤ v + t.tol
    · rw [if_pos h1] at h
      by_cases h2 : t.approxEq (t.val b) v = true
      · rw [if_pos h2] at h
        rw [approxEq_iff hT] at h2
        match l, h, hs, hd with
        | [], h, _, _ =>
          simp only [Option.some.injEq] at h; subst h
          simp
        | c :: l, h, hs, hd =>
          dsimp only at h
          have hbc : t.val b ≤ t.val c := hs.1 c (by simp)
          have dbc := hd.1 c (by simp)
          rw [abs_sub_comm, abs_of_nonneg (by linarith)] at dbc
          have hrest : ∀ x ∈ l, t.val c + t.tol < t.val x := by
            intro x hx
            have h4 := (List.pairwise_cons.1 hs.2).1 x hx
            have h5 := (List.pairwise_cons.1 hd.2).1 x hx
            rw [abs_sub_comm, abs_of_nonneg (by linarith)] at h5
            linarith
          have h2' := abs_le.1 h2
          by_cases h3 : v + t.tol ≥ t.val c ∧ |t.val c - v| < |t.val b - v|
          · rw [if_pos h3] at h
            simp only [Option.some.injEq] at h; subst h
            intro x hx
            rcases List.mem_cons.1 hx with rfl | hx
            · exact h3.2.le
            rcases List.mem_cons.1 hx with rfl | hx
            · exact le_rfl
            · have := hrest x hx
              refine h3.2.le.trans (h2.trans ?_)
              refine le_trans ?_ (le_abs_self _)
              linarith
          · rw [if_neg h3] at h
            simp only [Option.some.injEq] at h; subst h
            intro x hx
            rcases List.mem_cons.1 hx with rfl | hx
            · exact le_rfl
            rcases List.mem_cons.1 hx with rfl | hx
            · by_cases h4 : v + t.tol ≥ t.val x
              · exact not_lt.1 (fun h5 => h3 ⟨h4, h5⟩)
              · push Not at h4
                refine h2.trans (le_trans ?_ (le_abs_self _))
                linarith
            · have := hrest x hx
              refine h2.trans (le_trans ?_ (le_abs_self _))
              linarith
      · rw [if_neg h2] at h
        intro x hx
        rcases List.mem_cons.1 hx with rfl | hx
        · exact (findIn_some hT h).2.trans (approxEq_false hT h2).le
        · exact ih hs.2 hd.2 h x hx
    · rw [if_neg h1] at h; simp at h

theorem matchAt_some (hT : 0 ≤ t.tol) {v : R} {o : Option Nat} {a : Nat} (h : t.matchAt v o = some a) :
    o = some a ∧ |t.val a - v| ≤ t.tol := by
  cases o with
  | none => simp [matchAt] at h
  | some b =>
    rw [matchAt] at h
    split_ifs at h with h1
    · simp only [Option.some.injEq] at h; subst h
      rw [approxEq_iff hT, abs_sub_comm] at h1
      exact ⟨rfl, h1⟩

theorem matchAt_none (hT : 0 ≤ t.tol) {v : R} {a : Nat} (h : t.matchAt v (some a) = none) : t.tol < |t.val a - v| := by
  rw [matchAt] at h
  split_ifs at h with h1
  rw [abs_sub_comm]
  exact approxEq_false hT h1

/-! ## Lookup -/

/-- The tolerance is smaller than half the width of a bucket. -/
def Narrow (C : CCfg R) (t : CTab R) : Prop := 2 * t.tol * (mask C : R) < 1

/-- No number known to the table is within the tolerance of `v`. -/
def Far (C : CCfg R) (t : CTab R) (v : R) : Prop := ∀ l, t.Live C l → t.tol < |t.value C l - v|

/-- What a lookup guarantees. -/
inductive LookupSpec (C : CCfg R) (t : CTab R) (v : R) : CTab R × Loc → Prop
  /-- the number is known: only statistics change -/
  | hit {t' l} (same : Same t t') (live : t.Live C l) (acc : |t.value C l - v| ≤ t.tol)
      (hits : t'.hits = t.hits + 1) (inserts : t'.inserts = t.inserts) (lookups : t'.lookups = t.lookups + 1) :
      LookupSpec C t v (t', l)
  /-- a new entry is created -/
  | miss {t' e} (link : LinkSpec C { t with lookups := t.lookups + 1 } v (t', e)) (far : Narrow C t → Far C t v) :
      LookupSpec C t v (t', .cell e)

theorem far_of {v : R} (hT : 0 ≤ t.tol) (hnb : 0 < C.nb) (h : WF C t) (hz : ¬ t.approxZero v = true)
    (ho : ¬ t.approxOne v = true)
    (hq : ¬ t.approxEq v C.sq = true) (hs : ∀ k a, a ∈ t.bucket k → t.tol < |t.val a - v|) : Far C t v := by
  intro l hl
  cases l with
  | zero => simpa [value, approxZero] using hz
  | one => have := approxEq_false hT ho; rw [abs_sub_comm] at this; exact this
  | sqrt2_2 => have := approxEq_false hT hq; rw [abs_sub_comm] at this; exact this
  | cell a =>
    obtain ⟨k, hk⟩ := (h.mem_stored hnb).1 hl
    exact hs k a hk

theorem Same.refl (t : CTab R) : Same t t := ⟨rfl, rfl, rfl, rfl, rfl, rfl, rfl, rfl, rfl, rfl, rfl, rfl⟩

theorem LinkSpec.of_same {v : R} {u : CTab R} {r} (s : Same t u) (hl : u.lookups = t.lookups) (hh : u.hits = t.hits)
    (hi : u.inserts = t.inserts) (o : LinkSpec C u v r) : LinkSpec C t v r where
  wf := o.wf
  tol := o.tol.trans s.tol
  new := by rw [← s.stored]; exact o.new
  val := o.val
  ref := o.ref
  mem := by rw [← s.bucket]; exact o.mem
  keepVal := by rw [← s.bucket, ← s.val]; exact o.keepVal
  keepRef := by rw [← s.bucket, ← s.ref]; exact o.keepRef
  keepS := by rw [← s.ref]; exact o.keepS
  count := by rw [← s.count]; exact o.count
  lt := o.lt
  inserts := by rw [← hi]; exact o.inserts
  hits := by rw [← hh]; exact o.hits
  lookups := by rw [← hl]; exact o.lookups
  gcLimit := by rw [← s.gcLimit]; exact o.gcLimit

/-- In a table with a tolerance smaller than half a bucket, only the last entry of the lower and the first entry of the
upper bucket matter at a border. -/
theorem border_far (h : WF C t) {v : R} (hv : t.tol < v) (hn : Narrow C t)
    (hne : hash C (v + t.tol) ≠ hash C (v - t.tol))
    (hl : t.matchAt v (t.tail (hash C (v - t.tol)).toNat) = none)
    (hu : t.matchAt v (t.bucket (hash C (v + t.tol)).toNat).head? = none) :
    ∀ k a, a ∈ t.bucket k → t.tol < |t.val a - v| := by
  intro k a ha
  by_contra hcon
  push Not at hcon
  obtain ⟨c1, c2⟩ := abs_le.1 hcon
  have hT := h.tol
  have hm1 := hash_mono C (show v - t.tol ≤ t.val a by linarith)
  have hm2 := hash_mono C (show t.val a ≤ v + t.tol by linarith)
  have hst := hash_step C (x := v - t.tol) (y := v + t.tol) (by unfold Narrow at hn; linarith)
  have hk := h.key k a ha
  have h0 := hash_nonneg C (show 0 ≤ v - t.tol by linarith)
  have hcase : hash C (t.val a) = hash C (v - t.tol) ∨ hash C (t.val a) = hash C (v + t.tol) := by omega
  rcases hcase with hc | hc
  · -- in the lower bucket
    have hkk : (hash C (v - t.tol)).toNat = k := by rw [← hc, hk]; simp
    rw [hkk, h.tail k] at hl
    cases hg : (t.bucket k).getLast? with
    | none => rw [List.getLast?_eq_none_iff] at hg; rw [hg] at ha; simp at ha
    | some z =>
      rw [hg] at hl
      have hz := List.mem_of_getLast? hg
      have haz : t.val a ≤ t.val z := by
        have hs := h.sorted k
        obtain ⟨l', hl'⟩ := List.getLast?_eq_some_iff.1 hg
        rw [hl'] at hs ha
        rw [List.pairwise_append] at hs
        rcases List.mem_append.1 ha with ha | ha
        · exact hs.2.2 a ha z (by simp)
        · rw [List.mem_singleton] at ha; rw [ha]
      have hzk := h.key k z hz
      have hzlt : t.val z < v + t.tol := by
        by_contra hge
        push Not at hge
        have := hash_mono C hge
        rw [hzk, ← hk, hc] at this
        omega
      have := matchAt_none hT hl
      rw [lt_abs] at this
      rcases this with h5 | h5 <;> linarith
  · have hkk : (hash C (v + t.tol)).toNat = k := by rw [← hc, hk]; simp
    rw [hkk] at hu
    cases hg : t.bucket k with
    | nil => rw [hg] at ha; simp at ha
    | cons z l =>
      rw [hg] at hu
      have hz : z ∈ t.bucket k := by rw [hg]; simp
      have haz : t.val z ≤ t.val a := by
        have hs := h.sorted k
        rw [hg] at hs ha
        rw [List.pairwise_cons] at hs
        rcases List.mem_cons.1 ha with rfl | ha
        · exact le_rfl
        · exact hs.1 a ha
      have hzk := h.key k z hz
      have hzlt : v - t.tol < t.val z := by
        by_contra hge
        push Not at hge
        have := hash_mono C hge
        rw [hzk, ← hk, hc] at this
        omega
      have := matchAt_none hT hu
      rw [lt_abs] at this
      rcases this with h5 | h5 <;> linarith

/-- The statistics-only part of a table. -/
theorem lookup_spec (hC : C.Good) (h : WF C t) {v : R} (hv : 0 ≤ v) : LookupSpec C t v (t.lookup C v) := by
  have hT := h.tol
  unfold lookup
  dsimp only
  by_cases hz : t.approxZero v = true
  · have e : ({ t with lookups := t.lookups + 1 } : CTab R).approxZero v = true := hz
    rw [if_pos e]
    refine .hit ⟨rfl, rfl, rfl, rfl, rfl, rfl, rfl, rfl, rfl, rfl, rfl, rfl⟩ trivial ?_ rfl rfl rfl
    simpa [value, approxZero] using hz
  have e : ¬ ({ t with lookups := t.lookups + 1 } : CTab R).approxZero v = true := hz
  rw [if_neg e]; clear e
  by_cases ho : t.approxOne v = true
  · have e : ({ t with lookups := t.lookups + 1 } : CTab R).approxOne v = true := ho
    rw [if_pos e]
    refine .hit ⟨rfl, rfl, rfl, rfl, rfl, rfl, rfl, rfl, rfl, rfl, rfl, rfl⟩ trivial ?_ rfl rfl rfl
    have := (approxEq_iff hT).1 ho
    rw [abs_sub_comm] at this; exact this
  have e : ¬ ({ t with lookups := t.lookups + 1 } : CTab R).approxOne v = true := ho
  rw [if_neg e]; clear e
  by_cases hq : t.approxEq v C.sq = true
  · have e : ({ t with lookups := t.lookups + 1 } : CTab R).approxEq v C.sq = true := hq
    rw [if_pos e]
    refine .hit ⟨rfl, rfl, rfl, rfl, rfl, rfl, rfl, rfl, rfl, rfl, rfl, rfl⟩ trivial ?_ rfl rfl rfl
    have := (approxEq_iff hT).1 hq
    rw [abs_sub_comm] at this; exact this
  have e : ¬ ({ t with lookups := t.lookups + 1 } : CTab R).approxEq v C.sq = true := hq
  rw [if_neg e]; clear e
  have hvT : t.tol < v := by
    have : ¬ |v| ≤ t.tol := by simpa [approxZero] using hz
    rw [abs_of_nonneg hv] at this; exact not_le.1 this
  have hv0 : 0 < v := hT.trans_lt hvT
  have m1 := hash_mono C (show v - t.tol ≤ v by linarith)
  have m2 := hash_mono C (show v ≤ v + t.tol by linarith)
  have n1 := hash_nonneg C (show 0 ≤ v - t.tol by linarith)
  have n2 := hash_nonneg C hv
  by_cases hk : hash C (v + t.tol) = hash C (v - t.tol)
  · rw [if_pos hk]
    have hkey : hash C v = (((hash C (v - t.tol)).toNat : Nat) : Int) := by omega
    generalize hu : ({ t with lookups := t.lookups + 1, findOrInserts := t.findOrInserts + 1 } : CTab R) = u
    have hsame : Same { t with lookups := t.lookups + 1 } u := by
      rw [← hu]; exact ⟨rfl, rfl, rfl, rfl, rfl, rfl, rfl, rfl, rfl, rfl, rfl, rfl⟩
    have hst : Same t u := by
      rw [← hu]; exact ⟨rfl, rfl, rfl, rfl, rfl, rfl, rfl, rfl, rfl, rfl, rfl, rfl⟩
    have huw : WF C u := hst.wf h
    have hul : u.lookups = t.lookups + 1 := by rw [← hu]
    have huh : u.hits = t.hits := by rw [← hu]
    have hui : u.inserts = t.inserts := by rw [← hu]
    clear hu
    unfold findOrInsert
    generalize hkn : (hash C (v - t.tol)).toNat = k at hkey ⊢
    cases hf : u.findIn v (u.bucket k) with
    | some a =>
      dsimp only
      obtain ⟨ha, hacc⟩ := findIn_some huw.tol hf
      rw [hst.val, hst.tol] at hacc
      rw [hst.bucket] at ha
      refine .hit ⟨hst.tol, hst.val, hst.ref, hst.bucket, hst.tail, hst.avail, hst.brk, hst.allocations,
        hst.allocationSize, hst.count, hst.peakCount, hst.gcLimit⟩ ?_ hacc ?_ hui hul
      · exact (h.mem_stored hC.nb).2 ⟨k, ha⟩
      · dsimp only; rw [huh]
    | none =>
      dsimp only
      have hn := findIn_none huw.tol (huw.sorted k) hf
      refine .miss ?_ ?_
      · apply LinkSpec.of_same hsame hul huh hui
        refine link_spec hC huw hv0 (by have := huw.tol; linarith) hkey ?_
        intro a ha hle
        have h5 := hn a ha
        rw [lt_abs] at h5
        have := huw.tol
        rcases h5 with h5 | h5 <;> linarith
      · intro _
        refine far_of hT hC.nb h hz ho hq ?_
        intro j a ha
        by_cases hjk : j = k
        · subst hjk
          have := hn a (by rw [hst.bucket]; exact ha)
          rwa [hst.val, hst.tol] at this
        · by_contra hcon
          push Not at hcon
          obtain ⟨c1, c2⟩ := abs_le.1 hcon
          have hm1 := hash_mono C (show v - t.tol ≤ t.val a by linarith)
          have hm2 := hash_mono C (show t.val a ≤ v + t.tol by linarith)
          have := h.key j a ha
          omega
  · rw [if_neg hk]
    -- the two branches select the same neighbours when the tolerance is narrow
    generalize hS : (if hash C (v - t.tol) ≠ hash C v then
        (({ t with lookups := t.lookups + 1, lowerNeighbors := t.lowerNeighbors + 1 } : CTab R),
          t.tail (hash C (v - t.tol)).toNat, (t.bucket (hash C v).toNat).head?)
      else
        ({ t with lookups := t.lookups + 1, upperNeighbors := t.upperNeighbors + 1 },
          t.tail (hash C v).toNat, (t.bucket (hash C (v + t.tol)).toNat).head?)) = S
    obtain ⟨u, pL, pU⟩ := S
    dsimp only
    have hall : Same t u ∧ Same { t with lookups := t.lookups + 1 } u ∧ u.lookups = t.lookups + 1 ∧ u.hits = t.hits ∧
        u.inserts = t.inserts ∧ (∃ j, pL = t.tail j) ∧ (∃ j, pU = (t.bucket j).head?) ∧
        (Narrow C t → pL = t.tail (hash C (v - t.tol)).toNat ∧ pU = (t.bucket (hash C (v + t.tol)).toNat).head?) := by
      by_cases hkk : hash C (v - t.tol) ≠ hash C v
      · rw [if_pos hkk] at hS
        simp only [Prod.mk.injEq] at hS
        obtain ⟨rfl, rfl, rfl⟩ := hS
        refine ⟨⟨rfl, rfl, rfl, rfl, rfl, rfl, rfl, rfl, rfl, rfl, rfl, rfl⟩,
          ⟨rfl, rfl, rfl, rfl, rfl, rfl, rfl, rfl, rfl, rfl, rfl, rfl⟩, rfl, rfl, rfl, ⟨_, rfl⟩, ⟨_, rfl⟩, ?_⟩
        intro hn
        have hst := hash_step C (x := v - t.tol) (y := v + t.tol) (by unfold Narrow at hn; linarith)
        have : hash C v = hash C (v + t.tol) := by omega
        exact ⟨rfl, by rw [this]⟩
      · rw [if_neg hkk] at hS
        simp only [Prod.mk.injEq] at hS
        obtain ⟨rfl, rfl, rfl⟩ := hS
        refine ⟨⟨rfl, rfl, rfl, rfl, rfl, rfl, rfl, rfl, rfl, rfl, rfl, rfl⟩,
          ⟨rfl, rfl, rfl, rfl, rfl, rfl, rfl, rfl, rfl, rfl, rfl, rfl⟩, rfl, rfl, rfl, ⟨_, rfl⟩, ⟨_, rfl⟩, ?_⟩
        intro _
        have : hash C (v - t.tol) = hash C v := by simpa using hkk
        exact ⟨by rw [this], rfl⟩
    clear hS
    obtain ⟨hst, hsame, hul, huh, hui, ⟨jl, hjl⟩, ⟨ju, hju⟩, hnar⟩ := hall
    have huw : WF C u := hst.wf h
    have hmatch : ∀ o, u.matchAt v o = t.matchAt v o := by
      intro o; cases o <;> simp [matchAt, approxEq, hst.val, hst.tol]
    rw [hmatch, hmatch]
    have hitL : ∀ {a}, t.matchAt v pL = some a → t.Live C (.cell a) ∧ |t.val a - v| ≤ t.tol := by
      intro a ha
      obtain ⟨h1, h2⟩ := matchAt_some hT ha
      rw [hjl, h.tail] at h1
      exact ⟨(h.mem_stored hC.nb).2 ⟨jl, List.mem_of_getLast? h1⟩, h2⟩
    have hitU : ∀ {a}, t.matchAt v pU = some a → t.Live C (.cell a) ∧ |t.val a - v| ≤ t.tol := by
      intro a ha
      obtain ⟨h1, h2⟩ := matchAt_some hT ha
      rw [hju] at h1
      exact ⟨(h.mem_stored hC.nb).2 ⟨ju, List.mem_of_mem_head? h1⟩, h2⟩
    have hhit : ∀ {a}, t.Live C (.cell a) ∧ |t.val a - v| ≤ t.tol →
        LookupSpec C t v ({ u with hits := u.hits + 1 }, .cell a) := by
      intro a ⟨h1, h2⟩
      refine .hit ⟨hst.tol, hst.val, hst.ref, hst.bucket, hst.tail, hst.avail, hst.brk, hst.allocations,
        hst.allocationSize, hst.count, hst.peakCount, hst.gcLimit⟩ h1 h2 ?_ hui hul
      dsimp only; rw [huh]
    cases hL : t.matchAt v pL with
    | some a =>
      cases hU : t.matchAt v pU with
      | some b =>
        dsimp only
        split_ifs
        · exact hhit (hitL hL)
        · exact hhit (hitU hU)
      | none => exact hhit (hitL hL)
    | none =>
      cases hU : t.matchAt v pU with
      | some b => exact hhit (hitU hU)
      | none =>
        dsimp only
        refine .miss ?_ ?_
        · apply LinkSpec.of_same hsame hul huh hui
          refine link_spec hC huw hv0 le_rfl (by omega) ?_
          intro a _ hle; exact hle
        · intro hn
          obtain ⟨e1, e2⟩ := hnar hn
          rw [e1] at hL
          rw [e2] at hU
          exact far_of hT hC.nb h hz ho hq (border_far h hvT hn hk hL hU)

theorem LookupSpec.wf {v : R} {r} (h : WF C t) (o : LookupSpec C t v r) : WF C r.1 := by
  cases o with
  | hit same => exact same.wf h
  | miss link => exact link.wf

end CTab
end DD
