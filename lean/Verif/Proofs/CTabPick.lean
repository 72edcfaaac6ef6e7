import Verif.Proofs.CTabReach

/-! # Which entry a lookup selects -/

namespace DD

/-- Table calls between two moments that only look up numbers and change reference counts. -/
inductive CQuiet {R : Type} [Field R] [LinearOrder R] [FloorRing R] (C : CCfg R) (t : CTab R) : CTab R → Prop
  | refl : CQuiet C t t
  | lookup {u} (h : CQuiet C t u) (v : R) (hv : 0 ≤ v) : CQuiet C t (u.lookup C v).1
  | incRef {u} (h : CQuiet C t u) (l : Loc) (hl : u.Live C l) : CQuiet C t (u.incRef C l)
  | decRef {u u'} (h : CQuiet C t u) (l : Loc) (hl : u.Live C l) (hd : u.decRef C l = some u') : CQuiet C t u'

namespace CTab

variable {R : Type} [Field R] [LinearOrder R] [IsStrictOrderedRing R] [FloorRing R]
variable {C : CCfg R} {t t' : CTab R}

/-- Entries of a list within the tolerance. -/
def near (t : CTab R) (v : R) (l : List Nat) : List Nat := l.filter (fun a => decide (|t.val a - v| ≤ t.tol))

/-- First of a list, unless the second is strictly closer. -/
def pick (t : CTab R) (v : R) : List Nat → Option Nat
  | [] => none
  | [a] => some a
  | a :: b :: _ => if |t.val b - v| < |t.val a - v| then some b else some a

theorem findIn_eq_pick (hT : 0 ≤ t.tol) {v : R} {l : List Nat} (hs : l.Pairwise (fun a b => t.val a ≤ t.val b)) :
    t.findIn v l = t.pick v (t.near v l) := by
  induction l with
  | nil => rfl
  | cons a l ih =>
    rw [List.pairwise_cons] at hs
    rw [findIn.eq_def]
    dsimp only
    by_cases h1 : t.val a ≤ v + t.tol
    · rw [if_pos h1]
      by_cases h2 : |t.val a - v| ≤ t.tol
      · rw [if_pos ((approxEq_iff hT).2 h2)]
        have hn : t.near v (a :: l) = a :: t.near v l := by
          unfold near; rw [List.filter_cons_of_pos (by simpa using h2)]
        rw [hn]
        match l, hs with
        | [], _ => rfl
        | b :: l, hs =>
          dsimp only
          have hab := hs.1 b (by simp)
          have hlow : v - t.tol ≤ t.val b := by have := (abs_le.1 h2).1; linarith
          by_cases h3 : |t.val b - v| ≤ t.tol
          · have hn' : t.near v (b :: l) = b :: t.near v l := by
              unfold near; rw [List.filter_cons_of_pos (by simpa using h3)]
            rw [hn']
            simp only [pick]
            have : v + t.tol ≥ t.val b := by have := (abs_le.1 h3).2; linarith
            simp only [this, true_and]
          · have hgt : v + t.tol < t.val b := by
              by_contra hcon
              push Not at hcon
              exact h3 (abs_le.2 ⟨by linarith, by linarith⟩)
            have hn' : t.near v (b :: l) = [] := by
              unfold near
              rw [List.filter_eq_nil_iff]
              intro x hx
              have : t.val b ≤ t.val x := by
                rcases List.mem_cons.1 hx with rfl | hx
                · exact le_rfl
                · exact (List.pairwise_cons.1 hs.2).1 x hx
              simp only [decide_eq_true_eq, not_le]
              rw [lt_abs]; left; linarith
            rw [hn', if_neg (by rintro ⟨h4, _⟩; linarith)]
            rfl
      · rw [if_neg (by rw [approxEq_iff hT]; exact h2), ih hs.2]
        congr 1
        unfold near
        rw [List.filter_cons_of_neg (by simpa using h2)]
    · rw [if_neg h1]
      have : t.near v (a :: l) = [] := by
        unfold near
        rw [List.filter_eq_nil_iff]
        intro x hx
        have : t.val a ≤ t.val x := by
          rcases List.mem_cons.1 hx with rfl | hx
          · exact le_rfl
          · exact hs.1 x hx
        simp only [decide_eq_true_eq, not_le]
        rw [lt_abs]; left; linarith
      rw [this]; rfl

/-- The entry selected by a lookup that finds one. -/
def choose (C : CCfg R) (t : CTab R) (v : R) : Option Loc :=
  if t.approxZero v then some .zero
  else if t.approxOne v then some .one
  else if t.approxEq v C.sq then some .sqrt2_2
  else
    let lo := t.near v (t.bucket (hash C (v - t.tol)).toNat)
    let up := t.near v (t.bucket (hash C (v + t.tol)).toNat)
    if hash C (v + t.tol) = hash C (v - t.tol) then (t.pick v lo).map .cell
    else match lo.getLast?, up.head? with
      | some a, some b => some (if |t.val a - v| < |t.val b - v| then .cell a else .cell b)
      | some a, none => some (.cell a)
      | none, some b => some (.cell b)
      | none, none => none

theorem filter_getLast? {l : List Nat} {p : Nat → Bool} {z : Nat} (h : l.getLast? = some z) (hz : p z = true) :
    (l.filter p).getLast? = some z := by
  obtain ⟨l', rfl⟩ := List.getLast?_eq_some_iff.1 h
  rw [List.filter_append, List.filter_cons_of_pos hz]
  simp

theorem match_lower (h : WF C t) {v : R} (hv : t.tol < v) (hne : hash C (v + t.tol) ≠ hash C (v - t.tol)) :
    t.matchAt v (t.tail (hash C (v - t.tol)).toNat) = (t.near v (t.bucket (hash C (v - t.tol)).toNat)).getLast? := by
  have hT := h.tol
  generalize hk : (hash C (v - t.tol)).toNat = k
  have h0 := hash_nonneg C (show 0 ≤ v - t.tol by linarith)
  rw [h.tail k]
  cases hg : (t.bucket k).getLast? with
  | none => rw [List.getLast?_eq_none_iff] at hg; rw [hg]; rfl
  | some z =>
    by_cases hz : |t.val z - v| ≤ t.tol
    · unfold near
      rw [filter_getLast? hg (by simpa using hz), matchAt, if_pos ((approxEq_iff hT).2 (by rw [abs_sub_comm]; exact hz))]
    · rw [matchAt, if_neg (by rw [approxEq_iff hT, abs_sub_comm]; exact hz)]
      have hzm := List.mem_of_getLast? hg
      have hzk := h.key k z hzm
      have hzlt : t.val z < v + t.tol := by
        by_contra hge
        push Not at hge
        have := hash_mono C hge
        have := hash_mono C (show v - t.tol ≤ v + t.tol by linarith)
        omega
      have hzlt' : t.val z < v - t.tol := by
        by_contra hge
        push Not at hge
        exact hz (abs_le.2 ⟨by linarith, by linarith⟩)
      have : t.near v (t.bucket k) = [] := by
        unfold near
        rw [List.filter_eq_nil_iff]
        intro a ha
        have haz : t.val a ≤ t.val z := by
          have hs := h.sorted k
          obtain ⟨l', hl'⟩ := List.getLast?_eq_some_iff.1 hg
          rw [hl'] at hs ha
          rw [List.pairwise_append] at hs
          rcases List.mem_append.1 ha with ha | ha
          · exact hs.2.2 a ha z (by simp)
          · rw [List.mem_singleton] at ha; rw [ha]
        simp only [decide_eq_true_eq, not_le]
        rw [lt_abs]; right; linarith
      rw [this]; rfl

theorem match_upper (h : WF C t) {v : R} (hv : t.tol < v) (hne : hash C (v + t.tol) ≠ hash C (v - t.tol)) :
    t.matchAt v (t.bucket (hash C (v + t.tol)).toNat).head? =
      (t.near v (t.bucket (hash C (v + t.tol)).toNat)).head? := by
  have hT := h.tol
  have h0 := hash_nonneg C (show 0 ≤ v - t.tol by linarith)
  have h1 := hash_mono C (show v - t.tol ≤ v + t.tol by linarith)
  generalize hk : (hash C (v + t.tol)).toNat = k
  cases hg : t.bucket k with
  | nil => rfl
  | cons z l =>
    have hzm : z ∈ t.bucket k := by rw [hg]; simp
    by_cases hz : |t.val z - v| ≤ t.tol
    · unfold near
      rw [List.filter_cons_of_pos (by simpa using hz)]
      simp only [List.head?_cons, matchAt]
      rw [if_pos ((approxEq_iff hT).2 (by rw [abs_sub_comm]; exact hz))]
    · simp only [List.head?_cons, matchAt]
      rw [if_neg (by rw [approxEq_iff hT, abs_sub_comm]; exact hz)]
      have hzk := h.key k z hzm
      have hzlt : v - t.tol < t.val z := by
        by_contra hge
        push Not at hge
        have := hash_mono C hge
        omega
      have hzlt' : v + t.tol < t.val z := by
        by_contra hge
        push Not at hge
        exact hz (abs_le.2 ⟨by linarith, by linarith⟩)
      have : t.near v (z :: l) = [] := by
        unfold near
        rw [List.filter_eq_nil_iff]
        intro a ha
        have haz : t.val z ≤ t.val a := by
          have hs := h.sorted k
          rw [hg, List.pairwise_cons] at hs
          rcases List.mem_cons.1 ha with rfl | ha
          · exact le_rfl
          · exact hs.1 a ha
        simp only [decide_eq_true_eq, not_le]
        rw [lt_abs]; left; linarith
      rw [this]; rfl

theorem lookup_choose (h : WF C t) (hn : Narrow C t) {v : R} (hv : 0 ≤ v) {l : Loc} (hc : t.choose C v = some l) :
    (t.lookup C v).2 = l := by
  have hT := h.tol
  unfold choose at hc
  unfold lookup
  dsimp only at hc ⊢
  by_cases hz : t.approxZero v = true
  · have e : ({ t with lookups := t.lookups + 1 } : CTab R).approxZero v = true := hz
    rw [if_pos e]; rw [if_pos hz] at hc; simpa using hc
  have e : ¬ ({ t with lookups := t.lookups + 1 } : CTab R).approxZero v = true := hz
  rw [if_neg e]; clear e
  rw [if_neg hz] at hc
  by_cases ho : t.approxOne v = true
  · have e : ({ t with lookups := t.lookups + 1 } : CTab R).approxOne v = true := ho
    rw [if_pos e]; rw [if_pos ho] at hc; simpa using hc
  have e : ¬ ({ t with lookups := t.lookups + 1 } : CTab R).approxOne v = true := ho
  rw [if_neg e]; clear e
  rw [if_neg ho] at hc
  by_cases hq : t.approxEq v C.sq = true
  · have e : ({ t with lookups := t.lookups + 1 } : CTab R).approxEq v C.sq = true := hq
    rw [if_pos e]; rw [if_pos hq] at hc; simpa using hc
  have e : ¬ ({ t with lookups := t.lookups + 1 } : CTab R).approxEq v C.sq = true := hq
  rw [if_neg e]; clear e
  rw [if_neg hq] at hc
  have hvT : t.tol < v := by
    have : ¬ |v| ≤ t.tol := by simpa [approxZero] using hz
    rw [abs_of_nonneg hv] at this; exact not_le.1 this
  have m1 := hash_mono C (show v - t.tol ≤ v by linarith)
  have m2 := hash_mono C (show v ≤ v + t.tol by linarith)
  have hst := hash_step C (x := v - t.tol) (y := v + t.tol) (by unfold Narrow at hn; linarith)
  by_cases hk : hash C (v + t.tol) = hash C (v - t.tol)
  · rw [if_pos hk] at hc ⊢
    rw [← findIn_eq_pick hT (h.sorted _)] at hc
    unfold findOrInsert
    dsimp only
    have hf : ∀ l, ({ t with lookups := t.lookups + 1, findOrInserts := t.findOrInserts + 1 } : CTab R).findIn v l =
        t.findIn v l := by
      intro l
      induction l with
      | nil => rfl
      | cons a l ih =>
        rw [findIn.eq_def, findIn.eq_def t]
        dsimp only
        rw [ih]; rfl
    rw [hf]
    cases hfi : t.findIn v (t.bucket (hash C (v - t.tol)).toNat) with
    | none => rw [hfi] at hc; simp at hc
    | some a =>
      rw [hfi] at hc
      simpa using hc
  · rw [if_neg hk] at hc ⊢
    rw [← match_lower h hvT hk, ← match_upper h hvT hk] at hc
    have hsel : ∃ u : CTab R, (u.val = t.val ∧ u.tol = t.tol) ∧ (if hash C (v - t.tol) ≠ hash C v then
        (({ t with lookups := t.lookups + 1, lowerNeighbors := t.lowerNeighbors + 1 } : CTab R),
          t.tail (hash C (v - t.tol)).toNat, (t.bucket (hash C v).toNat).head?)
      else
        ({ t with lookups := t.lookups + 1, upperNeighbors := t.upperNeighbors + 1 },
          t.tail (hash C v).toNat, (t.bucket (hash C (v + t.tol)).toNat).head?)) =
        (u, t.tail (hash C (v - t.tol)).toNat, (t.bucket (hash C (v + t.tol)).toNat).head?) := by
      by_cases hkk : hash C (v - t.tol) ≠ hash C v
      · rw [if_pos hkk]
        have : hash C v = hash C (v + t.tol) := by omega
        rw [this]
        exact ⟨{ t with lookups := t.lookups + 1, lowerNeighbors := t.lowerNeighbors + 1 }, ⟨rfl, rfl⟩, rfl⟩
      · rw [if_neg hkk]
        have : hash C (v - t.tol) = hash C v := by simpa using hkk
        rw [this]
        exact ⟨{ t with lookups := t.lookups + 1, upperNeighbors := t.upperNeighbors + 1 }, ⟨rfl, rfl⟩, rfl⟩
    obtain ⟨u, ⟨huv, hut⟩, hsel⟩ := hsel
    rw [hsel]
    dsimp only
    have hmatch : ∀ o, u.matchAt v o = t.matchAt v o := by
      intro o; cases o <;> simp [matchAt, approxEq, huv, hut]
    rw [hmatch, hmatch]
    cases hL : t.matchAt v (t.tail (hash C (v - t.tol)).toNat) with
    | some a =>
      cases hU : t.matchAt v (t.bucket (hash C (v + t.tol)).toNat).head? with
      | some b => rw [hL, hU] at hc; simp only [Option.some.injEq] at hc; simp only [huv]; exact hc
      | none => rw [hL, hU] at hc; simpa using hc
    | none =>
      cases hU : t.matchAt v (t.bucket (hash C (v + t.tol)).toNat).head? with
      | some b => rw [hL, hU] at hc; simpa using hc
      | none => rw [hL, hU] at hc; simp at hc

theorem near_mem {v : R} {l : List Nat} {a : Nat} : a ∈ t.near v l ↔ a ∈ l ∧ |t.val a - v| ≤ t.tol := by
  simp [near]

theorem choose_none (h : WF C t) (hn : Narrow C t) (hnb : 0 < C.nb) {v : R} (hv : 0 ≤ v) (hc : t.choose C v = none) :
    Far C t v := by
  have hT := h.tol
  unfold choose at hc
  dsimp only at hc
  by_cases hz : t.approxZero v = true
  · rw [if_pos hz] at hc; simp at hc
  rw [if_neg hz] at hc
  by_cases ho : t.approxOne v = true
  · rw [if_pos ho] at hc; simp at hc
  rw [if_neg ho] at hc
  by_cases hq : t.approxEq v C.sq = true
  · rw [if_pos hq] at hc; simp at hc
  rw [if_neg hq] at hc
  have hvT : t.tol < v := by
    have : ¬ |v| ≤ t.tol := by simpa [approxZero] using hz
    rw [abs_of_nonneg hv] at this; exact not_le.1 this
  have hst := hash_step C (x := v - t.tol) (y := v + t.tol) (by unfold Narrow at hn; linarith)
  have hboth : t.near v (t.bucket (hash C (v - t.tol)).toNat) = [] ∧
      t.near v (t.bucket (hash C (v + t.tol)).toNat) = [] := by
    by_cases hk : hash C (v + t.tol) = hash C (v - t.tol)
    · rw [if_pos hk] at hc
      rw [hk]
      have : t.near v (t.bucket (hash C (v - t.tol)).toNat) = [] := by
        match hl : t.near v (t.bucket (hash C (v - t.tol)).toNat) with
        | [] => rfl
        | [a] => rw [hl] at hc; simp [pick] at hc
        | a :: b :: l => rw [hl] at hc; simp only [pick] at hc; split_ifs at hc <;> simp at hc
      exact ⟨this, this⟩
    · rw [if_neg hk] at hc
      match hl : (t.near v (t.bucket (hash C (v - t.tol)).toNat)).getLast?,
        hu : (t.near v (t.bucket (hash C (v + t.tol)).toNat)).head? with
      | some a, some b => rw [hl, hu] at hc; simp at hc
      | some a, none => rw [hl, hu] at hc; simp at hc
      | none, some b => rw [hl, hu] at hc; simp at hc
      | none, none => exact ⟨List.getLast?_eq_none_iff.1 hl, List.head?_eq_none_iff.1 hu⟩
  refine far_of hT hnb h hz ho hq ?_
  intro k a ha
  by_contra hcon
  push Not at hcon
  obtain ⟨c1, c2⟩ := abs_le.1 hcon
  have hm1 := hash_mono C (show v - t.tol ≤ t.val a by linarith)
  have hm2 := hash_mono C (show t.val a ≤ v + t.tol by linarith)
  have hk := h.key k a ha
  have hcase : k = (hash C (v - t.tol)).toNat ∨ k = (hash C (v + t.tol)).toNat := by omega
  rcases hcase with rfl | rfl
  · have : a ∈ t.near v (t.bucket (hash C (v - t.tol)).toNat) := near_mem.2 ⟨ha, hcon⟩
    rw [hboth.1] at this; simp at this
  · have : a ∈ t.near v (t.bucket (hash C (v + t.tol)).toNat) := near_mem.2 ⟨ha, hcon⟩
    rw [hboth.2] at this; simp at this

/-- A lookup that succeeds selects the chosen entry. -/
theorem hit_choose (h : WF C t) (hn : Narrow C t) (hnb : 0 < C.nb) {v : R} (hv : 0 ≤ v) {l : Loc} (hl : t.Live C l)
    (hacc : |t.value C l - v| ≤ t.tol) : t.choose C v = some (t.lookup C v).2 := by
  cases hc : t.choose C v with
  | none => exact absurd hacc (not_le.2 (choose_none h hn hnb hv hc l hl))
  | some x => rw [lookup_choose h hn hv hc]

/-! ## Stability -/

theorem CQuiet.reach {τ : R} {u : CTab R} (hr : CReach C (· = τ) t) (h : CQuiet C t u) : CReach C (· = τ) u := by
  induction h with
  | refl => exact hr
  | lookup _ v hv ih => exact ih.step (.lookup v hv)
  | incRef _ l hl ih => exact ih.step (.incRef l hl)
  | decRef _ l hl hd ih => exact ih.step (.decRef l hl hd)

theorem lookup_keeps (hC : C.Good) (h : WF C t) {v : R} (hv : 0 ≤ v) {l : Loc} (hl : t.Live C l) :
    (t.lookup C v).1.Live C l ∧ (t.lookup C v).1.value C l = t.value C l ∧ (t.lookup C v).1.ref l = t.ref l := by
  have o := lookup_spec hC h hv
  generalize lookup C t v = r at o
  cases o with
  | hit same => exact ⟨same.live.2 hl, same.value, by dsimp only; rw [same.ref]⟩
  | miss link =>
    have s := lookups_same t (t.lookups + 1)
    refine ⟨(link.live hC.nb (s.wf h)).2 (Or.inl (s.live.2 hl)), ?_, ?_⟩
    · exact (link.value_old hC.nb (s.wf h) (s.live.2 hl)).trans s.value
    · cases l with
      | cell a =>
        obtain ⟨k, hk⟩ := (h.mem_stored hC.nb).1 hl
        exact link.keepRef k a hk
      | _ => exact link.keepS _ rfl

theorem CQuiet.keeps {τ : R} (hτ : 0 ≤ τ) (hC : C.Good) {u : CTab R} (hr : CReach C (· = τ) t) (h : CQuiet C t u)
    {l : Loc} (hl : t.Live C l) : u.Live C l ∧ u.value C l = t.value C l := by
  induction h with
  | refl => exact ⟨hl, rfl⟩
  | lookup hq v hv ih =>
    have hw := (CQuiet.reach hr hq).wf (by rintro _ rfl; exact hτ) hC
    have := lookup_keeps hC hw hv ih.1
    exact ⟨this.1, this.2.1.trans ih.2⟩
  | incRef hq x hx ih =>
    unfold incRef
    split_ifs
    · exact ih
    · exact ih
    · refine ⟨?_, ?_⟩
      · cases l <;> exact ih.1
      · cases l <;> exact ih.2
  | decRef hq x hx hd ih =>
    unfold decRef at hd
    split_ifs at hd
    · simp only [Option.some.injEq] at hd; subst hd; exact ih
    · simp only [Option.some.injEq] at hd; subst hd; exact ih
    · simp only [Option.some.injEq] at hd; subst hd
      refine ⟨?_, ?_⟩
      · cases l <;> exact ih.1
      · cases l <;> exact ih.2

theorem sorted_lt (h : WF C t) (hs : Sep C t) (hnb : 0 < C.nb) (k : Nat) :
    (t.bucket k).Pairwise (fun a b => t.val a < t.val b) := by
  have h2 : (t.bucket k).Pairwise (fun a b => t.val a ≤ t.val b ∧ a ≠ b) := (h.sorted k).and (h.nodup k)
  apply h2.imp_of_mem
  rintro a b ha hb ⟨hab, hne⟩
  have := hs a (.cell b) ((h.mem_stored hnb).2 ⟨k, ha⟩) ((h.mem_stored hnb).2 ⟨k, hb⟩) (by simpa using hne.symm)
  rcases hab.lt_or_eq with h3 | h3
  · exact h3
  · exfalso
    have e : t.value C (.cell a) = t.value C (.cell b) := h3
    rw [e, sub_self, abs_zero] at this
    exact absurd this (not_lt.2 h.tol)

theorem choose_congr {u : CTab R} (ht : u.tol = t.tol) {v : R}
    (hnear : ∀ k, u.near v (u.bucket k) = t.near v (t.bucket k))
    (hval : ∀ k a, a ∈ t.bucket k → u.val a = t.val a) : u.choose C v = t.choose C v := by
  unfold choose approxZero approxOne approxEq
  rw [ht]
  dsimp only
  have hp : ∀ k, u.pick v (t.near v (t.bucket k)) = t.pick v (t.near v (t.bucket k)) := by
    intro k
    have hm : ∀ a ∈ t.near v (t.bucket k), u.val a = t.val a := fun a ha => hval k a (near_mem.1 ha).1
    match t.near v (t.bucket k), hm with
    | [], _ => rfl
    | [a], _ => rfl
    | a :: b :: l, hm => simp only [pick]; rw [hm a (by simp), hm b (by simp)]
  rw [hnear, hnear, hp]
  generalize hlo : (hash C (v - t.tol)).toNat = lo
  generalize hup : (hash C (v + t.tol)).toNat = up
  cases hL : (t.near v (t.bucket lo)).getLast? with
  | none => cases (t.near v (t.bucket up)).head? <;> rfl
  | some a =>
    cases hU : (t.near v (t.bucket up)).head? with
    | none => rfl
    | some b =>
      dsimp only
      rw [hval lo a (near_mem.1 (List.mem_of_getLast? hL)).1, hval up b (near_mem.1 (List.mem_of_mem_head? hU)).1]

theorem near_congr {u : CTab R} (h : WF C t) (hs : Sep C t) (hu : WF C u) (hus : Sep C u) (hnb : 0 < C.nb)
    (ht : u.tol = t.tol) {v : R} (hkeep : ∀ a, t.Live C (.cell a) → u.Live C (.cell a) ∧ u.val a = t.val a)
    (hnew : ∀ a, u.Live C (.cell a) → |u.val a - v| ≤ u.tol → t.Live C (.cell a)) (k : Nat) :
    u.near v (u.bucket k) = t.near v (t.bucket k) := by
  have hmem : ∀ a, a ∈ u.near v (u.bucket k) ↔ a ∈ t.near v (t.bucket k) := by
    intro a
    rw [near_mem, near_mem]
    constructor
    · rintro ⟨h1, h2⟩
      have hl := hnew a ((hu.mem_stored hnb).2 ⟨k, h1⟩) h2
      have hv := (hkeep a hl).2
      obtain ⟨j, hj⟩ := (h.mem_stored hnb).1 hl
      have e1 := h.key j a hj
      have e2 := hu.key k a h1
      rw [hv, e1] at e2
      have : j = k := by exact_mod_cast e2
      rw [hv, ht] at h2
      exact ⟨this ▸ hj, h2⟩
    · rintro ⟨h1, h2⟩
      obtain ⟨hl, hv⟩ := hkeep a ((h.mem_stored hnb).2 ⟨k, h1⟩)
      obtain ⟨j, hj⟩ := (hu.mem_stored hnb).1 hl
      have e1 := hu.key j a hj
      have e2 := h.key k a h1
      rw [hv, e2] at e1
      have : k = j := by exact_mod_cast e1
      rw [hv, ht]
      exact ⟨this ▸ hj, h2⟩
  have hperm : (u.near v (u.bucket k)).Perm (t.near v (t.bucket k)) :=
    (List.perm_ext_iff_of_nodup ((hu.nodup k).filter _) ((h.nodup k).filter _)).2 hmem
  refine hperm.eq_of_pairwise (le := fun a b => t.val a < t.val b) ?_ ?_ ?_
  · intro a b _ _ h1 h2; exact absurd h1 (not_lt.2 h2.le)
  · have := (sorted_lt hu hus hnb k).filter (fun a => decide (|u.val a - v| ≤ u.tol))
    apply this.imp_of_mem
    intro a b ha hb hab
    have la := (hmem a).1 ha
    have lb := (hmem b).1 hb
    rw [(hkeep a ((h.mem_stored hnb).2 ⟨k, (near_mem.1 la).1⟩)).2,
      (hkeep b ((h.mem_stored hnb).2 ⟨k, (near_mem.1 lb).1⟩)).2] at hab
    exact hab
  · exact (sorted_lt h hs hnb k).filter _

end CTab
end DD
