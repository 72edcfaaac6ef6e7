import Verif.Props.C03

/-!
# C04: number lookup returns the nearest stored value

"When several stored values are within tolerance of the request, the lookup returns the nearest one, as the comments in
the code state."

False in general (`C04_nearest_false`): when the request is closer to a bucket border than the tolerance, only the last
entry of the lower and the first entry of the upper bucket are considered. It holds (`C04_nearest_partial`) for requests
away from the borders, and at a border if the entries within the tolerance lie in different buckets.
-/

namespace DD

variable {R : Type} [Field R] [LinearOrder R] [IsStrictOrderedRing R] [FloorRing R] {C : CCfg R} {t : CTab R} {τ : R}

/-- The nearest stored value is returned for requests that are not within tolerance of a static number, if the request is
away from the bucket borders, or each of the two buckets at the border has at most one entry within tolerance. -/
theorem C04_nearest_partial (hC : C.Good) (hτ : 0 ≤ τ) (hnar : 2 * τ * ((C.nb - 1 : Nat) : R) < 1)
    (hr : CReach C (· = τ) t) {v : R} (hv : 0 ≤ v)
    (hstat : τ < |v| ∧ τ < |v - 1| ∧ τ < |v - C.sq|)
    (hb : CTab.hash C (v + τ) = CTab.hash C (v - τ) ∨
      ∀ a ∈ t.stored C, ∀ b ∈ t.stored C, |t.val a - v| ≤ τ → |t.val b - v| ≤ τ →
        CTab.hash C (t.val a) = CTab.hash C (t.val b) → a = b)
    {b : Nat} (hbs : b ∈ t.stored C) (hbn : |t.val b - v| ≤ τ) :
    ∃ a ∈ t.stored C, (t.lookup C v).2 = .cell a ∧ ∀ c ∈ t.stored C, |t.val a - v| ≤ |t.val c - v| := by
  have hw := hr.wf (by rintro _ rfl; exact hτ) hC
  obtain ⟨hs, ht⟩ := hr.sep hτ hnar hC
  have nt : CTab.Narrow C t := by unfold CTab.Narrow; rw [ht]; exact hnar
  rw [← ht] at hb hbn hstat
  have hch := CTab.hit_choose hw nt hC.nb hv (l := .cell b) hbs hbn
  generalize (t.lookup C v).2 = res at hch
  unfold CTab.choose at hch
  obtain ⟨h1, h2, h3⟩ := hstat
  have hne1 : v ≠ 1 := by rintro rfl; rw [sub_self, abs_zero] at h2; exact absurd hw.tol (not_le.2 h2)
  have hne2 : v ≠ C.sq := by intro e; rw [e, sub_self, abs_zero] at h3; exact absurd hw.tol (not_le.2 h3)
  rw [if_neg (by simpa [CTab.approxZero] using h1),
    if_neg (by simp [CTab.approxOne, CTab.approxEq, hne1, h2]),
    if_neg (by simp [CTab.approxEq, hne2, h3])] at hch
  dsimp only at hch
  have hT := hw.tol
  have hst := CTab.hash_step C (x := v - t.tol) (y := v + t.tol) (by unfold CTab.Narrow at nt; linarith)
  have hloc : ∀ k a, a ∈ t.bucket k → |t.val a - v| ≤ t.tol →
      k = (CTab.hash C (v - t.tol)).toNat ∨ k = (CTab.hash C (v + t.tol)).toNat := by
    intro k a ha hd
    obtain ⟨c1, c2⟩ := abs_le.1 hd
    have hm1 := CTab.hash_mono C (show v - t.tol ≤ t.val a by linarith)
    have hm2 := CTab.hash_mono C (show t.val a ≤ v + t.tol by linarith)
    have hk := hw.key k a ha
    omega
  by_cases hk : CTab.hash C (v + t.tol) = CTab.hash C (v - t.tol)
  · rw [if_pos hk] at hch
    rw [hk] at hloc
    generalize hkk : (CTab.hash C (v - t.tol)).toNat = k at hch hloc
    rw [← CTab.findIn_eq_pick hT (hw.sorted k)] at hch
    cases hf : t.findIn v (t.bucket k) with
    | none => rw [hf] at hch; simp at hch
    | some a =>
      rw [hf] at hch
      simp only [Option.map_some, Option.some.injEq] at hch
      obtain ⟨ham, had⟩ := CTab.findIn_some hT hf
      refine ⟨a, (hw.mem_stored hC.nb).2 ⟨k, ham⟩, hch.symm, ?_⟩
      have hd : (t.bucket k).Pairwise (fun a b => t.tol < |t.val a - t.val b|) := by
        apply (hw.nodup k).imp_of_mem
        intro x y hx hy hxy
        exact hs x (.cell y) ((hw.mem_stored hC.nb).2 ⟨k, hx⟩) ((hw.mem_stored hC.nb).2 ⟨k, hy⟩)
          (by simpa using hxy.symm)
      intro c hc
      obtain ⟨j, hj⟩ := (hw.mem_stored hC.nb).1 hc
      by_cases hcd : |t.val c - v| ≤ t.tol
      · have : j = k := by rcases hloc j c hj hcd with h | h <;> exact h
        subst this
        exact CTab.findIn_nearest hT (hw.sorted j) hd hf c hj
      · exact had.trans (not_le.1 hcd).le
  · rw [if_neg hk] at hch
    have hb' := hb.resolve_left hk
    generalize hlo : (CTab.hash C (v - t.tol)).toNat = lo at hch hloc
    generalize hup : (CTab.hash C (v + t.tol)).toNat = up at hch hloc
    have huniq : ∀ k a c, a ∈ t.near v (t.bucket k) → c ∈ t.near v (t.bucket k) → a = c := by
      intro k a c ha hc
      rw [CTab.near_mem] at ha hc
      refine hb' a ((hw.mem_stored hC.nb).2 ⟨k, ha.1⟩) c ((hw.mem_stored hC.nb).2 ⟨k, hc.1⟩) ha.2 hc.2 ?_
      rw [hw.key k a ha.1, hw.key k c hc.1]
    have fin : ∀ a k, a ∈ t.near v (t.bucket k) → res = .cell a →
        (∀ c, c ∈ t.near v (t.bucket lo) ∨ c ∈ t.near v (t.bucket up) → |t.val a - v| ≤ |t.val c - v|) →
        ∃ a ∈ t.stored C, res = .cell a ∧ ∀ c ∈ t.stored C, |t.val a - v| ≤ |t.val c - v| := by
      intro a k ha hres hall
      rw [CTab.near_mem] at ha
      refine ⟨a, (hw.mem_stored hC.nb).2 ⟨k, ha.1⟩, hres, ?_⟩
      intro c hc
      obtain ⟨j, hj⟩ := (hw.mem_stored hC.nb).1 hc
      by_cases hcd : |t.val c - v| ≤ t.tol
      · apply hall
        rcases hloc j c hj hcd with rfl | rfl
        · exact Or.inl (CTab.near_mem.2 ⟨hj, hcd⟩)
        · exact Or.inr (CTab.near_mem.2 ⟨hj, hcd⟩)
      · exact ha.2.trans (not_le.1 hcd).le
    match hL : (t.near v (t.bucket lo)).getLast?, hU : (t.near v (t.bucket up)).head? with
    | some a, some d =>
      rw [hL, hU] at hch
      simp only [Option.some.injEq] at hch
      have ma := List.mem_of_getLast? hL
      have md := List.mem_of_mem_head? hU
      by_cases hlt : |t.val a - v| < |t.val d - v|
      · rw [if_pos hlt] at hch
        refine fin a lo ma hch.symm ?_
        rintro c (hc | hc)
        · rw [huniq lo a c ma hc]
        · rw [← huniq up d c md hc]; exact hlt.le
      · rw [if_neg hlt] at hch
        refine fin d up md hch.symm ?_
        rintro c (hc | hc)
        · rw [← huniq lo a c ma hc]; exact not_lt.1 hlt
        · rw [huniq up d c md hc]
    | some a, none =>
      rw [hL, hU] at hch
      simp only [Option.some.injEq] at hch
      have ma := List.mem_of_getLast? hL
      refine fin a lo ma hch.symm ?_
      rintro c (hc | hc)
      · rw [huniq lo a c ma hc]
      · rw [List.head?_eq_none_iff] at hU; rw [hU] at hc; simp at hc
    | none, some d =>
      rw [hL, hU] at hch
      simp only [Option.some.injEq] at hch
      have md := List.mem_of_mem_head? hU
      refine fin d up md hch.symm ?_
      rintro c (hc | hc)
      · rw [List.getLast?_eq_none_iff] at hL; rw [hL] at hc; simp at hc
      · rw [huniq up d c md hc]
    | none, none => rw [hL, hU] at hch; simp at hch

/-- Near a bucket border the nearest stored value need not be returned. With 11 buckets the border between buckets 2 and 3
is at 1/4; the entries 0.251 and 0.265 are both in bucket 3 and within the tolerance 1/100 of the request 0.2595, which is
answered by 0.251 although 0.265 is nearer. -/
theorem C04_nearest_false : ¬ ∀ (C : CCfg ℚ) (t : CTab ℚ) (τ v : ℚ), C.Good → 0 ≤ τ →
    2 * τ * ((C.nb - 1 : Nat) : ℚ) < 1 → CReach C (· = τ) t → 0 ≤ v →
    τ < |v| ∧ τ < |v - 1| ∧ τ < |v - C.sq| →
    ∀ a, (t.lookup C v).2 = .cell a → ∀ c ∈ t.stored C, |t.val a - v| ≤ |t.val c - v| := by
  intro H
  let C : CCfg ℚ := ⟨11, 4, 2, 8, 10, 5, 7 / 10⟩
  have := H C (Ex.looks C (1 / 100) [251 / 1000, 265 / 1000]) (1 / 100) (2595 / 10000)
    ⟨by decide, by decide, by decide, by decide⟩ (by norm_num) (by decide +kernel)
    (Ex.looks_reach _ _ _ (by decide +kernel)) (by norm_num) (by decide +kernel) 1 (by decide +kernel)
    2 (by decide +kernel)
  revert this
  decide +kernel

/-- The static numbers take precedence: with 0.985 stored, the request 0.991 is answered by 1 although 0.985 is nearer. -/
theorem C04_static_false : ∃ (C : CCfg ℚ) (t : CTab ℚ) (τ v : ℚ), C.Good ∧ 0 ≤ τ ∧
    2 * τ * ((C.nb - 1 : Nat) : ℚ) < 1 ∧ CReach C (· = τ) t ∧ 0 ≤ v ∧ (t.lookup C v).2 = .one ∧
    ∃ c ∈ t.stored C, |t.val c - v| < |1 - v| :=
  ⟨Ex.CQ, Ex.looks Ex.CQ (1 / 100) [985 / 1000], 1 / 100, 991 / 1000, Ex.CQ_good, by norm_num, by decide +kernel,
    Ex.looks_reach _ _ _ (by decide +kernel), by norm_num, by decide +kernel, 1, by decide +kernel, by decide +kernel⟩

namespace Ex

/-- A case of the theorem away from the borders with two candidates (0.194 and 0.206 for the request 0.201), where the
second one is returned. -/
example : let t := looks CQ (1 / 100) [194 / 1000, 206 / 1000]
    CTab.hash CQ (201 / 1000 + 1 / 100) = CTab.hash CQ (201 / 1000 - 1 / 100) ∧
    |t.val 1 - 201 / 1000| ≤ 1 / 100 ∧ |t.val 2 - 201 / 1000| ≤ 1 / 100 ∧
    (t.lookup CQ (201 / 1000)).2 = .cell 2 := by
  decide +kernel

/-- A case at a border (1/2 separates the two buckets of `CQ`): 0.494 and 0.506 for the request 0.499; 1/2 itself is
collected first. -/
example : ∃ t : CTab ℚ, CReach CQ (· = (1 / 100 : ℚ)) t ∧
    CTab.hash CQ (499 / 1000 + 1 / 100) ≠ CTab.hash CQ (499 / 1000 - 1 / 100) ∧
    (∀ a ∈ t.stored CQ, ∀ b ∈ t.stored CQ, |t.val a - 499 / 1000| ≤ 1 / 100 → |t.val b - 499 / 1000| ≤ 1 / 100 →
        CTab.hash CQ (t.val a) = CTab.hash CQ (t.val b) → a = b) ∧
    (t.stored CQ).length = 2 ∧ (t.lookup CQ (499 / 1000)).2 = .cell 0 := by
  refine ⟨[494 / 1000, 506 / 1000].foldl (fun t v => (t.lookup CQ v).1) ((CTab.create CQ (1 / 100)).clear CQ),
    CTab.CQuiet.reach ((looks_reach CQ (1 / 100) [] (by simp)).step .clear) (looks_quiet CQ _ _ (by decide +kernel)), ?_⟩
  decide +kernel

end Ex
end DD
