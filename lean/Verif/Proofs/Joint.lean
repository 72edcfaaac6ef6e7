import Verif.JointSpec
import Verif.Proofs.UHist
import Verif.Proofs.CTabReach

/-! # Invariants of all tables together -/

namespace DD

open UTable

/-! ## Uses -/

theorem usesOf_zero (a : Nat) : usesOf 0 a = 0 := rfl

theorem usesOf_add (M N : Multiset (CNum Loc)) (a : Nat) : usesOf (M + N) a = usesOf M a + usesOf N a := by
  simp [usesOf]

theorem usesOf_cons (c : CNum Loc) (M : Multiset (CNum Loc)) (a : Nat) : usesOf (c ::ₘ M) a = c.uses a + usesOf M a := by
  simp [usesOf]

theorem usesOf_singleton (c : CNum Loc) (a : Nat) : usesOf {c} a = c.uses a := by
  simp [usesOf]

theorem usesOf_pos {c : CNum Loc} {M : Multiset (CNum Loc)} {a : Nat} (hc : c ∈ M) (h : 0 < c.uses a) : 0 < usesOf M a := by
  obtain ⟨N, rfl⟩ := Multiset.exists_cons_of_mem hc
  rw [usesOf_cons]; omega

theorem usesOf_eq_zero {M : Multiset (CNum Loc)} {a : Nat} (h : ∀ c ∈ M, c.uses a = 0) : usesOf M a = 0 := by
  induction M using Multiset.induction_on with
  | empty => rfl
  | cons c M ih =>
    rw [usesOf_cons, h c (Multiset.mem_cons_self c M), ih (fun d hd => h d (Multiset.mem_cons_of_mem hd))]

theorem CNum.uses_eq (c : CNum Loc) (a : Nat) : c.uses a =
    (if c.r.loc = .cell a then 1 else 0) + (if c.i.loc = .cell a then 1 else 0) := rfl

/-! ## Weights -/

theorem weights_count {W : Type} [DecidableEq W] {n : Nat} (t : UTable W n) (w : W) : t.weights.count w = t.parW w := by
  unfold UTable.weights UTable.parW
  rw [Multiset.count_sum']
  apply Finset.sum_congr rfl
  intro b _
  split
  · rw [Multiset.coe_count, List.count, List.countP_map]
    unfold cntWL
    congr 1
  · simp

theorem mem_weights {W : Type} {n : Nat} {t : UTable W n} {w : W} :
    w ∈ t.weights ↔ ∃ b ∈ t.all, 0 < (t.mem b).ref ∧ ∃ i, ((t.mem b).e i).w = w := by
  unfold UTable.weights
  rw [Multiset.mem_sum]
  constructor
  · rintro ⟨b, hb, h⟩
    split at h
    · rename_i hr
      refine ⟨b, List.mem_toFinset.1 hb, hr, ?_⟩
      simpa using h
    · simp at h
  · rintro ⟨b, hb, hr, i, hi⟩
    refine ⟨b, List.mem_toFinset.2 hb, ?_⟩
    rw [if_pos hr]
    simp only [Multiset.mem_coe, List.mem_map, List.mem_finRange, true_and]
    exact ⟨i, hi⟩

/-! ## Counting references to numbers -/

namespace CTab

variable {R : Type} [Field R] [LinearOrder R] [IsStrictOrderedRing R] [FloorRing R] {C : CCfg R} {t t' : CTab R}

/-- Every stored entry has the count `n`, or its count is saturated. -/
def Cnt (C : CCfg R) (t : CTab R) (n : Nat → Nat) : Prop :=
  ∀ a ∈ t.stored C, t.ref (.cell a) = C.maxRef ∨ t.ref (.cell a) = n a

/-- Both parts are known to the table. -/
def LiveC (C : CCfg R) (t : CTab R) (c : CNum Loc) : Prop := t.Live C c.r.loc ∧ t.Live C c.i.loc

/-- Tables that differ only in reference counts. -/
structure SameVal (t t' : CTab R) : Prop where
  bucket : t'.bucket = t.bucket
  val : t'.val = t.val

theorem SameVal.rfl' : SameVal t t := ⟨rfl, rfl⟩

theorem SameVal.trans {t'' : CTab R} (h : SameVal t t') (h' : SameVal t' t'') : SameVal t t'' :=
  ⟨h'.bucket.trans h.bucket, h'.val.trans h.val⟩

theorem SameVal.stored (h : SameVal t t') : t'.stored C = t.stored C := by unfold CTab.stored; rw [h.bucket]

theorem SameVal.live (h : SameVal t t') (l : Loc) : t'.Live C l ↔ t.Live C l := by
  cases l <;> simp [Live, h.stored]

theorem SameVal.liveC (h : SameVal t t') (c : CNum Loc) : LiveC C t' c ↔ LiveC C t c := by
  unfold LiveC; rw [h.live, h.live]

theorem incRef_cnt {l : Loc} {n : Nat → Nat} (h : Cnt C t n) :
    Cnt C (t.incRef C l) (fun a => n a + if l = .cell a then 1 else 0) ∧ SameVal t (t.incRef C l) := by
  unfold incRef
  by_cases hs : l.isStatic = true
  · rw [if_pos hs]
    refine ⟨?_, .rfl'⟩
    intro a ha
    have : l ≠ .cell a := by rintro rfl; simp [Loc.isStatic] at hs
    beta_reduce
    rw [if_neg this]
    exact h a ha
  rw [if_neg hs]
  by_cases hm : t.ref l = C.maxRef
  · rw [if_pos hm]
    refine ⟨?_, .rfl'⟩
    intro a ha
    by_cases e : l = .cell a
    · left; rw [← e]; exact hm
    · beta_reduce; rw [if_neg e]; exact h a ha
  rw [if_neg hm]
  refine ⟨?_, ⟨rfl, rfl⟩⟩
  intro a ha
  have ha' : a ∈ t.stored C := ha
  by_cases e : l = .cell a
  · subst e
    simp only [Function.update_self]
    rcases h a ha' with h1 | h1
    · exact absurd h1 hm
    · right; simp [h1]
  · simp only [Function.update_of_ne (Ne.symm e), if_neg e]
    exact h a ha'

theorem decRef_cnt {l : Loc} (hl : t.Live C l) {n : Nat → Nat}
    (h : Cnt C t (fun a => n a + if l = .cell a then 1 else 0)) :
    ∃ t', t.decRef C l = some t' ∧ Cnt C t' n ∧ SameVal t t' := by
  unfold decRef
  by_cases hs : l.isStatic = true
  · rw [if_pos hs]
    refine ⟨t, rfl, ?_, .rfl'⟩
    intro a ha
    have : l ≠ .cell a := by rintro rfl; simp [Loc.isStatic] at hs
    have h1 := h a ha
    beta_reduce at h1
    rwa [if_neg this] at h1
  rw [if_neg hs]
  by_cases hm : t.ref l = C.maxRef
  · rw [if_pos hm]
    refine ⟨t, rfl, ?_, .rfl'⟩
    intro a ha
    by_cases e : l = .cell a
    · left; rw [← e]; exact hm
    · have := h a ha; beta_reduce at this; rwa [if_neg e] at this
  rw [if_neg hm]
  have h0 : t.ref l ≠ 0 := by
    cases l with
    | cell a =>
      rcases h a hl with h1 | h1
      · exact absurd h1 hm
      · rw [h1]; simp
    | _ => simp [Loc.isStatic] at hs
  rw [if_neg h0]
  refine ⟨_, rfl, ?_, ⟨rfl, rfl⟩⟩
  intro a ha
  have ha' : a ∈ t.stored C := ha
  by_cases e : l = .cell a
  · subst e
    simp only [Function.update_self]
    rcases h a ha' with h1 | h1
    · exact absurd h1 hm
    · right; simp [h1]
  · simp only [Function.update_of_ne (Ne.symm e)]
    have := h a ha'; beta_reduce at this; rwa [if_neg e] at this

theorem static_uses {c : CNum Loc} (h : ¬ (c ≠ CNum.zero ∧ c ≠ CNum.one)) (a : Nat) : c.uses a = 0 := by
  have : c = CNum.zero ∨ c = CNum.one := by
    by_contra hh; push Not at hh; exact h hh
  rcases this with rfl | rfl <;> simp [CNum.uses, CNum.zero, CNum.one]

theorem incRefC_cnt {c : CNum Loc} {n : Nat → Nat} (h : Cnt C t n) :
    Cnt C (t.incRefC C c) (fun a => n a + c.uses a) ∧ SameVal t (t.incRefC C c) := by
  unfold incRefC
  by_cases hc : c ≠ CNum.zero ∧ c ≠ CNum.one
  · rw [if_pos hc]
    have h1 := incRef_cnt (l := c.r.loc) h
    have h2 := incRef_cnt (l := c.i.loc) h1.1
    refine ⟨?_, h1.2.trans h2.2⟩
    have e : (fun a => n a + c.uses a) =
        fun a => (n a + if c.r.loc = .cell a then 1 else 0) + if c.i.loc = .cell a then 1 else 0 := by
      funext a; rw [CNum.uses_eq, add_assoc]
    rw [e]
    exact h2.1
  · rw [if_neg hc]
    refine ⟨?_, .rfl'⟩
    simpa [static_uses hc] using h

theorem decRefC_cnt {c : CNum Loc} (hl : LiveC C t c) {n : Nat → Nat} (h : Cnt C t (fun a => n a + c.uses a)) :
    ∃ t', t.decRefC C c = some t' ∧ Cnt C t' n ∧ SameVal t t' := by
  unfold decRefC
  by_cases hc : c ≠ CNum.zero ∧ c ≠ CNum.one
  · rw [if_pos hc]
    have e : (fun a => n a + c.uses a) =
        fun a => (n a + if c.i.loc = .cell a then 1 else 0) + if c.r.loc = .cell a then 1 else 0 := by
      funext a; rw [CNum.uses_eq]; omega
    rw [e] at h
    obtain ⟨t1, e1, h1, s1⟩ := decRef_cnt hl.1 h
    obtain ⟨t2, e2, h2, s2⟩ := decRef_cnt ((s1.live _).2 hl.2) h1
    refine ⟨t2, ?_, h2, s1.trans s2⟩
    unfold decRefP
    rw [e1, Option.bind_some, e2]
  · rw [if_neg hc]
    refine ⟨t, rfl, ?_, .rfl'⟩
    simpa [static_uses hc] using h

theorem incRefL_cnt (L : List (CNum Loc)) : ∀ {t : CTab R} {n : Nat → Nat}, Cnt C t n →
    Cnt C (t.incRefL C L) (fun a => n a + usesOf L a) ∧ SameVal t (t.incRefL C L) := by
  induction L with
  | nil => intro t n h; exact ⟨h, .rfl'⟩
  | cons c L ih =>
    intro t n h
    have h1 := incRefC_cnt (c := c) h
    have h2 := ih h1.1
    refine ⟨?_, h1.2.trans h2.2⟩
    have e : (fun a => n a + usesOf ((c :: L : List _) : Multiset _) a) = fun a => (n a + c.uses a) + usesOf L a := by
      funext a; rw [← Multiset.cons_coe, usesOf_cons, add_assoc]
    rw [e]
    exact h2.1

theorem decRefL_cnt (L : List (CNum Loc)) : ∀ {t : CTab R} {n : Nat → Nat}, (∀ c ∈ L, LiveC C t c) →
    Cnt C t (fun a => n a + usesOf L a) → ∃ t', t.decRefL C L = some t' ∧ Cnt C t' n ∧ SameVal t t' := by
  induction L with
  | nil => intro t n _ h; exact ⟨t, rfl, by simpa [usesOf] using h, .rfl'⟩
  | cons c L ih =>
    intro t n hl h
    have e : (fun a => n a + usesOf ((c :: L : List _) : Multiset _) a) = fun a => (n a + usesOf L a) + c.uses a := by
      funext a; rw [← Multiset.cons_coe, usesOf_cons]; omega
    rw [e] at h
    obtain ⟨t1, e1, h1, s1⟩ := decRefC_cnt (hl c List.mem_cons_self) h
    obtain ⟨t2, e2, h2, s2⟩ := ih (fun d hd => (s1.liveC d).2 (hl d (List.mem_cons_of_mem _ hd))) h1
    exact ⟨t2, by rw [decRefL, e1, Option.bind_some, e2], h2, s1.trans s2⟩

/-! ### Reachability -/

variable {tols : R → Prop}

theorem incRef_sv (l : Loc) : SameVal t (t.incRef C l) := by
  unfold incRef; split_ifs <;> exact ⟨rfl, rfl⟩

theorem incRefC_reach (h : CReach C tols t) {c : CNum Loc} (hl : LiveC C t c) :
    CReach C tols (t.incRefC C c) ∧ SameVal t (t.incRefC C c) := by
  unfold incRefC
  split_ifs
  · have s1 := incRef_sv (C := C) (t := t) c.r.loc
    refine ⟨(h.step (.incRef _ hl.1)).step (.incRef _ ((s1.live _).2 hl.2)), s1.trans (incRef_sv _)⟩
  · exact ⟨h, .rfl'⟩

theorem decRef_sv {l : Loc} (h : t.decRef C l = some t') : SameVal t t' := by
  unfold decRef at h
  split_ifs at h <;> · simp only [Option.some.injEq] at h; subst h; exact ⟨rfl, rfl⟩

theorem decRefC_reach (h : CReach C tols t) {c : CNum Loc} (hl : LiveC C t c) (hd : t.decRefC C c = some t') :
    CReach C tols t' ∧ SameVal t t' := by
  unfold decRefC at hd
  split_ifs at hd
  · rw [Option.bind_eq_some_iff] at hd
    obtain ⟨u, h1, h2⟩ := hd
    have s1 := decRef_sv h1
    refine ⟨(h.step (.decRef _ hl.1 h1)).step (.decRef _ ((s1.live _).2 hl.2) h2), s1.trans (decRef_sv h2)⟩
  · simp only [Option.some.injEq] at hd; subst hd; exact ⟨h, .rfl'⟩

theorem incRefL_reach (L : List (CNum Loc)) : ∀ {t : CTab R}, CReach C tols t → (∀ c ∈ L, LiveC C t c) →
    CReach C tols (t.incRefL C L) := by
  induction L with
  | nil => intro t h _; exact h
  | cons c L ih =>
    intro t h hl
    have h1 := incRefC_reach h (hl c List.mem_cons_self)
    exact ih h1.1 (fun d hd => (h1.2.liveC d).2 (hl d (List.mem_cons_of_mem _ hd)))

theorem decRefL_reach (L : List (CNum Loc)) : ∀ {t : CTab R}, CReach C tols t → (∀ c ∈ L, LiveC C t c) →
    t.decRefL C L = some t' → CReach C tols t' := by
  induction L with
  | nil => intro t h _ e; simp only [decRefL, Option.some.injEq] at e; subst e; exact h
  | cons c L ih =>
    intro t h hl e
    rw [decRefL, Option.bind_eq_some_iff] at e
    obtain ⟨u, h1, h2⟩ := e
    have h3 := decRefC_reach h (hl c List.mem_cons_self) h1
    exact ih h3.1 (fun d hd => (h3.2.liveC d).2 (hl d (List.mem_cons_of_mem _ hd))) h2

end CTab

/-! ## The invariant -/

variable {R : Type} [Field R] [LinearOrder R] [IsStrictOrderedRing R] [FloorRing R] {J : JCfg R} {tols : R → Prop}

/-- What the entries of a cache may contain. -/
def JState.EntryOk (J : JCfg R) (s : JState R) (c : CK) (key : CKey R) (r : CArg R) : Prop :=
  List.Forall₂ CArg.has key.1 c.sig.1 ∧ r.has c.sig.2 ∧ (∀ a ∈ key.1, ∀ x ∈ a.refs, s.Known J x) ∧
  (∀ k a, .node k a ∈ r.refs → s.Known J (.node k a)) ∧ (c ≠ .toffoliTable → ∀ x ∈ r.refs, s.Known J x) ∧
  (c = .idTable → ∀ e, r = .ptr .m e → e.w = CNum.one)

/-- The invariant; `pin` is the entry of the constant 1/2. -/
structure JInv (J : JCfg R) (tols : R → Prop) (pin : Option Nat) (s : JState R) : Prop where
  ct : CReach J.C tols s.ct
  tab : ∀ k, UReach (J.H k) J.U (s.tab k)
  nodes : ∀ k, ∀ a ∈ (s.tab k).tab.all, ∀ i, s.ct.LiveC J.C (((s.tab k).tab.mem a).e i).w
  held : ∀ k, ∀ e ∈ (s.tab k).held, s.ct.LiveC J.C e.w
  nums : ∀ c ∈ s.nums, s.ct.LiveC J.C c
  cnt : s.ct.Cnt J.C (fun a => (if pin = some a then 1 else 0) + usesOf s.inUse a)
  pin : ∀ a, pin = some a → a ∈ s.ct.stored J.C
  cache : ∀ c i key r, (s.cache c).slot i = some (key, r) → s.EntryOk J c key r
  count : ∀ c, (s.cache c).count = 0 → ∀ i, (s.cache c).slot i = none

/-- Good parameters. -/
structure JCfg.Good (J : JCfg R) : Prop where
  C : J.C.Good
  U : J.U.Good

theorem known_ptr {s : JState R} {k : NK} {e : PtrEdge} : (∀ x ∈ ptrRefs k e, s.Known J x) ↔
    s.ct.LiveC J.C e.w ∧ ∀ b, e.p = some b → b ∈ (s.tab k).tab.all := by
  unfold ptrRefs CTab.LiveC
  constructor
  · intro h
    refine ⟨⟨h (.num e.w.r.loc) (by simp), h (.num e.w.i.loc) (by simp)⟩, ?_⟩
    intro b hb
    exact h (.node k b) (by simp [hb, nodeRefs])
  · rintro ⟨⟨h1, h2⟩, h3⟩ x hx
    simp only [List.mem_cons] at hx
    rcases hx with rfl | rfl | hx
    · exact h1
    · exact h2
    · cases hp : e.p with
      | none => rw [hp] at hx; simp [nodeRefs] at hx
      | some b =>
        rw [hp] at hx
        simp only [nodeRefs, List.mem_singleton] at hx
        subst hx
        exact h3 b hp

theorem JInv.inUse_live {pin} {s : JState R} (h : JInv J tols pin s) {c : CNum Loc} (hc : c ∈ s.inUse) :
    s.ct.LiveC J.C c := by
  unfold JState.inUse at hc
  rw [Multiset.mem_add, Multiset.mem_sum] at hc
  rcases hc with ⟨k, _, hk⟩ | hc
  · rw [Multiset.mem_add] at hk
    rcases hk with hk | hk
    · simp only [Multiset.mem_coe, List.mem_map] at hk
      obtain ⟨e, he, rfl⟩ := hk
      exact h.held k e he
    · obtain ⟨b, hb, _, i, rfl⟩ := mem_weights.1 hk
      exact h.nodes k b hb i
  · exact h.nums c (by simpa using hc)

theorem uses_pos_r {c : CNum Loc} {a : Nat} (h : c.r.loc = .cell a) : 0 < c.uses a := by
  rw [CNum.uses_eq, if_pos h]; omega

theorem uses_pos_i {c : CNum Loc} {a : Nat} (h : c.i.loc = .cell a) : 0 < c.uses a := by
  rw [CNum.uses_eq, if_pos h]; omega

theorem uses_stored {c : CNum Loc} {t : CTab R} {C : CCfg R} {a : Nat} (hl : t.LiveC C c) (h : 0 < c.uses a) :
    a ∈ t.stored C := by
  rw [CNum.uses_eq] at h
  by_cases h1 : c.r.loc = .cell a
  · have := hl.1; rwa [h1] at this
  · by_cases h2 : c.i.loc = .cell a
    · have := hl.2; rwa [h2] at this
    · rw [if_neg h1, if_neg h2] at h; omega

theorem JInv.unused {pin} {s : JState R} (h : JInv J tols pin s) {a : Nat} (ha : a ∉ s.ct.stored J.C) :
    (if pin = some a then 1 else 0) + usesOf s.inUse a = 0 := by
  rw [if_neg (fun e => ha (h.pin a e)), usesOf_eq_zero]
  intro c hc
  by_contra h0
  exact ha (uses_stored (h.inUse_live hc) (Nat.pos_of_ne_zero h0))

/-- Replacing the table of one kind in the sum of numbers in use. -/
theorem inUse_update (s : JState R) (k : NK) (x : UHist (CNum Loc) k.ar) (ct : CTab R) (a : Nat) :
    usesOf ({ s with ct := ct, tab := Function.update s.tab k x } : JState R).inUse a +
      (usesOf (((s.tab k).held.map (fun e => e.w) : List _) : Multiset (CNum Loc)) a + usesOf (s.tab k).tab.weights a) =
    usesOf s.inUse a + (usesOf ((x.held.map (fun e => e.w) : List _) : Multiset (CNum Loc)) a + usesOf x.tab.weights a) := by
  have key : ∀ f : (k : NK) → UHist (CNum Loc) k.ar,
      (∑ k : NK, ((((f k).held.map (fun e => e.w) : List _) : Multiset (CNum Loc)) + (f k).tab.weights)) =
      (((f k).held.map (fun e => e.w) : List _) : Multiset (CNum Loc)) + (f k).tab.weights +
      ∑ k ∈ Finset.univ.erase k, ((((f k).held.map (fun e => e.w) : List _) : Multiset (CNum Loc)) + (f k).tab.weights) :=
    fun f => (Finset.add_sum_erase _ _ (Finset.mem_univ k)).symm
  unfold JState.inUse
  simp only
  rw [key, key]
  have e : ∑ j ∈ Finset.univ.erase k, ((((Function.update s.tab k x j).held.map (fun e => e.w) : List _) :
      Multiset (CNum Loc)) + (Function.update s.tab k x j).tab.weights) =
      ∑ j ∈ Finset.univ.erase k, ((((s.tab j).held.map (fun e => e.w) : List _) : Multiset (CNum Loc)) +
        (s.tab j).tab.weights) := by
    apply Finset.sum_congr rfl
    intro j hj
    rw [Function.update_of_ne (Finset.ne_of_mem_erase hj)]
  rw [e, Function.update_self]
  simp only [usesOf_add]
  omega

theorem known_mono {s s' : JState R} (hn : ∀ k a, a ∈ (s.tab k).tab.all → a ∈ (s'.tab k).tab.all)
    (hl : ∀ l, s.ct.Live J.C l → s'.ct.Live J.C l) {x : PRef} (h : s.Known J x) : s'.Known J x := by
  cases x with
  | node k a => exact hn k a h
  | num l => exact hl l h

theorem entry_mono {s s' : JState R} (hk : ∀ x, s.Known J x → s'.Known J x) {c key r} (h : s.EntryOk J c key r) :
    s'.EntryOk J c key r :=
  ⟨h.1, h.2.1, fun a ha x hx => hk x (h.2.2.1 a ha x hx), fun k a ha => hk _ (h.2.2.2.1 k a ha),
    fun hc x hx => hk x (h.2.2.2.2.1 hc x hx), h.2.2.2.2.2⟩

end DD
