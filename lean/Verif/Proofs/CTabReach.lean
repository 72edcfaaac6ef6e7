import Verif.Proofs.CTabLookup

/-! # Invariants of all reachable number tables -/

namespace DD
namespace CTab

variable {R : Type} [Field R] [LinearOrder R] [IsStrictOrderedRing R] [FloorRing R]
variable {C : CCfg R} {t t' : CTab R}

theorem setRef_wf (h : WF C t) {l : Loc} (hl : t.Live C l) (hnb : 0 < C.nb) (n : Nat) :
    WF C { t with ref := Function.update t.ref l n } :=
  { h with
    fresh := by
      intro a h1 h2
      have : Loc.cell a ≠ l := by
        rintro rfl
        obtain ⟨k, hk⟩ := (h.mem_stored hnb).1 hl
        exact absurd (h.lt_brk k a hk) (not_lt.2 h1)
      dsimp only
      rw [Function.update_of_ne this]
      exact h.fresh a h1 h2 }

theorem incRef_wf (h : WF C t) {l : Loc} (hl : t.Live C l) (hnb : 0 < C.nb) : WF C (t.incRef C l) := by
  unfold incRef
  split_ifs
  · exact h
  · exact h
  · exact setRef_wf h hl hnb _

theorem decRef_wf (h : WF C t) {l : Loc} (hl : t.Live C l) (hnb : 0 < C.nb) (hd : t.decRef C l = some t') :
    WF C t' := by
  unfold decRef at hd
  split_ifs at hd
  · simp only [Option.some.injEq] at hd; subst hd; exact h
  · simp only [Option.some.injEq] at hd; subst hd; exact h
  · simp only [Option.some.injEq] at hd; subst hd; exact setRef_wf h hl hnb _

/-! ## Collection -/

theorem deadIn_flatMap : (List.range C.nb).flatMap t.deadIn =
    (t.stored C).filter (fun a => decide (t.ref (.cell a) = 0)) := by
  unfold stored; rw [← UTable.flatMap_filter]; rfl

theorem liveIn_flatMap : (List.range C.nb).flatMap t.liveIn =
    (t.stored C).filter (fun a => decide (t.ref (.cell a) ≠ 0)) := by
  unfold stored; rw [← UTable.flatMap_filter]; rfl

/-- What a collection that is not skipped does. -/
structure GcSpec (C : CCfg R) (t : CTab R) (r : CTab R × Nat) : Prop where
  wf : WF C r.1
  tol : r.1.tol = t.tol
  val : r.1.val = t.val
  ref : r.1.ref = t.ref
  bucket : ∀ k, r.1.bucket k = t.liveIn k
  stored : r.1.stored C = (t.stored C).filter (fun a => decide (t.ref (.cell a) ≠ 0))
  num : r.2 = ((t.stored C).filter (fun a => decide (t.ref (.cell a) = 0))).length
  brk : r.1.brk = t.brk
  allocations : r.1.allocations = t.allocations
  hits : r.1.hits = t.hits
  inserts : r.1.inserts = t.inserts
  lookups : r.1.lookups = t.lookups

theorem gc_run_spec (hnb : 0 < C.nb) (h : WF C t) {force : Bool}
    (hrun : ¬ ((!force && decide (t.count < t.gcLimit)) || decide (t.count ≤ 1)) = true) :
    GcSpec C t (t.garbageCollect C force) := by
  unfold garbageCollect
  dsimp only
  rw [if_neg hrun]
  have hout : ∀ k, ¬ k < C.nb → t.bucket k = [] := by
    intro k hk
    rw [List.eq_nil_iff_forall_not_mem]
    exact fun a ha => hk (h.bucket_lt hnb ha)
  have hl : ∀ k, (if k < C.nb then t.liveIn k else t.bucket k) = t.liveIn k := by
    intro k
    by_cases hk : k < C.nb
    · rw [if_pos hk]
    · rw [if_neg hk]; unfold liveIn; rw [hout k hk]; rfl
  have hfun : (fun k => if k < C.nb then t.liveIn k else t.bucket k) = t.liveIn := funext hl
  have hD : (List.range C.nb).flatMap (deadIn { t with gcCalls := t.gcCalls + 1 }) =
    (t.stored C).filter (fun a => decide (t.ref (.cell a) = 0)) := deadIn_flatMap
  have hL : (List.range C.nb).flatMap (liveIn { t with gcCalls := t.gcCalls + 1 }) =
    (t.stored C).filter (fun a => decide (t.ref (.cell a) ≠ 0)) := liveIn_flatMap
  have hlm : ∀ k a, a ∈ t.liveIn k → a ∈ t.bucket k := fun k a ha => (List.mem_filter.1 ha).1
  have hstored : (List.range C.nb).flatMap (fun k => if k < C.nb then t.liveIn k else t.bucket k) =
      (t.stored C).filter (fun a => decide (t.ref (.cell a) ≠ 0)) := by rw [hfun, liveIn_flatMap]
  refine ⟨⟨?_, ?_, ?_, ?_, ?_, ?_, ?_, ?_, ?_, ?_, ?_, ?_, ?_, ?_, ?_⟩, rfl, rfl, rfl, ?_, ?_, ?_, rfl, rfl, rfl, rfl, rfl⟩
  all_goals dsimp only
  · exact h.tol
  · intro k a ha
    have ha' : a ∈ t.liveIn k := by rw [← hl k]; exact ha
    exact h.pos k a (hlm k a ha')
  · intro k a ha
    have ha' : a ∈ t.liveIn k := by rw [← hl k]; exact ha
    exact h.key k a (hlm k a ha')
  · intro k
    have : (t.liveIn k).Pairwise (fun a b => t.val a ≤ t.val b) := (h.sorted k).filter _
    rw [← hl k] at this; exact this
  · intro k
    have : (t.liveIn k).Nodup := (h.nodup k).filter _
    rw [← hl k] at this; exact this
  · intro k
    have e : (if k < C.nb then t.liveIn k else t.bucket k).getLast? = (t.liveIn k).getLast? := by rw [hl k]
    refine Eq.trans ?_ e.symm
    by_cases hk : k < C.nb ∧ t.bucket k ≠ []
    · exact if_pos hk
    · refine (if_neg hk).trans ?_
      have : t.bucket k = [] := by
        by_contra hne
        exact hk ⟨by by_contra hlt; exact hne (hout k hlt), hne⟩
      rw [h.tail k]
      unfold liveIn
      rw [this]; rfl
  · rw [hD, List.nodup_append']
    refine ⟨(List.nodup_reverse.2 (h.stored_nodup.filter _)), h.avail_nodup, ?_⟩
    intro a ha hb
    rw [List.mem_reverse, List.mem_filter, h.mem_stored hnb] at ha
    obtain ⟨⟨k, hk⟩, _⟩ := ha
    exact h.avail_out a hb k hk
  · rw [hD]
    intro a ha k hak
    have hak' : a ∈ t.liveIn k := by rw [← hl k]; exact hak
    rcases List.mem_append.1 ha with ha | ha
    · rw [List.mem_reverse, List.mem_filter] at ha
      have h1 : t.ref (.cell a) = 0 := by simpa using ha.2
      have h2 : ¬ t.ref (.cell a) = 0 := by simpa using (List.mem_filter.1 hak').2
      exact h2 h1
    · exact h.avail_out a ha k (hlm k a hak')
  · rw [hD]
    intro a ha
    rcases List.mem_append.1 ha with ha | ha
    · rw [List.mem_reverse, List.mem_filter, h.mem_stored hnb] at ha
      obtain ⟨⟨k, hk⟩, _⟩ := ha
      exact h.lt_brk k a hk
    · exact h.avail_lt a ha
  · intro k a ha
    have ha' : a ∈ t.liveIn k := by rw [← hl k]; exact ha
    exact h.lt_brk k a (hlm k a ha')
  · exact h.brk_le
  · exact h.asize
  · exact h.fresh
  · rw [hL]
    exact (congrArg List.length hstored).symm
  · rw [hL]
    refine le_trans (List.length_filter_le _ _) ?_
    rw [← h.count]; exact h.peak
  · exact hl
  · exact hstored
  · rw [hD]

theorem gc_skip {force : Bool}
    (hskip : ((!force && decide (t.count < t.gcLimit)) || decide (t.count ≤ 1)) = true) :
    t.garbageCollect C force = ({ t with gcCalls := t.gcCalls + 1 }, 0) := by
  unfold garbageCollect
  dsimp only
  rw [if_pos hskip]

theorem gc_wf (hnb : 0 < C.nb) (h : WF C t) {force : Bool} : WF C (t.garbageCollect C force).1 := by
  by_cases hrun : ((!force && decide (t.count < t.gcLimit)) || decide (t.count ≤ 1)) = true
  · rw [gc_skip hrun]
    exact Same.wf (t := t) ⟨rfl, rfl, rfl, rfl, rfl, rfl, rfl, rfl, rfl, rfl, rfl, rfl⟩ h
  · exact (gc_run_spec hnb h hrun).wf

theorem clear_bucket (hnb : 0 < C.nb) (h : WF C t) (k : Nat) : (t.clear C).bucket k = [] := by
  unfold clear
  dsimp only
  by_cases hk : k < C.nb
  · exact if_pos hk
  · refine (if_neg hk).trans ?_
    rw [List.eq_nil_iff_forall_not_mem]
    exact fun a ha => hk (h.bucket_lt hnb ha)

theorem clear_tail (hnb : 0 < C.nb) (h : WF C t) (k : Nat) : (t.clear C).tail k = none := by
  have hb := clear_bucket hnb h k
  unfold clear at hb ⊢
  dsimp only at hb ⊢
  by_cases hk : k < C.nb
  · exact if_pos hk
  · rw [if_neg hk] at hb ⊢
    rw [h.tail, hb]; rfl

theorem clear_wf (hC : C.Good) (h : WF C t) : WF C (t.clear C) := by
  have hb := clear_bucket hC.nb h
  refine ⟨h.tol, ?_, ?_, ?_, ?_, ?_, ?_, ?_, ?_, ?_, ?_, ?_, ?_, ?_, ?_⟩
  · intro k a ha; rw [hb] at ha; simp at ha
  · intro k a ha; rw [hb] at ha; simp at ha
  · intro k; rw [hb]; exact List.Pairwise.nil
  · intro k; rw [hb]; exact List.nodup_nil
  · intro k; rw [hb, clear_tail hC.nb h]; rfl
  · exact List.nodup_nil
  · intro a ha; exact absurd ha (List.not_mem_nil)
  · intro a ha; exact absurd ha (List.not_mem_nil)
  · intro k a ha; rw [hb] at ha; simp at ha
  · exact Nat.zero_le _
  · exact Nat.mul_pos hC.init hC.growth
  · intro a _ h2
    exact if_pos h2
  · unfold stored
    have : (t.clear C).bucket = fun _ => [] := funext hb
    rw [this]; simp [clear]
  · exact le_rfl

theorem Same.live (s : Same t t') {l : Loc} : t'.Live C l ↔ t.Live C l := by
  cases l <;> simp [Live, s.stored]

theorem create_wf (hC : C.Good) {τ : R} (hτ : 0 ≤ τ) : WF C (create C τ) := by
  unfold create
  have o := lookup_spec hC (init_wf hC hτ) (v := 1 / 2) (by positivity)
  have hw := o.wf (init_wf hC hτ)
  generalize hr : lookup C (init C τ) (1 / 2) = r at o hw
  dsimp only
  refine setRef_wf hw ?_ hC.nb _
  cases o with
  | hit same live =>
    exact same.live.2 live
  | miss link =>
    show _ ∈ _
    rw [hw.mem_stored hC.nb]
    exact ⟨_, (link.mem _ _).2 (Or.inr ⟨rfl, rfl⟩)⟩

theorem CStep.wf {tols : R → Prop} (htol : ∀ τ, tols τ → 0 ≤ τ) (hC : C.Good) (h : WF C t)
    (hs : CStep C tols t t') : WF C t' := by
  cases hs with
  | lookup v hv => exact (lookup_spec hC h hv).wf h
  | incRef l hl => exact incRef_wf h hl hC.nb
  | decRef l hl hd => exact decRef_wf h hl hC.nb hd
  | garbageCollect force => exact gc_wf hC.nb h
  | clear => exact clear_wf hC h
  | setTolerance τ hτ => exact { h with tol := htol τ hτ }

theorem _root_.DD.CReach.wf {tols : R → Prop} (htol : ∀ τ, tols τ → 0 ≤ τ) (hC : C.Good) (hr : CReach C tols t) :
    WF C t := by
  induction hr with
  | create τ h => exact create_wf hC (htol τ h)
  | step _ hs ih => exact CStep.wf htol hC ih hs

/-! ## Separation -/

/-- Any two known numbers, not both static, are further apart than the tolerance. -/
def Sep (C : CCfg R) (t : CTab R) : Prop :=
  ∀ a b, t.Live C (.cell a) → t.Live C b → b ≠ .cell a → t.tol < |t.value C (.cell a) - t.value C b|

theorem Same.value (s : Same t t') {l : Loc} : t'.value C l = t.value C l := by
  cases l <;> simp [CTab.value, s.val]

theorem Same.sep (s : Same t t') (h : Sep C t) : Sep C t' := by
  intro a b ha hb hab
  rw [s.live] at ha hb
  rw [s.tol, s.value, s.value]
  exact h a b ha hb hab

theorem lookups_same (t : CTab R) (n : Nat) : Same t { t with lookups := n } :=
  ⟨rfl, rfl, rfl, rfl, rfl, rfl, rfl, rfl, rfl, rfl, rfl, rfl⟩

theorem LinkSpec.live (hnb : 0 < C.nb) (h : WF C t) {v : R} {r} (o : LinkSpec C t v r) {l : Loc} :
    r.1.Live C l ↔ t.Live C l ∨ l = .cell r.2 := by
  cases l with
  | cell a =>
    show a ∈ _ ↔ a ∈ _ ∨ _
    rw [o.wf.mem_stored hnb, h.mem_stored hnb]
    constructor
    · rintro ⟨k, hk⟩
      rcases (o.mem k a).1 hk with hk | ⟨rfl, _⟩
      · exact Or.inl ⟨k, hk⟩
      · exact Or.inr rfl
    · rintro (⟨k, hk⟩ | hk)
      · exact ⟨k, (o.mem k a).2 (Or.inl hk)⟩
      · have : a = r.2 := by injection hk
        exact ⟨_, (o.mem _ a).2 (Or.inr ⟨this, rfl⟩)⟩
  | _ => simp [Live]

theorem LinkSpec.value_old (hnb : 0 < C.nb) (h : WF C t) {v : R} {r} (o : LinkSpec C t v r) {l : Loc}
    (hl : t.Live C l) : r.1.value C l = t.value C l := by
  cases l with
  | cell a =>
    obtain ⟨k, hk⟩ := (h.mem_stored hnb).1 hl
    exact o.keepVal k a hk
  | _ => rfl

theorem LinkSpec.sep (hnb : 0 < C.nb) (h : WF C t) (hs : Sep C t) {v : R} {r} (o : LinkSpec C t v r)
    (hf : Far C t v) : Sep C r.1 := by
  intro a b ha hb hab
  rw [o.live hnb h] at ha hb
  rw [o.tol]
  rcases ha with ha | ha
  · rw [o.value_old hnb h ha]
    rcases hb with hb | hb
    · rw [o.value_old hnb h hb]; exact hs a b ha hb hab
    · subst hb
      have : r.1.value C (.cell r.2) = v := o.val
      rw [this]
      exact hf _ ha
  · have ha' : a = r.2 := by injection ha
    subst ha'
    have : r.1.value C (.cell r.2) = v := o.val
    rw [this]
    rcases hb with hb | hb
    · rw [o.value_old hnb h hb, abs_sub_comm]
      exact hf _ hb
    · exact absurd hb hab

theorem lookup_sep (hC : C.Good) (h : WF C t) (hn : Narrow C t) (hs : Sep C t) {v : R} {r}
    (o : LookupSpec C t v r) : Sep C r.1 := by
  cases o with
  | hit same => exact same.sep hs
  | miss link far =>
    have s := lookups_same t (t.lookups + 1)
    refine link.sep hC.nb (s.wf h) (s.sep hs) ?_
    intro l hl
    rw [s.live] at hl
    rw [s.value]
    exact far hn l hl

theorem sep_of_sub {u : CTab R} (hs : Sep C t) (ht : u.tol = t.tol) (hv : u.val = t.val)
    (hl : ∀ l, u.Live C l → t.Live C l) : Sep C u := by
  intro a b ha hb hab
  have hval : ∀ l, u.value C l = t.value C l := by intro l; cases l <;> simp [value, hv]
  rw [ht, hval, hval]
  exact hs a b (hl _ ha) (hl _ hb) hab

theorem init_sep (C : CCfg R) (τ : R) : Sep C (init C τ) := by
  intro a b ha
  simp [Live, stored, init] at ha

theorem setRef_live {l : Loc} {n : Nat} (x : Loc) :
    ({ t with ref := Function.update t.ref l n } : CTab R).Live C x → t.Live C x := by
  cases x <;> exact id

theorem CStep.sep {τ : R} (hτ : 0 ≤ τ) (hnar : 2 * τ * (mask C : R) < 1) (hC : C.Good) (h : WF C t) (ht : t.tol = τ)
    (hsep : Sep C t) (hs : CStep C (· = τ) t t') : Sep C t' ∧ t'.tol = τ := by
  cases hs with
  | lookup v hv =>
    have o := lookup_spec hC h hv
    refine ⟨lookup_sep hC h (by unfold Narrow; rw [ht]; exact hnar) hsep o, ?_⟩
    generalize lookup C t v = r at o
    cases o with
    | hit same => exact same.tol.trans ht
    | miss link => exact link.tol.trans ht
  | incRef l hl =>
    unfold incRef
    split_ifs
    · exact ⟨hsep, ht⟩
    · exact ⟨hsep, ht⟩
    · exact ⟨sep_of_sub hsep rfl rfl (fun x => setRef_live x), ht⟩
  | decRef l hl hd =>
    unfold decRef at hd
    split_ifs at hd
    · simp only [Option.some.injEq] at hd; subst hd; exact ⟨hsep, ht⟩
    · simp only [Option.some.injEq] at hd; subst hd; exact ⟨hsep, ht⟩
    · simp only [Option.some.injEq] at hd; subst hd
      exact ⟨sep_of_sub hsep rfl rfl (fun x => setRef_live x), ht⟩
  | garbageCollect force =>
    by_cases hrun : ((!force && decide (t.count < t.gcLimit)) || decide (t.count ≤ 1)) = true
    · rw [gc_skip hrun]
      exact ⟨Same.sep (t := t) ⟨rfl, rfl, rfl, rfl, rfl, rfl, rfl, rfl, rfl, rfl, rfl, rfl⟩ hsep, ht⟩
    · have g := gc_run_spec hC.nb h hrun
      refine ⟨sep_of_sub hsep g.tol g.val ?_, g.tol.trans ht⟩
      intro l hl
      cases l with
      | cell a =>
        have : a ∈ (t.garbageCollect C force).1.stored C := hl
        rw [g.stored] at this
        exact (List.mem_filter.1 this).1
      | _ => trivial
  | clear =>
    refine ⟨?_, ht⟩
    intro a b ha
    have ha' : a ∈ (t.clear C).stored C := ha
    obtain ⟨k, hk⟩ := ((clear_wf hC h).mem_stored hC.nb).1 ha'
    rw [clear_bucket hC.nb h] at hk
    simp at hk
  | setTolerance σ hσ =>
    subst hσ
    have : t.setTolerance t.tol = t := rfl
    rw [← ht, this]
    exact ⟨hsep, rfl⟩

theorem _root_.DD.CReach.sep {τ : R} (hτ : 0 ≤ τ) (hnar : 2 * τ * (mask C : R) < 1) (hC : C.Good)
    (hr : CReach C (· = τ) t) : Sep C t ∧ t.tol = τ := by
  induction hr with
  | create σ h =>
    subst h
    have hw := init_wf hC (τ := σ) hτ
    have o := lookup_spec hC hw (v := 1 / 2) (by positivity)
    have hs := lookup_sep hC hw hnar (init_sep C σ) o
    constructor
    · unfold create
      exact sep_of_sub hs rfl rfl (fun x => setRef_live x)
    · unfold create
      generalize lookup C (init C σ) (1 / 2) = r at o
      cases o with
      | hit same => exact same.tol
      | miss link => exact link.tol
  | step hr hs ih =>
    exact CStep.sep hτ hnar hC (hr.wf (by rintro _ rfl; exact hτ) hC) ih.2 ih.1 hs

/-! ## Statistics -/

theorem _root_.DD.CReach.stats {tols : R → Prop} (htol : ∀ τ, tols τ → 0 ≤ τ) (hC : C.Good) (hr : CReach C tols t) :
    t.hits + t.inserts = t.lookups := by
  have key : ∀ {t : CTab R} {v : R}, 0 ≤ v → WF C t → t.hits + t.inserts = t.lookups →
      (lookup C t v).1.hits + (lookup C t v).1.inserts = (lookup C t v).1.lookups := by
    intro t v hv hw hst
    have o := lookup_spec hC hw hv
    generalize lookup C t v = r at o
    cases o with
    | hit same live acc hits inserts lookups => dsimp only; omega
    | miss link =>
      have h1 := link.hits
      have h2 := link.inserts
      have h3 := link.lookups
      dsimp only at h1 h2 h3 ⊢
      omega
  induction hr with
  | create τ h => exact key (by positivity) (init_wf hC (htol τ h)) rfl
  | @step t t' hr hs ih =>
    cases hs with
    | lookup v hv => exact key hv (hr.wf htol hC) ih
    | incRef l hl => unfold incRef; split_ifs <;> exact ih
    | decRef l hl hd =>
      unfold decRef at hd
      split_ifs at hd <;> (simp only [Option.some.injEq] at hd; subst hd; exact ih)
    | garbageCollect force =>
      by_cases hrun : ((!force && decide (t.count < t.gcLimit)) || decide (t.count ≤ 1)) = true
      · rw [gc_skip hrun]; exact ih
      · have g := gc_run_spec hC.nb (hr.wf htol hC) hrun
        rw [g.hits, g.inserts, g.lookups]; exact ih
    | clear => rfl
    | setTolerance => exact ih

end CTab
end DD
