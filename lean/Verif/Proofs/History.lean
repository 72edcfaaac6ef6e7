import Verif.Proofs.Reduce
import Verif.Model.History
import Verif.Proofs.PInv
import Verif.Proofs.Gate2
import Verif.Proofs.Read
import Verif.Proofs.Trace

/-! # Every reachable package satisfies the invariant -/

namespace DD

variable {R : Type} [Field R] [LinearOrder R] [IsStrictOrderedRing R] [HasSqrt R] [LawfulSqrt R]

theorem two_pow_of_and {n : Nat} (h0 : n ≠ 0) (h : n &&& (n - 1) = 0) : n = 2 ^ Nat.log2 n := by
  have h1 := (Nat.and_sub_one_eq_zero_iff_isPowerOfTwo h0).1 h
  obtain ⟨k, rfl⟩ := h1
  rw [Nat.log2_two_pow]

/-- `makeStateFromVector` succeeds exactly for the empty vector and lengths that are powers of two. -/
theorem makeStateFromVector_spec {P : PCfg R} (hC : 0 < P.C.growth) {s : Pkg R} {l : Nat} {xs : List (Cx R)} (h : PWF P s ∅)
    (hl : xs.length = 2 ^ l) (hn : l ≤ (s.ut .v).nvars) :
    ∃ r, Pkg.makeStateFromVector P s xs = some r ∧ OpSpec P ∅ s .v l (fun d => xs.getD (bitIdx d) 0) r := by
  unfold Pkg.makeStateFromVector
  have hne : xs ≠ [] := by
    intro h; rw [h] at hl; simp at hl
    have := Nat.two_pow_pos l; omega
  have h0 : xs.length ≠ 0 := by rw [hl]; have := Nat.two_pow_pos l; omega
  have hand : xs.length &&& (xs.length - 1) = 0 := by
    rw [Nat.and_sub_one_eq_zero_iff_isPowerOfTwo h0]; exact ⟨l, hl⟩
  rw [if_neg hne, if_neg (by rw [hand]; simp)]
  cases l with
  | zero =>
    rw [if_pos (by rw [hl]; rfl)]
    exact ⟨_, rfl, .pure h (valid_term _ _) (fun d => by simp [bitIdx]; rfl)⟩
  | succ l =>
    have h2 : xs.length ≠ 1 := by
      rw [hl, pow_succ]; have := Nat.two_pow_pos l; omega
    rw [if_neg h2, hl, Nat.log2_two_pow]
    exact ⟨_, rfl, stateF_spec hC l s xs h hl hn⟩

theorem makeDDFromMatrix_spec {P : PCfg R} (hC : 0 < P.C.growth) {s : Pkg R} {l : Nat} {M : List (List (Cx R))}
    (h : PWF P s ∅) (hl : M.length = 2 ^ l) (hrow : ∀ row ∈ M, row.length = M.length) (hn : l ≤ (s.ut .m).nvars) :
    ∃ r, Pkg.makeDDFromMatrix P s M = some r ∧
      OpSpec P ∅ s .m l (fun d => (M.getD (bitIdx (rowD d)) []).getD (bitIdx (colD d)) 0) r := by
  unfold Pkg.makeDDFromMatrix
  have h0 : M.length ≠ 0 := by rw [hl]; have := Nat.two_pow_pos l; omega
  have hne : M ≠ [] := by
    intro h; rw [h] at h0; exact h0 rfl
  have hand : M.length &&& (M.length - 1) = 0 := by
    rw [Nat.and_sub_one_eq_zero_iff_isPowerOfTwo h0]; exact ⟨l, hl⟩
  have hw : (M.getD 0 []).length = M.length := by
    obtain ⟨r, M', rfl⟩ := List.exists_cons_of_ne_nil hne
    exact hrow _ (List.mem_cons_self ..)
  rw [if_neg hne, if_neg (by rw [hand]; simp), if_neg (by rw [hw]; simp)]
  cases l with
  | zero =>
    rw [if_pos (by rw [hl]; rfl)]
    exact ⟨_, rfl, .pure h (valid_term _ _) (fun d => by simp [bitIdx]; rfl)⟩
  | succ l =>
    have h2 : M.length ≠ 1 := by
      rw [hl, pow_succ]; have := Nat.two_pow_pos l; omega
    rw [if_neg h2, hw, hl, Nat.log2_two_pow]
    have h3 := matrixF_spec hC M (l + 1) s 0 0 h hn
    simp only [Nat.zero_add] at h3
    exact ⟨_, rfl, h3⟩

theorem makeStateFromVector_ext {P : PCfg R} (hC : 0 < P.C.growth) {s : Pkg R} {xs : List (Cx R)} (h : PWF P s ∅)
    (hn : xs.length ≤ 2 ^ (s.ut .v).nvars) {r : Pkg R × PEdge R} (hr : Pkg.makeStateFromVector P s xs = some r) :
    PWF P r.1 ∅ ∧ PExt s r.1 := by
  by_cases hne : xs = []
  · unfold Pkg.makeStateFromVector at hr
    rw [if_pos hne] at hr
    cases hr; exact ⟨h, PExt.refl _⟩
  · have h0 : xs.length ≠ 0 := fun h => hne (List.length_eq_zero_iff.1 h)
    by_cases hand : xs.length &&& (xs.length - 1) = 0
    · have hl := two_pow_of_and h0 hand
      obtain ⟨r', h1, h2⟩ := makeStateFromVector_spec hC h hl (by
        rw [hl] at hn
        exact (Nat.pow_le_pow_iff_right (by omega)).1 hn)
      rw [hr] at h1; cases h1
      exact ⟨h2.wf, h2.ext⟩
    · unfold Pkg.makeStateFromVector at hr
      rw [if_neg hne, if_pos hand] at hr
      cases hr

theorem makeDDFromMatrix_ext {P : PCfg R} (hC : 0 < P.C.growth) {s : Pkg R} {M : List (List (Cx R))} (h : PWF P s ∅)
    (hn : M.length ≤ 2 ^ (s.ut .m).nvars) (hrow : ∀ row ∈ M, row.length = M.length) {r : Pkg R × PEdge R}
    (hr : Pkg.makeDDFromMatrix P s M = some r) : PWF P r.1 ∅ ∧ PExt s r.1 := by
  by_cases hne : M = []
  · unfold Pkg.makeDDFromMatrix at hr
    rw [if_pos hne] at hr
    cases hr; exact ⟨h, PExt.refl _⟩
  · have h0 : M.length ≠ 0 := fun h => hne (List.length_eq_zero_iff.1 h)
    by_cases hand : M.length &&& (M.length - 1) = 0
    · have hl := two_pow_of_and h0 hand
      obtain ⟨r', h1, h2⟩ := makeDDFromMatrix_spec hC h hl hrow (by
        rw [hl] at hn
        exact (Nat.pow_le_pow_iff_right (by omega)).1 hn)
      rw [hr] at h1; cases h1
      exact ⟨h2.wf, h2.ext⟩
    · unfold Pkg.makeDDFromMatrix at hr
      rw [if_neg hne, if_pos hand] at hr
      cases hr

theorem elimd_count (elim : List Bool) : elimd (fun i => elim.getD i false) elim.length = elim.count true := by
  have : ∀ n, n ≤ elim.length → elimd (fun i => elim.getD i false) n = (elim.take n).count true := by
    intro n
    induction n with
    | zero => intro _; simp [elimd]
    | succ n ih =>
      intro hn
      rw [List.take_succ_eq_append_getElem (by omega), List.count_append, ← ih (by omega)]
      have he : elimd (fun i => elim.getD i false) (n + 1) =
          if elim.getD n false then elimd (fun i => elim.getD i false) n + 1 else elimd (fun i => elim.getD i false) n := rfl
      rw [he, List.getD_eq_getElem?_getD, List.getElem?_eq_getElem (by omega)]
      cases h : elim[n] <;> simp
  rw [this _ le_rfl, List.take_length]

/-- `partialTrace`. -/
theorem partialTrace_spec {P : PCfg R} (hC : 0 < P.C.growth) {s : Pkg R} {l : Nat} {a : PEdge R} {elim : List Bool}
    (h : PWF P s ∅) (hv : Valid (s.ut .m) l a) (hl : l ≤ (s.ut .m).nvars)
    (hcnt : (∀ i < l, elim.getD i false = true) ∨ elim.length = l) :
    OpSpec P ∅ s .m (keep (fun i => elim.getD i false) l) (fun d => tv (fun i => elim.getD i false) (s.ut .m) l a (dx d))
      (Pkg.partialTrace P s a elim) := by
  unfold Pkg.partialTrace
  by_cases hw : a.w = 0
  · have : Pkg.traceF P elim (s.lv .m a) s a 0 = (s, zeroE) := by
      unfold Pkg.traceF; rw [if_pos hw]
    rw [this]
    exact .pure h (valid_zeroE _ _) (fun d => by rw [amp_zeroE, tv_zero hw])
  · have hlv : s.lv .m a = l := hv.lvl hw
    rw [hlv]
    refine traceF_spec hC elim l s a 0 h hv hl ?_
    rcases hcnt with hc | hc
    · exact Or.inl hc
    · right; rw [Nat.zero_add, ← hc]; exact (elimd_count elim).symm

/-- The steps by what they do to the tables: operations only add nodes; the other ones are reference counting, garbage
collection and reset. -/
theorem PStep.kinds {P : PCfg R} (hC : P.C.Good) {h h' : PHist R} (hi : PInv P h) (hs : PStep P h h') :
    (PWF P h'.pkg ∅ ∧ PExt h.pkg h'.pkg ∧ h'.held = h.held) ∨
    (∃ k l e, Valid (h.pkg.ut k) l e ∧ h' = ⟨h.pkg.incRef P k e, Function.update h.held k (e :: h.held k)⟩) ∨
    (∃ k e s, e ∈ h.held k ∧ h.pkg.decRef P k e = some s ∧ h' = ⟨s, Function.update h.held k ((h.held k).erase e)⟩) ∨
    (∃ g, h' = { h with pkg := (h.pkg.garbageCollect P g).1 }) ∨ h' = ⟨h.pkg.reset P, fun _ => []⟩ ∨
    (∃ nq s, (∀ k, (h.pkg.ut k).nvars ≤ nq) ∧ h.pkg.resize nq = some s ∧ h' = { h with pkg := s }) := by
  have hg := hC.growth
  have op : ∀ {k : Kind} {l : Nat} {f} {r : Pkg R × PEdge R}, OpSpec P ∅ h.pkg k l f r →
      (PWF P r.1 ∅ ∧ PExt h.pkg r.1 ∧ h.held = h.held) := fun hop => ⟨hop.wf, hop.ext, rfl⟩
  cases hs with
  | makeDDNode k v es cached hv hes => exact Or.inl <| op (makeDDNode_spec hg cached hi.wf hv noX hes)
  | add k l x y hx hy => exact Or.inl <| op (add_spec hg hi.wf hx hy)
  | multiply k l x y hx hy => exact Or.inl <| op (multiply_spec hg hi.wf hx hy)
  | kronecker k lx ly x y hx hy hn => exact Or.inl <| op (kronecker_spec hg hi.wf hx hy hn)
  | transpose l x hx => exact Or.inl <| op (transpose_spec hg hi.wf hx)
  | conjugateTranspose l x hx => exact Or.inl <| op (conjugateTranspose_spec hg hi.wf hx)
  | innerProduct l x y hx hy =>
    have := innerProduct_spec hi.wf hx hy
    exact Or.inl ⟨this.wf, PExt.of_eq this.ut, rfl⟩
  | makeIdent n hn => exact Or.inl <| op (makeIdent_spec hg hi.wf hn)
  | makeZeroState n r hr =>
    unfold Pkg.makeZeroState at hr
    split_ifs at hr with hn
    cases hr
    exact Or.inl <| op (basisLoop_spec hg _ n _ hi.wf (by omega)).1
  | makeBasisState n st r hr =>
    unfold Pkg.makeBasisState at hr
    split_ifs at hr with hn
    cases hr
    exact Or.inl <| op (basisLoop_spec hg _ n _ hi.wf (by omega)).1
  | makeBasisStates n st r hr =>
    unfold Pkg.makeBasisStates at hr
    split_ifs at hr with hn
    cases hr
    exact Or.inl <| op (basisLoop_spec hg _ n _ hi.wf (by omega)).1
  | makeStateFromVector xs r hn hr =>
    have := makeStateFromVector_ext hg hi.wf hn hr
    exact Or.inl ⟨this.1, this.2, rfl⟩
  | makeDDFromMatrix M r hn hrow hr =>
    have := makeDDFromMatrix_ext hg hi.wf hn hrow hr
    exact Or.inl ⟨this.1, this.2, rfl⟩
  | makeGateDD U n cs t r ht hc hr =>
    by_cases hn : n ≤ (h.pkg.ut .m).nvars
    · obtain ⟨r', h1, h2⟩ := makeGateDD_spec hg (U := U) hc.sorted ht hc.target hi.wf hn
      rw [hr] at h1; cases h1
      exact Or.inl <| op h2
    · unfold Pkg.makeGateDD at hr
      rw [if_pos (by omega)] at hr; cases hr
  | makeTwoQubitGateDD U n t0 t1 r h0 h1 hne hr =>
    by_cases hn : n ≤ (h.pkg.ut .m).nvars
    · obtain ⟨r', k1, k2⟩ := makeTwoQubitGateDD_reach hg (U := U) hne h0 h1 hi.wf hn
      rw [hr] at k1; cases k1
      exact Or.inl <| op k2
    · unfold Pkg.makeTwoQubitGateDD at hr
      rw [if_pos (by omega)] at hr; cases hr
  | deleteEdge k l e v idx hv hn => exact Or.inl <| op (deleteEdge_spec hg hi.wf hv hn)
  | partialTrace l a elim hv hl he => exact Or.inl <| op (partialTrace_spec hg hi.wf hv hl (Or.inr he))
  | trace l a hv hl =>
    have := partialTrace_spec hg (elim := List.replicate (h.pkg.ut .m).nvars true) hi.wf hv hl (Or.inl (fun i hi => by
      rw [List.getD_eq_getElem?_getD, List.getElem?_replicate, if_pos (by omega)]; rfl))
    exact Or.inl ⟨this.wf, this.ext, rfl⟩
  | reduceAncillaeRec l e mask regular lb hv =>
    obtain ⟨_, o⟩ := reduce_valid hg (ancStep_spec hg mask regular) false lb hi.wf hv
    exact Or.inl <| op o
  | reduceGarbageVRec l e mask lb hv =>
    obtain ⟨_, o⟩ := reduce_valid hg (garbStepV_spec hg mask) true lb hi.wf hv
    exact Or.inl <| op o
  | reduceGarbageMRec l e mask regular lb hv =>
    obtain ⟨_, o⟩ := reduce_valid hg (garbStepM_spec hg mask regular) true lb hi.wf hv
    exact Or.inl <| op o
  | incRef k l e he => exact Or.inr (Or.inl ⟨k, l, e, he, rfl⟩)
  | decRef k e s he hs => exact Or.inr (Or.inr (Or.inl ⟨k, e, s, he, hs, rfl⟩))
  | garbageCollect g => exact Or.inr (Or.inr (Or.inr (Or.inl ⟨g, rfl⟩)))
  | clearComputeTables => exact Or.inl ⟨hi.wf.clearTables, PExt.of_eq rfl, rfl⟩
  | resize nq s hn hs => exact Or.inr (Or.inr (Or.inr (Or.inr (Or.inr ⟨nq, s, hn, hs, rfl⟩))))
  | reset => exact Or.inr (Or.inr (Or.inr (Or.inr (Or.inl rfl))))

theorem PStep.inv {P : PCfg R} (hC : P.C.Good) {h h' : PHist R} (hi : PInv P h) (hs : PStep P h h') : PInv P h' := by
  rcases hs.kinds hC hi with ⟨h1, h2, h3⟩ | ⟨k, l, e, he, rfl⟩ | ⟨k, e, s, he, hsd, rfl⟩ | ⟨g, rfl⟩ | rfl | ⟨nq, s, hn, hsr, rfl⟩
  · have := hi.ext h1 h2
    rw [← h3] at this
    exact this
  · exact (hi.incRef hC k he).1
  · obtain ⟨r, _, _, h3, h4⟩ := hi.decRef hC k he
    rw [hsd] at h3; cases h3
    exact h4
  · exact hi.gc hC g
  · exact hi.reset hC
  · exact (hi.resize hn hsr).1

omit [HasSqrt R] [LawfulSqrt R] in
/-- Reference counting changes neither the nodes nor the values. -/
theorem reshape_value {s : Pkg R} {k : Kind} {t : UTable (Cx R) (ar k)} (hs : UTable.SameShape (s.ut k) t)
    (hw : ∀ k, Children (s.ut k)) (k' : Kind) {l : Nat} {e : PEdge R} (hv : Valid (s.ut k') l e) :
    Valid (Function.update s.ut k t k') l e ∧ ∀ d, amp (Function.update s.ut k t k') l e d = amp (s.ut k') l e d := by
  by_cases hk : k' = k
  · subst hk
    rw [Function.update_self]
    exact ⟨hv.mono hs.le, fun d => amp_mono hs.le (hw k') hv d⟩
  · rw [Function.update_of_ne hk]
    exact ⟨hv, fun _ => rfl⟩

/-- Along a step a diagram that is referenced before and after keeps its value; if the step is neither a garbage collection
nor a reset, all diagrams do. -/
theorem PStep.value {P : PCfg R} (hC : P.C.Good) {h h' : PHist R} (hi : PInv P h) (hs : PStep P h h') {k : Kind} {l : Nat}
    {e : PEdge R} (hv : Valid (h.pkg.ut k) l e) (hh : e ∈ h.held k) (hh' : e ∈ h'.held k) :
    Valid (h'.pkg.ut k) l e ∧ ∀ d, amp (h'.pkg.ut k) l e d = amp (h.pkg.ut k) l e d := by
  rcases hs.kinds hC hi with ⟨h1, h2, h3⟩ | ⟨k', l', e', he, rfl⟩ | ⟨k', e', s, he, hsd, rfl⟩ | ⟨g, rfl⟩ | rfl | ⟨nq, s, hn, hsr, rfl⟩
  · exact ⟨hv.mono (h2.le k), fun d => amp_mono (h2.le k) (hi.wf.tab k).child hv d⟩
  · exact reshape_value (hi.incRef hC k' he).2 (fun k => (hi.wf.tab k).child) k hv
  · obtain ⟨r, _, h2, h3, _⟩ := hi.decRef hC k' he
    rw [hsd] at h3; cases h3
    exact reshape_value h2 (fun k => (hi.wf.tab k).child) k hv
  · refine ⟨?_, fun d => gc_amp P g h.pkg k l e d⟩
    have hval := (hi.gc hC g).held k e hh
    obtain ⟨l', hl'⟩ := hval
    by_cases hw : e.w = 0
    · have hp := hv.p_none hw
      rw [valid_none hp]; exact Or.inr hw
    · have hll : l' = l := by
        cases hp : e.p with
        | none =>
          rw [valid_none hp] at hv hl'
          have := hv.resolve_right hw
          have := hl'.resolve_right hw
          omega
        | some a =>
          have := (valid_some hp).1 hv
          have h2 := (valid_some hp).1 hl'
          rcases gc_ut P g h.pkg with he | hut
          · dsimp only at h2; rw [he] at h2; omega
          · dsimp only at h2; rw [hut k, gc_mem] at h2; omega
      rw [← hll]; exact hl'
  · simp at hh'
  · have hle := (hi.resize hn hsr).2.2.1 k
    exact ⟨hv.mono hle, fun d => amp_mono hle (hi.wf.tab k).child hv d⟩

theorem PInv.incRef_nvars {P : PCfg R} (hC : P.C.Good) {h : PHist R} (hi : PInv P h) {k' : Kind} {l : Nat} {e : PEdge R}
    (he : Valid (h.pkg.ut k') l e) (k : Kind) : ((h.pkg.incRef P k' e).ut k).nvars = (h.pkg.ut k).nvars := by
  have := (hi.incRef hC k' he).2
  by_cases hk : k = k'
  · subst hk; simp [Pkg.incRef, this.nvars]
  · simp [Pkg.incRef, Function.update_of_ne hk]

theorem PInv.decRef_nvars {P : PCfg R} (hC : P.C.Good) {h : PHist R} (hi : PInv P h) {k' : Kind} {e : PEdge R} {s : Pkg R}
    (he : e ∈ h.held k') (hsd : h.pkg.decRef P k' e = some s) (k : Kind) : (s.ut k).nvars = (h.pkg.ut k).nvars := by
  obtain ⟨r, _, h2, h3, _⟩ := hi.decRef hC k' he
  rw [hsd] at h3; cases h3
  by_cases hk : k = k'
  · subst hk; simp [h2.nvars]
  · simp [Function.update_of_ne hk]

/-- Only `resize` changes the number of qubits. -/
theorem PStep.nvars_cases {P : PCfg R} (hC : P.C.Good) {h h' : PHist R} (hi : PInv P h) (hs : PStep P h h') :
    (∀ k, (h'.pkg.ut k).nvars = (h.pkg.ut k).nvars) ∨
      ∃ nq, nq ≤ Pkg.maxQubits ∧ ∀ k, (h.pkg.ut k).nvars ≤ nq ∧ (h'.pkg.ut k).nvars = nq := by
  rcases hs.kinds hC hi with ⟨h1, h2, h3⟩ | ⟨k', l', e', he, rfl⟩ | ⟨k', e', s, he, hsd, rfl⟩ | ⟨g, rfl⟩ | rfl | ⟨nq, s, hn, hsr, rfl⟩
  · exact Or.inl fun k => (h2 k).nvars
  · exact Or.inl fun k => hi.incRef_nvars hC he k
  · exact Or.inl fun k => hi.decRef_nvars hC he hsd k
  · refine Or.inl fun k => ?_
    rcases gc_ut P g h.pkg with he | hut
    · rw [he]
    · dsimp only; rw [hut k]; unfold UTable.garbageCollect; split_ifs <;> rfl
  · exact Or.inl fun _ => rfl
  · refine Or.inr ⟨nq, ?_, fun k => ⟨hn k, ?_⟩⟩
    · unfold Pkg.resize at hsr
      split_ifs at hsr with hm
      omega
    · dsimp only
      rw [(hi.resize hn hsr).2.1 k]

/-- The number of qubits never decreases. -/
theorem PStep.nvars {P : PCfg R} (hC : P.C.Good) {h h' : PHist R} (hi : PInv P h) (hs : PStep P h h') (k : Kind) :
    (h.pkg.ut k).nvars ≤ (h'.pkg.ut k).nvars := by
  rcases hs.nvars_cases hC hi with h1 | ⟨nq, _, h1⟩
  · exact (h1 k).ge
  · rw [(h1 k).2]; exact (h1 k).1

/-- Every reachable package satisfies the invariant. -/
theorem PReach.inv {P : PCfg R} (hC : P.C.Good) {h : PHist R} (hr : PReach P h) : PInv P h := by
  obtain ⟨h0, hs, hp⟩ := hr
  induction hp with
  | refl => cases hs with | init nq nbV nbM cV cM _ hV hM => exact PInv.init hC nq nbV nbM hV hM cV cM
  | tail _ h2 ih => exact h2.inv hC ih

omit [LawfulSqrt R] in
theorem PReach.step {P : PCfg R} {h h' : PHist R} (hr : PReach P h) (hs : PStep P h h') : PReach P h' := by
  obtain ⟨h0, h1, h2⟩ := hr
  exact ⟨h0, h1, h2.tail hs⟩

end DD
