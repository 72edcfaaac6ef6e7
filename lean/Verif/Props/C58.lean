import Verif.Proofs.SlotExact
import Verif.Props.C22
import Verif.Props.C23
import Verif.Props.C24
import Verif.Props.C26
import Verif.Props.C27
import Verif.Props.C53

/-!
# C58: memory for intermediate numbers

"The results of the operations do not depend on the memory used for intermediate numbers: although the slots for them are reused all
the time, every operation yields exactly the diagram, and leaves the package in exactly the state, that it would with a separate memory
cell for each intermediate number; numbers the program itself keeps in such slots are never overwritten."

The operations of Model/Slots.lean take, write, read and give back slots as the code does. With exact arithmetic and the tables of the package
they are compared with the operations of Model/Package.lean, whose intermediate numbers are plain values.
-/

namespace DD

section
variable {σ T F α : Type} {K : CacheCfg}

/-- `m`, started in `s`, succeeds with result `a` and tables `t`; the slots outstanding before are outstanding afterwards, no others, and
their contents are as before. -/
def RunsTo (K : CacheCfg) (m : SM σ F α) (s : SS σ F) (t : σ) (a : α) : Prop :=
  ∃ s', m s = some (a, s') ∧ s'.tabs = t ∧ CacheReach K s'.cache s'.out ∧ s'.out.Perm s.out ∧
    ∀ c ∈ s.out, s'.mem c.1 = s.mem c.1 ∧ s'.mem c.2 = s.mem c.2

theorem SM.runsTo {m : SM σ F α} {f : σ → σ × α} (h : ∀ s (L : Multiset (Ent F)), Heap K s L → wp m s (PostT K L (f s.tabs)))
    {s : SS σ F} (hs : CacheReach K s.cache s.out) : RunsTo K m s (f s.tabs).1 (f s.tabs).2 := by
  have heap : Heap K s ((s.out : Multiset (Nat × Nat)).map fun c => (c, ⟨s.mem c.1, s.mem c.2⟩)) := by
    refine ⟨hs, ?_, ?_⟩
    · rw [Multiset.map_map]
      exact (Multiset.map_id _).symm
    · intro q hq
      obtain ⟨c, _, rfl⟩ := Multiset.mem_map.1 hq
      exact ⟨rfl, rfl⟩
  obtain ⟨a, s', e, ea, et, h'⟩ := h s _ heap
  refine ⟨s', by rw [e, ea], et, h'.reach, ?_, ?_⟩
  · rw [← Multiset.coe_eq_coe, h'.out, Multiset.map_map]
    exact Multiset.map_id _
  · intro c hc
    exact h'.mem (c, ⟨s.mem c.1, s.mem c.2⟩) (Multiset.mem_map.2 ⟨c, hc, rfl⟩)
end

variable {R : Type} [Field R] [LinearOrder R] [IsStrictOrderedRing R] [HasSqrt R] [LawfulSqrt R] {P : PCfg R} {h : PHist R} {K : CacheCfg}
  {tmp : Pkg R → List (Cx R)} {s : SS (Pkg R) R}

open SM

omit [LawfulSqrt R] in
theorem exact_zeroOK : (exactNum R).ZeroOK := decide_eq_true rfl

/-! ## The operations with slots compute what the operations on values compute, for all packages and operands -/

theorem C58_refine_add (hK : K.Good) (hs : CacheReach K s.cache s.out) (k : Kind) (x y : PEdge R) :
    RunsTo K (Slots.add K (exactNum R) (exactTabs P tmp) k x y) s (Pkg.add P k s.tabs x y).1 (Pkg.add P k s.tabs x y).2 := by
  rw [← exact_add (tmp := tmp)]
  refine runsTo (f := fun t => PureOp.add (exactNum R) (exactTabs P tmp) k t x y) (fun s L hs => wp_bind (wp_tabs ?_)) hs
  refine wp_bind (wp_mono (wp_add2 (B := exactTabs P tmp) hK exact_zeroOK _ (ox := PureOp.inj (exactNum R) x) (oy := PureOp.inj (exactNum R) y) rfl rfl
    (opd_inj _ L _) (opd_inj _ L _) hs) ?_)
  intro b s' hp
  exact wp_finish hK hp

theorem C58_refine_multiply (hK : K.Good) (hs : CacheReach K s.cache s.out) (k : Kind) (x y : PEdge R) :
    RunsTo K (Slots.multiply K (exactNum R) (exactTabs P tmp) k x y) s (Pkg.multiply P k s.tabs x y).1 (Pkg.multiply P k s.tabs x y).2 := by
  rw [← exact_multiply (tmp := tmp)]
  refine runsTo (f := fun t => PureOp.multiply (exactNum R) (exactTabs P tmp) k t x y) (fun s L hs => wp_bind (wp_tabs ?_)) hs
  exact wp_bind (wp_mono (wp_multiply2 (B := exactTabs P tmp) hK exact_zeroOK _ hs) fun b s' hp => wp_finish hK hp)

theorem C58_refine_kronecker (hK : K.Good) (hs : CacheReach K s.cache s.out) (k : Kind) (x y : PEdge R) :
    RunsTo K (Slots.kronecker K (exactNum R) (exactTabs P tmp) k x y) s (Pkg.kronecker P k s.tabs x y).1 (Pkg.kronecker P k s.tabs x y).2 := by
  rw [← exact_kronecker (tmp := tmp)]
  refine runsTo (f := fun t => PureOp.kronecker (exactNum R) (exactTabs P tmp) k t x y) (fun s L hs => wp_bind (wp_tabs ?_)) hs
  exact wp_bind (wp_mono (wp_kron2 (B := exactTabs P tmp) hK exact_zeroOK _ hs) fun b s' hp => wp_finish hK hp)

theorem C58_refine_partialTrace (hK : K.Good) (hs : CacheReach K s.cache s.out) (elim : List Bool) (a : PEdge R) :
    RunsTo K (Slots.partialTrace K (exactNum R) (exactTabs P tmp) (exactPlain P tmp) elim a) s (Pkg.partialTrace P s.tabs a elim).1
      (Pkg.partialTrace P s.tabs a elim).2 := by
  unfold Pkg.partialTrace
  rw [← exact_trace (tmp := tmp)]
  refine runsTo (f := fun t => PureOp.trace (exactNum R) (exactTabs P tmp) (exactPlain P tmp) elim (t.lv .m a) t a 0) (fun s L hs => wp_bind (wp_tabs ?_)) hs
  exact wp_trace (B := exactTabs P tmp) hK exact_zeroOK one_ne_zero (exactPlain P tmp) elim _ hs

theorem C58_refine_makeState (hK : K.Good) (hs : CacheReach K s.cache s.out) (l : Nat) (xs : List (Cx R)) (hx : xs.length = 2 ^ (l + 1)) :
    ∃ r, Pkg.makeStateFromVector P s.tabs xs = some r ∧ RunsTo K (Slots.makeState K (exactNum R) (exactTabs P tmp) l xs) s r.1 r.2 := by
  have hl : 2 ≤ xs.length := by rw [hx, pow_succ]; have := Nat.one_le_two_pow (n := l); omega
  refine ⟨Pkg.stateF P l s.tabs xs, ?_, ?_⟩
  · unfold Pkg.makeStateFromVector
    rw [if_neg (by intro e; rw [e] at hl; simp at hl), if_neg (by rw [hx, Nat.and_two_pow_sub_one_eq_mod, Nat.mod_self]; simp), if_neg (by omega), hx,
      Nat.log2_two_pow]
    rfl
  · rw [← exact_finish (exact_stateF (tmp := tmp) l s.tabs xs hx)]
    exact runsTo (f := fun t => PureOp.finish (exactNum R) (PureOp.stateF (exactNum R) (exactTabs P tmp) l t xs))
      (fun s L hs => wp_bind (wp_mono (wp_stateF (B := exactTabs P tmp) hK exact_zeroOK _ hx hs) fun b s' hp => wp_finish hK hp)) hs

theorem C58_refine_makeMatrix (hK : K.Good) (hs : CacheReach K s.cache s.out) (l : Nat) (M : List (List (Cx R))) :
    RunsTo K (Slots.makeMatrix K (exactNum R) (exactTabs P tmp) (fun i j => (M.getD i []).getD j 0) l) s
      (Pkg.matrixF P M l s.tabs 0 (2 ^ l) 0 (2 ^ l)).1 (Pkg.matrixF P M l s.tabs 0 (2 ^ l) 0 (2 ^ l)).2 := by
  have e : PureOp.finish (exactNum R) (PureOp.matrixF (exactNum R) (exactTabs P tmp) (fun i j => (M.getD i []).getD j 0) l s.tabs 0 (2 ^ l) 0 (2 ^ l)) =
      Pkg.matrixF P M l s.tabs 0 (2 ^ l) 0 (2 ^ l) := by
    cases l with
    | zero => rfl
    | succ l => exact exact_finish ((exact_matrixF M (l + 1) s.tabs 0 _ 0 _).2.2 (by omega))
  rw [← e]
  exact runsTo (f := fun t => PureOp.finish (exactNum R) (PureOp.matrixF (exactNum R) (exactTabs P tmp) (fun i j => (M.getD i []).getD j 0) l t 0 (2 ^ l) 0 (2 ^ l)))
    (fun s L hs => wp_bind (wp_mono (wp_matrixF (B := exactTabs P tmp) hK exact_zeroOK _ _ hs) fun b s' hp => wp_finish hK hp)) hs

theorem exact_innerChildL (s : Pkg R) (x : PEdge R) (w : Nat) (i : Fin 2) :
    Slots.innerChild (exactNum R) (exactTabs P tmp) s x w i (exactInner P).conj = Pkg.innerChildL s x w i := by
  unfold Slots.innerChild Pkg.innerChildL
  cases x.p with
  | none => rfl
  | some a =>
    dsimp only
    have hl : ((exactTabs P tmp).lvl s .v (some a) = w + 1) ↔ ((s.ut .v).mem a).v = w := by
      show ((s.ut .v).mem a).v + 1 = w + 1 ↔ _
      omega
    by_cases hv : ((s.ut .v).mem a).v = w
    · rw [if_pos hv, if_pos (hl.2 hv)]; rfl
    · rw [if_neg hv, if_neg (fun e => hv (hl.1 e))]; rfl

theorem exact_innerChildR (s : Pkg R) (x : PEdge R) (w : Nat) (i : Fin 2) :
    Slots.innerChild (exactNum R) (exactTabs P tmp) s x w i id = Pkg.mulChild s .v x w i := by
  unfold Slots.innerChild Pkg.mulChild
  cases x.p with
  | none => rfl
  | some a =>
    dsimp only
    have hl : ((exactTabs P tmp).lvl s .v (some a) = w + 1) ↔ ((s.ut .v).mem a).v = w := by
      show ((s.ut .v).mem a).v + 1 = w + 1 ↔ _
      omega
    by_cases hv : ((s.ut .v).mem a).v = w
    · rw [if_pos hv, if_pos (hl.2 hv)]; rfl
    · rw [if_neg hv, if_neg (fun e => hv (hl.1 e))]; rfl

theorem exact_innerF : ∀ (l : Nat) (s : Pkg R) (x y : PEdge R),
    PureOp.innerF (exactNum R) (exactTabs P tmp) (exactInner P) l s x y = Pkg.innerF P l s x y := by
  intro l
  induction l with
  | zero =>
    intro s x y
    unfold PureOp.innerF Pkg.innerF
    by_cases h : x.w = 0 ∨ y.w = 0
    · rw [if_pos h, if_pos ((exact_or x.w y.w).2 h)]; rfl
    · rw [if_neg h, if_neg ((exact_or x.w y.w).not.2 h)]; rfl
  | succ l ih =>
    intro s x y
    rw [PureOp.innerF.eq_def, Pkg.innerF.eq_def]
    dsimp only
    by_cases h : x.w = 0 ∨ y.w = 0
    · rw [if_pos h, if_pos ((exact_or x.w y.w).2 h)]; rfl
    · rw [if_neg h, if_neg ((exact_or x.w y.w).not.2 h)]
      have hl : (exactInner P).look s x.p y.p = Pkg.look P.innerH s.innerC (⟨x.p, 1⟩, ⟨y.p, 1⟩) := rfl
      rw [hl]
      cases Pkg.look P.innerH s.innerC (⟨x.p, 1⟩, ⟨y.p, 1⟩) with
      | some r => rfl
      | none =>
        dsimp only
        rw [exact_innerChildL, exact_innerChildL, exact_innerChildR, exact_innerChildR, ih, ih]
        rfl

theorem C58_refine_innerProduct (hK : K.Good) (hs : CacheReach K s.cache s.out) (x y : PEdge R) :
    RunsTo K (Slots.innerProduct K (exactNum R) (exactTabs P tmp) (exactInner P) x y) s (Pkg.innerProduct P s.tabs x y).1
      (Pkg.innerProduct P s.tabs x y).2 := by
  unfold Pkg.innerProduct
  by_cases h0 : x.w = 0 ∨ y.w = 0
  · rw [if_pos h0]
    refine runsTo (f := fun t => (t, 0)) (fun s L hs => ?_) hs
    unfold Slots.innerProduct
    rw [if_pos ((exact_or x.w y.w).2 h0)]; exact wp_pure ⟨rfl, rfl, hs⟩
  · rw [if_neg h0, ← exact_innerF (tmp := tmp)]
    refine runsTo (f := fun t => PureOp.innerF (exactNum R) (exactTabs P tmp) (exactInner P) (max (t.lv .v x) (t.lv .v y)) t ⟨x.p, x.w.conj⟩ y)
      (fun s L hs => ?_) hs
    unfold Slots.innerProduct
    rw [if_neg ((exact_or x.w y.w).not.2 h0)]
    exact wp_bind (wp_tabs (wp_innerF hK (exactInner P) _ hs))

/-! ## Hence their results are right, for all histories of the package and all states of the memory for numbers -/

theorem C58_add (hK : K.Good) (hs : CacheReach K s.cache s.out) (hC : P.C.Good) (hr : PReach P h) (ht : s.tabs = h.pkg) {l : Nat} {x y : PEdge R}
    (hx : Valid (h.pkg.ut .v) l x) (hy : Valid (h.pkg.ut .v) l y) :
    ∃ t r, RunsTo K (Slots.add K (exactNum R) (exactTabs P tmp) .v x y) s t r ∧ Valid (t.ut .v) l r ∧
      vec (t.ut .v) l r = vec (h.pkg.ut .v) l x + vec (h.pkg.ut .v) l y ∧ Unchanged h.pkg t :=
  ⟨_, _, ht ▸ C58_refine_add hK hs .v x y, C22_vector hC hr hx hy⟩

theorem C58_add_matrix (hK : K.Good) (hs : CacheReach K s.cache s.out) (hC : P.C.Good) (hr : PReach P h) (ht : s.tabs = h.pkg) {l : Nat} {x y : PEdge R}
    (hx : Valid (h.pkg.ut .m) l x) (hy : Valid (h.pkg.ut .m) l y) :
    ∃ t r, RunsTo K (Slots.add K (exactNum R) (exactTabs P tmp) .m x y) s t r ∧ Valid (t.ut .m) l r ∧
      mat (t.ut .m) l r = mat (h.pkg.ut .m) l x + mat (h.pkg.ut .m) l y ∧ Unchanged h.pkg t :=
  ⟨_, _, ht ▸ C58_refine_add hK hs .m x y, C22_matrix hC hr hx hy⟩

theorem C58_multiply (hK : K.Good) (hs : CacheReach K s.cache s.out) (hC : P.C.Good) (hr : PReach P h) (ht : s.tabs = h.pkg) {l : Nat} {A x : PEdge R}
    (hA : Valid (h.pkg.ut .m) l A) (hx : Valid (h.pkg.ut .v) l x) :
    ∃ t r, RunsTo K (Slots.multiply K (exactNum R) (exactTabs P tmp) .v A x) s t r ∧ Valid (t.ut .v) l r ∧
      vec (t.ut .v) l r = (mat (h.pkg.ut .m) l A).mulVec (vec (h.pkg.ut .v) l x) ∧ Unchanged h.pkg t :=
  ⟨_, _, ht ▸ C58_refine_multiply hK hs .v A x, C23_vector hC hr hA hx⟩

theorem C58_multiply_matrix (hK : K.Good) (hs : CacheReach K s.cache s.out) (hC : P.C.Good) (hr : PReach P h) (ht : s.tabs = h.pkg) {l : Nat}
    {A B : PEdge R} (hA : Valid (h.pkg.ut .m) l A) (hB : Valid (h.pkg.ut .m) l B) :
    ∃ t r, RunsTo K (Slots.multiply K (exactNum R) (exactTabs P tmp) .m A B) s t r ∧ Valid (t.ut .m) l r ∧
      mat (t.ut .m) l r = mat (h.pkg.ut .m) l A * mat (h.pkg.ut .m) l B ∧ Unchanged h.pkg t :=
  ⟨_, _, ht ▸ C58_refine_multiply hK hs .m A B, C23_matrix hC hr hA hB⟩

theorem C58_kronecker (hK : K.Good) (hs : CacheReach K s.cache s.out) (hC : P.C.Good) (hr : PReach P h) (ht : s.tabs = h.pkg) {lx ly : Nat}
    {x y : PEdge R} (hx : Valid (h.pkg.ut .v) lx x) (hy : Valid (h.pkg.ut .v) ly y) (hn : ly + lx ≤ (h.pkg.ut .v).nvars) :
    ∃ t r, RunsTo K (Slots.kronecker K (exactNum R) (exactTabs P tmp) .v x y) s t r ∧ Valid (t.ut .v) (ly + lx) r ∧
      vec (t.ut .v) (ly + lx) r = kronVec (vec (h.pkg.ut .v) lx x) (vec (h.pkg.ut .v) ly y) ∧ Unchanged h.pkg t :=
  ⟨_, _, ht ▸ C58_refine_kronecker hK hs .v x y, C24_vector hC hr hx hy hn⟩

theorem C58_innerProduct (hK : K.Good) (hs : CacheReach K s.cache s.out) (hC : P.C.Good) (hr : PReach P h) (ht : s.tabs = h.pkg) {l : Nat}
    {x y : PEdge R} (hx : Valid (h.pkg.ut .v) l x) (hy : Valid (h.pkg.ut .v) l y) :
    ∃ t r, RunsTo K (Slots.innerProduct K (exactNum R) (exactTabs P tmp) (exactInner P) x y) s t r ∧
      r = inner (vec (h.pkg.ut .v) l x) (vec (h.pkg.ut .v) l y) ∧ Unchanged h.pkg t :=
  ⟨_, _, ht ▸ C58_refine_innerProduct hK hs x y, C26_inner hC hr hx hy⟩

theorem C58_partialTrace (hK : K.Good) (hs : CacheReach K s.cache s.out) (hC : P.C.Good) (hr : PReach P h) (ht : s.tabs = h.pkg) {l : Nat}
    {A : PEdge R} (hA : Valid (h.pkg.ut .m) l A) (hl : l ≤ (h.pkg.ut .m).nvars) {elim : List Bool} (he : elim.length = l) :
    let E := fun i => elim.getD i false
    ∃ t r, RunsTo K (Slots.partialTrace K (exactNum R) (exactTabs P tmp) (exactPlain P tmp) elim A) s t r ∧ Valid (t.ut .m) (pos E l) r ∧
      mat (t.ut .m) (pos E l) r = ptrace E (mat (h.pkg.ut .m) l A) ∧ Unchanged h.pkg t :=
  ⟨_, _, ht ▸ C58_refine_partialTrace hK hs elim A, C27_partialTrace hC hr hA hl he⟩

namespace Ex

/-- The hypotheses are met by the package of `setup`, with a number kept by the program in a slot. -/
example : ∃ (h : PHist ℝ) (s : SS (Pkg ℝ) ℝ) (x y A B : PEdge ℝ), KQ.Good ∧ (PR ℝ).C.Good ∧ CacheReach KQ s.cache s.out ∧ s.out = [(0, 1)] ∧
    PReach (PR ℝ) h ∧ s.tabs = h.pkg ∧ Valid (h.pkg.ut .v) 3 x ∧ Valid (h.pkg.ut .v) 3 y ∧ Valid (h.pkg.ut .m) 3 A ∧ Valid (h.pkg.ut .m) 3 B ∧
    3 + 3 ≤ (h.pkg.ut .v).nvars ∧ x.w ≠ 0 ∧ y.w ≠ 0 ∧ A.w ≠ 0 ∧ B.w ≠ 0 := by
  obtain ⟨h, x, y, A, B, hr, hn, vx, vy, vA, vB, _, _, _, _, _, _, wx, wy, wA, wB⟩ := setup (R := ℝ)
  exact ⟨h, ⟨h.pkg, startQ.cache, fun _ => 7, startQ.out⟩, x, y, A, B, KQ_good, PR_good ℝ, startQ_reach, rfl, hr, rfl, vx, vy, vA, vB,
    by rw [hn], wx, wy, wA, wB⟩

end Ex
end DD
