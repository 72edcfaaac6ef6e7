import Verif.Proofs.JointGc
import Verif.Props.C05
import Mathlib.Data.Fin.VecNotation
import Mathlib.Tactic.FinCases

/-!
# C17: no dangling weights or memo entries after collection

"After Package::garbageCollect every stored node only refers to stored nodes and stored numbers, and every entry left in any
operation cache (including the Toffoli cache and the identity table) only refers to stored nodes and numbers."

The model (Model/Joint.lean) has the table of numbers, the three tables of nodes, the references of the user and the fifteen
caches. The claims below hold in every state of a history in which collections occur anywhere, hence after each of them.
The claim about the Toffoli cache is false: the code does not clear this cache when numbers have been collected
(`C17_toffoli_false`); what holds is `C17_toffoli_partial`.
-/

namespace DD

variable {R : Type} [Field R] [LinearOrder R] [IsStrictOrderedRing R] [FloorRing R] {J : JCfg R} {tols : R → Prop}
variable {s : JState R}

/-- Every stored node only refers to stored nodes and known numbers. -/
theorem C17_nodes (hJ : J.Good) (htol : ∀ τ, tols τ → 0 ≤ τ) (h : JReach J tols s) (k : NK) {a : Nat}
    (ha : a ∈ (s.tab k).tab.all) (i : Fin k.ar) : ∀ x ∈ ptrRefs k (((s.tab k).tab.mem a).e i), s.Known J x := by
  obtain ⟨pin, hi⟩ := h.inv hJ htol
  rw [known_ptr]
  exact ⟨hi.nodes k a ha i, fun b hb => (((hi.tab k).inv hJ.U).closed a ha i b hb).1⟩

/-- Every edge and every number the user has referenced only refers to stored nodes and known numbers. -/
theorem C17_held (hJ : J.Good) (htol : ∀ τ, tols τ → 0 ≤ τ) (h : JReach J tols s) :
    (∀ k, ∀ e ∈ (s.tab k).held, ∀ x ∈ ptrRefs k e, s.Known J x) ∧
    ∀ c ∈ s.nums, s.Known J (.num c.r.loc) ∧ s.Known J (.num c.i.loc) := by
  obtain ⟨pin, hi⟩ := h.inv hJ htol
  refine ⟨fun k e he => ?_, fun c hc => hi.nums c hc⟩
  rw [known_ptr]
  exact ⟨hi.held k e he, fun b hb => ((hi.tab k).inv hJ.U).held e he b hb⟩

/-- Every entry of every cache except the Toffoli cache only refers to stored nodes and known numbers. -/
theorem C17_caches (hJ : J.Good) (htol : ∀ τ, tols τ → 0 ≤ τ) (h : JReach J tols s) {c : CK} (hc : c ≠ .toffoliTable)
    {key : CKey R} {r : CArg R} (he : s.Entry c key r) : ∀ x ∈ entryRefs key r, s.Known J x := by
  obtain ⟨pin, hi⟩ := h.inv hJ htol
  obtain ⟨i, hs⟩ := he
  obtain ⟨_, _, h3, _, h5, _⟩ := hi.cache c i key r hs
  intro x hx
  unfold entryRefs at hx
  rw [List.mem_append, List.mem_flatMap] at hx
  rcases hx with ⟨a, ha, hx⟩ | hx
  · exact h3 a ha x hx
  · exact h5 hc x hx

/-- Entries of the Toffoli cache refer to stored nodes; their weights are known if they are static numbers (as for the
Toffoli gates the cache is meant for, whose weight is one). Missing: weights that are not static. -/
theorem C17_toffoli_partial (hJ : J.Good) (htol : ∀ τ, tols τ → 0 ≤ τ) (h : JReach J tols s)
    {key : CKey R} {r : CArg R} (he : s.Entry .toffoliTable key r) :
    (∀ k a, .node k a ∈ entryRefs key r → s.Known J (.node k a)) ∧
    ((∀ l, .num l ∈ entryRefs key r → l.isStatic = true) → ∀ x ∈ entryRefs key r, s.Known J x) := by
  obtain ⟨pin, hi⟩ := h.inv hJ htol
  obtain ⟨i, hs⟩ := he
  obtain ⟨h1, _, h3, h4, _, _⟩ := hi.cache _ i key r hs
  have hn : ∀ k a, .node k a ∈ entryRefs key r → s.Known J (.node k a) := by
    intro k a hx
    unfold entryRefs at hx
    rw [toffoli_key h1] at hx
    exact h4 k a (by simpa using hx)
  refine ⟨hn, fun hw x hx => ?_⟩
  cases x with
  | node k a => exact hn k a hx
  | num l =>
    have := hw l hx
    cases l with
    | cell a => simp [Loc.isStatic] at this
    | _ => exact trivial

/-- A collection keeps, unchanged, everything the user can get at; what it removes cannot be reached any more. -/
theorem C17_keeps (hJ : J.Good) (htol : ∀ τ, tols τ → 0 ≤ τ) (h : JReach J tols s) (force : Bool) {x : PRef}
    (hx : s.Reachable x) :
    s.Known J x ∧ (s.garbageCollect J force).1.Known J x ∧ s.SameAt J (s.garbageCollect J force).1 x ∧
    (s.garbageCollect J force).1.Reachable x := by
  obtain ⟨pin, hi⟩ := h.inv hJ htol
  have hu := fun k => (hi.tab k).inv hJ.U
  -- content is not changed by collections
  have hsame : ∀ y, s.SameAt J (s.garbageCollect J force).1 y := by
    intro y
    unfold JState.garbageCollect
    split_ifs
    · cases y <;> rfl
    · obtain ⟨g1, _, g3⟩ := gcNodes_rest (J := J) (s := { s with ct := (s.ct.garbageCollect J.C force).1 })
        (if 0 < (s.ct.garbageCollect J.C force).2 then true else force) (s.ct.garbageCollect J.C force).2
      dsimp only
      cases y with
      | node k a =>
        unfold JState.SameAt
        rw [g3]
        dsimp only
        rw [gc_mem]
      | num l =>
        unfold JState.SameAt
        rw [g1]
        cases l with
        | cell a =>
          show (s.ct.garbageCollect J.C force).1.val a = s.ct.val a
          rw [(cgc_facts hJ.C (hi.ct.wf htol hJ.C) force).2.1]
        | _ => rfl
  have hheld : (∀ k, ((s.garbageCollect J force).1.tab k).held = (s.tab k).held) ∧
      (s.garbageCollect J force).1.nums = s.nums := by
    unfold JState.garbageCollect
    split_ifs
    · exact ⟨fun _ => rfl, rfl⟩
    · obtain ⟨_, g2, g3⟩ := gcNodes_rest (J := J) (s := { s with ct := (s.ct.garbageCollect J.C force).1 })
        (if 0 < (s.ct.garbageCollect J.C force).2 then true else force) (s.ct.garbageCollect J.C force).2
      dsimp only
      refine ⟨fun k => by rw [g3], g2⟩
  have hr : (s.garbageCollect J force).1.Reachable x := by
    induction hx with
    | held k e he x hx => exact .held k e (by rw [hheld.1]; exact he) x hx
    | numR c hc => exact .numR c (by rw [hheld.2]; exact hc)
    | numI c hc => exact .numI c (by rw [hheld.2]; exact hc)
    | child k a _ i x hx ih =>
      refine .child k a ih i x ?_
      have : ((s.garbageCollect J force).1.tab k).tab.mem a = (s.tab k).tab.mem a := hsame (.node k a)
      rw [this]; exact hx
  have known : ∀ {s : JState R}, JReach J tols s → ∀ {x}, s.Reachable x → s.Known J x := by
    intro s h x hx
    induction hx with
    | held k e he x hx => exact (C17_held hJ htol h).1 k e he x hx
    | numR c hc => exact ((C17_held hJ htol h).2 c hc).1
    | numI c hc => exact ((C17_held hJ htol h).2 c hc).2
    | child k a _ i x hx ih => exact C17_nodes hJ htol h k ih i x hx
  exact ⟨known h hx, known (h.step (.garbageCollect force)) hr, hsame x, hr⟩

/-- The reference count of every stored number is the number of its uses: by edges the user references, by edges out of
referenced nodes, by the user directly; one more for the entry of the constant 1/2. Counts can be saturated. -/
theorem C17_count (hJ : J.Good) (htol : ∀ τ, tols τ → 0 ≤ τ) (h : JReach J tols s) :
    ∃ half : Option Nat, ∀ a ∈ s.ct.stored J.C, s.ct.ref (.cell a) = J.C.maxRef ∨
      s.ct.ref (.cell a) = (if half = some a then 1 else 0) + usesOf s.inUse a := by
  obtain ⟨pin, hi⟩ := h.inv hJ htol
  exact ⟨pin, hi.cnt⟩

/-- A forced collection leaves no garbage among the numbers, if there is more than one: what remains is used, or is the
constant 1/2, or has a saturated count. -/
theorem C17_no_garbage (hJ : J.Good) (htol : ∀ τ, tols τ → 0 ≤ τ) (h : JReach J tols s) (hc : 1 < s.ct.count) :
    ∃ half : Option Nat, ∀ a ∈ (s.garbageCollect J true).1.ct.stored J.C,
      half = some a ∨ 0 < usesOf s.inUse a ∨ s.ct.ref (.cell a) = J.C.maxRef := by
  obtain ⟨pin, hi⟩ := h.inv hJ htol
  refine ⟨pin, fun a ha => ?_⟩
  have hw := hi.ct.wf htol hJ.C
  have g := CTab.gc_run_spec hJ.C.nb hw (force := true) (by simp; omega)
  unfold JState.garbageCollect at ha
  rw [if_neg (by simp)] at ha
  dsimp only at ha
  rw [(gcNodes_rest _ _).1, g.stored, List.mem_filter] at ha
  have h0 : s.ct.ref (.cell a) ≠ 0 := by simpa using ha.2
  rcases hi.cnt a ha.1 with h1 | h1
  · exact Or.inr (Or.inr h1)
  · beta_reduce at h1
    by_cases hp : pin = some a
    · exact Or.inl hp
    · rw [if_neg hp] at h1
      right; left; omega

/-- Giving back a reference never fails half-way: neither a node nor a number on the way has a count of zero. -/
theorem C17_release (hJ : J.Good) (htol : ∀ τ, tols τ → 0 ≤ τ) (h : JReach J tols s) :
    (∀ k, ∀ e ∈ (s.tab k).held, ∃ r t, (s.tab k).tab.decRef J.U e = some r ∧ s.ct.decRefL J.C r.2 = some t) ∧
    ∀ c ∈ s.nums, ∃ t, s.ct.decRefC J.C c = some t := by
  obtain ⟨pin, hi⟩ := h.inv hJ htol
  refine ⟨fun k e he => ?_, fun c hc => ?_⟩
  · obtain ⟨r, t, h1, h2, _⟩ := hi.decRef_ok hJ he
    exact ⟨r, t, h1, h2⟩
  · obtain ⟨t, h1, _⟩ := hi.decNum_ok hc
    exact ⟨t, h1⟩

namespace Ex

/-- Parameters for the example. -/
def JQ : JCfg ℚ where
  C := CQ
  U := UCfg.default
  H := fun _ _ => 0
  h := fun _ _ => 0

theorem JQ_good : JQ.Good := ⟨CQ_good, UCfg.default_good⟩

/-- A complex number with the entry `a` as real part. -/
def cn (a : Nat) : CNum Loc := ⟨⟨false, .cell a⟩, ⟨false, .zero⟩⟩

/-- A new package for two qubits. -/
def j0 : JState ℚ := JState.init JQ (1 / 100) 2 (fun _ => 1)
  (fun _ => ⟨0, fun _ => ⟨none, CNum.zero⟩, 0, false, false⟩)

/-- 1/5 and 3/4 are looked up: entries 1 and 2 (entry 0 is 1/2). -/
def j1 : JState ℚ := { j0 with ct := (j0.ct.lookup JQ.C (1 / 5)).1 }
def j2 : JState ℚ := { j1 with ct := (j1.ct.lookup JQ.C (3 / 4)).1 }

/-- A matrix node with the weights 1, 0, 0, 1/5. -/
def esQ : Fin 4 → PtrEdge := ![⟨none, CNum.one⟩, ⟨none, CNum.zero⟩, ⟨none, CNum.zero⟩, ⟨none, cn 1⟩]

theorem esQ_none : ∀ i, (esQ i).p = none := by decide

def j3 : JState ℚ := { j2 with
  tab := Function.update j2.tab .m
    { j2.tab .m with tab := ((j2.tab .m).tab.mkNodeBy (j2.sameEdges JQ) (JQ.H .m) JQ.U 0 esQ false true).1 } }

/-- The user references the node with weight one. -/
def e3 : PtrEdge := ⟨some 0, CNum.one⟩

def j4 : JState ℚ := { j3 with
  ct := j3.ct.incRefL JQ.C ((j3.tab .m).tab.incRef JQ.U e3).2
  tab := Function.update j3.tab .m ⟨((j3.tab .m).tab.incRef JQ.U e3).1, e3 :: (j3.tab .m).held,
    fun w => (j3.tab .m).wref w + ((j3.tab .m).tab.incRef JQ.U e3).2.count w⟩ }

/-- An edge with weight 3/4 to the node is stored in the Toffoli cache, and as a transposed matrix. -/
def e4 : PtrEdge := ⟨some 0, cn 2⟩

def j5 : JState ℚ := { j4 with
  cache := Function.update j4.cache .toffoliTable
    ((j4.cache .toffoliTable).insert (JQ.h .toffoliTable) ([], [1, 0]) (.ptr .m e4)) }

def j6 : JState ℚ := { j5 with
  cache := Function.update j5.cache .matrixTranspose
    ((j5.cache .matrixTranspose).insert (JQ.h .matrixTranspose) ([.ptr .m e3], []) (.ptr .m e4)) }

theorem j4_reach : JReach JQ (0 ≤ ·) j4 := by
  have h0 : JReach JQ (0 ≤ ·) j0 := .init (1 / 100) (by norm_num) 2 _ (fun _ => by norm_num) _
  have h1 : JReach JQ (0 ≤ ·) j1 := h0.step (.lookup (1 / 5) (by norm_num))
  have h2 : JReach JQ (0 ≤ ·) j2 := h1.step (.lookup (3 / 4) (by norm_num))
  have h3 : JReach JQ (0 ≤ ·) j3 := by
    refine h2.step (.mk .m 0 esQ false true (by decide +kernel) ?_ ?_)
    · intro i b hb
      exact absurd ((esQ_none i).symm.trans hb) (by simp)
    · intro i
      rw [known_ptr]
      refine ⟨?_, fun b hb => absurd ((esQ_none i).symm.trans hb) (by simp)⟩
      fin_cases i <;> constructor <;> decide +kernel
  refine h3.step (.incRef .m e3 ?_)
  rw [known_ptr]
  refine ⟨by constructor <;> decide +kernel, ?_⟩
  intro b hb
  simp only [e3, Option.some.injEq] at hb
  subst hb
  decide +kernel

theorem j6_reach : JReach JQ (0 ≤ ·) j6 := by
  have k4 : ∀ x ∈ (CArg.ptr (R := ℚ) .m e4).refs, j4.Known JQ x := by
    show ∀ x ∈ ptrRefs .m e4, _
    rw [known_ptr]
    refine ⟨by constructor <;> decide +kernel, ?_⟩
    intro b hb
    simp only [e4, Option.some.injEq] at hb
    subst hb
    decide +kernel
  have k3 : ∀ x ∈ (CArg.ptr (R := ℚ) .m e3).refs, j4.Known JQ x := by
    show ∀ x ∈ ptrRefs .m e3, _
    rw [known_ptr]
    refine ⟨by constructor <;> decide +kernel, ?_⟩
    intro b hb
    simp only [e3, Option.some.injEq] at hb
    subst hb
    decide +kernel
  have h5 : JReach JQ (0 ≤ ·) j5 := by
    refine j4_reach.step (.insert .toffoliTable ([], [1, 0]) (.ptr .m e4) .nil rfl (by simp) k4 (by simp))
  refine h5.step (.insert .matrixTranspose ([.ptr .m e3], []) (.ptr .m e4) (.cons rfl .nil) rfl ?_ k4 (by simp))
  intro a ha
  simp only [List.mem_singleton] at ha
  subst ha
  exact k3

/-- The collection removes the number 3/4 (entry 2) but no node; the entry of the transpose cache is removed, that of the
Toffoli cache stays. -/
theorem j6_gc : (j6.garbageCollect JQ true).1.ct.stored CQ = [1, 0] ∧
    ((j6.garbageCollect JQ true).1.tab .m).tab.all = [0] ∧
    ((j6.garbageCollect JQ true).1.cache .toffoliTable).slot 0 = some (([], [1, 0]), .ptr .m e4) ∧
    (((j6.garbageCollect JQ true).1.cache .matrixTranspose).slot 0).isSome = false ∧
    ((j6.cache .matrixTranspose).slot 0).isSome = true ∧ (j6.garbageCollect JQ true).2 = true := by
  decide +kernel

example : ∀ x ∈ ptrRefs .m (((j6.tab .m).tab.mem 0).e (3 : Fin 4)), j6.Known JQ x :=
  C17_nodes JQ_good (fun _ h => h) j6_reach .m (by decide +kernel) (3 : Fin 4)

example : ∀ x ∈ entryRefs (([.ptr .m e3], []) : CKey ℚ) (.ptr .m e4), j6.Known JQ x :=
  C17_caches JQ_good (fun _ h => h) j6_reach (c := .matrixTranspose) (by decide) ⟨0, rfl⟩

/-- The number 1/5 is in use by the node, and survives. -/
example : (j6.garbageCollect JQ true).1.Known JQ (.num (.cell 1)) :=
  (C17_keeps JQ_good (fun _ h => h) j6_reach true
    (.child .m 0 (.held .m e3 (by decide +kernel) _ (by decide)) (3 : Fin 4) (.num (.cell 1)) (by decide +kernel))).2.1

example : j6.ct.ref (.cell 1) = 1 ∧ j6.ct.ref (.cell 2) = 0 ∧ j6.ct.ref (.cell 0) = 1 ∧ 1 < j6.ct.count := by
  decide +kernel

example : ∃ r t, (j6.tab .m).tab.decRef JQ.U e3 = some r ∧ j6.ct.decRefL JQ.C r.2 = some t :=
  (C17_release JQ_good (fun _ h => h) j6_reach).1 .m e3 (by decide +kernel)

end Ex

/-- The unrestricted claim about the Toffoli cache is false: an entry can refer to a number that has been collected. -/
theorem C17_toffoli_false : ¬ ∀ (J : JCfg ℚ) (s : JState ℚ), J.Good → JReach J (0 ≤ ·) s →
    ∀ key r, (s.garbageCollect J true).1.Entry .toffoliTable key r →
      ∀ x ∈ entryRefs key r, (s.garbageCollect J true).1.Known J x := by
  intro H
  have h := H Ex.JQ Ex.j6 Ex.JQ_good Ex.j6_reach ([], [1, 0]) (.ptr .m Ex.e4)
    ⟨0, Ex.j6_gc.2.2.1⟩ (.num (.cell 2)) (by decide)
  have h2 : 2 ∈ (Ex.j6.garbageCollect Ex.JQ true).1.ct.stored Ex.CQ := h
  rw [Ex.j6_gc.1] at h2
  simp at h2

end DD
