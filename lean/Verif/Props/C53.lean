import Verif.Proofs.SlotSim
import Verif.Props.C11

/-!
# C53: temporary numbers are balanced

"Every public operation returns all cache slots it took: the complex cache count is the same before and after, and no slot is
returned twice."

The operations are those of Model/Slots.lean. The arithmetic, the table of numbers, the node tables and the operation tables are
arbitrary, so the theorems hold for every history, every tolerance and whichever entries the operation tables contain. An
operation that returns a slot it does not hold (for instance, one it has returned already), or a number of the table, does not
succeed in the model; so success is part of the claim.
-/

namespace DD

variable {σ T F α : Type} [DecidableEq T] {K : CacheCfg} {N : Num σ T F} {B : Tabs σ T F}

/-- From every state of the cache and of the program's own slots, `m` succeeds, and afterwards the same slots are outstanding, with
the same contents, and the count is as before. The result and the tables only depend on the tables before: neither on the state
of the cache nor on what its entries contain. -/
def Balanced (K : CacheCfg) (m : SM σ F α) : Prop :=
  ∀ s : SS σ F, CacheReach K s.cache s.out →
    ∃ a s', m s = some (a, s') ∧ CacheReach K s'.cache s'.out ∧ s'.out.Perm s.out ∧ s'.cache.count = s.cache.count ∧
      (∀ c ∈ s.out, s'.mem c.1 = s.mem c.1 ∧ s'.mem c.2 = s.mem c.2) ∧
      ∀ s2 : SS σ F, CacheReach K s2.cache s2.out → s2.tabs = s.tabs →
        ∃ s2', m s2 = some (a, s2') ∧ s2'.tabs = s'.tabs

namespace SM

theorem balanced {m : SM σ F α} (hK : K.Good) (f : σ → σ × α)
    (h : ∀ s (L : Multiset (Ent F)), Heap K s L → wp m s (PostT K L (f s.tabs))) : Balanced K m := by
  intro s hs
  have heap : ∀ s : SS σ F, CacheReach K s.cache s.out →
      Heap K s ((s.out : Multiset (Nat × Nat)).map fun c => (c, ⟨s.mem c.1, s.mem c.2⟩)) := by
    intro s hs
    refine ⟨hs, ?_, ?_⟩
    · rw [Multiset.map_map]
      exact (Multiset.map_id _).symm
    · intro q hq
      obtain ⟨c, _, rfl⟩ := Multiset.mem_map.1 hq
      exact ⟨rfl, rfl⟩
  obtain ⟨a, s', e, ea, et, h'⟩ := h s _ (heap s hs)
  have hp : s'.out.Perm s.out := by
    rw [← Multiset.coe_eq_coe, h'.out, Multiset.map_map]
    exact Multiset.map_id _
  refine ⟨a, s', e, h'.reach, hp, ?_, ?_, ?_⟩
  · obtain ⟨f1, w1⟩ := hs.wf hK
    obtain ⟨f2, w2⟩ := h'.reach.wf hK
    rw [w1.count, w2.count, hp.length_eq]
  · intro c hc
    exact h'.mem (c, ⟨s.mem c.1, s.mem c.2⟩) (Multiset.mem_map.2 ⟨c, hc, rfl⟩)
  · intro s2 hs2 ht
    obtain ⟨a2, s2', e2, ea2, et2, _⟩ := h s2 _ (heap s2 hs2)
    rw [ht] at ea2 et2
    exact ⟨s2', by rw [e2, ea2, ea], by rw [et2, et]⟩

theorem wp_exportF (hK : K.Good) : ∀ (l : Nat) {s : SS σ F} {L : Multiset (Ent F)} {e : Edge T} {amp : Nat × Nat} {z},
    (amp, z) ∈ L → Heap K s L → wp (Slots.exportF K N B l e amp) s (fun _ s' => s'.tabs = s.tabs ∧ Heap K s' L) := by
  intro l
  induction l with
  | zero =>
    intro s L e amp z ha hs
    unfold Slots.exportF
    cases e.p with
    | none => exact wp_bind (wp_readH hs ha (wp_bind (wp_getTemporary hK hs fun c s1 t1 _ h1 => wp_pure ⟨t1, h1⟩)))
    | some a => exact wp_pure ⟨rfl, hs⟩
  | succ l ih =>
    intro s L e amp z ha hs
    unfold Slots.exportF
    cases e.p with
    | none => exact wp_bind (wp_readH hs ha (wp_bind (wp_getTemporary hK hs fun c s1 t1 _ h1 => wp_pure ⟨t1, h1⟩)))
    | some a =>
      refine wp_bind (wp_readH hs ha (wp_bind (wp_getCached hK hs fun c s1 t1 h1 => wp_bind (wp_tabs ?_))))
      refine wp_bind (wp_mono (ih (amp := c) (by simp; left; rfl) h1) ?_)
      rintro _ s2 ⟨t2, h2⟩
      refine wp_bind (wp_mono (ih (amp := c) (by simp; left; rfl) h2) ?_)
      rintro _ s3 ⟨t3, h3⟩
      exact wp_give hK h3 fun s4 t4 _ _ _ h4 => ⟨by rw [t4, t3, t2, t1], h4⟩

theorem wp_tempProd (hK : K.Good) {s : SS σ F} {L : Multiset (Ent F)} {z : Cx F} {x y : T} (hs : Heap K s L) :
    wp (Slots.tempProd K N z x y) s (PostT K L (s.tabs, N.mul (N.mul z (N.val x)) (N.val y))) := by
  obtain ⟨f, hw⟩ := hs.reach.wf hK
  unfold Slots.tempProd
  obtain ⟨c', c, e, hw', h1, h2, h3⟩ := CxCache.getTemporary_spec hK hw
  have hA : Apart c L := apart_of_cells hs (h1 c.1 (by simp)).1 (h1 c.2 (by simp)).1
  refine wp_bind ?_
  refine ⟨c, { s with cache := c', mem := Function.update (Function.update s.mem c.1 z.re) c.2 z.im },
    by simp only [getTemporary, e, write, Option.map_some], ?_⟩
  have hs1 : Heap K { s with cache := c', mem := Function.update (Function.update s.mem c.1 z.re) c.2 z.im } L := by
    refine ⟨hs.reach.temporary e, hs.out, fun q hq => ?_⟩
    obtain ⟨u1, u2⟩ := upd_other (z := z) s.mem hA hq
    exact ⟨u1.trans (hs.mem q hq).1, u2.trans (hs.mem q hq).2⟩
  refine wp_bind (wp_read (wp_bind (wp_writeFree hs1 hA h2 fun s2 t2 e2 hs2 => ?_)))
  refine wp_bind (wp_read (wp_bind (wp_writeFree hs2 hA h2 fun s3 t3 e3 hs3 => wp_read ?_)))
  obtain ⟨u1, u2⟩ := upd_self (z := z) s.mem h2
  refine ⟨?_, by rw [t3, t2], hs3⟩
  rw [e3, e2]
  dsimp only
  rw [u1, u2]

/-- The inner product on plain values. -/
def _root_.DD.PureOp.innerF (N : Num σ T F) (B : Tabs σ T F) (I : Slots.InnerTab σ T F) : Nat → σ → Edge T → Edge T → σ × Cx F
  | l, t, x, y =>
    if N.isZero (N.val x.w) || N.isZero (N.val y.w) then (t, N.val N.zero)
    else match l with
    | 0 => (t, N.mul (N.val x.w) (N.val y.w))
    | l + 1 =>
      match I.look t x.p y.p with
      | some z => (t, N.mul (N.mul z (N.val x.w)) (N.val y.w))
      | none =>
        let c0 := PureOp.innerF N B I l t (Slots.innerChild N B t x l 0 I.conj) (Slots.innerChild N B t y l 0 id)
        let c1 := PureOp.innerF N B I l c0.1 (Slots.innerChild N B t x l 1 I.conj) (Slots.innerChild N B t y l 1 id)
        let sum := N.add (N.add (N.val N.zero) c0.2) c1.2
        (I.ins c1.1 x.p y.p sum, N.mul (N.mul sum (N.val x.w)) (N.val y.w))

theorem wp_innerF (hK : K.Good) (I : Slots.InnerTab σ T F) : ∀ (l : Nat) {s : SS σ F} {L : Multiset (Ent F)} {x y : Edge T},
    Heap K s L → wp (Slots.innerF K N B I l x y) s (PostT K L (PureOp.innerF N B I l s.tabs x y)) := by
  intro l
  induction l with
  | zero =>
    intro s L x y hs
    unfold Slots.innerF PureOp.innerF
    by_cases h0 : (N.isZero (N.val x.w) || N.isZero (N.val y.w)) = true
    · rw [if_pos h0, if_pos h0]; exact wp_pure ⟨rfl, rfl, hs⟩
    · rw [if_neg h0, if_neg h0]
      exact wp_bind (wp_getTemporary hK hs fun c s1 t1 e1 h1 => wp_read ⟨e1, t1, h1⟩)
  | succ l ih =>
    intro s L x y hs
    unfold Slots.innerF
    rw [PureOp.innerF.eq_def]
    dsimp only
    by_cases h0 : (N.isZero (N.val x.w) || N.isZero (N.val y.w)) = true
    · rw [if_pos h0, if_pos h0]; exact wp_pure ⟨rfl, rfl, hs⟩
    · rw [if_neg h0, if_neg h0]
      refine wp_bind (wp_tabs ?_)
      cases hl : I.look s.tabs x.p y.p with
      | some z => exact wp_tempProd hK hs
      | none =>
        dsimp only
        refine wp_bind (wp_mono (ih hs) ?_)
        rintro _ s1 ⟨rfl, t1, h1⟩
        refine wp_bind (wp_mono (ih h1) ?_)
        rintro _ s2 ⟨rfl, t2, h2⟩
        refine wp_bind (wp_tabs (wp_bind (wp_setTabs h2 fun s3 t3 _ h3 => ?_)))
        rw [t1] at t2 t3 ⊢
        refine wp_mono (wp_tempProd hK h3) ?_
        rintro _ s4 ⟨rfl, t4, h4⟩
        exact ⟨rfl, by rw [t4, t3, t2], h4⟩

end SM

open SM

theorem C53_add (hK : K.Good) (hN : N.ZeroOK) (k : Kind) (x y : Edge T) : Balanced K (Slots.add K N B k x y) := by
  refine balanced hK (fun t => PureOp.add N B k t x y) fun s L hs => wp_bind (wp_tabs ?_)
  refine wp_bind (wp_mono (wp_add2 (B := B) hK hN _ (ox := PureOp.inj N x) (oy := PureOp.inj N y) rfl rfl (opd_inj N L _) (opd_inj N L _) hs) ?_)
  intro b s' hp
  exact wp_finish hK hp

theorem C53_multiply (hK : K.Good) (hN : N.ZeroOK) (k : Kind) (x y : Edge T) : Balanced K (Slots.multiply K N B k x y) := by
  refine balanced hK (fun t => PureOp.multiply N B k t x y) fun s L hs => wp_bind (wp_tabs ?_)
  exact wp_bind (wp_mono (wp_multiply2 (B := B) hK hN _ hs) fun b s' hp => wp_finish hK hp)

theorem C53_kronecker (hK : K.Good) (hN : N.ZeroOK) (k : Kind) (x y : Edge T) : Balanced K (Slots.kronecker K N B k x y) := by
  refine balanced hK (fun t => PureOp.kronecker N B k t x y) fun s L hs => wp_bind (wp_tabs ?_)
  exact wp_bind (wp_mono (wp_kron2 (B := B) hK hN _ hs) fun b s' hp => wp_finish hK hp)

theorem C53_makeState (hK : K.Good) (hN : N.ZeroOK) (l : Nat) (xs : List (Cx F)) (hx : xs.length = 2 ^ (l + 1)) :
    Balanced K (Slots.makeState K N B l xs) := by
  refine balanced hK (fun t => PureOp.finish N (PureOp.stateF N B l t xs)) fun s L hs => ?_
  exact wp_bind (wp_mono (wp_stateF (B := B) hK hN _ hx hs) fun b s' hp => wp_finish hK hp)

theorem C53_makeMatrix (hK : K.Good) (hN : N.ZeroOK) (M : Nat → Nat → Cx F) (l : Nat) :
    Balanced K (Slots.makeMatrix K N B M l) := by
  refine balanced hK (fun t => PureOp.finish N (PureOp.matrixF N B M l t 0 (2 ^ l) 0 (2 ^ l))) fun s L hs => ?_
  exact wp_bind (wp_mono (wp_matrixF (B := B) hK hN M _ hs) fun b s' hp => wp_finish hK hp)

theorem C53_partialTrace (hK : K.Good) (hN : N.ZeroOK) (h1 : N.one ≠ N.zero) (Q : Slots.Plain σ T F) (elim : List Bool) (a : Edge T) :
    Balanced K (Slots.partialTrace K N B Q elim a) := by
  refine balanced hK (fun t => PureOp.trace N B Q elim (B.lvl t .m a.p) t a 0) fun s L hs => wp_bind (wp_tabs ?_)
  exact wp_trace (B := B) hK hN h1 Q elim _ hs

theorem C53_innerProduct (hK : K.Good) (I : Slots.InnerTab σ T F) (x y : Edge T) : Balanced K (Slots.innerProduct K N B I x y) := by
  by_cases h0 : (N.isZero (N.val x.w) || N.isZero (N.val y.w)) = true
  · refine balanced hK (fun t => (t, N.val N.zero)) fun s L hs => ?_
    unfold Slots.innerProduct
    rw [if_pos h0]; exact wp_pure ⟨rfl, rfl, hs⟩
  · refine balanced hK (fun t => PureOp.innerF N B I (max (B.lvl t .v x.p) (B.lvl t .v y.p)) t ⟨x.p, I.conj x.w⟩ y) fun s L hs => ?_
    unfold Slots.innerProduct
    rw [if_neg h0]
    exact wp_bind (wp_tabs (wp_innerF hK I _ hs))

/-- Reading amplitudes and entries. -/
theorem C53_readAll (hK : K.Good) (k : Kind) (e : Edge T) : Balanced K (Slots.readAll K N B k e) := by
  refine balanced hK (fun t => (t, ())) fun s L hs => wp_bind (wp_tabs ?_)
  exact wp_mono (wp_walk (B := B) hK k _ (opd_inj N L N.one) hs) fun b s' h => ⟨rfl, h.1, h.2⟩

theorem C53_exportAmplitudes (hK : K.Good) (unit : Cx F) (e : Edge T) : Balanced K (Slots.exportAmplitudes K N B unit e) := by
  refine balanced hK (fun t => (t, ())) fun s L hs => ?_
  unfold Slots.exportAmplitudes
  by_cases h0 : e.p = none
  · rw [if_pos h0]; exact wp_pure ⟨rfl, rfl, hs⟩
  · rw [if_neg h0]
    refine wp_bind (wp_tabs (wp_bind (wp_getCached hK hs fun c s1 t1 h1 => ?_)))
    refine wp_bind (wp_mono (wp_exportF (B := B) hK _ (amp := c) (by simp; left; rfl) h1) ?_)
    rintro _ s2 ⟨t2, h2⟩
    exact wp_give hK h2 fun s3 t3 _ _ _ h3 => ⟨rfl, by rw [t3, t2, t1], h3⟩

/-- The last step of the reductions, of `transfer` and of `deserialize`; these functions use no other slots of their own. -/
theorem C53_topWeight (hK : K.Good) (z : Cx F) : Balanced K (Slots.topWeight K N z) := by
  refine balanced hK (fun t => N.lookup t z) fun s L hs => ?_
  refine wp_bind (wp_getCached hK hs fun c s1 t1 h1 => wp_bind (wp_readH h1 (by simp; left; rfl) (wp_bind (wp_lookup h1 fun s2 t2 _ h2 => ?_))))
  refine wp_bind (wp_give hK h2 fun s3 t3 _ _ _ h3 => wp_pure ⟨?_, ?_, h3⟩)
  · rw [t1]
  · rw [t3, t2, t1]

namespace Ex

/-- A store of nodes: kind, level and successors. -/
abbrev Store := List (Nat × List (Edge (Cx ℚ)))

/-- Exact arithmetic; the larger weight of a vector node is factored out. -/
def numQ : Num Store (Cx ℚ) ℚ where
  zero := 0
  one := 1
  val := id
  lookup t z := (t, z)
  isZero z := z = 0
  isOne z := z = 1
  add a b := ⟨a.re + b.re, a.im + b.im⟩
  mul a b := ⟨a.re * b.re - a.im * b.im, a.re * b.im + a.im * b.re⟩
  div a b := ⟨a.re / b.re, a.im / b.re⟩
  vecMax a b := if a.re ^ 2 + a.im ^ 2 < b.re ^ 2 + b.im ^ 2 then 1 else 0
  vecTop a b := if a.re ^ 2 + a.im ^ 2 < b.re ^ 2 + b.im ^ 2 then b else a
  vecBig _ _ := 1
  matLess a b := a.re ^ 2 + a.im ^ 2 < b.re ^ 2 + b.im ^ 2

/-- New nodes are appended; the operation tables never find anything. -/
def tabsQ : Tabs Store (Cx ℚ) ℚ where
  kids t _ a i := ((t.getD a (0, [])).2).getD i ⟨none, 0⟩
  lvl t _ p := match p with | none => 0 | some a => (t.getD a (0, [])).1 + 1
  ident _ _ := false
  make t k v es := (t ++ [(v, List.ofFn es)], some t.length, [])
  drop t _ := t
  addLook _ _ _ _ := none
  addIns t _ _ _ _ := t
  mulLook _ _ _ _ := none
  mulIns t _ _ _ _ := t
  kronLook _ _ _ _ := none
  kronIns t _ _ _ _ := t
  identTop t _ y := (t, y.p, [])

theorem numQ_zero : numQ.ZeroOK := by simp [Num.ZeroOK, numQ]

/-- The program holds one slot, with the value 7 + 8i. -/
def startQ : SS Store ℚ :=
  ⟨[], { CxCache.create KQ with chunkIt := 2, count := 2 }, fun i => if i = 0 then 7 else 8, [(0, 1)]⟩

theorem startQ_reach : CacheReach KQ startQ.cache startQ.out := .get (c := (0, 1)) .create rfl

/-- Build two states of two qubits and add them. -/
def run : SM Store ℚ (Edge (Cx ℚ)) := do
  let x ← Slots.makeState KQ numQ tabsQ 1 [1, 2, 3, 0]
  let y ← Slots.makeState KQ numQ tabsQ 1 [1, 0, 0, -2]
  Slots.add KQ numQ tabsQ .v x y

/-- The hypotheses are met, and the sum is a diagram of two levels: (2, 2, 3, -2) with the factor 3. -/
example : KQ.Good ∧ numQ.ZeroOK ∧ numQ.one ≠ numQ.zero ∧ CacheReach KQ startQ.cache startQ.out ∧
    (run startQ).map (fun r => (r.1.w.re, r.2.cache.count, r.2.out, r.2.mem 0, r.2.mem 1)) = some (3, 2, [(0, 1)], 7, 8) :=
  ⟨KQ_good, numQ_zero, by decide, startQ_reach, by decide +kernel⟩

/-- An operation that keeps a slot is not balanced. -/
example : ¬ Balanced KQ (SM.getCached (σ := Store) (F := ℚ) KQ 1) := by
  intro h
  obtain ⟨a, s', e, _, _, hc, _⟩ := h startQ startQ_reach
  have e1 : (SM.getCached KQ 1 startQ).map (fun r => r.2.cache.count) = some 4 := by decide +kernel
  rw [e, Option.map_some, hc] at e1
  exact absurd e1 (by decide)

/-- Nor is one that returns a slot twice. -/
example : ¬ Balanced KQ (do
    let c ← SM.getCached (σ := Store) (F := ℚ) KQ 1
    SM.give c
    SM.give c) := by
  intro h
  obtain ⟨a, s', e, _⟩ := h startQ startQ_reach
  have e1 : ((do
    let c ← SM.getCached (σ := Store) (F := ℚ) KQ 1
    SM.give c
    SM.give c) startQ).isSome = false := by decide +kernel
  rw [e] at e1
  cases e1

end Ex
end DD
