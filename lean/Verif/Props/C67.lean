import Verif.Model.AllHistory
import Verif.Props.C26
import Verif.Props.C33
import Verif.Props.C38
import Verif.Props.C40
import Verif.Props.C41
import Verif.Props.C43
import Verif.Props.C44
import Verif.Props.C45
import Verif.Props.C57

/-!
# C67: histories with all functions of the package
-/

namespace DD

variable {R : Type} [Field R] [LinearOrder R] [IsStrictOrderedRing R] [HasSqrt R] [LawfulSqrt R] {P : PCfg R} {h h' : PHist R}

namespace Trav
variable {n : Nat} {t : UTable (Cx R) (n + 1)}

omit [IsStrictOrderedRing R] [HasSqrt R] [LawfulSqrt R] in
theorem descend_within (hc : Children t) {l : Nat} {D : List Nat} : ∀ (f : Nat) (e : PEdge R) (S : List (PEdge R)), (∃ m ≤ l, Valid t m e) →
    (∀ x ∈ S, ∃ m ≤ l, Valid t m x) → ∀ x ∈ descend t D f e S, ∃ m ≤ l, Valid t m x
  | 0, _, S, _, hS => hS
  | f + 1, e, S, he, hS => by
    intro x hx
    unfold descend at hx
    cases hp : e.p with
    | none => rw [hp] at hx; exact hS x hx
    | some a =>
      rw [hp] at hx
      obtain ⟨m, hm, hv⟩ := he
      obtain ⟨v1, v2, v3⟩ := (valid_some hp).1 hv
      have hch : ∀ q, ∃ m ≤ l, Valid t m ((t.mem a).e q) := fun q => ⟨_, by omega, hc a v1 q⟩
      refine descend_within hc f _ _ (hch 0) ?_ x hx
      intro y hy
      rcases List.mem_cons.1 hy with rfl | hy
      · exact ⟨m, hm, hv⟩
      rcases List.mem_append.1 hy with hy | hy
      · obtain ⟨i, rfl⟩ := mem_later.1 (List.mem_filter.1 hy).1
        exact hch _
      · exact hS y hy

omit [IsStrictOrderedRing R] [HasSqrt R] [LawfulSqrt R] in
theorem step_within_none {l f : Nat} {g : Bool} {S : List (PEdge R)} {D : List Nat} {s' : Trav R} (h : step g t f ⟨none, S, D⟩ = some s')
    (h2 : ∀ x ∈ S, ∃ m ≤ l, Valid t m x) (h3 : ∀ a ∈ D, a ∈ t.all ∧ (t.mem a).v < l) :
    (∀ e, s'.cur = some e → ∃ m ≤ l, Valid t m e) ∧ (∀ x ∈ s'.stack, ∃ m ≤ l, Valid t m x) ∧
      ∀ a ∈ s'.done, a ∈ t.all ∧ (t.mem a).v < l := by
  unfold step at h
  dsimp only at h
  cases S with
  | nil => cases h
  | cons e rest =>
    dsimp only at h
    cases hp : e.p with
    | none => rw [hp] at h; cases h
    | some a =>
      rw [hp] at h
      dsimp only at h
      have hrest : ∀ x ∈ rest, ∃ m ≤ l, Valid t m x := fun x hx => h2 x (List.mem_cons_of_mem _ hx)
      obtain ⟨m, hm, hv⟩ := h2 e List.mem_cons_self
      obtain ⟨v1, v2, v3⟩ := (valid_some hp).1 hv
      cases hh : hasChild g D rest (later (t.mem a).e) with
      | none => rw [hh] at h; cases h
      | some b =>
        rw [hh] at h
        cases b with
        | true =>
          cases rest with
          | nil => cases h
          | cons top rest' =>
            cases h
            refine ⟨fun e' he' => ?_, fun x hx => ?_, h3⟩
            · cases he'; exact hrest _ List.mem_cons_self
            · rcases List.mem_cons.1 hx with rfl | hx
              · exact ⟨m, hm, hv⟩
              · exact hrest x (List.mem_cons_of_mem _ hx)
        | false =>
          dsimp only at h
          split_ifs at h with hd
          · cases h
            exact ⟨by simp, hrest, h3⟩
          · cases h
            refine ⟨by simp, hrest, fun c hc => ?_⟩
            rcases List.mem_append.1 hc with hc | hc
            · exact h3 c hc
            · rw [List.mem_singleton.1 hc]; exact ⟨v1, by omega⟩

omit [HasSqrt R] [LawfulSqrt R] in
/-- The traversal only meets nodes of the diagram. -/
theorem step_within (hc : Children t) {l f : Nat} {g : Bool} {s s' : Trav R} (h : step g t f s = some s')
    (h1 : ∀ e, s.cur = some e → ∃ m ≤ l, Valid t m e) (h2 : ∀ x ∈ s.stack, ∃ m ≤ l, Valid t m x)
    (h3 : ∀ a ∈ s.done, a ∈ t.all ∧ (t.mem a).v < l) :
    (∀ e, s'.cur = some e → ∃ m ≤ l, Valid t m e) ∧ (∀ x ∈ s'.stack, ∃ m ≤ l, Valid t m x) ∧
      ∀ a ∈ s'.done, a ∈ t.all ∧ (t.mem a).v < l := by
  obtain ⟨cur, S, D⟩ := s
  cases cur with
  | none => exact step_within_none h h2 h3
  | some e =>
    rw [step_cur] at h
    exact step_within_none h (descend_within hc f e _ (h1 e rfl) h2) h3

omit [HasSqrt R] [LawfulSqrt R] in
theorem Runs.within (hc : Children t) {l f : Nat} {g : Bool} {s : Trav R} {d : List Nat} (h : Runs g t f s d) :
    (∀ e, s.cur = some e → ∃ m ≤ l, Valid t m e) → (∀ x ∈ s.stack, ∃ m ≤ l, Valid t m x) →
      (∀ a ∈ s.done, a ∈ t.all ∧ (t.mem a).v < l) → ∀ a ∈ d, a ∈ t.all ∧ (t.mem a).v < l := by
  induction h with
  | stop h1 _ => exact fun a b c => (step_within hc h1 a b c).2.2
  | more h1 _ _ ih =>
    intro a b c
    obtain ⟨a', b', c'⟩ := step_within hc h1 a b c
    exact ih a' b' c'

end Trav

/-- Copying nodes of a table in whatever order, if it succeeds, is a sequence of calls of the interface. -/
theorem transferLoop_built (hC : 0 < P.C.growth) {k : Kind} {H : (Fin (ar k) → PEdge R) → Nat} {ts : UTable (Cx R) (ar k)} (hts : DDWF H ts) {l : Nat} :
    ∀ (L : List Nat) (s : Pkg R) (mapped : Nat → Option (Option Nat)) (e : PEdge R) {r : Pkg R × (Nat → Option (Option Nat)) × PEdge R},
      PWF P s ∅ → l ≤ (s.ut k).nvars → (∀ a ∈ L, a ∈ ts.all ∧ (ts.mem a).v < l) →
      (∀ a p, mapped a = some p → ∃ b, p = some b ∧ Img k ts s a b) →
      Pkg.transferLoop P k ts L s mapped e = some r → PExt s r.1 ∧ Built P s r.1
  | [], s, _, _, _, _, _, _, _, he => by cases he; exact ⟨.refl _, .refl _ _⟩
  | a :: L, s, mapped, e, r, hw, hn, hL, hm, he => by
    rw [Pkg.transferLoop] at he
    cases hq : Pkg.mapEdges mapped (ts.mem a).e with
    | none => rw [hq] at he; cases he
    | some es =>
      rw [hq] at he
      dsimp only at he
      unfold Pkg.mapEdges at hq
      split_ifs at hq with hall
      cases hq
      obtain ⟨ha, hva⟩ := hL a List.mem_cons_self
      obtain ⟨s1, b, e1, w1, x1, u1, i1⟩ := copyNode hC hts hw ha (by omega)
        (es := fun i => (Pkg.mapEdge mapped ((ts.mem a).e i)).getD zeroE) (fun i => by
          have hi := hall i
          unfold Pkg.mapEdge at hi ⊢
          cases hp : ((ts.mem a).e i).p with
          | none => exact ⟨rfl, hp⟩
          | some c =>
            rw [hp] at hi
            dsimp only at hi ⊢
            cases hmc : mapped c with
            | none => rw [hmc] at hi; cases hi
            | some p =>
              obtain ⟨b, rfl, hb⟩ := hm c p hmc
              exact ⟨rfl, b, rfl, hb⟩)
      rw [e1] at he
      obtain ⟨x2, u2⟩ := transferLoop_built hC hts L s1 _ _ w1 (by rw [(x1 k).nvars]; exact hn) (fun c hc => hL c (List.mem_cons_of_mem _ hc))
        (fun c p hcp => by
          by_cases hca : c = a
          · subst hca
            rw [Function.update_self] at hcp
            cases hcp
            exact ⟨b, rfl, i1⟩
          · rw [Function.update_of_ne hca] at hcp
            obtain ⟨b', h1, h2⟩ := hm c p hcp
            exact ⟨b', h1, h2.mono hw x1⟩) he
      exact ⟨x1.trans x2, u1.trans u2⟩

theorem transfers_built (hC : P.C.Good) (hr : PReach P h) {k : Kind} {H : (Fin (ar k) → PEdge R) → Nat} {ts : UTable (Cx R) (ar k)} (hts : DDWF H ts)
    {l : Nat} {x : PEdge R} (hx : Valid ts l x) (hn : l ≤ (h.pkg.ut k).nvars) {r : Pkg R × PEdge R} (ht : Pkg.Transfers P k ts h.pkg x r) :
    PExt h.pkg r.1 ∧ Built P h.pkg r.1 := by
  cases ht with
  | terminal => exact ⟨.refl _, .refl _ _⟩
  | node hp ho hl =>
    refine transferLoop_built hC.growth hts _ _ _ _ (hr.inv hC).wf hn ?_ (by simp) hl
    cases k with
    | v => exact Trav.Runs.within (n := 1) hts.child ho (fun e he => by cases he; exact ⟨l, le_rfl, hx⟩) (by simp) (by simp)
    | m => exact Trav.Runs.within (n := 3) hts.child ho (fun e he => by cases he; exact ⟨l, le_rfl, hx⟩) (by simp) (by simp)

theorem deserialize_built (hC : P.C.Good) (hr : PReach P h) {P0 : PCfg R} {h0 : PHist R} (hC0 : P0.C.Good) (hr0 : PReach P0 h0) {k : Kind} {l : Nat}
    {x : PEdge R} {recs : List (Rec R (ar k))} (hw : WrittenFrom k (h0.pkg.ut k) l x recs) (hn : l ≤ (h.pkg.ut k).nvars)
    {r : Pkg R × PEdge R} (he : Pkg.deserialize P k h.pkg x.w recs = some r) : PExt h.pkg r.1 ∧ Built P h.pkg r.1 := by
  have key : ∀ {t : UTable (Cx R) (ar k)}, DDWF (P0.uH k) t → Valid t l x → ∀ {N : List Nat} {a : Nat} {binary : Bool}, x.p = some a →
      Topo t l (N ++ [a]) → recs = records binary t (N ++ [a]) → PExt h.pkg r.1 ∧ Built P h.pkg r.1 := by
    intro t hd hx N a binary hp hN hrec
    obtain ⟨r', e1, _, x1, u1, _⟩ := deserialize_spec hC hr hd hx hn binary hp hN
    rw [hrec, e1] at he
    cases he
    exact ⟨x1, u1⟩
  have nil : recs = [] → PExt h.pkg r.1 ∧ Built P h.pkg r.1 := by
    intro hrec
    rw [hrec, deserialize_nil] at he
    cases he
    exact ⟨.refl _, .refl _ _⟩
  have hd := (hr0.inv hC0).wf.tab k
  cases hw with
  | v hx hs =>
    cases hs with
    | terminal hp => exact nil rfl
    | node hp hrun =>
      cases hq : x.p with
      | none => exact absurd hq hp
      | some a =>
        obtain ⟨N, hrun', hN⟩ := Trav.runs (n := 1) hd.child (Trav.allFresh_v _) hx hq trivial (Or.inl rfl)
        exact key hd hx hq hN (by rw [hrun.unique hrun'])
  | m hx =>
    rename_i binary
    cases hq : x.p with
    | none =>
      refine nil ?_
      unfold serializeM
      have : (h0.pkg.ut .m).lvl x = 0 := by simp [UTable.lvl, hq]
      rw [this]; rfl
    | some a =>
      obtain ⟨N, e0, hN⟩ := serializeM_order hd hx binary hq
      exact key hd hx hq hN e0

/-- The reductions in the case in which there is something to reduce. -/
theorem reduce_step (hC : P.C.Good) (hr : PReach P h) {k : Kind} {l : Nat} {e : PEdge R} (he : e ∈ h.held k)
    (hv : Valid (h.pkg.ut k) l e) (hw : e.w ≠ 0) {mask : List Bool} (hm : ∃ i < l, mask.getD i false = true) {rec : Nat → Pkg R × PEdge R}
    (hs : ∀ lb, PStep P h { h with pkg := (rec lb).1 }) (ho : ∀ lb, ∃ f, OpSpec P ∅ h.pkg k l f (rec lb)) {r : Pkg R × PEdge R}
    (hcall : (match Pkg.lowerbound mask with
      | none => some (h.pkg, e)
      | some lb => if h.pkg.lv k e ≤ lb then some (h.pkg, e) else Pkg.moveRef P k e (rec lb)) = some r) :
    PReach P ⟨r.1, Function.update h.held k (r.2 :: (h.held k).erase e)⟩ ∧ Unchanged h.pkg r.1 := by
  obtain ⟨i, hi, hmi⟩ := hm
  cases hl : Pkg.lowerbound mask with
  | none => rw [lowerbound_none hl i] at hmi; cases hmi
  | some lb =>
    rw [hl] at hcall
    dsimp only at hcall
    have hlv : h.pkg.lv k e = l := hv.lvl hw
    rw [hlv, if_neg (fun hle => by rw [(lowerbound_some hl).2 i (by omega)] at hmi; cases hmi)] at hcall
    obtain ⟨f, o⟩ := ho lb
    have r1 := hr.step (hs lb)
    have u1 := o.ext.unchanged (hr.inv hC).wf
    obtain ⟨s, hd, u2⟩ := r1.dec_unchanged hC (k := k) (e := e) he
    have r2 := r1.step (.decRef k e s he hd)
    have v2 := u2 k l (rec lb).2 o.valid
    have r3 := r2.step (.incRef k l (rec lb).2 v2.1)
    have u3 := r2.inc_unchanged hC v2.1
    unfold Pkg.moveRef at hcall
    dsimp only at hd
    rw [hd] at hcall
    cases hcall
    refine ⟨?_, ?_⟩
    · dsimp only at r3
      rw [Function.update_idem, Function.update_self] at r3
      exact r3
    · intro k' l' e' hv'
      have a1 := u1 k' l' e' hv'
      have a2 := u2 k' l' e' a1.1
      have a3 := u3 k' l' e' a2.1
      exact ⟨a3.1, a3.2.trans (a2.2.trans a1.2)⟩

/-- What any call does: the state it leads to is reachable with the basic functions, and the diagrams that are held before and
after the call keep their value. -/
def Fine (P : PCfg R) (h h' : PHist R) : Prop :=
  PReach P h' ∧ ∀ k l y, y ∈ h.held k → y ∈ h'.held k → Valid (h.pkg.ut k) l y →
    Valid (h'.pkg.ut k) l y ∧ amp (h'.pkg.ut k) l y = amp (h.pkg.ut k) l y

theorem PReach.steps (hr : PReach P h) (hs : Relation.ReflTransGen (PStep P) h h') : PReach P h' := by
  obtain ⟨h0, h1, h2⟩ := hr
  exact ⟨h0, h1, h2.trans hs⟩

theorem fine_built (hC : P.C.Good) (hr : PReach P h) {s : Pkg R} (hb : PExt h.pkg s ∧ Built P h.pkg s) : Fine P h { h with pkg := s } :=
  ⟨hr.steps (hb.2 h.held), fun k l y _ _ hv => hb.1.unchanged (hr.inv hC).wf k l y hv⟩

theorem expectation_fine (hC : P.C.Good) (hr : PReach P h) (g : GcEnv) {l : Nat} {A x : PEdge R}
    (hA : Valid (h.pkg.ut .m) l A) (hx : Valid (h.pkg.ut .v) l x) {r : Pkg R × R} (he : Pkg.expectationValue P g h.pkg A x = some r) :
    Fine P h { h with pkg := r.1 } := by
  unfold Pkg.expectationValue at he
  split_ifs at he
  cases he
  have s1 := PStep.multiply (P := P) (h := h) .v l A x hA hx
  have r1 := hr.step s1
  have o := multiply_spec (k := .v) hC.growth (hr.inv hC).wf hA hx
  have hx' := (o.ext.unchanged (hr.inv hC).wf) .v l x hx
  have s2 := PStep.innerProduct (P := P) (h := { h with pkg := (Pkg.multiply P .v h.pkg A x).1 }) l x
    (Pkg.multiply P .v h.pkg A x).2 hx'.1 o.valid
  have r2 := r1.step s2
  have s3 := PStep.garbageCollect (P := P) (h := { h with pkg := (Pkg.innerProduct P (Pkg.multiply P .v h.pkg A x).1 x
    (Pkg.multiply P .v h.pkg A x).2).1 }) { g with force := false }
  refine ⟨r2.step s3, ?_⟩
  intro k l e he _ hv
  have q1 := s1.value hC (hr.inv hC) hv he he
  have q2 := s2.value hC (r1.inv hC) q1.1 he he
  have q3 := s3.value hC (r2.inv hC) q2.1 he he
  exact ⟨q3.1, funext fun d => (q3.2 d).trans ((q2.2 d).trans (q1.2 d))⟩

theorem extend_fine (hC : P.C.Good) (hr : PReach P h) {l up low : Nat} {e : PEdge R} (he : Valid (h.pkg.ut .m) l e)
    (hn : low + l + up ≤ (h.pkg.ut .m).nvars) : Fine P h { h with pkg := (Pkg.extend P h.pkg e up low).1 } := by
  refine fine_built hC hr ?_
  have hw := (hr.inv hC).wf
  have hf : ∃ f : Pkg R × PEdge R, f = (if 0 < low then
        Pkg.kronecker P .m (Pkg.makeIdent P h.pkg low).1 e (Pkg.makeIdent P h.pkg low).2 else (h.pkg, e)) ∧
      PWF P f.1 ∅ ∧ PExt h.pkg f.1 ∧ Built P h.pkg f.1 ∧ Valid (f.1.ut .m) (low + l) f.2 := by
    refine ⟨_, rfl, ?_⟩
    by_cases h0 : 0 < low
    · rw [if_pos h0]
      have oi := makeIdent_spec hC.growth hw (n := low) (by omega)
      have hv : Valid ((Pkg.makeIdent P h.pkg low).1.ut .m) l e := he.mono (oi.ext.le .m)
      have hnv : low + l ≤ ((Pkg.makeIdent P h.pkg low).1.ut .m).nvars := by
        rw [show ((Pkg.makeIdent P h.pkg low).1.ut .m).nvars = _ from (oi.ext .m).nvars]; omega
      have o := kronecker_spec (k := .m) hC.growth oi.wf hv oi.valid hnv
      refine ⟨o.wf, oi.ext.trans o.ext, Built.trans (s' := (Pkg.makeIdent P h.pkg low).1) (fun held => .single (.makeIdent (h := ⟨h.pkg, held⟩) low (by dsimp only; omega)))
        (fun held => .single (.kronecker (h := ⟨(Pkg.makeIdent P h.pkg low).1, held⟩) .m l low e _ hv oi.valid hnv)), o.valid⟩
    · have h0' : low = 0 := by omega
      subst h0'
      rw [if_neg h0]
      exact ⟨hw, .refl _, .refl _ _, by rw [Nat.zero_add]; exact he⟩
  obtain ⟨f, ef, wf, xf, bf, vf⟩ := hf
  have hr' : Pkg.extend P h.pkg e up low = if 0 < up then Pkg.kronecker P .m (Pkg.makeIdent P f.1 up).1 (Pkg.makeIdent P f.1 up).2 f.2 else f := by
    rw [ef]; rfl
  rw [hr']
  by_cases h0 : 0 < up
  · rw [if_pos h0]
    have hnv : low + l + up ≤ (f.1.ut .m).nvars := by rw [(xf .m).nvars]; exact hn
    have oi := makeIdent_spec hC.growth wf (n := up) (by omega)
    have hv : Valid ((Pkg.makeIdent P f.1 up).1.ut .m) (low + l) f.2 := vf.mono (oi.ext.le .m)
    have hnv' : low + l + up ≤ ((Pkg.makeIdent P f.1 up).1.ut .m).nvars := by
      rw [show ((Pkg.makeIdent P f.1 up).1.ut .m).nvars = _ from (oi.ext .m).nvars]; exact hnv
    have o := kronecker_spec (k := .m) hC.growth oi.wf oi.valid hv hnv'
    exact ⟨(xf.trans oi.ext).trans o.ext, (bf.trans (s'' := (Pkg.makeIdent P f.1 up).1) (fun held => .single (.makeIdent (h := ⟨f.1, held⟩) up (by dsimp only; omega)))).trans
      (fun held => .single (.kronecker (h := ⟨(Pkg.makeIdent P f.1 up).1, held⟩) .m up (low + l) _ _ oi.valid hv hnv'))⟩
  · rw [if_neg h0]
    exact ⟨xf, bf⟩

/-- Every call. -/
theorem XStep.fine (hC : P.C.Good) (hr : PReach P h) (hs : XStep P h h') : Fine P h h' := by
  cases hs with
  | basic hs =>
    refine ⟨hr.step hs, fun k l y h1 h2 hv => ?_⟩
    have := hs.value hC (hr.inv hC) hv h1 h2
    exact ⟨this.1, funext this.2⟩
  | @measureAll l x g eps draw r hx hw hheld heps hdr he =>
    have hl : l < 128 := by
      by_contra hl
      unfold Pkg.measureAllCollapse at he
      rw [if_neg (fun h => hw h.2)] at he
      dsimp only at he
      rw [show h.pkg.lv .v x = l from hx.lvl hw] at he
      split at he
      · cases he
      · rw [if_pos (by omega)] at he; cases he
    obtain ⟨d, h', e, e1, _, r1, e2, _, _, e3⟩ := C40_collapse hC hr hl hx hw hheld g heps hdr
    rw [he] at e1
    cases e1
    dsimp only
    rw [← e2]
    exact ⟨r1, fun k l y h1 h2 hv => e3 k l y h1 h2 hv⟩
  | @measureOne l x q assumeNorm eps draw r hx hw hheld hdr he =>
    obtain ⟨N, he⟩ := he
    obtain ⟨h1, h2⟩ := C41_collapse hC hr hx hw hheld q assumeNorm (eps := eps) hdr
    by_cases hsum : |outProb (vec (h.pkg.ut .v) l x) q 0 + outProb (vec (h.pkg.ut .v) l x) q 1 - 1| ≤ eps
    · obtain ⟨M, b, h', e, hM⟩ := h1 hsum
      obtain ⟨e1, _, _, r1, e2, _, _, e3⟩ := hM (max M N) (le_max_left _ _)
      rw [he _ (le_max_right _ _)] at e1
      cases e1
      dsimp only
      rw [← e2]
      exact ⟨r1, fun k l y _ _ hv => e3 k l y hv⟩
    · obtain ⟨M, hM⟩ := h2 (not_le.1 hsum)
      have := hM (max M N) (le_max_left _ _)
      rw [he _ (le_max_right _ _)] at this
      cases this
  | expectationValue hA hx he => exact expectation_fine hC hr _ hA hx he
  | extend hv hn => exact extend_fine hC hr hv hn
  | @reduceAncillae l e mask regular r hv hw hheld hm he =>
    have := reduce_step hC hr hheld hv hw hm (rec := fun lb => Pkg.reduceAncillaeRec P mask regular lb h.pkg e)
      (fun lb => .reduceAncillaeRec l e mask regular lb hv)
      (fun lb => reduce_valid hC.growth (ancStep_spec hC.growth mask regular) false lb (hr.inv hC).wf hv) he
    exact ⟨this.1, fun k l y _ _ hv => this.2 k l y hv⟩
  | @reduceGarbageV l e mask r hv hw hheld hm he =>
    have := reduce_step hC hr hheld hv hw hm (rec := fun lb => Pkg.reduceGarbageVRec P mask lb h.pkg e)
      (fun lb => .reduceGarbageVRec l e mask lb hv)
      (fun lb => reduce_valid hC.growth (garbStepV_spec hC.growth mask) true lb (hr.inv hC).wf hv) he
    exact ⟨this.1, fun k l y _ _ hv => this.2 k l y hv⟩
  | @reduceGarbageM l e mask regular r hv hw hheld hm he =>
    have := reduce_step hC hr hheld hv hw hm (rec := fun lb => Pkg.reduceGarbageMRec P mask regular lb h.pkg e)
      (fun lb => .reduceGarbageMRec l e mask regular lb hv)
      (fun lb => reduce_valid hC.growth (garbStepM_spec hC.growth mask regular) true lb (hr.inv hC).wf hv) he
    exact ⟨this.1, fun k l y _ _ hv => this.2 k l y hv⟩
  | deserialize hC0 hr0 hw hn he => exact fine_built hC hr (deserialize_built hC hr hC0 hr0 hw hn he)
  | transfer hC0 hr0 hx hn ht => exact fine_built hC hr (transfers_built hC hr ((hr0.inv hC0).wf.tab _) hx hn ht)

/-- Calling the composed functions leads to no states that could not be reached with the basic ones: whatever has been proved for
all states reachable by basic functions (canonicity, correctness of all operations, reference counts, …) holds for all histories. -/
theorem C67_reach (hC : P.C.Good) : XReach P h ↔ PReach P h := by
  constructor
  · rintro ⟨h0, hs, hp⟩
    induction hp with
    | refl => exact ⟨h0, hs, .refl⟩
    | tail _ h2 ih => exact (h2.fine hC ih).1
  · rintro ⟨h0, hs, hp⟩
    exact ⟨h0, hs, Relation.ReflTransGen.lift id (fun _ _ h => XStep.basic h) _ _ hp⟩

/-- The calls during which a reference to `e` is held, or replaced by a reference to `e`. -/
def XKeeping (P : PCfg R) (k : Kind) (e : PEdge R) (a b : PHist R) : Prop := XStep P a b ∧ e ∈ a.held k ∧ e ∈ b.held k

/-- A diagram that is held keeps its value, whatever functions are called. -/
theorem C67_kept (hC : P.C.Good) (hr : XReach P h) {k : Kind} {l : Nat} {x : PEdge R} (hx : Valid (h.pkg.ut k) l x)
    (hs : Relation.ReflTransGen (XKeeping P k x) h h') :
    XReach P h' ∧ Valid (h'.pkg.ut k) l x ∧ amp (h'.pkg.ut k) l x = amp (h.pkg.ut k) l x := by
  induction hs with
  | refl => exact ⟨hr, hx, rfl⟩
  | tail _ hs ih =>
    obtain ⟨h1, h2, h3⟩ := ih
    obtain ⟨q1, q2⟩ := hs.1.fine hC ((C67_reach hC).1 h1)
    have := q2 k l x hs.2.1 hs.2.2 h2
    exact ⟨(C67_reach hC).2 q1, this.1, this.2.trans h3⟩

/-- Canonicity across all functions: if `x` has been held from `h` to `h'`, a diagram of `h'` that represents what `x`
represented in `h` is `x`. -/
theorem C67_canonical (hC : P.C.Good) (hr : XReach P h) {k : Kind} {l : Nat} {x y : PEdge R} (hx : Valid (h.pkg.ut k) l x)
    (hs : Relation.ReflTransGen (XKeeping P k x) h h') (hy : Valid (h'.pkg.ut k) l y)
    (he : amp (h'.pkg.ut k) l y = amp (h.pkg.ut k) l x) : y = x := by
  obtain ⟨h1, h2, h3⟩ := C67_kept hC hr hx hs
  refine (((C67_reach hC).1 h1 |>.inv hC).wf.tab k).canonical hy h2 (fun d => ?_)
  rw [he, h3]

section gates
variable {P : PCfg ℝ} {h h' : PHist ℝ}

theorem Yd.fine {n : Nat} {cs : List Ctrl} {t0 t1 : Fin n} {A B : Matrix (Fin 4) (Fin 4) (Cx ℝ)} (hC : P.C.Good) (hr : PReach P h)
    {c : Option (Pkg ℝ × PEdge ℝ)} {r : Pkg ℝ × PEdge ℝ} (hy : Yd P h.pkg n cs t0 t1 A B c) (he : c = some r) :
    Fine P h { h with pkg := r.1 } := by
  obtain ⟨q, e, st⟩ := hy
  rw [he] at e
  cases e
  exact fine_built hC hr ⟨st.ext, st.built⟩

theorem GStep.fine (hC : P.C.Good) (hr : PReach P h) (hs : GStep P h h') : Fine P h h' := by
  cases hs with
  | basic hs => exact hs.fine hC hr
  | @gate G n cs t0 t1 r hg hn he =>
    have hx : TwoCtx n cs ⟨t0, hg.lt0⟩ ⟨t1, hg.lt1⟩ :=
      ⟨fun e => hg.ne (congrArg Fin.val e), hg.first.sorted, fun c hc => ⟨hg.first.target c hc, hg.second.target c hc⟩, hg.first.range⟩
    have hw := (hr.inv hC).wf
    cases G with
    | swap => exact (swap_yd hx hC.growth hw hn).fine hC hr he
    | peres => exact (peres_yd hx hC.growth hw hn).fine hC hr he
    | peresdag => exact (peresdag_yd hx hC.growth hw hn).fine hC hr he
    | iswap => exact (iswap_yd hx hC.growth hw hn).fine hC hr he
    | iswapinv => exact (iswapinv_yd hx hC.growth hw hn).fine hC hr he
    | dcx => exact (dcx_yd hx hC.growth hw hn).fine hC hr he
    | ecr => exact (ecr_yd hx hC.growth hw hn).fine hC hr he
    | rzz a => exact (rzz_yd hx hC.growth hw hn a).fine hC hr he
    | ryy a => exact (ryy_yd hx hC.growth hw hn a).fine hC hr he
    | rxx a => exact (rxx_yd hx hC.growth hw hn a).fine hC hr he
    | rzx a => exact (rzx_yd hx hC.growth hw hn a).fine hC hr he
    | xxMinusYY a b => exact (xxm_yd hx hC.growth hw hn a b).fine hC hr he
    | xxPlusYY a b => exact (xxp_yd hx hC.growth hw hn a b).fine hC hr he

/-- The same with the controlled two-qubit gates. -/
theorem C67_gates (hC : P.C.Good) : GReach P h ↔ PReach P h := by
  constructor
  · rintro ⟨h0, hs, hp⟩
    induction hp with
    | refl => exact ⟨h0, hs, .refl⟩
    | tail _ h2 ih => exact (h2.fine hC ih).1
  · rintro ⟨h0, hs, hp⟩
    exact ⟨h0, hs, Relation.ReflTransGen.lift id (fun _ _ h => GStep.basic (.basic h)) _ _ hp⟩

/-- A diagram that is held keeps its value, also when controlled two-qubit gates are built. -/
theorem C67_gates_kept (hC : P.C.Good) (hr : GReach P h) {k : Kind} {l : Nat} {x : PEdge ℝ} (hx : Valid (h.pkg.ut k) l x)
    (hs : Relation.ReflTransGen (fun a b => GStep P a b ∧ x ∈ a.held k ∧ x ∈ b.held k) h h') :
    GReach P h' ∧ Valid (h'.pkg.ut k) l x ∧ amp (h'.pkg.ut k) l x = amp (h.pkg.ut k) l x := by
  induction hs with
  | refl => exact ⟨hr, hx, rfl⟩
  | tail _ hs ih =>
    obtain ⟨h1, h2, h3⟩ := ih
    obtain ⟨q1, q2⟩ := hs.1.fine hC ((C67_gates hC).1 h1)
    have := q2 k l x hs.2.1 hs.2.2 h2
    exact ⟨(C67_gates hC).2 q1, this.1, this.2.trans h3⟩

end gates

end DD

namespace DD.Ex

/-- The hypotheses are met: a state `x` and a matrix `A` are held; the state is copied into the package (from the package itself), then
measured with collapse to a basis state, then a controlled two-qubit gate is built. The matrix is held throughout. -/
example : ∃ (h h1 h2 h3 : PHist ℝ) (x e A : PEdge ℝ) (d : Fin 3 → Fin 2), XReach (PR ℝ) h ∧ Valid (h.pkg.ut .m) 3 A ∧ A.w ≠ 0 ∧
    XStep (PR ℝ) h h1 ∧ XStep (PR ℝ) h1 h2 ∧ GStep (PR ℝ) h2 h3 ∧ e ∈ h2.held .v ∧ vec (h2.pkg.ut .v) 3 e = (fun d' => if d' = d then 1 else 0) ∧
    Relation.ReflTransGen (XKeeping (PR ℝ) .m A) h h2 := by
  obtain ⟨h, x, y, A, B, hr, hn, vx, vy, vA, vB, hx, hA, ax, ay, aA, aB, wx, wy, wA, wB⟩ := setup (R := ℝ)
  have hC := PR_good ℝ
  obtain ⟨r, ht, _, vr, _, ur⟩ := C45_vector hC hr vx (Or.inl le_rfl) hC hr (by rw [hn]; omega)
  have s1 : XStep (PR ℝ) h { h with pkg := r.1 } := .transfer hC hr vx (by rw [hn]; omega) ht
  have r1 := (s1.fine hC hr).1
  have vx1 := (ur .v 3 x vx).1
  obtain ⟨d, h', e, e1, _, r2, e2, ve, ev, _⟩ := C40_collapse hC r1 (l := 3) (by omega) vx1 wx hx ⟨false, false, false, false, false⟩
    (eps := 0) le_rfl (draw := fun _ => 0) (fun _ _ => ⟨le_rfl, by norm_num⟩)
  have s2 := XStep.measureAll (P := PR ℝ) (h := { h with pkg := r.1 }) vx1 wx hx le_rfl (fun _ _ => ⟨le_rfl, by norm_num⟩) e1
  have hnv : 3 ≤ (h'.pkg.ut .m).nvars := by
    rw [r2.nvars_eq hC .m .v]
    refine valid_nvars ((r2.inv hC).wf.tab .v).uwf ve fun h0 => ?_
    have := congrFun ev d
    rw [if_pos rfl, show vec (h'.pkg.ut .v) 3 e d = 0 from amp_w_zero h0 _] at this
    exact zero_ne_one this
  obtain ⟨q, e3, _⟩ := C33_swap (controls := [⟨1, true⟩]) (t0 := (0 : Fin 3)) (t1 := 2) hC r2 hnv
    ⟨by decide, by constructor <;> simp, by constructor <;> simp⟩
  have s3 := GStep.gate (P := PR ℝ) (h := ⟨h'.pkg, Function.update h.held .v (e :: (h.held .v).erase x)⟩) (G := .swap) (n := 3) (controls := [⟨1, true⟩])
    (t0 := 0) (t1 := 2) ⟨by omega, by omega, by omega, by constructor <;> simp, by constructor <;> simp⟩ hnv e3
  exact ⟨h, _, _, _, x, e, A, d, (C67_reach hC).2 hr, vA, wA, s1, s2, s3, by simp, ev,
    (Relation.ReflTransGen.single ⟨s1, hA, hA⟩).tail ⟨s2, hA, by simpa using hA⟩⟩

end DD.Ex
