import Verif.Proofs.Transfer
import Verif.Props.C30
import Verif.Props.C34
import Verif.Props.C50
import Verif.Proofs.RealEx
import Mathlib.Tactic.IntervalCases

/-!
# C45: transfer between packages
-/

namespace DD

variable {R : Type} [Field R] [LinearOrder R] [IsStrictOrderedRing R] [HasSqrt R] [LawfulSqrt R] {P P' : PCfg R} {h h' : PHist R}

omit [LawfulSqrt R] in
theorem transferOrder_unique {k : Kind} {t : UTable (Cx R) (ar k)} {e : PEdge R} {o o' : List Nat} (h1 : Pkg.TransferOrder k t e o)
    (h2 : Pkg.TransferOrder k t e o') : o = o' := by
  cases k with
  | v => exact Trav.Runs.unique (n := 1) h1 h2
  | m => exact Trav.Runs.unique (n := 3) h1 h2

omit [LawfulSqrt R] in
theorem transfers_unique {k : Kind} {t : UTable (Cx R) (ar k)} {s : Pkg R} {e : PEdge R} {r r' : Pkg R × PEdge R} (h1 : Pkg.Transfers P k t s e r)
    (h2 : Pkg.Transfers P k t s e r') : r = r' := by
  cases h1 with
  | terminal hp =>
    cases h2 with
    | terminal _ => rfl
    | node hp' _ _ => exact absurd hp hp'
  | node hp ho hl =>
    cases h2 with
    | terminal hp' => exact absurd hp' hp
    | node _ ho' hl' =>
      rw [transferOrder_unique ho' ho, hl] at hl'
      cases hl'; rfl

/-- The specification of a successful transfer of `x` with `l` qubits from a package with table `t` to the package `s`: exactly one
result, which represents the same vector or matrix, while the diagrams of `s` stay as they are. -/
def TransferOK (P : PCfg R) (k : Kind) (t : UTable (Cx R) (ar k)) (s : Pkg R) (l : Nat) (x : PEdge R) : Prop :=
  ∃ r, Pkg.Transfers P k t s x r ∧ (∀ r', Pkg.Transfers P k t s x r' → r' = r) ∧ Valid (r.1.ut k) l r.2 ∧
    (∀ d, amp (r.1.ut k) l r.2 d = amp t l x d) ∧ Unchanged s r.1

theorem transferOK_terminal (hC' : P'.C.Good) (hr' : PReach P' h') {k : Kind} {t : UTable (Cx R) (ar k)} {l : Nat} {x : PEdge R} (hx : Valid t l x)
    (hp : x.p = none) : TransferOK P' k t h'.pkg l x := by
  refine ⟨_, .terminal hp, fun r' h2 => transfers_unique h2 (.terminal hp), ?_, ?_, (PExt.refl _).unchanged (hr'.inv hC').wf⟩
  · exact (valid_none hp).2 ((valid_none hp).1 hx)
  · intro d
    rw [amp_none hp, amp_none hp]

theorem transferOK_order (hC' : P'.C.Good) (hr' : PReach P' h') {k : Kind} {H : (Fin (ar k) → PEdge R) → Nat} {t : UTable (Cx R) (ar k)} (hd : DDWF H t)
    {l : Nat} {x : PEdge R} (hx : Valid t l x) (hn : l ≤ (h'.pkg.ut k).nvars) {a : Nat} (hp : x.p = some a) {N : List Nat}
    (ho : Pkg.TransferOrder k t x (N ++ [a])) (hN : Topo t l (N ++ [a])) : TransferOK P' k t h'.pkg l x := by
  obtain ⟨v1, v2, v3⟩ := (valid_some hp).1 hx
  obtain ⟨s', mapped, e, e1, w1, x1, u1, _, i2⟩ := transferLoop_spec hC'.growth hd (hr'.inv hC').wf hn hN
  obtain ⟨b, rfl, hv, ha⟩ := i2 N a rfl
  rw [v2] at hv ha
  have ht := Pkg.Transfers.node (by rw [hp]; simp) ho e1
  refine ⟨_, ht, fun r' h2 => transfers_unique h2 ht, ?_, ?_, x1.unchanged (hr'.inv hC').wf⟩
  · have := (valid_some (e := ⟨some b, 1⟩) rfl).1 hv
    exact (valid_some rfl).2 ⟨this.1, this.2.1, by simpa using v3⟩
  · intro d
    rw [amp_smul, ha, amp_eq_smul _ _ x, hp]

/-- Vectors of at least three qubits, and all zero vectors, are transferred. -/
theorem C45_vector (hC : P.C.Good) (hr : PReach P h) {l : Nat} {x : PEdge R} (hx : Valid (h.pkg.ut .v) l x) (hl : 3 ≤ l ∨ x.p = none)
    (hC' : P'.C.Good) (hr' : PReach P' h') (hn : l ≤ (h'.pkg.ut .v).nvars) : TransferOK P' .v (h.pkg.ut .v) h'.pkg l x := by
  have hd := (hr.inv hC).wf.tab .v
  cases hp : x.p with
  | none => exact transferOK_terminal hC' hr' hx hp
  | some a =>
    obtain ⟨N, hrun, hN⟩ := Trav.runs (n := 1) (g := false) hd.child (Trav.allFresh_v _) hx hp trivial (Or.inr (hl.resolve_right (by rw [hp]; simp)))
    exact transferOK_order hC' hr' hd hx hn hp hrun hN

section small

omit [HasSqrt R] [LawfulSqrt R]

/-- The traversal for one qubit. -/
theorem one_qubit {t : UTable (Cx R) 2} (hc : Children t) {x : PEdge R} (hx : Valid t 1 x) {a : Nat} (hp : x.p = some a) :
    (((t.mem a).e 1).w = 0 → Trav.Runs (n := 1) false t (t.lvl x) ⟨some x, [], []⟩ ([] ++ [a]) ∧ Topo t 1 ([] ++ [a])) ∧
    (((t.mem a).e 1).w ≠ 0 → ∀ o, ¬ Trav.Runs (n := 1) false t (t.lvl x) ⟨some x, [], []⟩ o) := by
  obtain ⟨v1, v2, v3⟩ := (valid_some hp).1 hx
  have hva : (t.mem a).v = 0 := by omega
  have hch : ∀ q, ((t.mem a).e q).p = none := fun q => by
    have := hc a v1 q
    rw [hva] at this; exact this.term
  rw [hx.lvl v3]
  have hl : Trav.later (n := 1) (t.mem a).e = [(t.mem a).e 1] := by simp [Trav.later, List.ofFn_succ]
  have hpend : Trav.pend (n := 1) [] (t.mem a).e = [] := by
    unfold Trav.pend
    rw [hl]
    simp [hch 1]
  have hs : Trav.descend (n := 1) t [] 1 x [] = [x] := by
    rw [Trav.descend_some (n := 1) hp, hpend, Trav.descend_none (n := 1) (hch 0)]; rfl
  constructor
  · intro h0
    refine ⟨?_, .snoc .nil v1 (by omega) (by simp) (fun q b hb => by rw [hch q] at hb; cases hb)⟩
    rw [Trav.Runs.cur, hs]
    have := Trav.step_emit (n := 1) (t := t) (g := false) (f := 1) (S := []) (D := []) hp (by rw [hl, Trav.hasChild, if_pos h0]; rfl)
    rw [if_neg (by simp)] at this
    exact .stop this rfl
  · intro h0 o ho
    rw [Trav.Runs.cur, hs] at ho
    have := Trav.step_ub (n := 1) (t := t) (f := 1) (S := []) (D := []) hp (by
      rw [hl, Trav.hasChild, if_neg h0, if_neg (by simp [Trav.known, hch 1])]; rfl)
    cases ho with
    | stop h1 _ => rw [this] at h1; cases h1
    | more h1 _ _ => rw [this] at h1; cases h1

/-- The traversal for two qubits. -/
theorem two_qubit {t : UTable (Cx R) 2} (hc : Children t) {x : PEdge R} (hx : Valid t 2 x) {a : Nat} (hp : x.p = some a) :
    ((¬ ∃ b, ((t.mem a).e 0).p = some b ∧ ((t.mem a).e 1).p = some b ∧ ((t.mem b).e 1).w ≠ 0) →
      ∃ N, Trav.Runs (n := 1) false t (t.lvl x) ⟨some x, [], []⟩ (N ++ [a]) ∧ Topo t 2 (N ++ [a])) ∧
    ((∃ b, ((t.mem a).e 0).p = some b ∧ ((t.mem a).e 1).p = some b ∧ ((t.mem b).e 1).w ≠ 0) →
      ∀ o, ¬ Trav.Runs (n := 1) false t (t.lvl x) ⟨some x, [], []⟩ o) := by
  obtain ⟨v1, v2, v3⟩ := (valid_some hp).1 hx
  have hva : (t.mem a).v = 1 := by omega
  have hch : ∀ q, Valid t 1 ((t.mem a).e q) := fun q => by
    have := hc a v1 q
    rwa [hva] at this
  have hch2 : ∀ {q b}, ((t.mem a).e q).p = some b → b ∈ t.all ∧ (t.mem b).v = 0 ∧ ((t.mem a).e q).w ≠ 0 ∧ ∀ r, ((t.mem b).e r).p = none := by
    intro q b hb
    obtain ⟨u1, u2, u3⟩ := (valid_some hb).1 (hch q)
    refine ⟨u1, by omega, u3, fun r => ?_⟩
    have := hc b u1 r
    rw [show (t.mem b).v = 0 by omega] at this; exact this.term
  rw [hx.lvl v3]
  have hl : ∀ a, Trav.later (n := 1) (t.mem a).e = [(t.mem a).e 1] := fun a => by simp [Trav.later, List.ofFn_succ]
  have hpend : ∀ {q b}, ((t.mem a).e q).p = some b → ∀ D, Trav.pend (n := 1) D (t.mem b).e = [] := by
    intro q b hb D
    unfold Trav.pend
    rw [hl]
    simp [(hch2 hb).2.2.2 1]
  -- a leaf on top of a non-empty stack
  have leaf : ∀ {q b}, ((t.mem a).e q).p = some b → ∀ S D, (∀ y ∈ S, y.p ≠ none) → S ≠ [] →
      Trav.step (n := 1) false t 2 ⟨none, (t.mem a).e q :: S, D⟩ = some ⟨none, S, if b ∈ D then D else D ++ [b]⟩ := by
    intro q b hb S D hS hS0
    refine Trav.step_emit (n := 1) hb (Trav.hasChild_false hS ?_)
    intro y hy _
    rw [hl, List.mem_singleton] at hy
    subst hy
    exact Or.inr ⟨(hch2 hb).2.2.2 1, Or.inr hS0⟩
  have hd1 : ∀ {q b}, ((t.mem a).e q).p = some b → ∀ f S D, Trav.descend (n := 1) t D (f + 1) ((t.mem a).e q) S = (t.mem a).e q :: S := by
    intro q b hb f S D
    rw [Trav.descend_some (n := 1) hb, hpend hb, Trav.descend_none (n := 1) ((hch2 hb).2.2.2 0)]; rfl
  -- the root, when its children are known
  have root : ∀ D S, a ∉ D → ((t.mem a).e 1).w = 0 ∨ Trav.known D ((t.mem a).e 1) = true →
      Trav.step (n := 1) false t 2 ⟨none, x :: S, D⟩ = some ⟨none, S, D ++ [a]⟩ := by
    intro D S hD hk
    have := Trav.step_emit (n := 1) (t := t) (g := false) (f := 2) (S := S) (D := D) hp (by
      rw [hl, Trav.hasChild.eq_def]
      dsimp only
      by_cases h0 : ((t.mem a).e 1).w = 0
      · rw [if_pos h0]; rfl
      · rw [if_neg h0, if_pos (hk.resolve_left h0)]; rfl)
    rwa [if_neg hD] at this
  have hxS : ∀ y ∈ [x], y.p ≠ none := by simp [hp]
  have neb : ∀ {q b}, ((t.mem a).e q).p = some b → a ≠ b := by
    intro q b hb hab
    have := (hch2 hb).2.1
    rw [← hab] at this; omega
  -- the root, when its second child `c` is still to be visited
  have second : ∀ D c, ((t.mem a).e 1).p = some c → c ∉ D → a ∉ D →
      Trav.Runs (n := 1) false t 2 ⟨none, [x, (t.mem a).e 1], D⟩ (D ++ [c] ++ [a]) := by
    intro D c hc1 hcD haD
    have s1 : Trav.step (n := 1) false t 2 ⟨none, [x, (t.mem a).e 1], D⟩ = some ⟨some ((t.mem a).e 1), [x], D⟩ := by
      unfold Trav.step
      dsimp only
      rw [hp]
      dsimp only
      rw [Trav.hasChild_true hc1 hcD ⟨(t.mem a).e 1, by rw [hl]; simp, (hch2 hc1).2.2.1, hc1⟩]
    refine .more s1 (by simp) ?_
    rw [Trav.Runs.cur, hd1 hc1]
    have s2 := leaf hc1 [x] D hxS (by simp)
    rw [if_neg hcD] at s2
    refine .more s2 (by simp) ?_
    have s3 := root (D ++ [c]) [] (by simp [haD, neb hc1]) (Or.inr (Trav.known_iff.2 ⟨c, by simp, hc1⟩))
    exact .stop s3 rfl
  rw [show Trav.Runs (n := 1) false t 2 ⟨some x, [], []⟩ = Trav.Runs (n := 1) false t 2 ⟨none, Trav.descend (n := 1) t [] 2 x [], []⟩ from
    funext (fun _ => propext Trav.Runs.cur), Trav.descend_some (n := 1) hp]
  have hpa : Trav.pend (n := 1) [] (t.mem a).e = match ((t.mem a).e 1).p with
      | none => []
      | some _ => [(t.mem a).e 1] := by
    unfold Trav.pend
    rw [hl]
    cases h1 : ((t.mem a).e 1).p with
    | none => simp [h1]
    | some c => simp [h1, Trav.known, (hch2 h1).2.2.1]
  rw [hpa, List.append_nil]
  cases h0 : ((t.mem a).e 0).p with
  | none =>
    rw [Trav.descend_none (n := 1) h0]
    refine ⟨fun _ => ?_, fun ⟨b, hb, _⟩ => by cases hb⟩
    cases h1 : ((t.mem a).e 1).p with
    | none =>
      have hw : ((t.mem a).e 1).w = 0 := ((valid_none h1).1 (hch 1)).resolve_left (by omega)
      refine ⟨[], .stop (root [] [] (by simp) (Or.inl hw)) rfl, .snoc .nil v1 (by omega) (by simp) ?_⟩
      intro q b hb
      fin_cases q
      · simp only [Fin.zero_eta] at hb; rw [h0] at hb; cases hb
      · simp only [Fin.mk_one] at hb; rw [h1] at hb; cases hb
    | some c =>
      refine ⟨[c], second [] c h1 (by simp) (by simp), ?_⟩
      refine .snoc (.snoc (L := []) .nil (hch2 h1).1 (by have := (hch2 h1).2.1; omega) (by simp) ?_) v1 (by omega) (by simpa using neb h1) ?_
      · intro q b hb; rw [(hch2 h1).2.2.2 q] at hb; cases hb
      · intro q b hb
        fin_cases q
        · simp only [Fin.zero_eta] at hb; rw [h0] at hb; cases hb
        · simp only [Fin.mk_one] at hb; rw [h1] at hb; cases hb; simp
  | some b =>
    rw [hd1 h0]
    have tb : Topo t 2 [b] := .snoc (L := []) .nil (hch2 h0).1 (by have := (hch2 h0).2.1; omega) (by simp)
      (fun q c hc => by rw [(hch2 h0).2.2.2 q] at hc; cases hc)
    cases h1 : ((t.mem a).e 1).p with
    | none =>
      have hw : ((t.mem a).e 1).w = 0 := ((valid_none h1).1 (hch 1)).resolve_left (by omega)
      refine ⟨fun _ => ⟨[b], ?_, ?_⟩, fun ⟨c, _, hc, _⟩ => by cases hc⟩
      · have s1 := leaf h0 [x] [] hxS (by simp)
        rw [if_neg (by simp)] at s1
        refine .more s1 (by simp) (.stop (root [b] [] (by simpa using neb h0) (Or.inl hw)) rfl)
      · refine .snoc tb v1 (by omega) (by simpa using neb h0) ?_
        intro q c hc
        fin_cases q
        · simp only [Fin.zero_eta] at hc; rw [h0] at hc; cases hc; simp
        · simp only [Fin.mk_one] at hc; rw [h1] at hc; cases hc
    | some c =>
      have hxS2 : ∀ y ∈ [x, (t.mem a).e 1], y.p ≠ none := by simp [hp, h1]
      have s1 := leaf h0 [x, (t.mem a).e 1] [] hxS2 (by simp)
      rw [if_neg (by simp), List.nil_append] at s1
      by_cases hbc : b = c
      · subst hbc
        have s2 := root [b] [(t.mem a).e 1] (by simpa using neb h0) (Or.inr (Trav.known_iff.2 ⟨b, by simp, h1⟩))
        constructor
        · intro hno
          have hw : ((t.mem b).e 1).w = 0 := by
            by_contra hw
            exact hno ⟨b, rfl, rfl, hw⟩
          refine ⟨[b], .more s1 (by simp) (.more s2 (by simp) ?_), ?_⟩
          · have s3 := Trav.step_emit (n := 1) (t := t) (g := false) (f := 2) (S := []) (D := [b] ++ [a]) h1 (by rw [hl, Trav.hasChild, if_pos hw]; rfl)
            rw [if_pos (by simp)] at s3
            exact .stop s3 rfl
          · refine .snoc tb v1 (by omega) (by simpa using neb h0) ?_
            intro q c hc
            fin_cases q
            · simp only [Fin.zero_eta] at hc; rw [h0] at hc; cases hc; simp
            · simp only [Fin.mk_one] at hc; rw [h1] at hc; cases hc; simp
        · rintro ⟨c, hc, _, hw⟩ o ho
          cases hc
          have s3 := Trav.step_ub (n := 1) (t := t) (f := 2) (S := []) (D := [b] ++ [a]) h1 (by
            rw [hl, Trav.hasChild, if_neg hw, if_neg (by simp [Trav.known, (hch2 h0).2.2.2 1])]; rfl)
          cases ho with
          | stop g1 g2 => rw [s1] at g1; cases g1; simp at g2
          | more g1 _ ho =>
            rw [s1] at g1; cases g1
            cases ho with
            | stop g1 g2 => rw [s2] at g1; cases g1; simp at g2
            | more g1 _ ho =>
              rw [s2] at g1; cases g1
              cases ho with
              | stop g1 _ => rw [s3] at g1; cases g1
              | more g1 _ _ => rw [s3] at g1; cases g1
      · refine ⟨fun _ => ⟨[b, c], .more s1 (by simp) (second [b] c h1 (by simp; exact fun h => hbc h.symm) (by simpa using neb h0)), ?_⟩,
          fun ⟨d, hd, hd', _⟩ => ?_⟩
        · refine .snoc (.snoc (L := [b]) tb (hch2 h1).1 (by have := (hch2 h1).2.1; omega) (by simp; exact fun h => hbc h.symm) ?_) v1 (by omega)
            (by simp [neb h0, neb h1]) ?_
          · intro q d hd; rw [(hch2 h1).2.2.2 q] at hd; cases hd
          · intro q d hd
            fin_cases q
            · simp only [Fin.zero_eta] at hd; rw [h0] at hd; cases hd; simp
            · simp only [Fin.mk_one] at hd; rw [h1] at hd; cases hd; simp
        · cases hd; cases hd'; exact absurd rfl hbc

end small

/-- A one-qubit state is transferred exactly if the amplitude of 1 is zero. Otherwise the behaviour is undefined. -/
theorem C45_vector_one (hC : P.C.Good) (hr : PReach P h) {x : PEdge R} (hx : Valid (h.pkg.ut .v) 1 x)
    (hC' : P'.C.Good) (hr' : PReach P' h') (hn : 1 ≤ (h'.pkg.ut .v).nvars) :
    (vec (h.pkg.ut .v) 1 x ![1] = 0 → TransferOK P' .v (h.pkg.ut .v) h'.pkg 1 x) ∧
    (vec (h.pkg.ut .v) 1 x ![1] ≠ 0 → ∀ r, ¬ Pkg.Transfers P' .v (h.pkg.ut .v) h'.pkg x r) := by
  have hd := (hr.inv hC).wf.tab .v
  cases hp : x.p with
  | none =>
    refine ⟨fun _ => transferOK_terminal hC' hr' hx hp, fun h0 => absurd ?_ h0⟩
    show amp _ _ _ _ = 0
    rw [amp_none hp]
    exact ((valid_none hp).1 hx).resolve_left (by omega)
  | some a =>
    obtain ⟨v1, v2, v3⟩ := (valid_some hp).1 hx
    have hv : vec (h.pkg.ut .v) 1 x ![1] = x.w * (((h.pkg.ut .v).mem a).e 1).w := by
      show amp _ _ _ _ = _
      rw [amp_some hp]; rfl
    obtain ⟨o1, o2⟩ := one_qubit hd.child hx hp
    rw [hv]
    constructor
    · intro h0
      obtain ⟨p1, p2⟩ := o1 ((mul_eq_zero.1 h0).resolve_left v3)
      exact transferOK_order (N := []) hC' hr' hd hx hn hp p1 p2
    · intro h0 r ht
      cases ht with
      | terminal h1 => rw [hp] at h1; cases h1
      | node _ ho _ => exact o2 (right_ne_zero_of_mul h0) _ ho

/-- A two-qubit state is transferred unless it is a product state with non-zero amplitudes for 01 and 11; in this case the
behaviour is undefined. (`![i, j]`: `i` is the value of qubit 0.) -/
theorem C45_vector_two (hC : P.C.Good) (hr : PReach P h) {x : PEdge R} (hx : Valid (h.pkg.ut .v) 2 x)
    (hC' : P'.C.Good) (hr' : PReach P' h') (hn : 2 ≤ (h'.pkg.ut .v).nvars) {ψ : (Fin 2 → Fin 2) → Cx R} (hψ : vec (h.pkg.ut .v) 2 x = ψ) :
    (¬ (ψ ![1, 0] ≠ 0 ∧ ψ ![1, 1] ≠ 0 ∧ ψ ![0, 0] * ψ ![1, 1] = ψ ![1, 0] * ψ ![0, 1]) → TransferOK P' .v (h.pkg.ut .v) h'.pkg 2 x) ∧
    (ψ ![1, 0] ≠ 0 → ψ ![1, 1] ≠ 0 → ψ ![0, 0] * ψ ![1, 1] = ψ ![1, 0] * ψ ![0, 1] →
      ∀ r, ¬ Pkg.Transfers P' .v (h.pkg.ut .v) h'.pkg x r) := by
  have hd := (hr.inv hC).wf.tab .v
  cases hp : x.p with
  | none =>
    refine ⟨fun _ => transferOK_terminal hC' hr' hx hp, fun h0 => absurd ?_ h0⟩
    rw [← hψ]
    show amp _ _ _ _ = 0
    rw [amp_none hp]
    exact ((valid_none hp).1 hx).resolve_left (by omega)
  | some a =>
    obtain ⟨v1, v2, v3⟩ := (valid_some hp).1 hx
    have hch : ∀ q, Valid (h.pkg.ut .v) 1 (((h.pkg.ut .v).mem a).e q) := fun q => by
      have := hd.child a v1 q
      rwa [show ((h.pkg.ut .v).mem a).v = 1 by omega] at this
    have hv : ∀ i j, ψ ![i, j] = x.w * amp (h.pkg.ut .v) 1 (((h.pkg.ut .v).mem a).e j) ![i] := by
      intro i j
      rw [← hψ]
      show amp _ _ _ _ = _
      rw [amp_some hp]
      congr 2
      funext q
      fin_cases q; rfl
    obtain ⟨o1, o2⟩ := two_qubit hd.child hx hp
    constructor
    · intro hno
      obtain ⟨N, p1, p2⟩ := o1 (by
        rintro ⟨b, hb0, hb1, hw⟩
        apply hno
        have hw0 := ((valid_some hb0).1 (hch 0)).2.2
        have hw1 := ((valid_some hb1).1 (hch 1)).2.2
        have e : ∀ i j, ψ ![i, j] = x.w * ((((h.pkg.ut .v).mem a).e j).w * (((h.pkg.ut .v).mem b).e i).w) := by
          intro i j
          rw [hv, amp_some (a := b) (by fin_cases j; exacts [hb0, hb1])]
          rfl
        simp only [e]
        refine ⟨mul_ne_zero v3 (mul_ne_zero hw0 hw), mul_ne_zero v3 (mul_ne_zero hw1 hw), by ring⟩)
      exact transferOK_order hC' hr' hd hx hn hp p1 p2
    · intro h1 h2 h3 r ht
      rw [hv] at h1 h2
      have a1 := right_ne_zero_of_mul h1
      have a2 := right_ne_zero_of_mul h2
      have hw0 : (((h.pkg.ut .v).mem a).e 0).w ≠ 0 := fun h0 => a1 (amp_w_zero h0 _)
      obtain ⟨b, hb, _⟩ := (hch 0).exists_node hw0
      have hc : amp (h.pkg.ut .v) 1 (((h.pkg.ut .v).mem a).e 1) ![1] / amp (h.pkg.ut .v) 1 (((h.pkg.ut .v).mem a).e 0) ![1] ≠ 0 := div_ne_zero a2 a1
      have hb1 := hd.same_node (hch 0) (hch 1) hc (by
        intro d
        obtain ⟨i, rfl⟩ : ∃ i, d = ![i] := ⟨d 0, by funext q; fin_cases q; rfl⟩
        rw [div_mul_eq_mul_div, eq_div_iff a1]
        fin_cases i
        · simp only [hv] at h3
          refine mul_left_cancel₀ (mul_ne_zero v3 v3) ?_
          simp only [Fin.zero_eta]
          linear_combination -h3
        · simp)
      rw [hb] at hb1
      have hw : (((h.pkg.ut .v).mem b).e 1).w ≠ 0 := by
        intro h0
        apply a1
        rw [amp_some hb]
        show _ * (((h.pkg.ut .v).mem b).e 1).w = 0
        rw [h0, mul_zero]
      cases ht with
      | terminal h1 => rw [hp] at h1; cases h1
      | node _ ho _ => exact o2 ⟨b, hb, hb1, hw⟩ _ ho

/-- Matrices of at least three qubits are transferred if at no node of the diagram a new target follows a repeated one.
Missing for the full property: small matrices and those with such nodes, for which `transfer` does not work, see
`C45_matrix_one_false` and `C45_matrix_false`. -/
theorem C45_matrix_partial (hC : P.C.Good) (hr : PReach P h) {l : Nat} {x : PEdge R} (hx : Valid (h.pkg.ut .m) l x) (hl : 3 ≤ l ∨ x.p = none)
    (hnn : ∀ a, ReachableFrom (h.pkg.ut .m) x.p (some a) → Trav.NoNewAfterRepeat ((h.pkg.ut .m).mem a).e)
    (hC' : P'.C.Good) (hr' : PReach P' h') (hn : l ≤ (h'.pkg.ut .m).nvars) : TransferOK P' .m (h.pkg.ut .m) h'.pkg l x := by
  have hd := (hr.inv hC).wf.tab .m
  cases hp : x.p with
  | none => exact transferOK_terminal hC' hr' hx hp
  | some a =>
    have hall : ∀ q, ReachableFrom (h.pkg.ut .m) x.p q → ∀ b, q = some b → b ∈ (h.pkg.ut .m).all := by
      intro q hq
      induction hq with
      | refl => intro b hb; exact ((valid_some hb).1 hx).1
      | step i _ ih => intro b hb; exact ((valid_some hb).1 (hd.child _ (ih _ rfl) i)).1
    have hF := Trav.allFresh_of (n := 3) hd.child (N := {b | ReachableFrom (h.pkg.ut .m) x.p (some b)})
      (fun b hb => ⟨hall _ hb b rfl, fun i c hc => by
        have := ReachableFrom.step (t := h.pkg.ut .m) i hb
        rwa [hc] at this⟩) (fun b hb => hnn b hb)
    obtain ⟨N, hrun, hN⟩ := Trav.runs (n := 3) (g := false) hd.child hF hx hp (by show ReachableFrom _ _ _; rw [hp]; exact .refl)
      (Or.inr (hl.resolve_right (by rw [hp]; simp)))
    exact transferOK_order hC' hr' hd hx hn hp hrun hN

/-- All diagonal matrices of at least three qubits are transferred. -/
theorem C45_matrix_diagonal (hC : P.C.Good) (hr : PReach P h) {l : Nat} {x : PEdge R} (hx : Valid (h.pkg.ut .m) l x) (hl : 3 ≤ l)
    (hD : ∀ r c, r ≠ c → mat (h.pkg.ut .m) l x r c = 0)
    (hC' : P'.C.Good) (hr' : PReach P' h') (hn : l ≤ (h'.pkg.ut .m).nvars) : TransferOK P' .m (h.pkg.ut .m) h'.pkg l x := by
  have hd := (hr.inv hC).wf.tab .m
  refine C45_matrix_partial hC hr hx (Or.inl hl) ?_ hC' hr' hn
  have off : ∀ q, ReachableFrom (h.pkg.ut .m) x.p q → ∀ a, q = some a → a ∈ (h.pkg.ut .m).all ∧
      ∀ d, (∃ i, d i = 1 ∨ d i = 2) → amp (h.pkg.ut .m) (((h.pkg.ut .m).mem a).v + 1) ⟨some a, 1⟩ d = 0 := by
    intro q hq
    induction hq with
    | refl =>
      intro a ha
      obtain ⟨v1, v2, v3⟩ := (valid_some ha).1 hx
      refine ⟨v1, ?_⟩
      rw [v2]
      rintro d ⟨i, hi⟩
      obtain ⟨r, c, rfl⟩ : ∃ r c : Fin l → Fin 2, d = fun i => rc (r i) (c i) := ⟨_, _, (rc_surj d).symm⟩
      have := hD r c (by
        intro h; subst h
        dsimp only at hi
        generalize r i = b at hi
        revert b; decide)
      have e : amp (h.pkg.ut .m) l x (fun i => rc (r i) (c i)) = 0 := this
      rw [amp_eq_smul, ha] at e
      exact (mul_eq_zero.1 e).resolve_left v3
    | @step a q hq ih =>
      intro b hb
      obtain ⟨h1, h2⟩ := ih a rfl
      have hv := hd.child a h1 q
      obtain ⟨u1, u2, u3⟩ := (valid_some hb).1 hv
      refine ⟨u1, ?_⟩
      rw [u2]
      rintro d ⟨i, hi⟩
      have := h2 (Fin.snoc (α := fun _ => Fin 4) d q) ⟨i.castSucc, by rw [Fin.snoc_castSucc]; exact hi⟩
      rw [amp_snoc rfl, one_mul, amp_eq_smul, hb] at this
      exact (mul_eq_zero.1 this).resolve_left u3
  intro a ha
  obtain ⟨h1, h2⟩ := off _ ha a rfl
  have hz : ∀ q, q = 1 ∨ q = 2 → (((h.pkg.ut .m).mem a).e q).p = none := by
    intro q hq
    have hv := hd.child a h1 q
    refine hv.p_none (hd.w_zero hv (fun d => ?_))
    have := h2 (Fin.snoc (α := fun _ => Fin 4) d q) ⟨Fin.last _, by rw [Fin.snoc_last]; exact hq⟩
    rwa [amp_snoc rfl, one_mul] at this
  intro i j k hij hjk _ hj _
  exfalso
  have : ∀ i j k : Fin 4, i < j → j < k → j = 1 ∨ j = 2 := by decide
  exact hj (hz j (this i j k hij hjk))

/-- The transfer of a one-qubit matrix other than a multiple of |0⟩⟨0| is undefined behaviour. -/
theorem C45_matrix_one_false (hC : P.C.Good) (hr : PReach P h) {x : PEdge R} (hx : Valid (h.pkg.ut .m) 1 x) (s : Pkg R)
    (hM : ∃ i j, (i, j) ≠ (0, 0) ∧ mat (h.pkg.ut .m) 1 x ![i] ![j] ≠ 0) : ∀ r, ¬ Pkg.Transfers P' .m (h.pkg.ut .m) s x r := by
  have hd := (hr.inv hC).wf.tab .m
  obtain ⟨i, j, hij, hM⟩ := hM
  intro r ht
  cases hp : x.p with
  | none =>
    apply hM
    show amp _ _ _ _ = 0
    rw [amp_none hp]
    exact ((valid_none hp).1 hx).resolve_left (by omega)
  | some a =>
    obtain ⟨v1, v2, v3⟩ := (valid_some hp).1 hx
    have hch : ∀ q, (((h.pkg.ut .m).mem a).e q).p = none := fun q => by
      have := hd.child a v1 q
      rw [show ((h.pkg.ut .m).mem a).v = 0 by omega] at this; exact this.term
    cases ht with
    | terminal h1 => rw [hp] at h1; cases h1
    | node _ ho _ =>
      have hpend : Trav.pend (n := 3) [] ((h.pkg.ut .m).mem a).e = [] := by
        rw [List.eq_nil_iff_forall_not_mem]
        intro y hy
        obtain ⟨h1, ⟨b, h2, _⟩, _⟩ := Trav.mem_pend.1 hy
        obtain ⟨q, rfl⟩ := Trav.mem_later.1 h1
        have := hch q.succ
        rw [this] at h2; cases h2
      have ho : Trav.Runs (n := 3) false (h.pkg.ut .m) ((h.pkg.ut .m).lvl x) ⟨some x, [], []⟩ _ := ho
      rw [hx.lvl v3, Trav.Runs.cur, Trav.descend_some (n := 3) hp, hpend, Trav.descend_none (n := 3) (hch 0)] at ho
      have hw : ∃ y ∈ Trav.later (n := 3) ((h.pkg.ut .m).mem a).e, y.w ≠ 0 := by
        have hq : ∃ q : Fin 3, rc i j = q.succ := by
          clear hM; revert hij; revert i j; decide
        obtain ⟨q, hq⟩ := hq
        refine ⟨_, Trav.mem_later.2 ⟨q, rfl⟩, ?_⟩
        intro h0
        apply hM
        show amp _ _ _ _ = 0
        rw [amp_some hp]
        have : (((h.pkg.ut .m).mem a).e (rc i j)).w = 0 := by rw [hq]; exact h0
        show x.w * (((h.pkg.ut .m).mem a).e (rc i j)).w = 0
        rw [this, mul_zero]
      have key : ∀ L : List (PEdge R), (∀ y ∈ L, y.p = none) → (∃ y ∈ L, y.w ≠ 0) → Trav.hasChild false [] [] L = none := by
        intro L
        induction L with
        | nil => simp
        | cons y L ih =>
          intro h1 h2
          rw [Trav.hasChild.eq_def]
          dsimp only
          by_cases h0 : y.w = 0
          · rw [if_pos h0]
            refine ih (fun z hz => h1 z (List.mem_cons_of_mem _ hz)) ?_
            obtain ⟨z, hz, hz0⟩ := h2
            rcases List.mem_cons.1 hz with rfl | hz
            · exact absurd h0 hz0
            · exact ⟨z, hz, hz0⟩
          · rw [if_neg h0, if_neg (by simp [Trav.known, h1 y List.mem_cons_self])]
            rfl
      have := Trav.step_ub (n := 3) (t := h.pkg.ut .m) (f := 1) (S := []) (D := []) hp (key _ (by
        intro y hy
        obtain ⟨q, rfl⟩ := Trav.mem_later.1 hy
        exact hch q.succ) hw)
      cases ho with
      | stop h1 _ =>
        have h1 := this.symm.trans h1; cases h1
      | more h1 _ _ => have h1 := this.symm.trans h1; cases h1

omit [LawfulSqrt R] in
theorem transferLoop_mapped {k : Kind} {t : UTable (Cx R) (ar k)} : ∀ (L : List Nat) {s s' : Pkg R} {m m' : Nat → Option (Option Nat)} {e e' : PEdge R},
    Pkg.transferLoop P k t L s m e = some (s', m', e') → ∀ c ∉ L, m' c = m c
  | [], _, _, _, _, _, _, h, c, _ => by rw [Pkg.transferLoop] at h; cases h; rfl
  | a :: as, s, s', m, m', e, e', h, c, hc => by
    rw [Pkg.transferLoop] at h
    cases hm : Pkg.mapEdges m (t.mem a).e with
    | none => rw [hm] at h; cases h
    | some es =>
      rw [hm] at h
      have := transferLoop_mapped as h c (fun h => hc (List.mem_cons_of_mem _ h))
      rw [this, Function.update_of_ne]
      rintro rfl
      exact hc List.mem_cons_self

/-- If the first two blocks of a matrix are proportional (not zero) and another block is not proportional to them (and not
zero), `transfer` uses a node that has not been transferred yet: there is no result. (The nodes below the first block are such that
the traversal of this block works.) -/
theorem C45_matrix_false (hC : P.C.Good) (hr : PReach P h) {l : Nat} {x : PEdge R} (hx : Valid (h.pkg.ut .m) (l + 1) x) (s : Pkg R)
    (h0 : ∃ d, amp (h.pkg.ut .m) (l + 1) x (Fin.snoc (α := fun _ => Fin 4) d 0) ≠ 0)
    {z : Cx R} (hz : z ≠ 0) (h1 : ∀ d, amp (h.pkg.ut .m) (l + 1) x (Fin.snoc (α := fun _ => Fin 4) d 1) =
      z * amp (h.pkg.ut .m) (l + 1) x (Fin.snoc (α := fun _ => Fin 4) d 0))
    {i : Fin 4} (h2 : ∀ z, ∃ d, amp (h.pkg.ut .m) (l + 1) x (Fin.snoc (α := fun _ => Fin 4) d i) ≠
      z * amp (h.pkg.ut .m) (l + 1) x (Fin.snoc (α := fun _ => Fin 4) d 0))
    (hnn : ∀ a b c, x.p = some a → (((h.pkg.ut .m).mem a).e 0).p = some b → ReachableFrom (h.pkg.ut .m) (some b) (some c) →
      Trav.NoNewAfterRepeat ((h.pkg.ut .m).mem c).e) : ∀ r, ¬ Pkg.Transfers P' .m (h.pkg.ut .m) s x r := by
  have hd := (hr.inv hC).wf.tab .m
  intro r ht
  cases hp : x.p with
  | none =>
    obtain ⟨d, hd⟩ := h0
    apply hd
    rw [amp_none hp]
    exact ((valid_none hp).1 hx).resolve_left (by omega)
  | some a =>
    obtain ⟨v1, v2, v3⟩ := (valid_some hp).1 hx
    have hva : ((h.pkg.ut .m).mem a).v = l := by omega
    have hch : ∀ q, Valid (h.pkg.ut .m) l (((h.pkg.ut .m).mem a).e q) := fun q => by
      have := hd.child a v1 q
      rwa [hva] at this
    simp only [amp_snoc hp] at h0 h1 h2
    have hw0 : (((h.pkg.ut .m).mem a).e 0).w ≠ 0 := by
      intro hw
      obtain ⟨d, hd⟩ := h0
      rw [amp_w_zero hw] at hd
      simp at hd
    have hb1 := hd.same_node (hch 0) (hch 1) hz (fun d => mul_left_cancel₀ v3 (by rw [h1]; ring))
    -- the third block
    have hne : (((h.pkg.ut .m).mem a).e i).p ≠ (((h.pkg.ut .m).mem a).e 0).p := by
      intro hpp
      obtain ⟨d, hd⟩ := h2 ((((h.pkg.ut .m).mem a).e i).w / (((h.pkg.ut .m).mem a).e 0).w)
      apply hd
      rw [amp_eq_smul _ _ (((h.pkg.ut .m).mem a).e i), amp_eq_smul _ _ (((h.pkg.ut .m).mem a).e 0), hpp]
      field_simp
    have hwi : (((h.pkg.ut .m).mem a).e i).w ≠ 0 := by
      intro hw
      obtain ⟨d, hd⟩ := h2 0
      apply hd
      rw [amp_w_zero hw]; ring
    have hl : l ≠ 0 := by
      rintro rfl
      apply hne
      rw [(hch i).term, (hch 0).term]
    obtain ⟨b, hb, hball, _⟩ : ∃ b, (((h.pkg.ut .m).mem a).e 0).p = some b ∧ b ∈ (h.pkg.ut .m).all ∧ True := by
      cases hq : (((h.pkg.ut .m).mem a).e 0).p with
      | none => exact absurd (((valid_none hq).1 (hch 0)).resolve_left hl) hw0
      | some b => exact ⟨b, rfl, ((valid_some hq).1 (hch 0)).1, trivial⟩
    obtain ⟨c, hc⟩ : ∃ c, (((h.pkg.ut .m).mem a).e i).p = some c := by
      cases hq : (((h.pkg.ut .m).mem a).e i).p with
      | none => exact absurd (((valid_none hq).1 (hch i)).resolve_left hl) hwi
      | some b => exact ⟨b, rfl⟩
    rw [hb] at hb1
    have hall : ∀ q, ReachableFrom (h.pkg.ut .m) (some b) q → ∀ b, q = some b → b ∈ (h.pkg.ut .m).all := by
      intro q hq
      induction hq with
      | refl => intro b' hb'; cases hb'; exact hball
      | step i _ ih => intro b hb; exact ((valid_some hb).1 (hd.child _ (ih _ rfl) i)).1
    have hF := Trav.allFresh_of (n := 3) hd.child (N := {c | ReachableFrom (h.pkg.ut .m) (some b) (some c)})
      (fun c hc => ⟨hall _ hc c rfl, fun i d hd => by
        have := ReachableFrom.step (t := h.pkg.ut .m) i hc
        rwa [hd] at this⟩) (fun c hc' => hnn a b c hp hb hc')
    cases ht with
    | terminal h1 => rw [hp] at h1; cases h1
    | @node order s' mapped r _ ho hloop =>
      have ho : Trav.Runs (n := 3) false (h.pkg.ut .m) ((h.pkg.ut .m).lvl x) ⟨some x, [], []⟩ order := ho
      rw [hx.lvl v3] at ho
      obtain ⟨D, ⟨rest, rfl⟩, haD, hD⟩ := Trav.premature (n := 3) hd.child hF hx hp hb (ReachableFrom.refl) (i := 0) hb1
        (fun j hj => absurd hj (by simp)) (by omega) ho
      rw [List.append_assoc, transferLoop_append] at hloop
      cases hq : Pkg.transferLoop P' .m (h.pkg.ut .m) D s (fun _ => none) zeroE with
      | none => rw [hq] at hloop; cases hloop
      | some q =>
        obtain ⟨s1, m1, e1⟩ := q
        rw [hq] at hloop
        have hcD : c ∉ D := by
          intro h
          have := hD i c hc h
          rw [hc, hb, this] at hne
          exact hne rfl
        have hm := transferLoop_mapped D hq c hcD
        simp only [Option.bind_some, List.singleton_append, Pkg.transferLoop] at hloop
        have : Pkg.mapEdges m1 ((h.pkg.ut .m).mem a).e = none := by
          unfold Pkg.mapEdges
          rw [if_neg]
          intro hi
          have := hi i
          unfold Pkg.mapEdge at this
          rw [hc] at this
          dsimp only at this
          rw [hm] at this
          simp at this
        rw [this] at hloop
        cases hloop

end DD

namespace DD.Ex

/-- The hypotheses for vectors are met. -/
example : ∃ (h : PHist ℝ) (x : PEdge ℝ), PReach (PR ℝ) h ∧ Valid (h.pkg.ut .v) 3 x ∧ x.w ≠ 0 ∧ TransferOK (PR ℝ) .v (h.pkg.ut .v) h.pkg 3 x := by
  obtain ⟨h, x, y, A, B, hr, hn, vx, vy, vA, vB, hx, hA, ax, ay, aA, aB, wx, wy, wA, wB⟩ := setup (R := ℝ)
  exact ⟨h, x, hr, vx, wx, C45_vector (PR_good ℝ) hr vx (Or.inl le_rfl) (PR_good ℝ) hr (by rw [hn]; omega)⟩

/-- The hypotheses for matrices are met by the identity. -/
example : ∃ (h : PHist ℝ) (x : PEdge ℝ), PReach (PR ℝ) h ∧ Valid (h.pkg.ut .m) 5 x ∧ mat (h.pkg.ut .m) 5 x = 1 ∧
    TransferOK (PR ℝ) .m (h.pkg.ut .m) h.pkg 5 x := by
  obtain ⟨h, x, y, A, B, hr, hn, vx, vy, vA, vB, hx, hA, ax, ay, aA, aB, wx, wy, wA, wB⟩ := setup (R := ℝ)
  have hC := PR_good ℝ
  obtain ⟨v1, v2, _⟩ := C34_identity_partial hC hr (n := 5) (by rw [hn]; omega)
  have hr2 := hr.step (.makeIdent 5 (by rw [hn]; omega))
  have o := makeIdent_spec hC.growth (hr.inv hC).wf (n := 5) (by rw [hn]; omega)
  refine ⟨_, _, hr2, v1, v2, C45_matrix_diagonal hC hr2 v1 (by omega) (fun r c hrc => ?_) hC hr2 ?_⟩
  · rw [v2]; exact Matrix.one_apply_ne hrc
  · show 5 ≤ ((Pkg.makeIdentR (PR ℝ) h.pkg 0 5).1.ut .m).nvars
    rw [(o.ext .m).nvars, hn]; omega

/-- The state with amplitudes 1, 1, 1, 1 (not normalised `|++⟩`) cannot be transferred. -/
example : ∃ (h : PHist ℝ) (x : PEdge ℝ), PReach (PR ℝ) h ∧ Valid (h.pkg.ut .v) 2 x ∧ (∀ d, vec (h.pkg.ut .v) 2 x d = 1) ∧
    ∀ r, ¬ Pkg.Transfers (PR ℝ) .v (h.pkg.ut .v) h.pkg x r := by
  obtain ⟨h, x, y, A, B, hr, hn, vx, vy, vA, vB, hx, hA, ax, ay, aA, aB, wx, wy, wA, wB⟩ := setup (R := ℝ)
  have hC := PR_good ℝ
  obtain ⟨r, e1, o⟩ := makeStateFromVector_spec (l := 2) hC.growth (hr.inv hC).wf (xs := [1, 1, 1, 1]) rfl (by rw [hn]; omega)
  have hr2 := hr.step (.makeStateFromVector [1, 1, 1, 1] r (by rw [hn]; decide) e1)
  have hv : ∀ d, vec (r.1.ut .v) 2 r.2 d = 1 := by
    intro d
    have := o.val d
    refine this.trans ?_
    have hlt := bitIdx_lt d
    generalize bitIdx d = i at hlt
    interval_cases i <;> rfl
  refine ⟨_, r.2, hr2, o.valid, hv, (C45_vector_two hC hr2 o.valid hC hr2 ?_ rfl).2 ?_ ?_ ?_⟩
  · show 2 ≤ (r.1.ut .v).nvars
    rw [(o.ext .v).nvars, hn]; omega
  all_goals simp [hv]

theorem lvl1_nn {t : UTable (Cx ℝ) 4} (hc : Children t) {a : Nat} (ha : a ∈ t.all) (h0 : (t.mem a).v = 0) : Trav.NoNewAfterRepeat (t.mem a).e := by
  intro i j k _ _ _ hj
  have := hc a ha j
  rw [h0] at this
  exact absurd this.term hj

/-- The matrix with blocks X, X, Z, 0 cannot be transferred. -/
example : ∃ (h : PHist ℝ) (x : PEdge ℝ), PReach (PR ℝ) h ∧ Valid (h.pkg.ut .m) 2 x ∧
    Pkg.getMatrix (h.pkg.ut .m) x = some [[0, 1, 0, 1], [1, 0, 1, 0], [1, 0, 0, 0], [0, -1, 0, 0]] ∧
    ∀ r, ¬ Pkg.Transfers (PR ℝ) .m (h.pkg.ut .m) h.pkg x r := by
  obtain ⟨h, x, y, A, B, hr, hn, vx, vy, vA, vB, hx, hA, ax, ay, aA, aB, wx, wy, wA, wB⟩ := setup (R := ℝ)
  have hC := PR_good ℝ
  let M : List (List (Cx ℝ)) := [[0, 1, 0, 1], [1, 0, 1, 0], [1, 0, 0, 0], [0, -1, 0, 0]]
  have hrow : ∀ row ∈ M, row.length = M.length := by simp [M]
  obtain ⟨r, e1, o⟩ := makeDDFromMatrix_spec (l := 2) hC.growth (hr.inv hC).wf (M := M) rfl hrow (by rw [hn]; omega)
  have hr2 := hr.step (.makeDDFromMatrix M r (by rw [hn]; decide) hrow e1)
  obtain ⟨r', e2, _, hg, _⟩ := C30_roundtrip_partial (l := 1) hC hr (M := M) rfl hrow (by rw [hn]; omega) ⟨_, List.mem_cons_self, 1, by simp, one_ne_zero⟩
  rw [e1] at e2
  cases e2
  have hv : ∀ i j, amp (r.1.ut .m) 2 r.2 (Fin.snoc (α := fun _ => Fin 4) (![i] : Fin 1 → Fin 4) j) =
      (M.getD (bitIdx (rowD (Fin.snoc (α := fun _ => Fin 4) (![i] : Fin 1 → Fin 4) j))) []).getD
        (bitIdx (colD (Fin.snoc (α := fun _ => Fin 4) (![i] : Fin 1 → Fin 4) j))) 0 := fun i j => o.val _
  have hidx : ∀ i j : Fin 4, bitIdx (rowD (Fin.snoc (α := fun _ => Fin 4) (![i] : Fin 1 → Fin 4) j)) = (i : Nat) / 2 + 2 * ((j : Nat) / 2) ∧
      bitIdx (colD (Fin.snoc (α := fun _ => Fin 4) (![i] : Fin 1 → Fin 4) j)) = (i : Nat) % 2 + 2 * ((j : Nat) % 2) := by decide
  have hd1 : ∀ d : Fin 1 → Fin 4, d = ![d 0] := fun d => by funext q; fin_cases q; rfl
  refine ⟨_, r.2, hr2, o.valid, hg, C45_matrix_false hC hr2 o.valid _ ⟨![1], ?_⟩ one_ne_zero (fun d => ?_) (i := 2) (fun z => ⟨![0], ?_⟩) ?_⟩
  · show amp (r.1.ut .m) 2 r.2 _ ≠ 0
    rw [hv, (hidx 1 0).1, (hidx 1 0).2]
    exact one_ne_zero
  · show amp (r.1.ut .m) 2 r.2 _ = 1 * amp (r.1.ut .m) 2 r.2 _
    rw [hd1 d, one_mul, hv, hv, (hidx _ 0).1, (hidx _ 0).2, (hidx _ 1).1, (hidx _ 1).2]
    generalize d 0 = i
    fin_cases i <;> rfl
  · show amp (r.1.ut .m) 2 r.2 _ ≠ z * amp (r.1.ut .m) 2 r.2 _
    rw [hv, hv, (hidx _ 0).1, (hidx _ 0).2, (hidx _ 2).1, (hidx _ 2).2]
    show (1 : Cx ℝ) ≠ z * 0
    simp
  · intro a b c ha hb hc
    have hd := (hr2.inv hC).wf.tab .m
    have ha' := (valid_some ha).1 o.valid
    have hvb : Valid (r.1.ut .m) 1 (((r.1.ut .m).mem a).e 0) := by
      have := hd.child a ha'.1 0
      rwa [show ((r.1.ut .m).mem a).v = 1 by have := ha'.2.1; omega] at this
    have hb' := (valid_some hb).1 hvb
    have hb0 : ((r.1.ut .m).mem b).v = 0 := by have := hb'.2.1; omega
    have hcb : ∀ q, ReachableFrom (r.1.ut .m) (some b) q → q = some b ∨ q = none := by
      intro q hq
      induction hq with
      | refl => exact Or.inl rfl
      | step i _ ih =>
        rcases ih with h | h
        · cases h
          right
          have := hd.child b hb'.1 i
          rw [show (({ h with pkg := r.1 } : PHist ℝ).pkg.ut .m).mem b = (r.1.ut .m).mem b from rfl, hb0] at this
          exact this.term
        · cases h
    rcases hcb _ hc with h | h
    · cases h
      exact lvl1_nn hd.child hb'.1 hb0
    · cases h

end DD.Ex
