import Verif.Model.ApproxGate

/-! # Building and combining diagrams does not change which references are held -/

namespace DD

variable {R : Type} [Field R] [LinearOrder R] [FloorRing R] [HasSqrt R]
variable {J : JCfg R}

namespace JState

/-- The references that are held. -/
def heldOf (s : JState R) : NK → List PtrEdge := fun k => (s.tab k).held

theorem heldOf_update (s : JState R) (k : NK) (h : UHist (CNum Loc) k.ar) (hh : h.held = (s.tab k).held) :
    heldOf ({ s with tab := Function.update s.tab k h } : JState R) = s.heldOf := by
  funext k'
  unfold heldOf
  dsimp only
  by_cases e : k' = k
  · subst e
    rw [Function.update_self, hh]
  · rw [Function.update_of_ne e]

theorem heldOf_lookupC (s : JState R) (z : Cx R) : (s.lookupC J z).1.heldOf = s.heldOf := rfl

theorem heldOf_nodeV (s : JState R) (v : Nat) (es : Fin 2 → PtrEdge) : (s.nodeV J v es).1.heldOf = s.heldOf := heldOf_update s .v _ rfl

theorem heldOf_makeV (s : JState R) (v : Nat) (es : Fin 2 → SEdge R) : (s.makeV J v es).1.heldOf = s.heldOf := by
  unfold makeV
  dsimp only
  split_ifs <;> first | exact heldOf_update s .v _ rfl | exact heldOf_nodeV _ _ _

theorem heldOf_finishV (r : JState R × SEdge R) : (finishV J r).1.heldOf = r.1.heldOf := by
  unfold finishV
  cases r.2.w <;> rfl

theorem heldOf_addF : ∀ (l : Nat) (s : JState R) (x y : OEdge R), (addF J l s x y).1.heldOf = s.heldOf := by
  intro l
  induction l with
  | zero =>
    intro s x y
    unfold addF
    dsimp only
    split_ifs <;> try rfl
    cases s.addLook J ⟨x.p, s.oval J x.w⟩ ⟨y.p, s.oval J y.w⟩ with
    | none => rfl
    | some r => dsimp only; split_ifs <;> rfl
  | succ l ih =>
    intro s x y
    unfold addF
    dsimp only
    split_ifs <;> try rfl
    cases s.addLook J ⟨x.p, s.oval J x.w⟩ ⟨y.p, s.oval J y.w⟩ with
    | none =>
      dsimp only
      refine Eq.trans (b := heldOf (makeV J _ _ _).1) rfl ?_
      rw [heldOf_makeV, ih, ih]
    | some r => dsimp only; split_ifs <;> rfl

theorem heldOf_mulSum (l : Nat) (s : JState R) (m0 m1 : SEdge R) : (mulSum J l s m0 m1).1.heldOf = s.heldOf := by
  unfold mulSum
  cases m0.w with
  | none => rfl
  | some z0 =>
    cases m1.w with
    | none => rfl
    | some z1 => exact heldOf_addF _ _ _ _

theorem heldOf_multiplyF : ∀ (l : Nat) (s : JState R) (x y : PtrEdge), (multiplyF J l s x y).1.heldOf = s.heldOf := by
  intro l
  induction l with
  | zero =>
    intro s x y
    unfold multiplyF
    split_ifs <;> rfl
  | succ l ih =>
    intro s x y
    unfold multiplyF
    split_ifs
    · rfl
    · dsimp only
      cases s.mulLook J x.p y.p with
      | some r => rfl
      | none =>
        dsimp only
        have key : ∀ n : JState R × SEdge R, (match n.2.w with
            | none => (n.1.mulIns J x.p y.p ⟨n.2.p, sval n.2.w⟩, n.2)
            | some z => (n.1.mulIns J x.p y.p ⟨n.2.p, sval n.2.w⟩, mulEnd J (n.1.mulIns J x.p y.p ⟨n.2.p, sval n.2.w⟩) n.2.p z x y)).1.heldOf = n.1.heldOf := by
          intro n
          cases n.2.w <;> rfl
        refine (key _).trans ?_
        rw [heldOf_makeV, heldOf_mulSum, ih, ih, heldOf_mulSum, ih, ih]

theorem heldOf_multiply (s : JState R) (x y : PtrEdge) : (s.multiply J x y).1.heldOf = s.heldOf :=
  (heldOf_finishV _).trans (heldOf_multiplyF _ _ _ _)

theorem heldOf_seqFin {β : Type} : ∀ (n : Nat) (f : Fin n → JState R → JState R × β) (s : JState R), (∀ i s, (f i s).1.heldOf = s.heldOf) →
    (seqFin n f s).1.heldOf = s.heldOf := by
  intro n
  induction n with
  | zero => intros; rfl
  | succ n ih =>
    intro f s h
    exact (ih _ _ fun i s => h _ s).trans (h 0 s)

theorem heldOf_markM (s : JState R) (a : Nat) (b c : Bool) : (s.markM a b c).heldOf = s.heldOf := heldOf_update s .m _ rfl

theorem heldOf_specialM {tr : JState R → PtrEdge → JState R × PtrEdge} (ht : ∀ s e, (tr s e).1.heldOf = s.heldOf) (s : JState R) (a : Nat) :
    (s.specialM J tr a).heldOf = s.heldOf := by
  unfold specialM
  dsimp only
  split_ifs
  · exact heldOf_markM _ _ _ _
  · rw [ht]; exact heldOf_markM _ _ _ _
  · rw [heldOf_markM, ht]; exact heldOf_markM _ _ _ _

theorem heldOf_makeN {tr : JState R → PtrEdge → JState R × PtrEdge} (ht : ∀ s e, (tr s e).1.heldOf = s.heldOf) (s : JState R) (v : Nat)
    (es : Fin 4 → PtrEdge) : (s.makeN J tr v es).1.heldOf = s.heldOf := by
  unfold makeN
  cases s.ct.argmax J.fl (fun i => s.ct.cval J.C (es i).w) with
  | none => exact heldOf_update s .m _ rfl
  | some m =>
    dsimp only
    have hn : ∀ (s : JState R) (v : Nat) (es : Fin 4 → PtrEdge), (s.nodeM J tr v es).1.heldOf = s.heldOf := by
      intro s v es
      unfold nodeM
      dsimp only
      split_ifs
      · rw [heldOf_specialM ht]
        exact heldOf_update s .m _ rfl
      · exact heldOf_update s .m _ rfl
    rw [hn]
    refine heldOf_seqFin _ _ _ fun i s => ?_
    unfold kidM
    split_ifs <;> rfl

theorem heldOf_transposeF : ∀ (l : Nat) (s : JState R) (a : PtrEdge), (transposeF J l s a).1.heldOf = s.heldOf := by
  intro l
  induction l with
  | zero =>
    intro s a
    unfold transposeF
    cases a.p with
    | none => rfl
    | some n =>
      dsimp only
      split_ifs
      · rfl
      · cases s.trLook J a <;> rfl
  | succ l ih =>
    intro s a
    unfold transposeF
    cases a.p with
    | none => rfl
    | some n =>
      dsimp only
      split_ifs
      · rfl
      · cases s.trLook J a with
        | some r => rfl
        | none =>
          dsimp only
          refine Eq.trans (b := heldOf (makeN J _ _ _ _).1) rfl ?_
          rw [heldOf_makeN ih]
          exact heldOf_seqFin _ _ _ fun i s => ih _ _

theorem heldOf_diagN (s : JState R) (z : Nat) (a b : PtrEdge) : (s.diagN J z a b).1.heldOf = s.heldOf := heldOf_makeN (heldOf_transposeF z) s z _

theorem heldOf_identLoop : ∀ (n k : Nat) (s : JState R) (e : PtrEdge), (identLoop J n k s e).1.heldOf = s.heldOf := by
  intro n
  induction n with
  | zero => intros; rfl
  | succ n ih =>
    intro k s e
    exact (ih _ _ _).trans (heldOf_diagN _ _ _ _)

theorem heldOf_makeIdent (s : JState R) (n : Nat) : (s.makeIdent J n).1.heldOf = s.heldOf := by
  cases n with
  | zero => rfl
  | succ m =>
    unfold makeIdent
    dsimp only
    cases s.idLook J m with
    | some e => rfl
    | none =>
      dsimp only
      cases (if 1 ≤ m then s.idLook J (m - 1) else none) with
      | some e => exact heldOf_diagN _ _ _ _
      | none =>
        refine Eq.trans (b := heldOf (identLoop J m 1 _ _).1) rfl ?_
        rw [heldOf_identLoop, heldOf_diagN]

theorem heldOf_gateBelow (z : Nat) (s : JState R) (em : Fin 4 → PtrEdge) (it : List Ctrl) : (gateBelow J z s em it).1.1.heldOf = s.heldOf := by
  unfold gateBelow
  have hp : (seqFin 4 (fun i s => diagN J s z (em i) (em i)) s).1.heldOf = s.heldOf := heldOf_seqFin _ _ _ fun i s => heldOf_diagN _ _ _ _
  cases it with
  | nil => exact hp
  | cons c rest =>
    dsimp only
    split_ifs
    · refine heldOf_seqFin _ _ _ fun i s => ?_
      rw [heldOf_diagN]
      split_ifs
      · exact heldOf_makeIdent _ _
      · rfl
    · refine heldOf_seqFin _ _ _ fun i s => ?_
      rw [heldOf_diagN]
      split_ifs
      · exact heldOf_makeIdent _ _
      · rfl
    · exact hp

theorem heldOf_gateBelowLoop : ∀ (n : Nat) (s : JState R) (em : Fin 4 → PtrEdge) (it : List Ctrl), (gateBelowLoop J n s em it).1.1.heldOf = s.heldOf := by
  intro n
  induction n with
  | zero => intros; rfl
  | succ n ih =>
    intro s em it
    exact (heldOf_gateBelow _ _ _ _).trans (ih _ _ _)

theorem heldOf_gateAbove (q : Nat) (s : JState R) (e : PtrEdge) (it : List Ctrl) : (gateAbove J q s e it).1.1.heldOf = s.heldOf := by
  unfold gateAbove
  cases it with
  | nil => exact heldOf_diagN _ _ _ _
  | cons c rest =>
    dsimp only
    split_ifs
    · rw [heldOf_diagN]; exact heldOf_makeIdent _ _
    · rw [heldOf_diagN]; exact heldOf_makeIdent _ _
    · exact heldOf_diagN _ _ _ _

theorem heldOf_gateAboveLoop (q0 : Nat) : ∀ (n : Nat) (s : JState R) (e : PtrEdge) (it : List Ctrl), (gateAboveLoop J q0 n s e it).1.1.heldOf = s.heldOf := by
  intro n
  induction n with
  | zero => intros; rfl
  | succ n ih =>
    intro s em it
    exact (heldOf_gateAbove _ _ _ _).trans (ih _ _ _)

theorem heldOf_makeGateDD {s s' : JState R} {U : Fin 4 → Cx R} {n : Nat} {controls : List Ctrl} {target : Nat} {e : PtrEdge}
    (h : s.makeGateDD J U n controls target = some (s', e)) : s'.heldOf = s.heldOf := by
  unfold makeGateDD at h
  split_ifs at h
  have h := congrArg Prod.fst (Option.some.inj h)
  dsimp only at h
  rw [← h, heldOf_gateAboveLoop, heldOf_makeN (heldOf_transposeF target), heldOf_gateBelowLoop]
  refine heldOf_seqFin _ _ _ fun i s => ?_
  unfold gateEntry
  split_ifs <;> rfl

end JState
end DD
