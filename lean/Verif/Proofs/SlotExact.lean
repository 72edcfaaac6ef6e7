import Verif.Model.SlotExact
import Verif.Proofs.SlotSim
import Verif.Proofs.Norm

/-! With exact arithmetic, the operations on plain values of Proofs/SlotSim.lean are those of Model/Package.lean. -/

namespace DD

set_option linter.unusedSectionVars false

variable {R : Type} [Field R] [LinearOrder R] [IsStrictOrderedRing R] [HasSqrt R]

/-- An edge of the package as operand. -/
def emb (e : PEdge R) : OE R := if e.w = 0 then PureOp.zeroO else ⟨e.p, some e.w⟩

/-- `o` stands for the edge `e`, as operand: for weight zero the node does not matter. -/
def Emb (e : PEdge R) (o : OE R) : Prop := (e.w = 0 ∧ o.w = none) ∨ (e.w ≠ 0 ∧ o = ⟨e.p, some e.w⟩)

theorem exact_isZero (z : Cx R) : (exactNum R).isZero z = true ↔ z = 0 := decide_eq_true_iff

theorem Emb.inj (e : PEdge R) : Emb e (PureOp.inj (exactNum R) e) := by
  unfold Emb PureOp.inj PureOp.ov
  by_cases h : e.w = 0
  · exact Or.inl ⟨h, if_pos h⟩
  · exact Or.inr ⟨h, by rw [if_neg (show ¬ e.w = (exactNum R).zero from h)]; rfl⟩

theorem Emb.emb (e : PEdge R) : Emb e (emb e) := by
  unfold Emb DD.emb
  by_cases h : e.w = 0
  · rw [if_pos h]; exact Or.inl ⟨h, rfl⟩
  · rw [if_neg h]; exact Or.inr ⟨h, rfl⟩

/-- An edge handed to `makeDDNode`: a result or a leaf. -/
def Raw (e : PEdge R) (o : OE R) : Prop := (e = zeroE ∧ o = PureOp.zeroO) ∨ o = ⟨e.p, some e.w⟩

theorem Raw.emb {e : PEdge R} (h : e.w = 0 → e = zeroE) : Raw e (emb e) := by
  unfold Raw DD.emb
  by_cases h0 : e.w = 0
  · rw [if_pos h0]; exact Or.inl ⟨h h0, rfl⟩
  · rw [if_neg h0]; exact Or.inr rfl

theorem Raw.rel {e : PEdge R} {o : OE R} (h : Raw e o) : PureOp.rel (exactNum R) o = DD.emb e := by
  unfold PureOp.rel DD.emb
  rcases h with ⟨rfl, rfl⟩ | rfl
  · rw [if_pos (show (zeroE : PEdge R).w = 0 from rfl)]; rfl
  · dsimp only
    by_cases h0 : e.w = 0
    · rw [if_pos h0, if_pos (by simp [exactNum, h0])]
    · rw [if_neg h0, if_neg (by simp [exactNum, h0])]

theorem seqFin_rel {S β γ : Type} {f : β → γ} {Φ : β → Prop} : ∀ {n : Nat} {g : Fin n → S → S × β} {g' : Fin n → S → S × γ},
    (∀ i s, g' i s = ((g i s).1, f (g i s).2) ∧ Φ (g i s).2) → ∀ s,
    seqFin n g' s = ((seqFin n g s).1, fun i => f ((seqFin n g s).2 i)) ∧ ∀ i, Φ ((seqFin n g s).2 i) := by
  intro n
  induction n with
  | zero => intro g g' _ s; exact ⟨Prod.ext rfl (funext fun i => i.elim0), fun i => i.elim0⟩
  | succ n ih =>
    intro g g' h s
    obtain ⟨h1, h2⟩ := h 0 s
    obtain ⟨h3, h4⟩ := ih (g := fun i => g i.succ) (g' := fun i => g' i.succ) (fun i s => h i.succ s) (g 0 s).1
    constructor
    · rw [seqFin, seqFin]
      dsimp only
      rw [h1]
      dsimp only
      rw [h3]
      refine Prod.ext rfl (funext fun i => ?_)
      refine Fin.cases ?_ (fun i => ?_) i <;> rfl
    · intro i
      rw [seqFin]
      refine Fin.cases ?_ (fun i => ?_) i
      · exact h2
      · exact h4 i

variable [LawfulSqrt R] {P : PCfg R} {tmp : Pkg R → List (Cx R)}

theorem exact_normV (s : Pkg R) {es : Fin 2 → PEdge R} {os : Fin 2 → OE R} (h : ∀ i, Raw (es i) (os i)) :
    PureOp.normV (exactNum R) s os = (s, Pkg.normV true es) := by
  unfold PureOp.normV Pkg.normV
  rw [(h 0).rel, (h 1).rel]
  have hd : ∀ i, Pkg.dropZeros true es i = if (es i).w = 0 then zeroE else es i := by
    intro i; unfold Pkg.dropZeros; simp
  unfold DD.emb
  by_cases h0 : (es 0).w = 0
  · have d0 : Pkg.dropZeros true es 0 = zeroE := by rw [hd, if_pos h0]
    unfold Pkg.normV1
    rw [if_pos h0, d0, if_pos (show (zeroE : PEdge R).w = 0 from rfl)]
    by_cases h1 : (es 1).w = 0
    · have d1 : Pkg.dropZeros true es 1 = zeroE := by rw [hd, if_pos h1]
      rw [if_pos h1, d1, if_pos (show (zeroE : PEdge R).w = 0 from rfl)]
      rfl
    · have d1 : Pkg.dropZeros true es 1 = es 1 := by rw [hd, if_neg h1]
      rw [if_neg h1, d1, if_neg h1]
      refine Prod.ext rfl (congrArg some (Prod.ext rfl (funext fun i => ?_)))
      match i with
      | 0 => dsimp only; rw [Function.update_of_ne (by decide), d0]; rfl
      | 1 => dsimp only; rw [Function.update_self]; rfl
  · have d0 : Pkg.dropZeros true es 0 = es 0 := by rw [hd, if_neg h0]
    by_cases h1 : (es 1).w = 0
    · have d1 : Pkg.dropZeros true es 1 = zeroE := by rw [hd, if_pos h1]
      unfold Pkg.normV1
      rw [if_neg h0, d0, if_neg h0]
      rw [if_pos h1, d1, if_pos (show (zeroE : PEdge R).w = 0 from rfl)]
      refine Prod.ext rfl (congrArg some (Prod.ext rfl (funext fun i => ?_)))
      match i with
      | 0 => dsimp only; rw [Function.update_self]; rfl
      | 1 => dsimp only; rw [Function.update_of_ne (by decide), d1]; rfl
    · have d1 : Pkg.dropZeros true es 1 = es 1 := by rw [hd, if_neg h1]
      have o0 : os 0 = ⟨(es 0).p, some (es 0).w⟩ := by
        rcases h 0 with ⟨e, _⟩ | e
        · exact absurd (by rw [e]; rfl) h0
        · exact e
      have o1 : os 1 = ⟨(es 1).p, some (es 1).w⟩ := by
        rcases h 1 with ⟨e, _⟩ | e
        · exact absurd (by rw [e]; rfl) h1
        · exact e
      have ed : Pkg.dropZeros true es = es := by
        funext i; match i with | 0 => exact d0 | 1 => exact d1
      rw [ed]
      have hsp := fun w es' => normV1_spec (es := es) (w := w) (es' := es')
      unfold Pkg.normV1 at hsp ⊢
      rw [if_neg h0, if_neg h1] at hsp ⊢
      have hne := (hsp _ _ rfl).1.ne
      rw [if_neg h0, if_neg h1]
      have p0 := Cx.mag2_pos h0
      have p1 := Cx.mag2_pos h1
      have hN := sqrt_pos (add_pos p0 p1)
      dsimp only at hne ⊢
      refine Prod.ext rfl (congrArg some (Prod.ext ?_ (funext fun i => ?_)))
      · show (exactNum R).vecTop _ _ = _
        unfold exactNum
        dsimp only
        by_cases hm : (es 0).w.mag2 ≥ (es 1).w.mag2
        · simp only [if_pos hm]
        · simp only [if_neg hm]
      · by_cases hm : (es 0).w.mag2 ≥ (es 1).w.mag2
        · have hM := sqrt_pos p0
          simp only [exactNum, Slots.orZero, if_pos hm, o0, o1] at hne ⊢
          match i with
          | 0 =>
            rw [if_pos rfl, if_neg, Function.update_of_ne (by decide), Function.update_self, o0]
            intro hc
            exact (div_pos hM hN).ne' (congrArg Cx.re hc)
          | 1 =>
            rw [if_neg (by decide), if_pos trivial, if_neg (div_ne_zero h1 hne), show (0 : Fin 2) + 1 = 1 from rfl, Function.update_self, o1]
        · have hM := sqrt_pos p1
          simp only [exactNum, Slots.orZero, if_neg hm, o0, o1] at hne ⊢
          match i with
          | 0 =>
            rw [if_neg (show ¬ (0 : Fin 2) = 1 by decide), if_neg (show ¬ (1 : Fin 2) = 0 by decide), if_neg (div_ne_zero h0 hne), show (1 : Fin 2) + 1 = 0 from rfl, Function.update_self, o0]
          | 1 =>
            rw [if_pos rfl, if_neg, o1, show (1 : Fin 2) + 1 = 0 from rfl, Function.update_of_ne (by decide), Function.update_self]
            intro hc
            exact (div_pos hM hN).ne' (congrArg Cx.re hc)

theorem exact_argMax (es : Fin 4 → PEdge R) :
    Slots.argMax (exactNum R) (fun i => (emb (es i)).w.getD 0) (fun i => (emb (es i)).w.isNone) = Pkg.argMaxM es := by
  unfold Slots.argMax Pkg.argMaxM
  have hw : ∀ i, (emb (es i)).w.getD 0 = (es i).w := by
    intro i; unfold emb
    by_cases h : (es i).w = 0
    · rw [if_pos h, h]; rfl
    · rw [if_neg h]; rfl
  have hz : ∀ i, (emb (es i)).w.isNone = decide ((es i).w = 0) := by
    intro i; unfold emb
    by_cases h : (es i).w = 0
    · rw [if_pos h]; simp [h, PureOp.zeroO]
    · rw [if_neg h]; simp [h]
  congr 1
  funext acc i
  simp only [hz i]
  by_cases h : (es i).w = 0
  · rw [if_pos h, if_pos (by simpa using h)]
  · rw [if_neg h, if_neg (by simpa using h)]
    cases acc with
    | none => rfl
    | some j => simp only [hw, exactNum, decide_eq_true_eq]

theorem seqFin_const {S β : Type} : ∀ {n : Nat} {g : Fin n → S → S × β} {f : Fin n → β} {s : S}, (∀ i, g i s = (s, f i)) → seqFin n g s = (s, f) := by
  intro n
  induction n with
  | zero => intro g f s _; exact Prod.ext rfl (funext fun i => i.elim0)
  | succ n ih =>
    intro g f s h
    rw [seqFin]
    simp only [h 0]
    rw [ih (g := fun i => g i.succ) (f := fun i => f i.succ) (s := s) fun i => h i.succ]
    refine Prod.ext rfl (funext fun i => ?_)
    refine Fin.cases ?_ (fun i => ?_) i <;> rfl

theorem exact_normM (s : Pkg R) {es : Fin 4 → PEdge R} {os : Fin 4 → OE R} (h : ∀ i, Raw (es i) (os i)) :
    PureOp.normM (exactNum R) s os = (s, Pkg.normM es) := by
  unfold PureOp.normM Pkg.normM
  have hr : (fun i => PureOp.rel (exactNum R) (os i)) = fun i => emb (es i) := funext fun i => (h i).rel
  have hr' := fun i => congrFun hr i
  simp only [hr']
  rw [show Slots.argMax (exactNum R) (fun i => (emb (es i)).w.getD ((exactNum R).val (exactNum R).zero)) (fun i => (emb (es i)).w.isNone) = Pkg.argMaxM es from exact_argMax es]
  cases hj : Pkg.argMaxM es with
  | none => rfl
  | some j =>
    have hjn : (es j).w ≠ 0 := (argMaxM_some hj).1
    dsimp only
    rw [seqFin_const (f := fun i => if i = j then ⟨(es i).p, 1⟩ else if (es i).w = 0 then zeroE else ⟨(es i).p, (es i).w / (es j).w⟩)]
    · refine Prod.ext rfl (congrArg some (Prod.ext ?_ rfl))
      unfold emb; rw [if_neg hjn]; rfl
    · intro i
      unfold PureOp.kidM
      by_cases hi : i = j
      · subst hi; rw [if_pos rfl, if_pos rfl]; unfold emb; dsimp only; rw [if_neg hjn]; rfl
      · rw [if_neg hi, if_neg hi]
        have ej : (emb (es j)).w.getD ((exactNum R).val (exactNum R).zero) = (es j).w := by unfold emb; rw [if_neg hjn]; rfl
        rw [ej]
        by_cases h0 : (es i).w = 0
        · unfold emb; dsimp only; rw [if_pos h0, if_pos h0]; rfl
        · unfold emb; dsimp only; rw [if_neg h0, if_neg h0]
          by_cases h1 : (es i).w = 1
          · simp [exactNum, h1]
          · simp [exactNum, h1]

theorem exact_norm (k : Kind) (s : Pkg R) {es : Fin (ar k) → PEdge R} {os : Fin (ar k) → OE R} (h : ∀ i, Raw (es i) (os i)) :
    PureOp.norm (exactNum R) k s os = (s, Pkg.norm k true es) := by
  cases k with
  | v => exact exact_normV s h
  | m => exact exact_normM s h

/-- The result of an operation on plain values stands for a result of the package. -/
def Res (o : Pkg R × OE R) (e : Pkg R × PEdge R) : Prop := o = (e.1, emb e.2) ∧ (e.2.w = 0 → e.2 = zeroE)

theorem Res.raw {o : Pkg R × OE R} {e : Pkg R × PEdge R} (h : Res o e) : Raw e.2 o.2 := by
  rw [h.1]; exact Raw.emb h.2

theorem Res.zero {s : Pkg R} : Res (s, PureOp.zeroO) (s, zeroE) :=
  ⟨by unfold emb; rw [if_pos (show (zeroE : PEdge R).w = 0 from rfl)], fun _ => rfl⟩

theorem Res.some {s : Pkg R} {p : Option Nat} {w : Cx R} (h : w ≠ 0) : Res (s, ⟨p, Option.some w⟩) (s, ⟨p, w⟩) :=
  ⟨by unfold emb; rw [if_neg h], fun h' => absurd h' h⟩

theorem exact_makeNode (k : Kind) (v : Nat) (s : Pkg R) {es : Fin (ar k) → PEdge R} {os : Fin (ar k) → OE R} (h : ∀ i, Raw (es i) (os i)) :
    Res (PureOp.makeNode (exactNum R) (exactTabs P tmp) k v s os) (Pkg.makeDDNode P k s v es true) := by
  unfold PureOp.makeNode Pkg.makeDDNode Pkg.makeNodeWith
  rw [exact_norm k s h]
  cases hn : Pkg.norm k true es with
  | none => exact Res.zero
  | some q =>
    obtain ⟨w, es'⟩ := q
    exact Res.some (norm_spec hn).ne

theorem lvl_irrel (P : PCfg R) (tmp) (s : Pkg R) (k : Kind) (x : PEdge R) : (exactTabs P tmp).lvl s k x.p = s.lv k x := rfl

theorem emb_back {e : PEdge R} (he : e.w = 0 → e = zeroE) :
    (⟨(emb e).p, (emb e).w.getD ((exactNum R).val (exactNum R).zero)⟩ : PEdge R) = e := by
  unfold emb
  by_cases h0 : e.w = 0
  · rw [if_pos h0, he h0]; rfl
  · rw [if_neg h0]; rfl

theorem exact_addChild (s : Pkg R) (k : Kind) {x : PEdge R} {o : OE R} (h : x.w ≠ 0) (ho : o = ⟨x.p, some x.w⟩) (w : Nat) (i : Fin (ar k)) :
    Emb (Pkg.addChild s k x w i) (PureOp.addChild (exactNum R) (exactTabs P tmp) s k o w i) := by
  subst ho
  unfold Pkg.addChild PureOp.addChild
  obtain ⟨xp, xw⟩ := x
  dsimp only at h ⊢
  cases xp with
  | none => exact Or.inr ⟨h, rfl⟩
  | some a =>
    dsimp only
    have hl : ((exactTabs P tmp).lvl s k (some a) = w + 1) ↔ ((s.ut k).mem a).v = w := by
      show ((s.ut k).mem a).v + 1 = w + 1 ↔ _
      omega
    by_cases hv : ((s.ut k).mem a).v = w
    · rw [if_pos hv, if_pos (hl.2 hv)]
      show Emb (if (((s.ut k).mem a).e i).w ≠ 0 then _ else _) (if (((s.ut k).mem a).e i).w ≠ 0 then _ else _)
      by_cases h0 : (((s.ut k).mem a).e i).w = 0
      · rw [if_neg (not_not.2 h0), if_neg (not_not.2 h0)]; exact Or.inl ⟨h0, rfl⟩
      · rw [if_pos h0, if_pos h0]; exact Or.inr ⟨mul_ne_zero h0 h, rfl⟩
    · rw [if_neg hv, if_neg (fun e => hv (hl.1 e))]
      exact Or.inr ⟨h, rfl⟩

theorem exact_add2 (k : Kind) : ∀ (l : Nat) (s : Pkg R) {x y : PEdge R} {ox oy : OE R}, Emb x ox → Emb y oy →
    Res (PureOp.add2 (exactNum R) (exactTabs P tmp) k l s ox oy) (Pkg.add2F P k l s x y) := by
  intro l
  induction l with
  | zero =>
    intro s x y ox oy hx hy
    unfold PureOp.add2 Pkg.add2F
    rcases hx with ⟨hx, ex⟩ | ⟨hx, rfl⟩ <;> rcases hy with ⟨hy, ey⟩ | ⟨hy, rfl⟩
    · rw [if_pos hx, if_pos hy, ex, ey]; exact Res.zero
    · rw [if_pos hx, if_neg hy, ex]; exact Res.some hy
    · rw [if_neg hx, if_pos hy, ey]; exact Res.some hx
    · rw [if_neg hx, if_neg hy]
      dsimp only
      by_cases hp : x.p = y.p
      · rw [if_pos hp, if_pos hp]
        by_cases h0 : x.w + y.w = 0
        · rw [if_pos h0, if_pos ((exact_isZero ((exactNum R).add x.w y.w)).2 h0)]; exact Res.zero
        · rw [if_neg h0, if_neg ((exact_isZero ((exactNum R).add x.w y.w)).not.2 h0)]; exact Res.some h0
      · rw [if_neg hp, if_neg hp]
        have hl : (exactTabs P tmp).addLook s k ⟨x.p, x.w⟩ ⟨y.p, y.w⟩ = Pkg.look (P.addH k) (s.addC k) (x, y) := rfl
        rw [hl]
        cases Pkg.look (P.addH k) (s.addC k) (x, y) with
        | none => exact Res.zero
        | some r =>
          dsimp only
          by_cases h0 : r.w = 0
          · rw [if_pos h0, if_pos ((exact_isZero r.w).2 h0)]; exact Res.zero
          · rw [if_neg h0, if_neg ((exact_isZero r.w).not.2 h0)]; exact Res.some h0
  | succ l ih =>
    intro s x y ox oy hx hy
    rw [PureOp.add2.eq_def, Pkg.add2F.eq_def]
    dsimp only
    rcases hx with ⟨hx, ex⟩ | ⟨hx, rfl⟩ <;> rcases hy with ⟨hy, ey⟩ | ⟨hy, rfl⟩
    · rw [if_pos hx, if_pos hy, ex, ey]; exact Res.zero
    · rw [if_pos hx, if_neg hy, ex]; exact Res.some hy
    · rw [if_neg hx, if_pos hy, ey]; exact Res.some hx
    · rw [if_neg hx, if_neg hy]
      dsimp only
      by_cases hp : x.p = y.p
      · rw [if_pos hp, if_pos hp]
        by_cases h0 : x.w + y.w = 0
        · rw [if_pos h0, if_pos ((exact_isZero ((exactNum R).add x.w y.w)).2 h0)]; exact Res.zero
        · rw [if_neg h0, if_neg ((exact_isZero ((exactNum R).add x.w y.w)).not.2 h0)]; exact Res.some h0
      · rw [if_neg hp, if_neg hp]
        have hl : (exactTabs P tmp).addLook s k ⟨x.p, x.w⟩ ⟨y.p, y.w⟩ = Pkg.look (P.addH k) (s.addC k) (x, y) := rfl
        rw [hl]
        cases Pkg.look (P.addH k) (s.addC k) (x, y) with
        | none =>
          dsimp only
          have hq := seqFin_rel (f := emb) (Φ := fun e : PEdge R => e.w = 0 → e = zeroE)
            (g := fun i s' => Pkg.add2F P k l s' (Pkg.addChild s k x (max (s.lv k x) (s.lv k y) - 1) i) (Pkg.addChild s k y (max (s.lv k x) (s.lv k y) - 1) i))
            (g' := fun i t' => PureOp.add2 (exactNum R) (exactTabs P tmp) k l t'
              (PureOp.addChild (exactNum R) (exactTabs P tmp) s k ⟨x.p, some x.w⟩ (max (s.lv k x) (s.lv k y) - 1) i)
              (PureOp.addChild (exactNum R) (exactTabs P tmp) s k ⟨y.p, some y.w⟩ (max (s.lv k x) (s.lv k y) - 1) i))
            (fun i s' => ih s' (exact_addChild s k hx rfl _ i) (exact_addChild s k hy rfl _ i)) s
          have hm := exact_makeNode (P := P) (tmp := tmp) k (max (s.lv k x) (s.lv k y) - 1)
            (seqFin (ar k) (fun i s' => Pkg.add2F P k l s' (Pkg.addChild s k x (max (s.lv k x) (s.lv k y) - 1) i) (Pkg.addChild s k y (max (s.lv k x) (s.lv k y) - 1) i)) s).1
            (fun i => Raw.emb (hq.2 i))
          rw [lvl_irrel, lvl_irrel, hq.1]
          dsimp only
          refine ⟨?_, hm.2⟩
          rw [hm.1]
          refine Prod.ext ?_ rfl
          show (exactTabs P tmp).addIns _ k x y _ = _
          rw [emb_back hm.2]
          rfl
        | some r =>
          dsimp only
          by_cases h0 : r.w = 0
          · rw [if_pos h0, if_pos ((exact_isZero r.w).2 h0)]; exact Res.zero
          · rw [if_neg h0, if_neg ((exact_isZero r.w).not.2 h0)]; exact Res.some h0

theorem exact_finish {o : Pkg R × OE R} {e : Pkg R × PEdge R} (h : Res o e) : PureOp.finish (exactNum R) o = e := by
  rw [h.1]
  obtain ⟨s, e⟩ := e
  unfold PureOp.finish
  by_cases h0 : e.w = 0
  · have he : e = zeroE := h.2 h0
    subst he
    unfold emb; rw [if_pos h0]; rfl
  · unfold emb; rw [if_neg h0]; rfl

theorem exact_add (k : Kind) (s : Pkg R) (x y : PEdge R) :
    PureOp.add (exactNum R) (exactTabs P tmp) k s x y = Pkg.add P k s x y :=
  exact_finish (exact_add2 k _ s (Emb.inj x) (Emb.inj y))

theorem exact_mulChild (s : Pkg R) (k : Kind) (x : PEdge R) (w : Nat) (i : Fin (ar k)) :
    Slots.mulChild (exactNum R) (exactTabs P tmp) s k x w i = Pkg.mulChild s k x w i := by
  unfold Slots.mulChild Pkg.mulChild
  cases x.p with
  | none => rfl
  | some a =>
    dsimp only
    have hl : ((exactTabs P tmp).lvl s k (some a) = w + 1) ↔ ((s.ut k).mem a).v = w := by
      show ((s.ut k).mem a).v + 1 = w + 1 ↔ _
      omega
    by_cases hv : ((s.ut k).mem a).v = w
    · rw [if_pos hv, if_pos (hl.2 hv)]; rfl
    · rw [if_neg hv, if_neg (fun e => hv (hl.1 e))]; rfl

theorem exact_scaled (s : Pkg R) (z : Cx R) (p : Option Nat) (x y : Cx R) :
    Res (s, PureOp.scaled (exactNum R) z p x y) (if z * x * y = 0 then (s, zeroE) else (s, ⟨p, z * x * y⟩)) := by
  unfold PureOp.scaled
  dsimp only
  by_cases h0 : z * x * y = 0
  · rw [if_pos h0, if_pos ((exact_isZero ((exactNum R).mul ((exactNum R).mul z ((exactNum R).val x)) ((exactNum R).val y))).2 h0)]; exact Res.zero
  · rw [if_neg h0, if_neg ((exact_isZero ((exactNum R).mul ((exactNum R).mul z ((exactNum R).val x)) ((exactNum R).val y))).not.2 h0)]; exact Res.some h0

theorem exact_multiply2 (k : Kind) : ∀ (l : Nat) (s : Pkg R) (x y : PEdge R),
    Res (PureOp.multiply2 (exactNum R) (exactTabs P tmp) k l s x y) (Pkg.multiply2F P k l s x y) := by
  intro l
  induction l with
  | zero =>
    intro s x y
    unfold PureOp.multiply2 Pkg.multiply2F
    by_cases h : x.w = 0 ∨ y.w = 0
    · rw [if_pos h, if_pos (show x.w = (exactNum R).zero ∨ y.w = (exactNum R).zero from h)]; exact Res.zero
    · rw [if_neg h, if_neg (show ¬ (x.w = (exactNum R).zero ∨ y.w = (exactNum R).zero) from h)]
      exact Res.some (mul_ne_zero (fun e => h (Or.inl e)) (fun e => h (Or.inr e)))
  | succ l ih =>
    intro s x y
    rw [PureOp.multiply2.eq_def, Pkg.multiply2F.eq_def]
    dsimp only
    by_cases h : x.w = 0 ∨ y.w = 0
    · rw [if_pos h, if_pos (show x.w = (exactNum R).zero ∨ y.w = (exactNum R).zero from h)]; exact Res.zero
    · rw [if_neg h, if_neg (show ¬ (x.w = (exactNum R).zero ∨ y.w = (exactNum R).zero) from h)]
      have hl : (exactTabs P tmp).mulLook s k x.p y.p = Pkg.look (P.mulH k) (s.mulC k) (⟨x.p, 1⟩, ⟨y.p, 1⟩) := rfl
      rw [hl]
      cases Pkg.look (P.mulH k) (s.mulC k) (⟨x.p, 1⟩, ⟨y.p, 1⟩) with
      | some r =>
        dsimp only
        by_cases h0 : r.w = 0
        · rw [if_pos h0, if_pos ((exact_isZero r.w).2 h0)]; exact Res.zero
        · rw [if_neg h0, if_neg ((exact_isZero r.w).not.2 h0)]; exact exact_scaled s r.w r.p x.w y.w
      | none =>
        dsimp only
        have hq := seqFin_rel (f := emb) (Φ := fun e : PEdge R => e.w = 0 → e = zeroE)
          (g := fun idx s' =>
            let m0 := Pkg.multiply2F P k l s' (Pkg.mulChild s .m x l (Pkg.mulL k idx 0)) (Pkg.mulChild s k y l (Pkg.mulR k idx 0))
            let m1 := Pkg.multiply2F P k l m0.1 (Pkg.mulChild s .m x l (Pkg.mulL k idx 1)) (Pkg.mulChild s k y l (Pkg.mulR k idx 1))
            if m0.2.w = 0 then m1
            else if m1.2.w ≠ 0 then Pkg.add2F P k l m1.1 m0.2 m1.2
            else (m1.1, m0.2))
          (g' := fun idx t' =>
            let m0 := PureOp.multiply2 (exactNum R) (exactTabs P tmp) k l t' (Slots.mulChild (exactNum R) (exactTabs P tmp) s .m x l (Pkg.mulL k idx 0))
              (Slots.mulChild (exactNum R) (exactTabs P tmp) s k y l (Pkg.mulR k idx 0))
            let m1 := PureOp.multiply2 (exactNum R) (exactTabs P tmp) k l m0.1 (Slots.mulChild (exactNum R) (exactTabs P tmp) s .m x l (Pkg.mulL k idx 1))
              (Slots.mulChild (exactNum R) (exactTabs P tmp) s k y l (Pkg.mulR k idx 1))
            match m0.2.w with
            | none => m1
            | some _ =>
              match m1.2.w with
              | some _ => PureOp.add2 (exactNum R) (exactTabs P tmp) k l m1.1 m0.2 m1.2
              | none => (m1.1, m0.2))
          (by
            intro idx s'
            simp only [exact_mulChild]
            have a0 := ih s' (Pkg.mulChild s .m x l (Pkg.mulL k idx 0)) (Pkg.mulChild s k y l (Pkg.mulR k idx 0))
            revert a0
            generalize Pkg.multiply2F P k l s' (Pkg.mulChild s .m x l (Pkg.mulL k idx 0)) (Pkg.mulChild s k y l (Pkg.mulR k idx 0)) = m0
            rintro ⟨a0, b0⟩
            rw [a0]
            have a1 := ih m0.1 (Pkg.mulChild s .m x l (Pkg.mulL k idx 1)) (Pkg.mulChild s k y l (Pkg.mulR k idx 1))
            revert a1
            dsimp only
            generalize Pkg.multiply2F P k l m0.1 (Pkg.mulChild s .m x l (Pkg.mulL k idx 1)) (Pkg.mulChild s k y l (Pkg.mulR k idx 1)) = m1
            rintro ⟨a1, b1⟩
            rw [a1]
            dsimp only
            by_cases h0 : m0.2.w = 0
            · rw [if_pos h0]
              have : (emb m0.2).w = none := by unfold emb; rw [if_pos h0]; rfl
              rw [this]; exact ⟨rfl, b1⟩
            · rw [if_neg h0]
              have e0 : (emb m0.2).w = some m0.2.w := by unfold emb; rw [if_neg h0]
              rw [e0]
              dsimp only
              by_cases h1 : m1.2.w = 0
              · have : (emb m1.2).w = none := by unfold emb; rw [if_pos h1]; rfl
                rw [this, if_neg (not_not.2 h1)]
                exact ⟨rfl, b0⟩
              · have : (emb m1.2).w = some m1.2.w := by unfold emb; rw [if_neg h1]
                rw [this, if_pos h1]
                exact exact_add2 k l m1.1 (Emb.emb m0.2) (Emb.emb m1.2)) s
        have key : ∀ (q' : Pkg R × (Fin (ar k) → OE R)) (q : Pkg R × (Fin (ar k) → PEdge R)), q' = (q.1, fun i => emb (q.2 i)) →
            (∀ i, (q.2 i).w = 0 → q.2 i = zeroE) →
            Res (match (PureOp.makeNode (exactNum R) (exactTabs P tmp) k l q'.1 q'.2).2.w with
              | none => ((exactTabs P tmp).mulIns (PureOp.makeNode (exactNum R) (exactTabs P tmp) k l q'.1 q'.2).1 k x.p y.p
                  ⟨(PureOp.makeNode (exactNum R) (exactTabs P tmp) k l q'.1 q'.2).2.p,
                    (PureOp.makeNode (exactNum R) (exactTabs P tmp) k l q'.1 q'.2).2.w.getD ((exactNum R).val (exactNum R).zero)⟩,
                  (PureOp.makeNode (exactNum R) (exactTabs P tmp) k l q'.1 q'.2).2)
              | some z => ((exactTabs P tmp).mulIns (PureOp.makeNode (exactNum R) (exactTabs P tmp) k l q'.1 q'.2).1 k x.p y.p
                  ⟨(PureOp.makeNode (exactNum R) (exactTabs P tmp) k l q'.1 q'.2).2.p,
                    (PureOp.makeNode (exactNum R) (exactTabs P tmp) k l q'.1 q'.2).2.w.getD ((exactNum R).val (exactNum R).zero)⟩,
                  PureOp.scaled (exactNum R) z (PureOp.makeNode (exactNum R) (exactTabs P tmp) k l q'.1 q'.2).2.p x.w y.w))
              (let r := Pkg.makeDDNode P k q.1 l q.2 true
               let s2 := (exactTabs P tmp).mulIns r.1 k x.p y.p r.2
               if r.2.w ≠ 0 then
                let w := r.2.w * x.w * y.w
                if w = 0 then (s2, zeroE) else (s2, ⟨r.2.p, w⟩)
               else (s2, r.2)) := by
          rintro q' q rfl hb
          have hm := exact_makeNode (P := P) (tmp := tmp) k l q.1 (fun i => Raw.emb (hb i))
          dsimp only
          rw [hm.1]
          dsimp only
          have hb := hm.2
          generalize Pkg.makeDDNode P k _ l _ true = r at hb ⊢
          rw [emb_back hb]
          by_cases h0 : r.2.w = 0
          · have : (emb r.2).w = none := by unfold emb; rw [if_pos h0]; rfl
            rw [this, if_neg (not_not.2 h0)]
            exact ⟨rfl, hb⟩
          · have : (emb r.2).w = some r.2.w := by unfold emb; rw [if_neg h0]
            rw [this, if_pos h0]
            have hp : (emb r.2).p = r.2.p := by unfold emb; rw [if_neg h0]
            rw [hp]
            exact exact_scaled _ r.2.w r.2.p x.w y.w
        exact key _ _ hq.1 hq.2

theorem exact_multiply (k : Kind) (s : Pkg R) (x y : PEdge R) :
    PureOp.multiply (exactNum R) (exactTabs P tmp) k s x y = Pkg.multiply P k s x y :=
  exact_finish (exact_multiply2 k _ s x y)

theorem exact_or (x y : Cx R) : ((exactNum R).isZero ((exactNum R).val x) || (exactNum R).isZero ((exactNum R).val y)) = true ↔ x = 0 ∨ y = 0 := by
  rw [Bool.or_eq_true, exact_isZero, exact_isZero]; rfl

theorem exact_kron2 (k : Kind) : ∀ (l : Nat) (s : Pkg R) (x y : PEdge R),
    Res (PureOp.kron2 (exactNum R) (exactTabs P tmp) k l s x y) (Pkg.kron2F P k l s x y) := by
  intro l
  induction l with
  | zero =>
    intro s x y
    unfold PureOp.kron2 Pkg.kron2F
    by_cases h : x.w = 0 ∨ y.w = 0
    · rw [if_pos h, if_pos ((exact_or x.w y.w).2 h)]; exact Res.zero
    · rw [if_neg h, if_neg ((exact_or x.w y.w).not.2 h)]
      have hx : x.w ≠ 0 := fun e => h (Or.inl e)
      have hy : y.w ≠ 0 := fun e => h (Or.inr e)
      cases hp : x.p with
      | none => exact Res.some (mul_ne_zero hx hy)
      | some a =>
        dsimp only
        have hl : (exactTabs P tmp).kronLook s k x y = Pkg.look (P.kronH k) (s.kronC k) (x, y) := rfl
        rw [hl]
        cases Pkg.look (P.kronH k) (s.kronC k) (x, y) with
        | some r =>
          dsimp only
          by_cases h0 : r.w = 0
          · rw [if_pos h0, if_pos ((exact_isZero r.w).2 h0)]; exact Res.zero
          · rw [if_neg h0, if_neg ((exact_isZero r.w).not.2 h0)]; exact Res.some h0
        | none =>
          dsimp only
          have hi : (exactTabs P tmp).ident s a = ((s.ut .m).mem a).ident := rfl
          by_cases hc : k = .m ∧ ((s.ut k).mem a).ident = true
          · obtain ⟨rfl, hc⟩ := hc
            rw [if_pos ⟨rfl, hc⟩, if_pos ⟨rfl, hc⟩]
            exact Res.some hy
          · rw [if_neg hc, if_neg (by rintro ⟨rfl, h'⟩; exact hc ⟨rfl, h'⟩)]
            exact Res.zero
  | succ l ih =>
    intro s x y
    rw [PureOp.kron2.eq_def, Pkg.kron2F.eq_def]
    dsimp only
    by_cases h : x.w = 0 ∨ y.w = 0
    · rw [if_pos h, if_pos ((exact_or x.w y.w).2 h)]; exact Res.zero
    · rw [if_neg h, if_neg ((exact_or x.w y.w).not.2 h)]
      have hx : x.w ≠ 0 := fun e => h (Or.inl e)
      have hy : y.w ≠ 0 := fun e => h (Or.inr e)
      cases hp : x.p with
      | none => exact Res.some (mul_ne_zero hx hy)
      | some a =>
        dsimp only
        have hl : (exactTabs P tmp).kronLook s k x y = Pkg.look (P.kronH k) (s.kronC k) (x, y) := rfl
        rw [hl]
        cases Pkg.look (P.kronH k) (s.kronC k) (x, y) with
        | some r =>
          dsimp only
          by_cases h0 : r.w = 0
          · rw [if_pos h0, if_pos ((exact_isZero r.w).2 h0)]; exact Res.zero
          · rw [if_neg h0, if_neg ((exact_isZero r.w).not.2 h0)]; exact Res.some h0
        | none =>
          dsimp only
          have hi : (exactTabs P tmp).ident s a = ((s.ut .m).mem a).ident := rfl
          by_cases hc : k = .m ∧ ((s.ut k).mem a).ident = true
          · obtain ⟨rfl, hc⟩ := hc
            rw [if_pos ⟨rfl, hc⟩, if_pos ⟨rfl, hc⟩]
            exact Res.some hy
          · rw [if_neg hc, if_neg (by rintro ⟨rfl, h'⟩; exact hc ⟨rfl, h'⟩)]
            have hq := seqFin_rel (f := emb) (Φ := fun e : PEdge R => e.w = 0 → e = zeroE)
              (g := fun i s' => Pkg.kron2F P k l s' (((s.ut k).mem a).e i) y)
              (g' := fun i t' => PureOp.kron2 (exactNum R) (exactTabs P tmp) k l t' ((exactTabs P tmp).kids s k a i) y)
              (fun i s' => ih s' _ y) s
            rw [hq.1]
            dsimp only
            have hm := exact_makeNode (P := P) (tmp := tmp) k (s.lv k y + ((s.ut k).mem a).v)
              (seqFin (ar k) (fun i s' => Pkg.kron2F P k l s' (((s.ut k).mem a).e i) y) s).1
              (fun i => Raw.emb (hq.2 i))
            rw [show (exactTabs P tmp).lvl s k y.p + ((exactTabs P tmp).lvl s k (some a) - 1) = s.lv k y + ((s.ut k).mem a).v from rfl]
            rw [hm.1]
            dsimp only
            have hb := hm.2
            generalize Pkg.makeDDNode P k _ _ _ true = r at hb ⊢
            by_cases h0 : r.2.w = 0
            · rw [hb h0]
              have : emb (zeroE : PEdge R) = PureOp.zeroO := by unfold emb; rw [if_pos (show (zeroE : PEdge R).w = 0 from rfl)]
              rw [this]
              have hz : (⟨(zeroE : PEdge R).p, (zeroE : PEdge R).w * x.w⟩ : PEdge R) = zeroE := by
                show (⟨none, 0 * x.w⟩ : PEdge R) = _
                rw [zero_mul]; rfl
              rw [hz]
              exact Res.zero
            · have : emb r.2 = ⟨r.2.p, some r.2.w⟩ := by unfold emb; rw [if_neg h0]
              rw [this]
              exact Res.some (mul_ne_zero h0 hx)

theorem exact_kronecker (k : Kind) (s : Pkg R) (x y : PEdge R) :
    PureOp.kronecker (exactNum R) (exactTabs P tmp) k s x y = Pkg.kronecker P k s x y :=
  exact_finish (exact_kron2 k _ s x y)

theorem exact_stateF : ∀ (l : Nat) (s : Pkg R) (xs : List (Cx R)), xs.length = 2 ^ (l + 1) →
    Res (PureOp.stateF (exactNum R) (exactTabs P tmp) l s xs) (Pkg.stateF P l s xs) := by
  intro l
  induction l with
  | zero =>
    intro s xs hxs
    match xs, hxs with
    | [x, y], _ =>
      refine exact_makeNode .v 0 s ?_
      intro i
      match i with
      | 0 => exact Or.inr rfl
      | 1 => exact Or.inr rfl
  | succ l ih =>
    intro s xs hxs
    unfold PureOp.stateF Pkg.stateF
    dsimp only
    have hl : xs.length / 2 = 2 ^ (l + 1) := by rw [hxs, pow_succ]; omega
    have h0 := ih s (xs.take (xs.length / 2)) (by rw [List.length_take, hl, hxs, pow_succ 2 (l + 1)]; omega)
    have h1 := ih (Pkg.stateF P l s (xs.take (xs.length / 2))).1 (xs.drop (xs.length / 2))
      (by rw [List.length_drop, hl, hxs, pow_succ 2 (l + 1)]; omega)
    rw [h0.1]
    dsimp only
    rw [h1.1]
    refine exact_makeNode .v (l + 1) _ ?_
    intro i
    match i with
    | 0 => exact Raw.emb h0.2
    | 1 => exact Raw.emb h1.2

/-- For blocks of more than one entry; a single entry is a weight that has not been normalised. -/
theorem exact_matrixF (M : List (List (Cx R))) : ∀ (l : Nat) (s : Pkg R) (r0 r1 c0 c1 : Nat),
    (PureOp.matrixF (exactNum R) (exactTabs P tmp) (fun i j => (M.getD i []).getD j 0) l s r0 r1 c0 c1).1 = (Pkg.matrixF P M l s r0 r1 c0 c1).1 ∧
    Raw (Pkg.matrixF P M l s r0 r1 c0 c1).2 (PureOp.matrixF (exactNum R) (exactTabs P tmp) (fun i j => (M.getD i []).getD j 0) l s r0 r1 c0 c1).2 ∧
    (l ≠ 0 → Res (PureOp.matrixF (exactNum R) (exactTabs P tmp) (fun i j => (M.getD i []).getD j 0) l s r0 r1 c0 c1) (Pkg.matrixF P M l s r0 r1 c0 c1)) := by
  intro l
  induction l with
  | zero => intro s r0 r1 c0 c1; exact ⟨rfl, Or.inr rfl, fun h => absurd rfl h⟩
  | succ l ih =>
    intro s r0 r1 c0 c1
    have key : Res (PureOp.matrixF (exactNum R) (exactTabs P tmp) (fun i j => (M.getD i []).getD j 0) (l + 1) s r0 r1 c0 c1) (Pkg.matrixF P M (l + 1) s r0 r1 c0 c1) := by
      unfold PureOp.matrixF Pkg.matrixF
      dsimp only
      obtain ⟨a0, b0, _⟩ := ih s r0 ((r0 + r1) / 2) c0 ((c0 + c1) / 2)
      generalize Pkg.matrixF P M l s r0 ((r0 + r1) / 2) c0 ((c0 + c1) / 2) = e0 at a0 b0 ⊢
      rw [a0]
      obtain ⟨a1, b1, _⟩ := ih e0.1 r0 ((r0 + r1) / 2) ((c0 + c1) / 2) c1
      generalize Pkg.matrixF P M l e0.1 r0 ((r0 + r1) / 2) ((c0 + c1) / 2) c1 = e1 at a1 b1 ⊢
      rw [a1]
      obtain ⟨a2, b2, _⟩ := ih e1.1 ((r0 + r1) / 2) r1 c0 ((c0 + c1) / 2)
      generalize Pkg.matrixF P M l e1.1 ((r0 + r1) / 2) r1 c0 ((c0 + c1) / 2) = e2 at a2 b2 ⊢
      rw [a2]
      obtain ⟨a3, b3, _⟩ := ih e2.1 ((r0 + r1) / 2) r1 ((c0 + c1) / 2) c1
      generalize Pkg.matrixF P M l e2.1 ((r0 + r1) / 2) r1 ((c0 + c1) / 2) c1 = e3 at a3 b3 ⊢
      rw [a3]
      refine exact_makeNode .m l e3.1 ?_
      intro i
      match i with
      | 0 => exact b0
      | 1 => exact b1
      | 2 => exact b2
      | 3 => exact b3
    exact ⟨by rw [key.1], key.raw, fun _ => key⟩

theorem exact_trace (elim : List Bool) : ∀ (l : Nat) (s : Pkg R) (a : PEdge R) (done : Nat),
    PureOp.trace (exactNum R) (exactTabs P tmp) (exactPlain P tmp) elim l s a done = Pkg.traceF P elim l s a done := by
  intro l
  induction l with
  | zero =>
    intro s a done
    unfold PureOp.trace Pkg.traceF
    by_cases h0 : a.w = 0
    · rw [if_pos h0, if_pos ((exact_isZero ((exactNum R).val a.w)).2 h0)]; rfl
    · rw [if_neg h0, if_neg ((exact_isZero ((exactNum R).val a.w)).not.2 h0)]
      by_cases h1 : elim.all (fun b => !b) = true
      · rw [if_pos h1]
      · rw [if_neg h1]; cases a.p <;> rfl
  | succ l ih =>
    intro s a done
    unfold PureOp.trace
    rw [Pkg.traceF.eq_def]
    dsimp only
    by_cases h0 : a.w = 0
    · rw [if_pos h0, if_pos ((exact_isZero ((exactNum R).val a.w)).2 h0)]; rfl
    · rw [if_neg h0, if_neg ((exact_isZero ((exactNum R).val a.w)).not.2 h0)]
      by_cases h1 : elim.all (fun b => !b) = true
      · rw [if_pos h1, if_pos h1]
      · rw [if_neg h1, if_neg h1]
        cases hp : a.p with
        | none => rfl
        | some p =>
          dsimp only
          rw [show (exactTabs P tmp).lvl s .m (some p) - 1 = ((s.ut .m).mem p).v from rfl]
          rw [show (exactTabs P tmp).kids s .m p = ((s.ut .m).mem p).e from rfl]
          by_cases h2 : elim.getD ((s.ut .m).mem p).v false = true
          · rw [if_pos h2, if_pos h2, ih s (((s.ut .m).mem p).e 0) (done + 1)]
            generalize Pkg.traceF P elim l s (((s.ut .m).mem p).e 0) (done + 1) = t0
            have ha : ∀ (fuel : Nat), Res (PureOp.add2 (exactNum R) (exactTabs P tmp) .m fuel t0.1 PureOp.zeroO (PureOp.inj (exactNum R) t0.2))
                (Pkg.add P .m t0.1 zeroE t0.2) := by
              intro fuel
              have := exact_add2 (P := P) (tmp := tmp) .m fuel t0.1 (x := zeroE) (ox := PureOp.zeroO) (Or.inl ⟨rfl, rfl⟩) (Emb.inj t0.2)
              have e : ∀ f, Pkg.add2F P .m f t0.1 zeroE t0.2 = if t0.2.w = 0 then (t0.1, zeroE) else (t0.1, t0.2) := by
                intro f
                rw [Pkg.add2F.eq_def]
                dsimp only
                rw [if_pos (show (zeroE : PEdge R).w = 0 from rfl)]
              unfold Pkg.add
              rw [e] at this ⊢
              exact this
            have hr1 := ha ((exactTabs P tmp).lvl t0.1 .m t0.2.p)
            revert hr1
            generalize Pkg.add P .m t0.1 zeroE t0.2 = r1
            intro hr1
            rw [hr1.1]
            dsimp only
            rw [ih]
            generalize Pkg.traceF P elim l r1.1 (((s.ut .m).mem p).e 3) (done + 1) = t1
            have hlv : (exactTabs P tmp).lvl t1.1 .m (emb r1.2).p = t1.1.lv .m r1.2 := by
              unfold emb
              by_cases h : r1.2.w = 0
              · rw [if_pos h, hr1.2 h]; rfl
              · rw [if_neg h]; rfl
            have hr2 := exact_add2 (P := P) (tmp := tmp) .m (max (t1.1.lv .m r1.2) (t1.1.lv .m t1.2)) t1.1 (Emb.emb r1.2) (Emb.inj t1.2)
            rw [hlv, lvl_irrel, hr2.1]
            unfold Pkg.add
            have hb := hr2.2
            generalize Pkg.add2F P .m (max (t1.1.lv .m r1.2) (t1.1.lv .m t1.2)) t1.1 r1.2 t1.2 = r2 at hb ⊢
            dsimp only
            have hb' := emb_back hb
            refine Prod.ext rfl ?_
            show (⟨(emb r2.2).p, (emb r2.2).w.getD 0 * a.w⟩ : PEdge R) = _
            rw [show (emb r2.2).p = r2.2.p from congrArg Edge.p hb', show (emb r2.2).w.getD 0 = r2.2.w from congrArg Edge.w hb']
          · rw [if_neg h2, if_neg h2]
            rw [show (fun i t' => PureOp.trace (exactNum R) (exactTabs P tmp) (exactPlain P tmp) elim l t' (((s.ut .m).mem p).e i) done)
              = fun i t' => Pkg.traceF P elim l t' (((s.ut .m).mem p).e i) done from funext fun i => funext fun t' => ih t' _ done]
            generalize seqFin 4 (fun i t' => Pkg.traceF P elim l t' (((s.ut .m).mem p).e i) done) s = q
            have aux : ∀ m : Pkg R × PEdge R, PureOp.scaleT (exactNum R) m.1 m.2.w a.w = (m.1, m.2.w * a.w) := by
              intro m
              unfold PureOp.scaleT
              by_cases h3 : m.2.w = 1
              · rw [if_pos (show m.2.w = (exactNum R).one from h3), h3, one_mul]
              · rw [if_neg (show ¬ m.2.w = (exactNum R).one from h3)]; rfl
            have := aux (Pkg.makeDDNode P .m q.1 (((s.ut .m).mem p).v - (elim.count true - done)) q.2 false)
            exact congrArg (fun w : Pkg R × Cx R =>
              (w.1, (⟨(Pkg.makeDDNode P .m q.1 (((s.ut .m).mem p).v - (elim.count true - done)) q.2 false).2.p, w.2⟩ : PEdge R))) this

end DD
