import Verif.Proofs.Slots
import Mathlib.Tactic.FinCases

/-!
The operations of Model/Slots.lean do what the same operations on plain values do, and hold no slot in the end but that of the
result. In the versions on plain values a weight is `none` (for `Complex::zero`) or a value.
-/

namespace DD

abbrev OE (F : Type) := Edge (Option (Cx F))

namespace PureOp

variable {σ T F : Type} [DecidableEq T] (N : Num σ T F) (B : Tabs σ T F)

def zeroO : OE F := ⟨none, none⟩

def rel (e : OE F) : OE F :=
  match e.w with
  | none => e
  | some z => if N.isZero z then zeroO else e

def normV (t : σ) (es : Fin 2 → OE F) : σ × Option (Cx F × (Fin 2 → Edge T)) :=
  match (rel N (es 0)).w, (rel N (es 1)).w with
  | none, none => (t, none)
  | none, some z => (t, some (z, ![⟨(rel N (es 0)).p, N.zero⟩, ⟨(rel N (es 1)).p, N.one⟩]))
  | some z, none => (t, some (z, ![⟨(rel N (es 0)).p, N.one⟩, ⟨(rel N (es 1)).p, N.zero⟩]))
  | some z0, some z1 =>
    let a := N.vecMax z0 z1
    let q1 := N.lookup t (N.vecBig z0 z1)
    let q2 := N.lookup q1.1 (N.div (if a = 0 then z1 else z0) (N.vecTop z0 z1))
    (q2.1, some (N.vecTop z0 z1, fun i => if i = a then Slots.orZero N (es i).p q1.2 else Slots.orZero N (es i).p q2.2))

def kidM (r : Fin 4 → OE F) (j : Fin 4) (top : Cx F) (i : Fin 4) (t : σ) : σ × Edge T :=
  if i = j then (t, ⟨(r i).p, N.one⟩)
  else match (r i).w with
    | none => (t, ⟨none, N.zero⟩)
    | some zi =>
      let l := N.lookup t (N.div (if N.isOne zi then N.val N.one else zi) top)
      (l.1, ⟨(r i).p, l.2⟩)

def normM (t : σ) (es : Fin 4 → OE F) : σ × Option (Cx F × (Fin 4 → Edge T)) :=
  let r : Fin 4 → OE F := fun i => rel N (es i)
  let z : Fin 4 → Cx F := fun i => (r i).w.getD (N.val N.zero)
  match Slots.argMax N z (fun i => (r i).w.isNone) with
  | none => (t, none)
  | some j =>
    let q := seqFin 4 (kidM N r j (z j)) t
    (q.1, some (z j, q.2))

def norm (k : Kind) (t : σ) (es : Fin (ar k) → OE F) : σ × Option (Cx F × (Fin (ar k) → Edge T)) :=
  match k with
  | .v => normV N t es
  | .m => normM N t es

def makeNode (k : Kind) (v : Nat) (t : σ) (es : Fin (ar k) → OE F) : σ × OE F :=
  match norm N k t es with
  | (t', none) => (B.drop t' k, zeroO)
  | (t', some (w, kids)) => ((B.make t' k v kids).1, ⟨(B.make t' k v kids).2.1, some w⟩)

def addChild (t : σ) (k : Kind) (x : OE F) (w : Nat) (i : Fin (ar k)) : OE F :=
  match x.p with
  | none => x
  | some a =>
    if B.lvl t k (some a) = w + 1 then
      let e := B.kids t k a i
      if e.w ≠ N.zero then ⟨e.p, some (N.mul (N.val e.w) (x.w.getD (N.val N.zero)))⟩ else ⟨e.p, none⟩
    else x

def add2 (k : Kind) : Nat → σ → OE F → OE F → σ × OE F
  | l, t, x, y =>
    match x.w, y.w with
    | none, none => (t, zeroO)
    | none, some z => (t, ⟨y.p, some z⟩)
    | some z, none => (t, ⟨x.p, some z⟩)
    | some zx, some zy =>
      if x.p = y.p then
        if N.isZero (N.add zx zy) then (t, zeroO) else (t, ⟨y.p, some (N.add zx zy)⟩)
      else match B.addLook t k ⟨x.p, zx⟩ ⟨y.p, zy⟩ with
        | some r => if N.isZero r.w then (t, zeroO) else (t, ⟨r.p, some r.w⟩)
        | none =>
          match l with
          | 0 => (t, zeroO)
          | l + 1 =>
            let w := max (B.lvl t k x.p) (B.lvl t k y.p) - 1
            let q := seqFin (ar k) (fun i t' => add2 k l t' (addChild N B t k x w i) (addChild N B t k y w i)) t
            let e := makeNode N B k w q.1 q.2
            (B.addIns e.1 k ⟨x.p, zx⟩ ⟨y.p, zy⟩ ⟨e.2.p, e.2.w.getD (N.val N.zero)⟩, e.2)

def finish (r : σ × OE F) : σ × Edge T :=
  match r.2.w with
  | none => (r.1, ⟨r.2.p, N.zero⟩)
  | some z => ((N.lookup r.1 z).1, ⟨r.2.p, (N.lookup r.1 z).2⟩)

/-- The weight of an edge of the table as operand. -/
def ov (t : T) : Option (Cx F) := if t = N.zero then none else some (N.val t)

def inj (e : Edge T) : OE F := ⟨e.p, ov N e.w⟩

def add (k : Kind) (t : σ) (x y : Edge T) : σ × Edge T :=
  finish N (add2 N B k (max (B.lvl t k x.p) (B.lvl t k y.p)) t (inj N x) (inj N y))

def scaled (z : Cx F) (p : Option Nat) (x y : T) : OE F :=
  let z3 := N.mul (N.mul z (N.val x)) (N.val y)
  if N.isZero z3 then zeroO else ⟨p, some z3⟩

def multiply2 (k : Kind) : Nat → σ → Edge T → Edge T → σ × OE F
  | l, t, x, y =>
    if x.w = N.zero ∨ y.w = N.zero then (t, zeroO)
    else match l with
    | 0 => (t, ⟨none, some (N.mul (N.val x.w) (N.val y.w))⟩)
    | l + 1 =>
      match B.mulLook t k x.p y.p with
      | some r => if N.isZero r.w then (t, zeroO) else (t, scaled N r.w r.p x.w y.w)
      | none =>
        let q := seqFin (ar k) (fun idx t' =>
          let m0 := multiply2 k l t' (Slots.mulChild N B t .m x l (Pkg.mulL k idx 0)) (Slots.mulChild N B t k y l (Pkg.mulR k idx 0))
          let m1 := multiply2 k l m0.1 (Slots.mulChild N B t .m x l (Pkg.mulL k idx 1)) (Slots.mulChild N B t k y l (Pkg.mulR k idx 1))
          match m0.2.w with
          | none => m1
          | some _ =>
            match m1.2.w with
            | some _ => add2 N B k l m1.1 m0.2 m1.2
            | none => (m1.1, m0.2)) t
        let e := makeNode N B k l q.1 q.2
        let t' := B.mulIns e.1 k x.p y.p ⟨e.2.p, e.2.w.getD (N.val N.zero)⟩
        match e.2.w with
        | none => (t', e.2)
        | some z => (t', scaled N z e.2.p x.w y.w)

def multiply (k : Kind) (t : σ) (x y : Edge T) : σ × Edge T :=
  finish N (multiply2 N B k (max (B.lvl t .m x.p) (B.lvl t k y.p)) t x y)

def kron2 (k : Kind) : Nat → σ → Edge T → Edge T → σ × OE F
  | l, t, x, y =>
    if N.isZero (N.val x.w) || N.isZero (N.val y.w) then (t, zeroO)
    else match x.p with
    | none => (t, ⟨y.p, some (N.mul (N.val x.w) (N.val y.w))⟩)
    | some a =>
      match B.kronLook t k x y with
      | some r => if N.isZero r.w then (t, zeroO) else (t, ⟨r.p, some r.w⟩)
      | none =>
        if k = .m ∧ B.ident t a = true then
          let q := B.identTop t (B.lvl t k x.p) y
          (B.kronIns q.1 k x y ⟨q.2.1, N.val y.w⟩, ⟨q.2.1, some (N.val y.w)⟩)
        else match l with
        | 0 => (t, zeroO)
        | l + 1 =>
          let q := seqFin (ar k) (fun i t' => kron2 k l t' (B.kids t k a i) y) t
          let e := makeNode N B k (B.lvl t k y.p + (B.lvl t k x.p - 1)) q.1 q.2
          match e.2.w with
          | none => (B.kronIns e.1 k x y ⟨e.2.p, N.val N.zero⟩, e.2)
          | some z => (B.kronIns e.1 k x y ⟨e.2.p, N.mul z (N.val x.w)⟩, ⟨e.2.p, some (N.mul z (N.val x.w))⟩)

def kronecker (k : Kind) (t : σ) (x y : Edge T) : σ × Edge T :=
  finish N (kron2 N B k (B.lvl t k x.p) t x y)

def scale (t : σ) (w : Option (Cx F)) (a : T) : σ × T :=
  N.lookup t (N.mul (w.getD (N.val N.zero)) (N.val a))

def scaleT (t : σ) (w a : T) : σ × T :=
  if w = N.one then (t, a) else N.lookup t (N.mul (N.val w) (N.val a))

def trace (Q : Slots.Plain σ T F) (elim : List Bool) : Nat → σ → Edge T → Nat → σ × Edge T
  | 0, t, a, _ => if N.isZero (N.val a.w) then (t, ⟨none, N.zero⟩) else (t, a)
  | l + 1, t, a, done =>
    if N.isZero (N.val a.w) then (t, ⟨none, N.zero⟩)
    else if elim.all (fun b => !b) then (t, a)
    else match a.p with
    | none => (t, a)
    | some p =>
      let v := B.lvl t .m (some p) - 1
      let kid := B.kids t .m p
      if elim.getD v false then
        let t0 := trace Q elim l t (kid 0) (done + 1)
        let r1 := add2 N B .m (B.lvl t0.1 .m t0.2.p) t0.1 zeroO (inj N t0.2)
        let t1 := trace Q elim l r1.1 (kid 3) (done + 1)
        let r2 := add2 N B .m (max (B.lvl t1.1 .m r1.2.p) (B.lvl t1.1 .m t1.2.p)) t1.1 r1.2 (inj N t1.2)
        let w := scale N r2.1 r2.2.w a.w
        (w.1, ⟨r2.2.p, w.2⟩)
      else
        let q := seqFin 4 (fun i t' => trace Q elim l t' (kid i) done) t
        let m := Q.make q.1 (v - (elim.count true - done)) q.2
        let w := scaleT N m.1 m.2.1.w a.w
        (w.1, ⟨m.2.1.p, w.2⟩)

def stateF : Nat → σ → List (Cx F) → σ × OE F
  | 0, t, xs =>
    match xs with
    | x :: y :: _ => makeNode N B .v 0 t ![⟨none, some x⟩, ⟨none, some y⟩]
    | _ => (t, zeroO)
  | l + 1, t, xs =>
    let half := xs.length / 2
    let e0 := stateF l t (xs.take half)
    let e1 := stateF l e0.1 (xs.drop half)
    makeNode N B .v (l + 1) e1.1 ![e0.2, e1.2]

def matrixF (M : Nat → Nat → Cx F) : Nat → σ → Nat → Nat → Nat → Nat → σ × OE F
  | 0, t, r0, _, c0, _ => (t, ⟨none, some (M r0 c0)⟩)
  | l + 1, t, r0, r1, c0, c1 =>
    let rm := (r0 + r1) / 2
    let cm := (c0 + c1) / 2
    let e0 := matrixF M l t r0 rm c0 cm
    let e1 := matrixF M l e0.1 r0 rm cm c1
    let e2 := matrixF M l e1.1 rm r1 c0 cm
    let e3 := matrixF M l e2.1 rm r1 cm c1
    makeNode N B .m l e3.1 ![e0.2, e1.2, e2.2, e3.2]

end PureOp

namespace SM

variable {σ T F α : Type} [DecidableEq T] {K : CacheCfg} {N : Num σ T F} {B : Tabs σ T F}

/-- The slot of a weight with its value. -/
def entW (w : Wt T) (o : Option (Cx F)) : Multiset (Ent F) :=
  match w, o with
  | .slot c, some z => {(c, z)}
  | _, _ => 0

@[simp] theorem entW_slot (c) (z : Cx F) : entW (T := T) (.slot c) (some z) = {(c, z)} := rfl
@[simp] theorem entW_none (w : Wt T) : entW (F := F) w none = 0 := by cases w <;> rfl

/-- The weight of a result: `Complex::zero` or a slot. -/
def RelW (N : Num σ T F) (w : Wt T) (o : Option (Cx F)) : Prop :=
  match o with
  | none => w = .tab N.zero
  | some _ => ∃ c, w = .slot c

def RelE (N : Num σ T F) (r : Edge (Wt T)) (e : OE F) : Prop := r.p = e.p ∧ RelW N r.w e.w

/-- The weight of an operand: `Complex::zero`, another number of the table, or a slot of `L`. -/
def Opd (N : Num σ T F) (L : Multiset (Ent F)) (w : Wt T) (o : Option (Cx F)) : Prop :=
  match o with
  | none => w = .tab N.zero
  | some z => (∃ t, t ≠ N.zero ∧ w = .tab t ∧ N.val t = z) ∨ ∃ c, w = .slot c ∧ (c, z) ∈ L

/-- What the operations guarantee. -/
def Post (K : CacheCfg) (N : Num σ T F) (L : Multiset (Ent F)) (r : σ × OE F) (b : Edge (Wt T)) (s : SS σ F) : Prop :=
  RelE N b r.2 ∧ Heap K s (entW b.w r.2.w + L) ∧ s.tabs = r.1

theorem Opd.mono {L L' : Multiset (Ent F)} {w : Wt T} {o} (h : Opd N L w o) (hL : L ≤ L') : Opd N L' w o := by
  cases o with
  | none => exact h
  | some z =>
    rcases h with h | ⟨c, h1, h2⟩
    · exact Or.inl h
    · exact Or.inr ⟨c, h1, Multiset.mem_of_le hL h2⟩

theorem Opd.zero_iff {L : Multiset (Ent F)} {w : Wt T} {o} (h : Opd N L w o) : w = .tab N.zero ↔ o = none := by
  cases o with
  | none => exact ⟨fun _ => rfl, fun _ => h⟩
  | some z =>
    refine ⟨fun e => ?_, fun e => by simp at e⟩
    rcases h with ⟨t, ht, h1, _⟩ | ⟨c, h1, _⟩
    · rw [e] at h1; exact absurd (Wt.tab.inj h1).symm ht
    · rw [e] at h1; cases h1

theorem opd_inj (N : Num σ T F) (L : Multiset (Ent F)) (t : T) : Opd N L (.tab t) (PureOp.ov N t) := by
  unfold PureOp.ov
  by_cases h : t = N.zero
  · rw [if_pos h]; exact congrArg _ h
  · rw [if_neg h]; exact Or.inl ⟨t, h, rfl, rfl⟩

theorem RelW.opd {L : Multiset (Ent F)} {w : Wt T} {o : Option (Cx F)} (h : RelW N w o) : Opd N (entW w o + L) w o := by
  cases o with
  | none => exact h
  | some z =>
    obtain ⟨c, rfl⟩ := h
    exact Or.inr ⟨c, rfl, by simp⟩

theorem RelW.zero_iff {w : Wt T} {o : Option (Cx F)} (h : RelW N w o) : w = .tab N.zero ↔ o = none :=
  (h.opd (L := 0)).zero_iff

theorem wp_value {s : SS σ F} {L : Multiset (Ent F)} {Q : Cx F → SS σ F → Prop} {w : Wt T} {o} (hs : Heap K s L)
    (hw : Opd N L w o) (h : Q (o.getD (N.val N.zero)) s) : wp (value N w) s Q := by
  cases o with
  | none =>
    have e : w = .tab N.zero := hw
    subst e; exact wp_pure h
  | some z =>
    rcases hw with ⟨t, _, rfl, rfl⟩ | ⟨c, rfl, hc⟩
    · exact wp_pure h
    · exact wp_readH hs hc h

theorem wp_zero {s : SS σ F} {L : Multiset (Ent F)} (hs : Heap K s L) {t : σ} (ht : s.tabs = t) :
    wp (pure (Slots.zeroW N)) s (Post K N L (t, PureOp.zeroO)) :=
  wp_pure ⟨⟨rfl, rfl⟩, by simpa [Slots.zeroW, PureOp.zeroO] using hs, ht⟩

theorem wp_slot {s : SS σ F} {L : Multiset (Ent F)} {c z} (hs : Heap K s ({(c, z)} + L)) {t : σ} (ht : s.tabs = t)
    (p : Option Nat) : wp (pure (⟨p, .slot c⟩ : Edge (Wt T))) s (Post K N L (t, ⟨p, some z⟩)) :=
  wp_pure ⟨⟨rfl, ⟨c, rfl⟩⟩, by simpa using hs, ht⟩

/-- The arithmetic regards the zero of the table as zero. -/
def _root_.DD.Num.ZeroOK (N : Num σ T F) : Prop := N.isZero (N.val N.zero) = true

theorem wp_release (hK : K.Good) (hN : N.ZeroOK) {s : SS σ F} {L : Multiset (Ent F)} {e : Edge (Wt T)} {o : OE F}
    (he : RelE N e o) (hs : Heap K s (entW e.w o.w + L)) :
    wp (Slots.release N e) s (fun b s' => (RelE N b.1 (PureOp.rel N o) ∧ b.2 = (PureOp.rel N o).w.isNone) ∧
      Heap K s' (entW b.1.w (PureOp.rel N o).w + L) ∧ s'.tabs = s.tabs) := by
  obtain ⟨ep, ew⟩ := e
  obtain ⟨op, ow⟩ := o
  obtain ⟨hp, hw⟩ := he
  refine wp_bind (wp_value hs hw.opd ?_)
  dsimp only at hp hw hs ⊢
  cases ow with
  | none =>
    have e : ew = .tab N.zero := hw
    subst e
    simp only [Option.getD_none, PureOp.rel]
    rw [if_pos (show N.isZero (N.val N.zero) = true from hN), if_neg (not_not.2 rfl)]
    exact wp_pure ⟨⟨⟨hp, rfl⟩, rfl⟩, hs, rfl⟩
  | some z =>
    obtain ⟨c, rfl⟩ := hw
    simp only [Option.getD_some, PureOp.rel]
    by_cases hz : N.isZero z = true
    · rw [if_pos hz, if_pos hz, if_pos (by simp)]
      refine wp_bind (wp_bind (wp_pure (wp_give hK hs fun s' ht _ _ _ hs' => ?_)))
      exact wp_pure ⟨⟨⟨rfl, rfl⟩, rfl⟩, by simpa [PureOp.zeroO] using hs', ht⟩
    · rw [if_neg hz, if_neg hz]
      exact wp_pure ⟨⟨⟨hp, ⟨c, rfl⟩⟩, rfl⟩, hs, rfl⟩

/-- What `normalize` guarantees. -/
def NormPost {n : Nat} (K : CacheCfg) (L : Multiset (Ent F)) (r : σ × Option (Cx F × (Fin n → Edge T)))
    (b : Option (Wt T × (Fin n → Edge T))) (s : SS σ F) : Prop :=
  s.tabs = r.1 ∧ match r.2 with
  | none => b = none ∧ Heap K s L
  | some (z, kids) => ∃ c, b = some (.slot c, kids) ∧ Heap K s ({(c, z)} + L)

theorem rel_p {o : OE F} {z} (h : (PureOp.rel N o).w = some z) : (PureOp.rel N o).p = o.p := by
  unfold PureOp.rel at *
  split at h
  · rfl
  · rename_i z' h'
    split at h
    · cases h
    · rename_i hz
      rw [if_neg hz]

theorem wp_normV (hK : K.Good) (hN : N.ZeroOK) {s : SS σ F} {L : Multiset (Ent F)} {es : Fin 2 → Edge (Wt T)} {os : Fin 2 → OE F}
    (he : ∀ i, RelE N (es i) (os i)) (hs : Heap K s (∑ i, entW (es i).w (os i).w + L)) :
    wp (Slots.normV N es) s (NormPost K L (PureOp.normV N s.tabs os)) := by
  rw [Fin.sum_univ_two, add_assoc] at hs
  refine wp_bind (wp_mono (wp_release hK hN (he 0) hs) ?_)
  rintro ⟨r0, f0⟩ s1 ⟨⟨⟨p0, w0⟩, rfl⟩, h1, t1⟩
  rw [add_left_comm] at h1
  refine wp_bind (wp_mono (wp_release hK hN (he 1) h1) ?_)
  rintro ⟨r1, f1⟩ s2 ⟨⟨⟨p1, w1⟩, rfl⟩, h2, t2⟩
  rw [t1] at t2
  dsimp only at p0 w0 p1 w1 h2 ⊢
  unfold PureOp.normV
  have e0 : ∀ z, (PureOp.rel N (os 0)).w = some z → (PureOp.rel N (os 0)).p = (es 0).p := fun z h => (rel_p h).trans (he 0).1.symm
  have e1 : ∀ z, (PureOp.rel N (os 1)).w = some z → (PureOp.rel N (os 1)).p = (es 1).p := fun z h => (rel_p h).trans (he 1).1.symm
  obtain ⟨r0p, r0w⟩ := r0
  obtain ⟨r1p, r1w⟩ := r1
  dsimp only at p0 w0 p1 w1 h2 ⊢
  subst p0 p1
  cases hw0 : (PureOp.rel N (os 0)).w with
  | none =>
    rw [hw0] at w0 h2
    have e : r0w = .tab N.zero := w0
    subst e
    cases hw1 : (PureOp.rel N (os 1)).w with
    | none =>
      rw [hw1] at w1 h2
      simp only [Option.isNone_none, if_true]
      exact wp_pure ⟨t2, rfl, by simpa using h2⟩
    | some z =>
      rw [hw1] at w1 h2
      obtain ⟨c, rfl⟩ := w1
      simp only [Option.isNone_none, Option.isNone_some, if_true]
      exact wp_bind (wp_pure (wp_bind (wp_pure (wp_pure ⟨t2, c, rfl, by simpa using h2⟩))))
  | some z0 =>
    rw [hw0] at w0 h2
    obtain ⟨c0, rfl⟩ := w0
    cases hw1 : (PureOp.rel N (os 1)).w with
    | none =>
      rw [hw1] at w1 h2
      have e : r1w = .tab N.zero := w1
      subst e
      simp only [Option.isNone_none, Option.isNone_some, if_true]
      exact wp_bind (wp_pure (wp_bind (wp_pure (wp_pure ⟨t2, c0, rfl, by simpa using h2⟩))))
    | some z1 =>
      rw [hw1] at w1 h2
      obtain ⟨c1, rfl⟩ := w1
      simp only [Option.isNone_some]
      simp only [entW_slot] at h2
      refine wp_bind (wp_pure (wp_bind (wp_pure (wp_bind (wp_readH (z := z0) h2 (by simp) (wp_bind (wp_readH (z := z1) h2 (by simp) ?_)))))))
      have hp : ∀ i : Fin 2, (os i).p = (es i).p := fun i => (he i).1.symm
      have key : ∀ (cm cn : Nat × Nat) (zm zn : Cx F), Heap K s2 ({(cm, zm)} + ({(cn, zn)} + L)) →
          N.div (if N.vecMax z0 z1 = 0 then z1 else z0) (N.vecTop z0 z1) = N.div zn (N.vecTop z0 z1) →
          wp (do
            write cm (N.vecTop z0 z1)
            let wmax ← SM.lookup N (N.vecBig z0 z1)
            give cn
            let zmin ← SM.read cn
            let top ← SM.read cm
            write cn (N.div zmin top)
            let q ← SM.read cn
            let wmin ← SM.lookup N q
            pure (some (Wt.slot cm, fun i => if i = N.vecMax z0 z1 then Slots.orZero N (es i).p wmax else
              Slots.orZero N (es i).p wmin))) s2
            (NormPost K L
              ((N.lookup (N.lookup s.tabs (N.vecBig z0 z1)).1 (N.div (if N.vecMax z0 z1 = 0 then z1 else z0) (N.vecTop z0 z1))).1,
                some (N.vecTop z0 z1, fun i => if i = N.vecMax z0 z1 then
                  Slots.orZero N (os i).p (N.lookup s.tabs (N.vecBig z0 z1)).2 else
                  Slots.orZero N (os i).p (N.lookup (N.lookup s.tabs (N.vecBig z0 z1)).1
                    (N.div (if N.vecMax z0 z1 = 0 then z1 else z0) (N.vecTop z0 z1))).2))) := by
        intro cm cn zm zn hh hd
        rw [hd]
        refine wp_bind (wp_write hK hh fun s3 t3 h3 => ?_)
        refine wp_bind (wp_lookup h3 fun s4 t4 _ h4 => ?_)
        have er : (⟨s4.mem cn.1, s4.mem cn.2⟩ : Cx F) = zn := h4.read (by simp)
        rw [add_left_comm] at h4
        refine wp_bind (wp_give hK h4 fun s5 t5 m5 ha hne h5 => ?_)
        refine wp_bind (wp_read ?_)
        rw [m5, er]
        refine wp_bind (wp_readH h5 (z := N.vecTop z0 z1) (by simp) ?_)
        refine wp_bind (wp_writeFree h5 ha hne fun s6 t6 e6 h6 => ?_)
        refine wp_bind (wp_read ?_)
        rw [e6]
        refine wp_bind (wp_lookup h6 fun s7 t7 _ h7 => wp_pure ?_)
        rw [t6, t5, t4, t3, t2] at t7
        rw [t3, t2, t6, t5, t4, t3, t2]
        exact ⟨t7, cm, by simp only [hp], h7⟩
      by_cases ha : N.vecMax z0 z1 = 0
      · have := key c0 c1 z0 z1 (by rw [add_left_comm]; exact h2) (by rw [if_pos ha])
        simp only [ha, if_true] at this ⊢
        exact this
      · have := key c1 c0 z1 z0 h2 (by rw [if_neg ha])
        simp only [ha, if_false] at this ⊢
        exact this

theorem seqFin_const {S β : Type} : ∀ (n : Nat) (h : Fin n → β) (t : S), seqFin n (fun i t => (t, h i)) t = (t, h)
  | 0, h, t => by
    show (t, Fin.elim0) = _
    congr 1; funext i; exact i.elim0
  | n + 1, h, t => by
    show ((seqFin n (fun i t => (t, h i.succ)) t).1, Fin.cons (α := fun _ => β) (h 0) (seqFin n (fun i t => (t, h i.succ)) t).2) = _
    rw [seqFin_const n (fun i => h i.succ)]
    congr 1; funext i; refine Fin.cases rfl (fun i => rfl) i

theorem argMax_some {z : Fin 4 → Cx F} {zero : Fin 4 → Bool} {j : Fin 4} (h : Slots.argMax N z zero = some j) : zero j = false := by
  unfold Slots.argMax at h
  have key : ∀ (l : List (Fin 4)) (acc : Option (Fin 4)), (∀ j, acc = some j → zero j = false) →
      ∀ j, l.foldl (fun (acc : Option (Fin 4)) i =>
        if zero i then acc
        else match acc with
          | none => some i
          | some j => if N.matLess (z j) (z i) then some i else some j) acc = some j → zero j = false := by
    intro l
    induction l with
    | nil => intro acc ha j h; exact ha j h
    | cons i l ih =>
      intro acc ha j h
      refine ih _ ?_ j h
      intro j' hj'
      dsimp only at hj'
      by_cases hz : zero i = true
      · rw [if_pos hz] at hj'; exact ha j' hj'
      · rw [if_neg hz] at hj'
        cases acc with
        | none => cases hj'; simpa using hz
        | some a =>
          dsimp only at hj'
          split at hj'
          · cases hj'; simpa using hz
          · exact ha j' hj'
  exact key _ none (by simp) j h

theorem wp_normM (hK : K.Good) (hN : N.ZeroOK) {s : SS σ F} {L : Multiset (Ent F)} {es : Fin 4 → Edge (Wt T)} {os : Fin 4 → OE F}
    (he : ∀ i, RelE N (es i) (os i)) (hs : Heap K s (∑ i, entW (es i).w (os i).w + L)) :
    wp (Slots.normM K N es) s (NormPost K L (PureOp.normM N s.tabs os)) := by
  have h1 := wp_seq (K := K) (Fr := 0) (fun i => Slots.release N (es i)) (fun i t => (t, PureOp.rel N (os i)))
    (fun i => entW (es i).w (os i).w) (fun _ b o => RelE N b.1 o ∧ b.2 = o.w.isNone) (fun _ b o => entW b.1.w o.w)
    (fun i s L _ hs => wp_release hK hN (he i) hs) (Multiset.zero_le _) hs
  rw [seqFin_const] at h1
  refine wp_bind (wp_mono h1 ?_)
  rintro r s1 ⟨hr, h1', t1⟩
  dsimp only at hr h1' t1
  have h2 := wp_seq (K := K) (Fr := ∑ i, entW (r i).1.w (PureOp.rel N (os i)).w) (fun i => value N (r i).1.w)
    (fun i (t : σ) => (t, (PureOp.rel N (os i)).w.getD (N.val N.zero))) (fun _ => 0) (fun _ b o => b = o) (fun _ _ _ => 0)
    (fun i s L' hL hs => wp_value (L := L') (by simpa using hs)
      ((hr i).1.2.opd (L := 0) |>.mono (by
        rw [add_zero]
        exact (Finset.single_le_sum (f := fun i => entW (r i).1.w (PureOp.rel N (os i)).w) (fun _ _ => Multiset.zero_le _)
          (Finset.mem_univ i)).trans hL)) ⟨rfl, hs, rfl⟩) (s := s1)
      (L := ∑ i, entW (r i).1.w (PureOp.rel N (os i)).w + L) (Multiset.le_add_right _ _) (by simpa using h1')
  rw [seqFin_const] at h2
  refine wp_bind (wp_mono h2 ?_)
  rintro z s2 ⟨hz, h2', t2⟩
  have ez : z = fun i => (PureOp.rel N (os i)).w.getD (N.val N.zero) := funext hz
  have ef : (fun i => (r i).2) = fun i => (PureOp.rel N (os i)).w.isNone := funext fun i => (hr i).2
  simp only [Finset.sum_const_zero, zero_add] at h2'
  rw [ez, ef]
  unfold PureOp.normM
  dsimp only at t2 ⊢
  rw [t1] at t2
  cases hj : Slots.argMax N (fun i => (PureOp.rel N (os i)).w.getD (N.val N.zero)) (fun i => (PureOp.rel N (os i)).w.isNone) with
  | none =>
    refine wp_pure ⟨t2, rfl, ?_⟩
    -- no slot is left
    have hall : ∀ i, (PureOp.rel N (os i)).w = none := by
      have key : ∀ (l : List (Fin 4)) (acc : Option (Fin 4)) (z : Fin 4 → Cx F) (zero : Fin 4 → Bool),
          l.foldl (fun (acc : Option (Fin 4)) i =>
            if zero i then acc
            else match acc with
              | none => some i
              | some j => if N.matLess (z j) (z i) then some i else some j) acc = none → acc = none ∧ ∀ i ∈ l, zero i = true := by
        intro l
        induction l with
        | nil => intro acc z zero h; exact ⟨h, by simp⟩
        | cons i l ih =>
          intro acc z zero h
          obtain ⟨h1, h2⟩ := ih _ z zero h
          dsimp only at h1
          by_cases hz : zero i = true
          · rw [if_pos hz] at h1
            exact ⟨h1, by simpa [hz] using h2⟩
          · rw [if_neg hz] at h1
            cases acc with
            | none => cases h1
            | some a => dsimp only at h1; split at h1 <;> cases h1
      intro i
      have := (key _ _ _ _ hj).2 i (List.mem_finRange i)
      simpa using this
    simpa [hall] using h2'
  | some j =>
    have hj' := argMax_some hj
    dsimp only at hj' ⊢
    obtain ⟨zj, hzj⟩ : ∃ zj, (PureOp.rel N (os j)).w = some zj := by
      cases h : (PureOp.rel N (os j)).w with
      | none => rw [h] at hj'; cases hj'
      | some z => exact ⟨z, rfl⟩
    have hrj := (hr j).1.2
    rw [hzj] at hrj
    obtain ⟨cj, hcj⟩ := hrj
    rw [hcj, hzj, Option.getD_some]
    refine wp_bind (wp_pure ?_)
    have esum : ∑ i, entW (r i).1.w (PureOp.rel N (os i)).w + L =
        ∑ i, (if i = j then 0 else entW (r i).1.w (PureOp.rel N (os i)).w) + ({(cj, zj)} + L) := by
      have e1 : entW (r j).1.w (PureOp.rel N (os j)).w = {(cj, zj)} := by rw [hcj, hzj]; rfl
      rw [← e1]
      have e2 : ∀ A : Fin 4 → Multiset (Ent F), ∑ i, A i = A j + ∑ i, (if i = j then 0 else A i) := by
        clear * -
        intro A
        rw [Fin.sum_univ_four, Fin.sum_univ_four]
        fin_cases j <;> simp <;> abel
      rw [e2]; abel
    rw [esum] at h2'
    refine wp_bind (wp_mono (wp_seq (K := K) (Fr := {(cj, zj)}) _ (PureOp.kidM N (fun i => PureOp.rel N (os i)) j zj)
      (fun i => if i = j then 0 else entW (r i).1.w (PureOp.rel N (os i)).w) (fun _ b o => b = o) (fun _ _ _ => 0)
      ?_ (Multiset.le_add_right _ _) h2') ?_)
    · intro i s L' hL hs
      unfold PureOp.kidM
      have hp : (r i).1.p = (PureOp.rel N (os i)).p := (hr i).1.1
      by_cases hij : i = j
      · rw [if_pos hij, if_pos hij]
        rw [if_pos hij] at hs
        exact wp_pure ⟨by rw [hp], hs, rfl⟩
      · rw [if_neg hij] at hs
        rw [if_neg hij, if_neg hij, (hr i).2]
        have hw := (hr i).1.2
        cases hwi : (PureOp.rel N (os i)).w with
        | none =>
          rw [hwi] at hw hs
          exact wp_pure ⟨rfl, by simpa using hs, rfl⟩
        | some zi =>
          rw [hwi] at hw hs
          obtain ⟨c, hc⟩ := hw
          rw [hc] at hs ⊢
          simp only [Option.isNone_some]
          refine wp_bind (wp_pure ?_)
          have er : (⟨s.mem c.1, s.mem c.2⟩ : Cx F) = zi := hs.read (by simp)
          refine wp_bind (wp_give hK hs fun s3 t3 m3 _ _ h3 => ?_)
          refine wp_bind (wp_read ?_)
          rw [m3, er]
          refine wp_bind (wp_readH h3 (z := zj) (Multiset.mem_of_le hL (by simp)) ?_)
          refine wp_bind (wp_getTemporary hK h3 fun d s4 t4 e4 h4 => ?_)
          refine wp_bind (wp_read ?_)
          rw [e4]
          refine wp_bind (wp_lookup h4 fun s5 t5 _ h5 => wp_pure ?_)
          rw [t4, t3] at t5 ⊢
          exact ⟨by rw [hp], by simpa using h5, t5⟩
    · rintro kids s3 ⟨hk, h3, t3⟩
      rw [t2] at hk t3
      have ek : kids = (seqFin 4 (PureOp.kidM N (fun i => PureOp.rel N (os i)) j zj) s.tabs).2 := funext hk
      refine wp_pure ⟨t3, cj, ?_, ?_⟩
      · rw [ek]
      · simpa using h3

theorem wp_makeNode (hK : K.Good) (hN : N.ZeroOK) {k : Kind} {v : Nat} {s : SS σ F} {L : Multiset (Ent F)}
    {es : Fin (ar k) → Edge (Wt T)} {os : Fin (ar k) → OE F}
    (he : ∀ i, RelE N (es i) (os i)) (hs : Heap K s (∑ i, entW (es i).w (os i).w + L)) :
    wp (Slots.makeNode K N B k v es) s (Post K N L (PureOp.makeNode N B k v s.tabs os)) := by
  have hn : wp (Slots.norm K N k es) s (NormPost K L (PureOp.norm N k s.tabs os)) := by
    cases k with
    | v => exact wp_normV hK hN he hs
    | m => exact wp_normM hK hN he hs
  refine wp_bind (wp_mono hn ?_)
  rintro b s1 ⟨t1, h1⟩
  unfold PureOp.makeNode
  rcases hno : PureOp.norm N k s.tabs os with ⟨t', o⟩
  rw [hno] at t1 h1
  cases o with
  | none =>
    obtain ⟨rfl, h1⟩ := h1
    refine wp_bind (wp_tabs (wp_bind (wp_setTabs h1 fun s2 t2 _ h2 => ?_)))
    rw [t1] at t2
    exact wp_zero h2 t2
  | some q =>
    obtain ⟨w, kids⟩ := q
    obtain ⟨c, rfl, h1⟩ := h1
    refine wp_bind (wp_tabs (wp_bind (wp_setTabs h1 fun s2 t2 _ h2 => ?_)))
    refine wp_bind (wp_temps hK _ h2 fun s3 t3 h3 => ?_)
    rw [t2] at t3
    dsimp only at t1 ⊢
    rw [← t1]
    exact wp_slot h3 t3 _

theorem opd_entW {L : Multiset (Ent F)} {e : Edge (Wt T)} {o : OE F} (h : RelE N e o) (hL : entW e.w o.w ≤ L) :
    Opd N L e.w o.w := by
  have := h.2.opd (L := 0)
  rw [add_zero] at this
  exact this.mono hL

/-- A successor of an operand: a new slot if flagged, else an operand as it was. -/
theorem wp_addChild (hK : K.Good) {k : Kind} {t : σ} {w : Nat} {i : Fin (ar k)} {s : SS σ F} {L : Multiset (Ent F)}
    {x : Edge (Wt T)} {o : OE F} (hp : x.p = o.p) (hx : Opd N L x.w o.w) (hs : Heap K s L) :
    wp (Slots.addChild K N B t k x w i) s (fun b s' => s'.tabs = s.tabs ∧ b.1.p = (PureOp.addChild N B t k o w i).p ∧
      ((b.2 = false ∧ Opd N L b.1.w (PureOp.addChild N B t k o w i).w ∧ Heap K s' L) ∨
       (b.2 = true ∧ ∃ c z, b.1.w = .slot c ∧ (PureOp.addChild N B t k o w i).w = some z ∧ Heap K s' ({(c, z)} + L)))) := by
  unfold Slots.addChild PureOp.addChild
  rw [← hp]
  cases hxp : x.p with
  | none => exact wp_pure ⟨rfl, by rw [hp], Or.inl ⟨rfl, hx, hs⟩⟩
  | some a =>
    dsimp only
    by_cases hl : B.lvl t k (some a) = w + 1
    · rw [if_pos hl, if_pos hl]
      by_cases hz : (B.kids t k a i).w ≠ N.zero
      · rw [if_pos hz, if_pos hz]
        refine wp_bind (wp_value hs hx (wp_bind (wp_getCached hK hs fun c s' ht hs' => wp_pure ?_)))
        exact ⟨ht, rfl, Or.inr ⟨rfl, c, _, rfl, rfl, hs'⟩⟩
      · rw [if_neg hz, if_neg hz]
        refine wp_pure ⟨rfl, rfl, Or.inl ⟨rfl, ?_, hs⟩⟩
        exact congrArg _ (not_not.1 hz)
    · rw [if_neg hl, if_neg hl]
      exact wp_pure ⟨rfl, by rw [hp], Or.inl ⟨rfl, hx, hs⟩⟩

/-- Conditional release. -/
theorem wp_giveIf (hK : K.Good) {s : SS σ F} {L : Multiset (Ent F)} {w : Wt T} {f : Bool} {Q : Unit → SS σ F → Prop}
    {E : Multiset (Ent F)} (hE : (f = false ∧ E = 0) ∨ (f = true ∧ ∃ c z, w = .slot c ∧ E = {(c, z)}))
    (hs : Heap K s (E + L)) (h : ∀ s', s'.tabs = s.tabs → Heap K s' L → Q () s') :
    wp (giveIf f w) s Q := by
  unfold giveIf
  rcases hE with ⟨rfl, rfl⟩ | ⟨rfl, c, z, rfl, rfl⟩
  · rw [if_neg (by simp)]
    exact wp_pure (h s rfl (by simpa using hs))
  · rw [if_pos rfl]
    exact wp_bind (wp_pure (wp_give hK hs fun s' ht _ _ _ hs' => h s' ht hs'))

theorem wp_add2 (hK : K.Good) (hN : N.ZeroOK) {k : Kind} : ∀ (l : Nat) {s : SS σ F} {L : Multiset (Ent F)}
    {x y : Edge (Wt T)} {ox oy : OE F}, x.p = ox.p → y.p = oy.p → Opd N L x.w ox.w → Opd N L y.w oy.w → Heap K s L →
    wp (Slots.add2 K N B k l x y) s (Post K N L (PureOp.add2 N B k l s.tabs ox oy)) := by
  intro l
  induction l with
  | zero => ?_
  | succ l ih => ?_
  all_goals
    intro s L x y ox oy hpx hpy hx hy hs
    unfold Slots.add2
    rw [PureOp.add2.eq_def]
    dsimp only
    by_cases zx : x.w = .tab N.zero
    · rw [if_pos zx]
      have ex := hx.zero_iff.1 zx
      rw [ex]
      by_cases zy : y.w = .tab N.zero
      · rw [if_pos zy, hy.zero_iff.1 zy]
        exact wp_zero hs rfl
      · rw [if_neg zy]
        obtain ⟨z, ez⟩ := Option.ne_none_iff_exists'.1 (fun e => zy (hy.zero_iff.2 e))
        refine wp_bind (wp_value hs hy (wp_bind (wp_getCached hK hs fun c s' ht hs' => ?_)))
        rw [ez] at hs' ⊢
        rw [hpy]
        exact wp_slot hs' ht _
    · rw [if_neg zx]
      obtain ⟨vx, ex⟩ := Option.ne_none_iff_exists'.1 (fun e => zx (hx.zero_iff.2 e))
      rw [ex]
      by_cases zy : y.w = .tab N.zero
      · rw [if_pos zy, hy.zero_iff.1 zy]
        refine wp_bind (wp_value hs hx (wp_bind (wp_getCached hK hs fun c s' ht hs' => ?_)))
        rw [ex] at hs'
        rw [hpx]
        exact wp_slot hs' ht _
      · rw [if_neg zy]
        obtain ⟨vy, ey⟩ := Option.ne_none_iff_exists'.1 (fun e => zy (hy.zero_iff.2 e))
        rw [ey]
        dsimp only
        rw [hpx, hpy]
        by_cases hpp : ox.p = oy.p
        · rw [if_pos hpp, if_pos hpp]
          refine wp_bind (wp_value hs hx (wp_bind (wp_value hs hy (wp_bind (wp_getCached hK hs fun c s' ht hs' => ?_)))))
          rw [ex, ey] at hs'
          refine wp_bind (wp_readH (z := N.add vx vy) hs' (by simp) ?_)
          by_cases hz : N.isZero (N.add vx vy) = true
          · rw [if_pos hz, if_pos hz]
            exact wp_bind (wp_give hK hs' fun s'' ht' _ _ _ hs'' => wp_zero hs'' (ht'.trans ht))
          · rw [if_neg hz, if_neg hz]
            exact wp_slot hs' ht _
        · rw [if_neg hpp, if_neg hpp]
          refine wp_bind (wp_tabs (wp_bind (wp_value hs hx (wp_bind (wp_value hs hy ?_)))))
          rw [ex, ey, Option.getD_some, Option.getD_some]
          cases hlook : B.addLook s.tabs k ⟨ox.p, vx⟩ ⟨oy.p, vy⟩ with
          | some r =>
            dsimp only
            by_cases hz : N.isZero r.w = true
            · rw [if_pos hz, if_pos hz]
              exact wp_zero hs rfl
            · rw [if_neg hz, if_neg hz]
              exact wp_bind (wp_getCached hK hs fun c s' ht hs' => wp_slot hs' ht _)
          | none =>
            dsimp only
            first
            | exact wp_zero hs rfl
            | (generalize hw : max (B.lvl s.tabs k ox.p) (B.lvl s.tabs k oy.p) - 1 = w
               generalize ht0 : s.tabs = t0
               refine wp_bind (wp_mono (wp_seq (K := K) (Fr := L) _
                 (fun i t' => PureOp.add2 N B k l t' (PureOp.addChild N B t0 k ox w i) (PureOp.addChild N B t0 k oy w i))
                 (fun _ => 0) (fun _ b o => RelE N b o) (fun _ b o => entW b.w o.w) ?_ (le_refl L) (by simpa using hs)) ?_)
               · intro i s1 L1 hL1 hs1
                 simp only [zero_add] at hs1
                 refine wp_bind (wp_mono (wp_addChild hK hpx (hx.mono hL1) hs1) ?_)
                 rintro ⟨e1, f1⟩ s2 ⟨t2, p1, c1⟩
                 obtain ⟨E1, hE1, o1, h2⟩ : ∃ E1, ((f1 = false ∧ E1 = 0) ∨ (f1 = true ∧ ∃ c z, e1.w = .slot c ∧ E1 = {(c, z)})) ∧
                     Opd N (E1 + L1) e1.w (PureOp.addChild N B t0 k ox w i).w ∧ Heap K s2 (E1 + L1) := by
                   rcases c1 with ⟨rfl, o, h⟩ | ⟨rfl, c, z, hw, ho, h⟩
                   · exact ⟨0, Or.inl ⟨rfl, rfl⟩, by simpa using o, by simpa using h⟩
                   · refine ⟨{(c, z)}, Or.inr ⟨rfl, c, z, hw, rfl⟩, ?_, h⟩
                     rw [hw, ho]; exact Or.inr ⟨c, rfl, by simp⟩
                 refine wp_bind (wp_mono (wp_addChild hK hpy (hy.mono (hL1.trans (Multiset.le_add_left _ _))) h2) ?_)
                 rintro ⟨e2, f2⟩ s3 ⟨t3, p2, c2⟩
                 obtain ⟨E2, hE2, o2, h3⟩ : ∃ E2, ((f2 = false ∧ E2 = 0) ∨ (f2 = true ∧ ∃ c z, e2.w = .slot c ∧ E2 = {(c, z)})) ∧
                     Opd N (E2 + (E1 + L1)) e2.w (PureOp.addChild N B t0 k oy w i).w ∧ Heap K s3 (E2 + (E1 + L1)) := by
                   rcases c2 with ⟨rfl, o, h⟩ | ⟨rfl, c, z, hw, ho, h⟩
                   · exact ⟨0, Or.inl ⟨rfl, rfl⟩, by simpa using o, by simpa using h⟩
                   · refine ⟨{(c, z)}, Or.inr ⟨rfl, c, z, hw, rfl⟩, ?_, h⟩
                     rw [hw, ho]; exact Or.inr ⟨c, rfl, by simp⟩
                 refine wp_bind (wp_mono (ih p1 p2 (o1.mono (Multiset.le_add_left _ _)) o2 h3) ?_)
                 rintro r s4 ⟨hr, h4, t4⟩
                 rw [t3, t2] at hr h4 t4
                 have e4 : entW r.w (PureOp.add2 N B k l s1.tabs (PureOp.addChild N B t0 k ox w i)
                     (PureOp.addChild N B t0 k oy w i)).2.w + (E2 + (E1 + L1)) =
                     E1 + (E2 + (entW r.w (PureOp.add2 N B k l s1.tabs (PureOp.addChild N B t0 k ox w i)
                     (PureOp.addChild N B t0 k oy w i)).2.w + L1)) := by abel
                 rw [e4] at h4
                 refine wp_bind (wp_giveIf hK hE1 h4 fun s5 t5 h5 => ?_)
                 refine wp_bind (wp_giveIf hK hE2 h5 fun s6 t6 h6 => wp_pure ⟨hr, h6, ?_⟩)
                 rw [t6, t5, t4]
               · rintro es s1 ⟨hes, h1, t1⟩
                 refine wp_bind (wp_mono (wp_makeNode hK hN hes h1) ?_)
                 rintro e s2 ⟨he, h2, t2⟩
                 rw [ht0] at t1
                 rw [t1, ht0] at he h2 t2
                 refine wp_bind (wp_tabs (wp_bind (wp_value h2 (opd_entW he (Multiset.le_add_right _ _)) ?_)))
                 refine wp_bind (wp_setTabs h2 fun s3 t3 _ h3 => wp_pure ⟨he, h3, ?_⟩)
                 rw [t3, t2, he.1])

/-- The end of an operation: no slot is held any more. -/
theorem wp_finish (hK : K.Good) {s : SS σ F} {L : Multiset (Ent F)} {e : Edge (Wt T)} {r : σ × OE F}
    (h : Post K N L r e s) :
    wp (Slots.finish N e) s (fun b s' => b = (PureOp.finish N r).2 ∧ s'.tabs = (PureOp.finish N r).1 ∧ Heap K s' L) := by
  obtain ⟨⟨hp, hw⟩, hs, ht⟩ := h
  obtain ⟨ep, ew⟩ := e
  obtain ⟨t, op, ow⟩ := r
  dsimp only at hp hw hs ht
  subst hp ht
  unfold Slots.finish PureOp.finish
  cases ow with
  | none =>
    have e : ew = .tab N.zero := hw
    subst e
    exact wp_pure ⟨rfl, rfl, by simpa using hs⟩
  | some z =>
    obtain ⟨c, rfl⟩ := hw
    have er : (⟨s.mem c.1, s.mem c.2⟩ : Cx F) = z := hs.read (by simp)
    refine wp_bind (wp_give hK hs fun s1 t1 m1 _ _ h1 => ?_)
    refine wp_bind (wp_read ?_)
    rw [m1, er]
    refine wp_bind (wp_lookup h1 fun s2 t2 _ h2 => wp_pure ?_)
    rw [t1] at t2 ⊢
    exact ⟨rfl, t2, h2⟩

/-- Multiplication of a slot by the weights of the operands, and its release if the result vanishes. -/
theorem wp_scaled (hK : K.Good) {s : SS σ F} {L : Multiset (Ent F)} {c : Nat × Nat} {z : Cx F} {p : Option Nat} {x y : T} {t : σ}
    {e : Edge (Wt T)} (he : e = ⟨p, .slot c⟩) (ht : s.tabs = t) (hs : Heap K s ({(c, z)} + L)) :
    wp (do
      let z1 ← SM.read c
      write c (N.mul z1 (N.val x))
      let z2 ← SM.read c
      write c (N.mul z2 (N.val y))
      let z3 ← SM.read c
      if N.isZero z3 then
        give c
        pure (Slots.zeroW N)
      else pure e) s (Post K N L (t, PureOp.scaled N z p x y)) := by
  subst he
  refine wp_bind (wp_readH (z := z) hs (by simp) ?_)
  refine wp_bind (wp_write hK hs fun s1 t1 h1 => ?_)
  refine wp_bind (wp_readH (z := N.mul z (N.val x)) h1 (by simp) ?_)
  refine wp_bind (wp_write hK h1 fun s2 t2 h2 => ?_)
  refine wp_bind (wp_readH (z := N.mul (N.mul z (N.val x)) (N.val y)) h2 (by simp) ?_)
  unfold PureOp.scaled
  dsimp only
  by_cases hz : N.isZero (N.mul (N.mul z (N.val x)) (N.val y)) = true
  · rw [if_pos hz, if_pos hz]
    exact wp_bind (wp_give hK h2 fun s3 t3 _ _ _ h3 => wp_zero h3 (by rw [t3, t2, t1, ht]))
  · rw [if_neg hz, if_neg hz]
    exact wp_slot h2 (by rw [t2, t1, ht]) _

theorem wp_multiply2 (hK : K.Good) (hN : N.ZeroOK) {k : Kind} : ∀ (l : Nat) {s : SS σ F} {L : Multiset (Ent F)}
    {x y : Edge T}, Heap K s L → wp (Slots.multiply2 K N B k l x y) s (Post K N L (PureOp.multiply2 N B k l s.tabs x y)) := by
  intro l
  induction l with
  | zero =>
    intro s L x y hs
    unfold Slots.multiply2 PureOp.multiply2
    by_cases hz : x.w = N.zero ∨ y.w = N.zero
    · rw [if_pos hz, if_pos hz]
      exact wp_zero hs rfl
    · rw [if_neg hz, if_neg hz]
      exact wp_bind (wp_getCached hK hs fun c s' ht hs' => wp_slot hs' ht _)
  | succ l ih =>
    intro s L x y hs
    unfold Slots.multiply2 PureOp.multiply2
    by_cases hz : x.w = N.zero ∨ y.w = N.zero
    · rw [if_pos hz, if_pos hz]
      exact wp_zero hs rfl
    · rw [if_neg hz, if_neg hz]
      refine wp_bind (wp_tabs ?_)
      dsimp only
      cases hlook : B.mulLook s.tabs k x.p y.p with
      | some r =>
        dsimp only
        by_cases hr : N.isZero r.w = true
        · rw [if_pos hr, if_pos hr]
          exact wp_zero hs rfl
        · rw [if_neg hr, if_neg hr]
          exact wp_bind (wp_getCached hK hs fun c s' ht hs' => wp_scaled hK rfl ht hs')
      | none =>
        dsimp only
        generalize ht0 : s.tabs = t0
        refine wp_bind (wp_mono (wp_seq (K := K) (Fr := 0) _
          (fun idx t' =>
            let m0 := PureOp.multiply2 N B k l t' (Slots.mulChild N B t0 .m x l (Pkg.mulL k idx 0)) (Slots.mulChild N B t0 k y l (Pkg.mulR k idx 0))
            let m1 := PureOp.multiply2 N B k l m0.1 (Slots.mulChild N B t0 .m x l (Pkg.mulL k idx 1)) (Slots.mulChild N B t0 k y l (Pkg.mulR k idx 1))
            match m0.2.w with
            | none => m1
            | some _ =>
              match m1.2.w with
              | some _ => PureOp.add2 N B k l m1.1 m0.2 m1.2
              | none => (m1.1, m0.2))
          (fun _ => 0) (fun _ b o => RelE N b o) (fun _ b o => entW b.w o.w) ?_ (Multiset.zero_le L) (by simpa using hs)) ?_)
        · intro i s1 L1 _ hs1
          simp only [zero_add] at hs1
          refine wp_bind (wp_mono (ih hs1) ?_)
          rintro m0 s2 ⟨r0, h2, t2⟩
          refine wp_bind (wp_mono (ih h2) ?_)
          rintro m1 s3 ⟨r1, h3, t3⟩
          rw [t2] at r1 h3 t3
          dsimp only
          generalize PureOp.multiply2 N B k l s1.tabs (Slots.mulChild N B t0 .m x l (Pkg.mulL k i 0))
            (Slots.mulChild N B t0 k y l (Pkg.mulR k i 0)) = q0 at *
          generalize PureOp.multiply2 N B k l q0.1 (Slots.mulChild N B t0 .m x l (Pkg.mulL k i 1))
            (Slots.mulChild N B t0 k y l (Pkg.mulR k i 1)) = q1 at *
          cases hq0 : q0.2.w with
          | none =>
            dsimp only
            rw [if_pos (r0.2.zero_iff.2 hq0)]
            refine wp_pure ⟨r1, ?_, t3⟩
            rw [hq0] at h3; simpa using h3
          | some z0 =>
            dsimp only
            rw [if_neg (fun e => by have := r0.2.zero_iff.1 e; rw [hq0] at this; cases this)]
            cases hq1 : q1.2.w with
            | none =>
              dsimp only
              rw [if_neg (not_not.2 (r1.2.zero_iff.2 hq1))]
              refine wp_pure ⟨r0, ?_, t3⟩
              rw [hq1] at h3; simpa using h3
            | some z1 =>
              dsimp only
              rw [if_pos (fun e => by have := r1.2.zero_iff.1 e; rw [hq1] at this; cases this)]
              have w0 := r0.2
              have w1 := r1.2
              rw [hq0] at w0
              rw [hq1] at w1
              obtain ⟨c0, w0⟩ := w0
              obtain ⟨c1, w1⟩ := w1
              refine wp_bind (wp_mono (wp_add2 hK hN l r0.1 r1.1 (opd_entW r0 ?_) (opd_entW r1 ?_) h3) ?_)
              · exact (Multiset.le_add_right _ _).trans (Multiset.le_add_left _ _)
              · exact Multiset.le_add_right _ _
              · rintro r s4 ⟨rr, h4, t4⟩
                rw [t3] at rr h4 t4
                rw [hq0, hq1, w0, w1, entW_slot, entW_slot] at h4
                rw [w0, w1]
                have e4 : entW r.w (PureOp.add2 N B k l q1.1 q0.2 q1.2).2.w + ({(c1, z1)} + ({(c0, z0)} + L1)) =
                    {(c0, z0)} + ({(c1, z1)} + (entW r.w (PureOp.add2 N B k l q1.1 q0.2 q1.2).2.w + L1)) := by abel
                rw [e4] at h4
                refine wp_bind (wp_bind (wp_pure (wp_give hK h4 fun s5 t5 _ _ _ h5 => ?_)))
                refine wp_bind (wp_bind (wp_pure (wp_give hK h5 fun s6 t6 _ _ _ h6 => wp_pure ⟨rr, h6, ?_⟩)))
                rw [t6, t5, t4]
        · rintro es s1 ⟨hes, h1, t1⟩
          refine wp_bind (wp_mono (wp_makeNode hK hN hes h1) ?_)
          rintro e s2 ⟨he, h2, t2⟩
          rw [ht0] at t1
          rw [t1, ht0] at he h2 t2
          refine wp_bind (wp_tabs (wp_bind (wp_value h2 (opd_entW he (Multiset.le_add_right _ _)) ?_)))
          refine wp_bind (wp_setTabs h2 fun s3 t3 _ h3 => ?_)
          rw [t2, he.1] at t3
          generalize PureOp.makeNode N B k l _ _ = q at *
          have hw := he.2
          cases hq : q.2.w with
          | none =>
            rw [hq] at hw
            have e' : e.w = .tab N.zero := hw
            rw [e']
            exact wp_pure ⟨he, h3, by rw [t3, hq]⟩
          | some z =>
            rw [hq] at hw
            obtain ⟨c, hc⟩ := hw
            rw [hc]
            rw [hq] at h3 t3
            rw [hc] at h3
            refine wp_scaled hK ?_ t3 h3
            rw [← he.1, ← hc]

theorem wp_kron2 (hK : K.Good) (hN : N.ZeroOK) {k : Kind} : ∀ (l : Nat) {s : SS σ F} {L : Multiset (Ent F)}
    {x y : Edge T}, Heap K s L → wp (Slots.kron2 K N B k l x y) s (Post K N L (PureOp.kron2 N B k l s.tabs x y)) := by
  intro l
  induction l with
  | zero => ?_
  | succ l ih => ?_
  all_goals
    intro s L x y hs
    unfold Slots.kron2
    rw [PureOp.kron2.eq_def]
    dsimp only
    by_cases hz : (N.isZero (N.val x.w) || N.isZero (N.val y.w)) = true
    · rw [if_pos hz, if_pos hz]
      exact wp_zero hs rfl
    · rw [if_neg hz, if_neg hz]
      cases hxp : x.p with
      | none =>
        exact wp_bind (wp_getCached hK hs fun c s' ht hs' => wp_slot hs' ht _)
      | some a =>
        refine wp_bind (wp_tabs ?_)
        dsimp only
        cases hlook : B.kronLook s.tabs k x y with
        | some r =>
          dsimp only
          by_cases hr : N.isZero r.w = true
          · rw [if_pos hr, if_pos hr]
            exact wp_zero hs rfl
          · rw [if_neg hr, if_neg hr]
            exact wp_bind (wp_getCached hK hs fun c s' ht hs' => wp_slot hs' ht _)
        | none =>
          dsimp only
          by_cases hid : k = .m ∧ B.ident s.tabs a = true
          · rw [if_pos hid, if_pos hid]
            refine wp_bind (wp_setTabs hs fun s1 t1 _ h1 => ?_)
            refine wp_bind (wp_temps hK _ h1 fun s2 t2 h2 => ?_)
            refine wp_bind (wp_getCached hK h2 fun c s3 t3 h3 => ?_)
            refine wp_bind (wp_tabs (wp_bind (wp_setTabs h3 fun s4 t4 _ h4 => wp_slot h4 ?_ _)))
            rw [t4, t3, t2, t1]
          · rw [if_neg hid, if_neg hid]
            first
            | exact wp_zero hs rfl
            | (generalize ht0 : s.tabs = t0
               refine wp_bind (wp_mono (wp_seq (K := K) (Fr := 0) _
                 (fun i t' => PureOp.kron2 N B k l t' (B.kids t0 k a i) y)
                 (fun _ => 0) (fun _ b o => RelE N b o) (fun _ b o => entW b.w o.w) ?_ (Multiset.zero_le L) (by simpa using hs)) ?_)
               · intro i s1 L1 _ hs1
                 simp only [zero_add] at hs1
                 exact ih hs1
               · rintro es s1 ⟨hes, h1, t1⟩
                 refine wp_bind (wp_mono (wp_makeNode hK hN hes h1) ?_)
                 rintro e s2 ⟨he, h2, t2⟩
                 rw [ht0] at t1
                 rw [t1, ht0] at he h2 t2
                 generalize PureOp.makeNode N B k _ _ _ = q at *
                 have hw := he.2
                 cases hq : q.2.w with
                 | none =>
                   rw [hq] at hw
                   have e' : e.w = .tab N.zero := hw
                   rw [e']
                   refine wp_bind (wp_tabs (wp_bind (wp_setTabs h2 fun s3 t3 _ h3 => ?_)))
                   refine wp_pure ⟨he, h3, ?_⟩
                   rw [t3, t2, he.1]
                 | some z =>
                   rw [hq] at hw h2
                   obtain ⟨c, hc⟩ := hw
                   rw [hc] at h2 ⊢
                   refine wp_bind (wp_readH (z := z) h2 (by simp) ?_)
                   refine wp_bind (wp_write hK h2 fun s3 t3 h3 => ?_)
                   refine wp_bind (wp_readH (z := N.mul z (N.val x.w)) h3 (by simp) ?_)
                   refine wp_bind (wp_tabs (wp_bind (wp_setTabs h3 fun s4 t4 _ h4 => ?_)))
                   refine wp_pure ⟨⟨he.1, c, hc⟩, ?_, ?_⟩
                   · rw [hc]; exact h4
                   · rw [t4, t3, t2, he.1])

/-- What operations with results without slots guarantee. -/
def PostT (K : CacheCfg) (L : Multiset (Ent F)) (r : σ × α) (b : α) (s : SS σ F) : Prop :=
  b = r.2 ∧ s.tabs = r.1 ∧ Heap K s L

theorem wp_scaleT (hK : K.Good) {s : SS σ F} {L : Multiset (Ent F)} {w a : T} (hs : Heap K s L) :
    wp (Slots.scale K N (.tab w) a) s (PostT K L (PureOp.scaleT N s.tabs w a)) := by
  unfold Slots.scale PureOp.scaleT
  by_cases h : w = N.one
  · rw [if_pos (congrArg _ h), if_pos h]
    exact wp_pure ⟨rfl, rfl, hs⟩
  · rw [if_neg (fun e => h (Wt.tab.inj e)), if_neg h]
    refine wp_bind (wp_pure (wp_bind (wp_getTemporary hK hs fun c s1 t1 e1 h1 => wp_bind (wp_read ?_))))
    rw [e1]
    refine wp_lookup h1 fun s2 t2 _ h2 => ?_
    rw [t1] at t2 ⊢
    exact ⟨rfl, t2, h2⟩

theorem wp_scale (hK : K.Good) (h1 : N.one ≠ N.zero) {s : SS σ F} {L : Multiset (Ent F)} {w : Wt T} {o : Option (Cx F)} {a : T}
    (hw : RelW N w o) (hL : entW w o ≤ L) (hs : Heap K s L) :
    wp (Slots.scale K N w a) s (PostT K L (PureOp.scale N s.tabs o a)) := by
  unfold Slots.scale PureOp.scale
  have hne : w ≠ .tab N.one := by
    cases o with
    | none =>
      have e : w = .tab N.zero := hw
      rw [e]; exact fun e => h1 (Wt.tab.inj e).symm
    | some z => obtain ⟨c, rfl⟩ := hw; simp
  rw [if_neg hne]
  have ho := (hw.opd (L := 0)).mono (L' := L) (by rwa [add_zero])
  refine wp_bind (wp_value hs ho (wp_bind (wp_getTemporary hK hs fun c s1 t1 e1 h1 => wp_bind (wp_read ?_))))
  rw [e1]
  refine wp_lookup h1 fun s2 t2 _ h2 => ?_
  rw [t1] at t2 ⊢
  exact ⟨rfl, t2, h2⟩

theorem giveIf_of_rel {w : Wt T} {o : Option (Cx F)} (hw : RelW N w o) :
    (decide (w ≠ .tab N.zero) = false ∧ entW w o = 0) ∨
    (decide (w ≠ .tab N.zero) = true ∧ ∃ c z, w = .slot c ∧ entW w o = {(c, z)}) := by
  cases o with
  | none =>
    have e : w = .tab N.zero := hw
    exact Or.inl ⟨by simp [e], by simp⟩
  | some z =>
    obtain ⟨c, rfl⟩ := hw
    exact Or.inr ⟨by simp, c, z, rfl, rfl⟩

theorem wp_trace (hK : K.Good) (hN : N.ZeroOK) (hone : N.one ≠ N.zero) (Q : Slots.Plain σ T F) (elim : List Bool) :
    ∀ (l : Nat) {s : SS σ F} {L : Multiset (Ent F)} {a : Edge T} {done : Nat}, Heap K s L →
    wp (Slots.trace K N B Q elim l a done) s (PostT K L (PureOp.trace N B Q elim l s.tabs a done)) := by
  intro l
  induction l with
  | zero =>
    intro s L a done hs
    unfold Slots.trace PureOp.trace
    by_cases hz : N.isZero (N.val a.w) = true
    · rw [if_pos hz, if_pos hz]; exact wp_pure ⟨rfl, rfl, hs⟩
    · rw [if_neg hz, if_neg hz]; exact wp_pure ⟨rfl, rfl, hs⟩
  | succ l ih =>
    intro s L a done hs
    unfold Slots.trace PureOp.trace
    by_cases hz : N.isZero (N.val a.w) = true
    · rw [if_pos hz, if_pos hz]; exact wp_pure ⟨rfl, rfl, hs⟩
    · rw [if_neg hz, if_neg hz]
      by_cases he : elim.all (fun b => !b) = true
      · rw [if_pos he, if_pos he]; exact wp_pure ⟨rfl, rfl, hs⟩
      · rw [if_neg he, if_neg he]
        cases hp : a.p with
        | none => exact wp_pure ⟨rfl, rfl, hs⟩
        | some p =>
          refine wp_bind (wp_tabs ?_)
          dsimp only
          by_cases hv : elim.getD (B.lvl s.tabs .m (some p) - 1) false = true
          · rw [if_pos hv, if_pos hv]
            refine wp_bind (wp_mono (ih hs) ?_)
            rintro t0 s1 ⟨rfl, t1, h1⟩
            refine wp_bind (wp_tabs (wp_bind (wp_mono (wp_add2 hK hN (k := .m) _ (x := Slots.zeroW N) (ox := PureOp.zeroO)
              (y := Slots.inj _) (oy := PureOp.inj N _) rfl rfl rfl (opd_inj N _ _) h1) ?_)))
            rintro r1 s2 ⟨hr1, h2, t2⟩
            rw [t1] at hr1 h2 t2
            refine wp_bind (wp_mono (ih h2) ?_)
            rintro t1' s3 ⟨rfl, t3, h3⟩
            rw [t2] at t3
            refine wp_bind (wp_tabs (wp_bind (wp_mono (wp_add2 hK hN (k := .m) _ hr1.1
              (y := Slots.inj _) (oy := PureOp.inj N _) rfl (opd_entW hr1 (Multiset.le_add_right _ _)) (opd_inj N _ _) h3) ?_)))
            rintro r2 s4 ⟨hr2, h4, t4⟩
            rw [t3, t2, hr1.1] at hr2 h4 t4
            refine wp_bind (wp_mono (wp_scale hK hone hr2.2 (Multiset.le_add_right _ _) h4) ?_)
            rintro w s5 ⟨rfl, t5, h5⟩
            rw [t4] at t5
            rw [add_left_comm] at h5
            refine wp_bind (wp_giveIf hK (giveIf_of_rel hr1.2) h5 fun s6 t6 h6 => ?_)
            refine wp_bind (wp_giveIf hK (giveIf_of_rel hr2.2) h6 fun s7 t7 h7 => wp_pure ?_)
            refine ⟨?_, ?_, h7⟩
            · rw [t4, hr2.1]
            · rw [t7, t6, t5]
          · rw [if_neg hv, if_neg hv]
            generalize ht0 : s.tabs = t0
            refine wp_bind (wp_mono (wp_seq (K := K) (Fr := 0) _
              (fun i t' => PureOp.trace N B Q elim l t' (B.kids t0 .m p i) done)
              (fun _ => 0) (fun _ b o => b = o) (fun _ _ _ => 0) ?_ (Multiset.zero_le L) (by simpa using hs)) ?_)
            · intro i s1 L1 _ hs1
              simp only [zero_add] at hs1
              refine wp_mono (ih hs1) ?_
              rintro b s2 ⟨h1, h2, h3⟩
              exact ⟨h1, by simpa using h3, h2⟩
            · rintro es s1 ⟨hes, h1, t1⟩
              rw [ht0] at t1
              have ees := funext hes
              rw [ht0] at ees
              simp only [Finset.sum_const_zero, zero_add] at h1
              refine wp_bind (wp_tabs (wp_bind (wp_setTabs h1 fun s2 t2 _ h2 => ?_)))
              refine wp_bind (wp_temps hK _ h2 fun s3 t3 h3 => ?_)
              refine wp_bind (wp_mono (wp_scaleT hK h3) ?_)
              rintro w s4 ⟨rfl, t4, h4⟩
              rw [t3, t2, t1, ees] at t4
              refine wp_pure ⟨?_, t4, h4⟩
              rw [t3, t2, t1, ees]

theorem wp_stateF (hK : K.Good) (hN : N.ZeroOK) : ∀ (l : Nat) {s : SS σ F} {L : Multiset (Ent F)} {xs : List (Cx F)},
    xs.length = 2 ^ (l + 1) → Heap K s L →
    wp (Slots.stateF K N B l xs) s (Post K N L (PureOp.stateF N B l s.tabs xs)) := by
  intro l
  induction l with
  | zero =>
    intro s L xs hx hs
    match xs, hx with
    | [x, y], _ =>
      unfold Slots.stateF PureOp.stateF
      refine wp_bind (wp_getCached hK hs fun c0 s1 t1 h1 => ?_)
      refine wp_bind (wp_getCached hK h1 fun c1 s2 t2 h2 => ?_)
      have := wp_makeNode (B := B) (N := N) (k := .v) (v := 0) (s := s2) (L := L) (es := ![⟨none, .slot c0⟩, ⟨none, .slot c1⟩])
        (os := ![⟨none, some x⟩, ⟨none, some y⟩]) hK hN (by
          intro i
          change Fin 2 at i
          fin_cases i
          · exact ⟨rfl, c0, rfl⟩
          · exact ⟨rfl, c1, rfl⟩) (by
          have e : ∑ i : Fin (ar .v), entW ((![⟨none, .slot c0⟩, ⟨none, .slot c1⟩] : Fin 2 → Edge (Wt T)) i).w
              ((![⟨none, some x⟩, ⟨none, some y⟩] : Fin 2 → OE F) i).w = {(c0, x)} + {(c1, y)} := Fin.sum_univ_two _
          rw [e]
          have e' : {(c0, x)} + {(c1, y)} + L = {(c1, y)} + ({(c0, x)} + L) := by abel
          rw [e']; exact h2)
      rw [t2, t1] at this
      exact this
  | succ l ih =>
    intro s L xs hx hs
    unfold Slots.stateF PureOp.stateF
    have hh : xs.length / 2 = 2 ^ (l + 1) := by rw [hx, pow_succ 2 (l + 1)]; omega
    refine wp_bind (wp_mono (ih (by rw [List.length_take, hh, hx, pow_succ 2 (l + 1)]; omega) hs) ?_)
    rintro e0 s1 ⟨r0, h1, t1⟩
    refine wp_bind (wp_mono (ih (by rw [List.length_drop, hh, hx, pow_succ 2 (l + 1)]; omega) h1) ?_)
    rintro e1 s2 ⟨r1, h2, t2⟩
    rw [t1] at r1 h2 t2
    dsimp only
    have := wp_makeNode (B := B) (N := N) (k := .v) (v := l + 1) (s := s2) (L := L) (es := ![e0, e1])
      (os := ![(PureOp.stateF N B l s.tabs (xs.take (xs.length / 2))).2,
        (PureOp.stateF N B l (PureOp.stateF N B l s.tabs (xs.take (xs.length / 2))).1 (xs.drop (xs.length / 2))).2]) hK hN (by
        intro i
        change Fin 2 at i
        fin_cases i
        · exact r0
        · exact r1) (by
        rw [show ∀ f : Fin (ar .v) → Multiset (Ent F), ∑ i, f i = f 0 + f 1 from fun f => Fin.sum_univ_two f, add_assoc, add_left_comm]
        exact h2)
    rw [t2] at this
    exact this

theorem wp_matrixF (hK : K.Good) (hN : N.ZeroOK) (M : Nat → Nat → Cx F) : ∀ (l : Nat) {s : SS σ F} {L : Multiset (Ent F)}
    {a b c d : Nat}, Heap K s L → wp (Slots.matrixF K N B M l a b c d) s (Post K N L (PureOp.matrixF N B M l s.tabs a b c d)) := by
  intro l
  induction l with
  | zero =>
    intro s L a b c d hs
    unfold Slots.matrixF PureOp.matrixF
    exact wp_bind (wp_getCached hK hs fun c0 s1 t1 h1 => wp_slot h1 t1 _)
  | succ l ih =>
    intro s L a b c d hs
    unfold Slots.matrixF PureOp.matrixF
    dsimp only
    refine wp_bind (wp_mono (ih hs) ?_)
    rintro e0 s1 ⟨r0, h1, t1⟩
    refine wp_bind (wp_mono (ih h1) ?_)
    rintro e1 s2 ⟨r1, h2, t2⟩
    rw [t1] at r1 h2 t2
    refine wp_bind (wp_mono (ih h2) ?_)
    rintro e2 s3 ⟨r2, h3, t3⟩
    rw [t2] at r2 h3 t3
    refine wp_bind (wp_mono (ih h3) ?_)
    rintro e3 s4 ⟨r3, h4, t4⟩
    rw [t3] at r3 h4 t4
    generalize PureOp.matrixF N B M l s.tabs _ _ _ _ = q0 at *
    generalize PureOp.matrixF N B M l q0.1 _ _ _ _ = q1 at *
    generalize PureOp.matrixF N B M l q1.1 _ _ _ _ = q2 at *
    generalize PureOp.matrixF N B M l q2.1 _ _ _ _ = q3 at *
    have := wp_makeNode (B := B) (N := N) (k := .m) (v := l) (s := s4) (L := L) (es := ![e0, e1, e2, e3])
      (os := ![q0.2, q1.2, q2.2, q3.2]) hK hN (by
        intro i
        change Fin 4 at i
        fin_cases i
        · exact r0
        · exact r1
        · exact r2
        · exact r3) (by
        rw [show ∀ f : Fin (ar .m) → Multiset (Ent F), ∑ i, f i = f 0 + f 1 + f 2 + f 3 from fun f => Fin.sum_univ_four f]
        have e : entW e3.w q3.2.w + (entW e2.w q2.2.w + (entW e1.w q1.2.w + (entW e0.w q0.2.w + L))) =
          entW e0.w q0.2.w + entW e1.w q1.2.w + entW e2.w q2.2.w + entW e3.w q3.2.w + L := by abel
        rw [e] at h4
        exact h4)
    rw [t4] at this
    exact this

theorem wp_walk (hK : K.Good) (k : Kind) : ∀ (l : Nat) {s : SS σ F} {L : Multiset (Ent F)} {e : Edge T} {amp : Wt T} {o},
    Opd N L amp o → Heap K s L → wp (Slots.walk K N B k l e amp) s (fun _ s' => s'.tabs = s.tabs ∧ Heap K s' L) := by
  intro l
  induction l with
  | zero =>
    intro s L e amp o ha hs
    unfold Slots.walk
    refine wp_bind (wp_value hs ha (wp_bind (wp_getCached hK hs fun c s1 t1 h1 => ?_)))
    exact wp_give hK h1 fun s2 t2 _ _ _ h2 => ⟨t2.trans t1, h2⟩
  | succ l ih =>
    intro s L e amp o ha hs
    unfold Slots.walk
    refine wp_bind (wp_value hs ha (wp_bind (wp_getCached hK hs fun c s1 t1 h1 => ?_)))
    cases e.p with
    | none => exact wp_give hK h1 fun s2 t2 _ _ _ h2 => ⟨t2.trans t1, h2⟩
    | some a =>
      refine wp_bind (wp_tabs ?_)
      refine wp_bind (wp_mono (wp_seq (K := K) (Fr := {(c, N.mul (N.val e.w) (o.getD (N.val N.zero)))}) _
        (fun _ t => (t, ())) (fun _ => 0) (fun _ _ _ => True) (fun _ _ _ => 0) ?_ (Multiset.le_add_right _ _) (by simpa using h1)) ?_)
      · intro i s2 L2 hL2 h2
        simp only [zero_add] at h2
        by_cases hz : N.isZero (N.val (B.kids s1.tabs k a i).w) = true
        · rw [if_pos hz]
          exact wp_pure ⟨trivial, by simpa using h2, rfl⟩
        · rw [if_neg hz]
          refine wp_mono (ih (o := some (N.mul (N.val e.w) (o.getD (N.val N.zero))))
            (Or.inr ⟨c, rfl, Multiset.mem_of_le hL2 (by simp)⟩) h2) ?_
          rintro _ s3 ⟨t3, h3⟩
          exact ⟨trivial, by simpa using h3, t3⟩
      · rintro _ s2 ⟨_, h2, t2⟩
        rw [seqFin_const] at t2
        simp only [Finset.sum_const_zero, zero_add] at h2
        exact wp_give hK h2 fun s3 t3 _ _ _ h3 => ⟨by rw [t3, t2, t1], h3⟩

end SM
end DD
