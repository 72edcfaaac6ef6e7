import Verif.Model.Package
import Verif.Model.ComplexCache

/-!
# Temporary numbers in the recursive operations

The recursive operations keep the weights of intermediate results in slots of the complex cache (Model/ComplexCache.lean):
they obtain a slot for a product or sum, overwrite it, pass it on, and give it back. This file models the operations with
these slots. Everything else is a parameter: the arithmetic (any rounding, any tolerance), the table of numbers, and the
node and operation tables. A weight is either a pointer to the table of numbers or a slot.

A computation that gives back a slot it does not hold, or gives back or overwrites a number of the table, fails (`none`).
-/

namespace DD

/-- A weight (`Complex`, Complex.hpp:19-21): a number of the table or a slot of the cache. -/
inductive Wt (T : Type) where
  | tab (t : T)
  | slot (c : Nat × Nat)
deriving DecidableEq

/-- The numbers: `T` are the canonical numbers of the table, `F` the type of the two components. `zero` and `one` are
`Complex::zero` and `Complex::one` (Complex.hpp:23-24); `val` is the value of a number of the table (it does not change during
an operation), `lookup` is `cn.lookup` (ComplexNumbers.hpp:141-188), `isZero`, `isOne` are `approximatelyZero`, `approximatelyOne`
(Complex.hpp:43-49), `add`, `mul`, `div` the functions of ComplexNumbers.hpp:38-89 on values. The last four functions are
parts of `normalize`: `vecMax` is `argMax` (Package.hpp:176), `vecTop` the weight of the node (182-186), `vecBig` the weight of the
larger successor (196), `matLess a b` the comparison `mag(b) - mag(a) > tolerance` (412-413). -/
structure Num (σ T F : Type) where
  zero : T
  one : T
  val : T → Cx F
  lookup : σ → Cx F → σ × T
  isZero : Cx F → Bool
  isOne : Cx F → Bool
  add : Cx F → Cx F → Cx F
  mul : Cx F → Cx F → Cx F
  div : Cx F → Cx F → Cx F
  vecMax : Cx F → Cx F → Fin 2
  vecTop : Cx F → Cx F → Cx F
  vecBig : Cx F → Cx F → Cx F
  matLess : Cx F → Cx F → Bool

/-- The node tables and operation tables. `kids` are the successors of a node, `lvl` is the level plus one of a node pointer (0 for
the terminal), `make` creates a node with normalised successors (getting a cell, unique table lookup, marks, Package.hpp:995-1027) and
also tells which values were written to temporary numbers meanwhile (in `transpose`); `drop` only gets a cell (995). The others are
lookup and insertion in the operation tables (Package.hpp:1359, 1427; 1609, 1742; 1976, 2009; 1996) and `identTop` is the loop of 1986-1992 with
non-cached calls of `makeDDNode`. -/
structure Tabs (σ T F : Type) where
  kids : σ → (k : Kind) → Nat → Fin (ar k) → Edge T
  lvl : σ → Kind → Option Nat → Nat
  ident : σ → Nat → Bool
  make : σ → (k : Kind) → Nat → (Fin (ar k) → Edge T) → σ × Option Nat × List (Cx F)
  drop : σ → Kind → σ
  addLook : σ → Kind → Edge (Cx F) → Edge (Cx F) → Option (Edge (Cx F))
  addIns : σ → Kind → Edge (Cx F) → Edge (Cx F) → Edge (Cx F) → σ
  mulLook : σ → Kind → Option Nat → Option Nat → Option (Edge (Cx F))
  mulIns : σ → Kind → Option Nat → Option Nat → Edge (Cx F) → σ
  kronLook : σ → Kind → Edge T → Edge T → Option (Edge (Cx F))
  kronIns : σ → Kind → Edge T → Edge T → Edge (Cx F) → σ
  identTop : σ → Nat → Edge T → σ × Option Nat × List (Cx F)

/-- The state: tables, cache, contents of the cache entries, and (for the specification) the slots obtained and not yet given
back. -/
structure SS (σ F : Type) where
  tabs : σ
  cache : CxCache
  mem : Nat → F
  out : List (Nat × Nat)

/-- Computations; `none` is a fault. -/
def SM (σ F α : Type) : Type := SS σ F → Option (α × SS σ F)

namespace SM

variable {σ T F α β : Type}

instance : Monad (SM σ F) where
  pure a := fun s => some (a, s)
  bind m f := fun s => match m s with
    | none => none
    | some (a, s') => f a s'

/-- A fault. -/
def fault : SM σ F α := fun _ => none

/-- The state of the tables. -/
def tabs : SM σ F σ := fun s => some (s.tabs, s)

/-- A change of the tables. -/
def setTabs (t : σ) : SM σ F Unit := fun s => some ((), { s with tabs := t })

/-- The value of a slot (ComplexTable.hpp:67-72; slots are not tagged). -/
def read (c : Nat × Nat) : SM σ F (Cx F) := fun s => some (⟨s.mem c.1, s.mem c.2⟩, s)

/-- Write a value to a slot (e.g. ComplexNumbers.hpp:41-42). -/
def write (c : Nat × Nat) (z : Cx F) : SM σ F Unit :=
  fun s => some ((), { s with mem := Function.update (Function.update s.mem c.1 z.re) c.2 z.im })

/-- `getCached(r, i)` (ComplexNumbers.hpp:229-238). -/
def getCached (K : CacheCfg) (z : Cx F) : SM σ F (Nat × Nat) := fun s =>
  match s.cache.getCached K with
  | none => none
  | some (c', c) => write c z { s with cache := c', out := c :: s.out } |>.map fun r => (c, r.2)

/-- `getTemporary(r, i)` (ComplexNumbers.hpp:213-226). -/
def getTemporary (K : CacheCfg) (z : Cx F) : SM σ F (Nat × Nat) := fun s =>
  match s.cache.getTemporary K with
  | none => none
  | some (c', c) => write c z { s with cache := c' } |>.map fun r => (c, r.2)

/-- `returnToCache` (ComplexNumbers.hpp:249-251, ComplexCache.hpp:89-99); a fault if the slot is not held. -/
def give (c : Nat × Nat) : SM σ F Unit := fun s =>
  if c ∈ s.out then some ((), { s with cache := s.cache.returnToCache c, out := s.out.erase c }) else none

/-- Several temporary numbers one after the other. -/
def temps (K : CacheCfg) : List (Cx F) → SM σ F Unit
  | [] => pure ()
  | z :: zs => do
    let _ ← getTemporary K z
    temps K zs

/-- Evaluate `n` computations in the order of their index (the `for` loops over successors). -/
def seq : (n : Nat) → (Fin n → SM σ F β) → SM σ F (Fin n → β)
  | 0, _ => pure Fin.elim0
  | n + 1, f => do
    let r ← f 0
    let q ← seq n (fun i => f i.succ)
    pure (Fin.cons r q)

variable (N : Num σ T F)

/-- `cn.lookup` of a value (ComplexNumbers.hpp:156-188). -/
def lookup (z : Cx F) : SM σ F T := do
  let t ← tabs
  let r := N.lookup t z
  setTabs r.1
  pure r.2

/-- The value of a weight (Complex.hpp:59-61). -/
def value : Wt T → SM σ F (Cx F)
  | .tab t => pure (N.val t)
  | .slot c => read c

/-- The slot of a weight; a fault for a number of the table. -/
def slotOf : Wt T → SM σ F (Nat × Nat)
  | .tab _ => fault
  | .slot c => pure c

/-- `returnToCache` of a weight. -/
def giveW (w : Wt T) : SM σ F Unit := do
  let c ← slotOf w
  give c

/-- `returnToCache` under a condition. -/
def giveIf (b : Bool) (w : Wt T) : SM σ F Unit := if b = true then giveW w else pure ()

end SM

namespace Slots

open SM

variable {σ T F : Type} [DecidableEq T] (K : CacheCfg) (N : Num σ T F) (B : Tabs σ T F)

/-- The zero edge (Edge.hpp:35). -/
def zeroW : Edge (Wt T) := ⟨none, .tab N.zero⟩

/-- An edge of a node or of the caller as an operand. -/
def inj (e : Edge T) : Edge (Wt T) := ⟨e.p, .tab e.w⟩

/-- Release of a successor of weight approximately, but not exactly zero (Package.hpp:139-146, 391-398); the second component of the
result is the entry of the array `zero` (135, 385-388). -/
def release (e : Edge (Wt T)) : SM σ F (Edge (Wt T) × Bool) := do
  let z ← value N e.w
  if N.isZero z then
    if e.w ≠ .tab N.zero then
      giveW e.w
      pure (zeroW N, true)
    else pure (e, true)
  else pure (e, false)

/-- An edge of weight zero as successor of a node. -/
def zeroKid (e : Edge (Wt T)) : SM σ F (Edge T) :=
  match e.w with
  | .tab t => pure ⟨e.p, t⟩
  | .slot _ => fault

/-- An edge with the zero of the table in place of a zero weight (Package.hpp:197-199, 217-219). -/
def orZero (p : Option Nat) (t : T) : Edge T := if t = N.zero then ⟨none, N.zero⟩ else ⟨p, t⟩

/-- `normalize` for vector nodes with `cached = true` (Package.hpp:134-223): the weight of the result and the successors; `none` for the zero
edge. Weights that are neither `Complex::zero` nor slots do not occur with `cached`; they are faults here. -/
def normV (es : Fin 2 → Edge (Wt T)) : SM σ F (Option (Wt T × (Fin 2 → Edge T))) := do
  let r0 ← release N (es 0)
  let r1 ← release N (es 1)
  if r0.2 then
    if r1.2 then pure none
    else
      let k0 ← zeroKid r0.1
      let c ← slotOf r1.1.w
      pure (some (.slot c, ![k0, ⟨r1.1.p, N.one⟩]))
  else if r1.2 then
    let k1 ← zeroKid r1.1
    let c ← slotOf r0.1.w
    pure (some (.slot c, ![⟨r0.1.p, N.one⟩, k1]))
  else
    let c0 ← slotOf r0.1.w
    let c1 ← slotOf r1.1.w
    let z0 ← read c0
    let z1 ← read c1
    let argMax := N.vecMax z0 z1
    let cmax := if argMax = 0 then c0 else c1
    let cmin := if argMax = 0 then c1 else c0
    write cmax (N.vecTop z0 z1)
    let wmax ← lookup N (N.vecBig z0 z1)
    give cmin
    let zmin ← read cmin
    let top ← read cmax
    write cmin (N.div zmin top)
    let q ← read cmin
    let wmin ← lookup N q
    pure (some (.slot cmax, fun i => if i = argMax then orZero N (es i).p wmax else orZero N (es i).p wmin))

/-- The largest weight (Package.hpp:400-419), given the values and the array `zero`. -/
def argMax (z : Fin 4 → Cx F) (zero : Fin 4 → Bool) : Option (Fin 4) :=
  (List.finRange 4).foldl (fun (acc : Option (Fin 4)) i =>
    if zero i then acc
    else match acc with
      | none => some i
      | some j => if N.matLess (z j) (z i) then some i else some j) none

/-- `normalize` for matrix nodes with `cached = true` (Package.hpp:380-471). -/
def normM (es : Fin 4 → Edge (Wt T)) : SM σ F (Option (Wt T × (Fin 4 → Edge T))) := do
  let r ← seq 4 (fun i => release N (es i))
  let z ← seq 4 (fun i => value N (r i).1.w)
  match argMax N z (fun i => (r i).2) with
  | none => pure none
  | some j =>
    let cmax ← slotOf (r j).1.w
    let kids ← seq 4 (fun i => show SM σ F (Edge T) from
      if i = j then pure ⟨(r i).1.p, N.one⟩
      else if (r i).2 then pure ⟨none, N.zero⟩
      else do
        let c ← slotOf (r i).1.w
        give c
        let zi ← read c
        let a := if N.isOne zi then N.val N.one else zi
        let top ← read cmax
        let d ← getTemporary K (N.div a top)
        let q ← read d
        let t ← lookup N q
        pure ⟨(r i).1.p, t⟩)
    pure (some (.slot cmax, kids))

/-- `normalize` with `cached = true`, by kind. -/
def norm (k : Kind) (es : Fin (ar k) → Edge (Wt T)) : SM σ F (Option (Wt T × (Fin (ar k) → Edge T))) :=
  match k with
  | .v => normV N es
  | .m => normM K N es

/-- `makeDDNode` with `cached = true` (Package.hpp:993-1028). -/
def makeNode (k : Kind) (v : Nat) (es : Fin (ar k) → Edge (Wt T)) : SM σ F (Edge (Wt T)) := do
  let r ← norm K N k es
  match r with
  | none =>
    let t ← tabs
    setTabs (B.drop t k)
    pure (zeroW N)
  | some (w, kids) =>
    let t ← tabs
    let q := B.make t k v kids
    setTabs q.1
    temps K q.2.2
    pure ⟨q.2.1, w⟩

/-- Successor `i` of an operand of `add2` (Package.hpp:1376-1386, 1388-1400): if its node is at level `w + 1`, the successor with the weight of
the operand multiplied in (a new slot), else the operand. The flag tells whether a slot was obtained. The nodes are read from the
tables `t` at the beginning of the call (nodes do not change). -/
def addChild (t : σ) (k : Kind) (x : Edge (Wt T)) (w : Nat) (i : Fin (ar k)) : SM σ F (Edge (Wt T) × Bool) :=
  match x.p with
  | none => pure (x, false)
  | some a =>
    if B.lvl t k (some a) = w + 1 then
      let e := B.kids t k a i
      if e.w ≠ N.zero then do
        let z ← value N x.w
        let c ← getCached K (N.mul (N.val e.w) z)
        pure (⟨e.p, .slot c⟩, true)
      else pure (inj e, false)
    else pure (x, false)

/-- `add2` (Package.hpp:1330-1429). The first argument bounds the levels. -/
def add2 (k : Kind) : Nat → Edge (Wt T) → Edge (Wt T) → SM σ F (Edge (Wt T))
  | l, x, y =>
    if x.w = .tab N.zero then
      if y.w = .tab N.zero then pure (zeroW N)
      else do
        let z ← value N y.w
        let c ← getCached K z
        pure ⟨y.p, .slot c⟩
    else if y.w = .tab N.zero then do
      let z ← value N x.w
      let c ← getCached K z
      pure ⟨x.p, .slot c⟩
    else if x.p = y.p then do
      let zx ← value N x.w
      let zy ← value N y.w
      let c ← getCached K (N.add zx zy)
      let z ← read c
      if N.isZero z then
        give c
        pure (zeroW N)
      else pure ⟨y.p, .slot c⟩
    else do
      let t ← tabs
      let zx ← value N x.w
      let zy ← value N y.w
      match B.addLook t k ⟨x.p, zx⟩ ⟨y.p, zy⟩ with
      | some r =>
        if N.isZero r.w then pure (zeroW N)
        else
          let c ← getCached K r.w
          pure ⟨r.p, .slot c⟩
      | none =>
        match l with
        | 0 => pure (zeroW N)
        | l + 1 =>
          let w := max (B.lvl t k x.p) (B.lvl t k y.p) - 1
          let es ← seq (ar k) (fun i => do
            let e1 ← addChild K N B t k x w i
            let e2 ← addChild K N B t k y w i
            let r ← add2 k l e1.1 e2.1
            giveIf e1.2 e1.1.w
            giveIf e2.2 e2.1.w
            pure r)
          let e ← makeNode K N B k w es
          let t' ← tabs
          let z ← value N e.w
          setTabs (B.addIns t' k ⟨x.p, zx⟩ ⟨y.p, zy⟩ ⟨e.p, z⟩)
          pure e

/-- The end of `add`, `multiply` and `kronecker` (Package.hpp:1319-1322, 1570-1573, 1947-1950): the slot of the result is given back and the
number looked up. -/
def finish (e : Edge (Wt T)) : SM σ F (Edge T) :=
  match e.w with
  | .tab t => pure ⟨e.p, t⟩
  | .slot c => do
    give c
    let z ← read c
    let t ← lookup N z
    pure ⟨e.p, t⟩

/-- `add` (Package.hpp:1313-1328). -/
def add (k : Kind) (x y : Edge T) : SM σ F (Edge T) := do
  let t ← tabs
  let r ← add2 K N B k (max (B.lvl t k x.p) (B.lvl t k y.p)) (inj x) (inj y)
  finish N r

/-- Successor `i` of an operand of `multiply2` (Package.hpp:1667-1679). -/
def mulChild (t : σ) (k : Kind) (x : Edge T) (w : Nat) (i : Fin (ar k)) : Edge T :=
  match x.p with
  | none => ⟨none, N.one⟩
  | some a => if B.lvl t k (some a) = w + 1 then B.kids t k a i else ⟨some a, N.one⟩

/-- `multiply2` (Package.hpp:1582-1759) with `start = 0`; the first argument is `var + 1`. See `Pkg.multiply2F`. -/
def multiply2 (k : Kind) : Nat → Edge T → Edge T → SM σ F (Edge (Wt T))
  | l, x, y =>
    if x.w = N.zero ∨ y.w = N.zero then pure (zeroW N)
    else match l with
    | 0 => do
      let c ← getCached K (N.mul (N.val x.w) (N.val y.w))
      pure ⟨none, .slot c⟩
    | l + 1 => do
      let t ← tabs
      match B.mulLook t k x.p y.p with
      | some r =>
        if N.isZero r.w then pure (zeroW N)
        else
          let c ← getCached K r.w
          let z1 ← read c
          write c (N.mul z1 (N.val x.w))
          let z2 ← read c
          write c (N.mul z2 (N.val y.w))
          let z3 ← read c
          if N.isZero z3 then
            give c
            pure (zeroW N)
          else pure ⟨r.p, .slot c⟩
      | none =>
        let es ← seq (ar k) (fun idx => do
          let m0 ← multiply2 k l (mulChild N B t .m x l (Pkg.mulL k idx 0)) (mulChild N B t k y l (Pkg.mulR k idx 0))
          let m1 ← multiply2 k l (mulChild N B t .m x l (Pkg.mulL k idx 1)) (mulChild N B t k y l (Pkg.mulR k idx 1))
          if m0.w = .tab N.zero then pure m1
          else if m1.w ≠ .tab N.zero then
            let r ← add2 K N B k l m0 m1
            giveW m0.w
            giveW m1.w
            pure r
          else pure m0)
        let e ← makeNode K N B k l es
        let t' ← tabs
        let z ← value N e.w
        setTabs (B.mulIns t' k x.p y.p ⟨e.p, z⟩)
        match e.w with
        | .tab _ => pure e
        | .slot c =>
          let z1 ← read c
          write c (N.mul z1 (N.val x.w))
          let z2 ← read c
          write c (N.mul z2 (N.val y.w))
          let z3 ← read c
          if N.isZero z3 then
            give c
            pure (zeroW N)
          else pure e

/-- `multiply` (Package.hpp:1537-1579) with `start = 0`. -/
def multiply (k : Kind) (x y : Edge T) : SM σ F (Edge T) := do
  let t ← tabs
  let r ← multiply2 K N B k (max (B.lvl t .m x.p) (B.lvl t k y.p)) x y
  finish N r

/-- `kronecker2` (Package.hpp:1963-2011) with `incIdx = true`. If `makeDDNode` returns the zero edge, the product in place
(2008) would overwrite `Complex::zero`: with 0, as its first operand is zero (an assertion fails in debug builds). -/
def kron2 (k : Kind) : Nat → Edge T → Edge T → SM σ F (Edge (Wt T))
  | l, x, y =>
    if N.isZero (N.val x.w) || N.isZero (N.val y.w) then pure (zeroW N)
    else match x.p with
    | none => do
      let c ← getCached K (N.mul (N.val x.w) (N.val y.w))
      pure ⟨y.p, .slot c⟩
    | some a => do
      let t ← tabs
      match B.kronLook t k x y with
      | some r =>
        if N.isZero r.w then pure (zeroW N)
        else
          let c ← getCached K r.w
          pure ⟨r.p, .slot c⟩
      | none =>
        if k = .m ∧ B.ident t a = true then
          let q := B.identTop t (B.lvl t k x.p) y
          setTabs q.1
          temps K q.2.2
          let c ← getCached K (N.val y.w)
          let t' ← tabs
          setTabs (B.kronIns t' k x y ⟨q.2.1, N.val y.w⟩)
          pure ⟨q.2.1, .slot c⟩
        else match l with
        | 0 => pure (zeroW N)
        | l + 1 =>
          let es ← seq (ar k) (fun i => kron2 k l (B.kids t k a i) y)
          let e ← makeNode K N B k (B.lvl t k y.p + (B.lvl t k x.p - 1)) es
          match e.w with
          | .tab _ =>
            let t' ← tabs
            setTabs (B.kronIns t' k x y ⟨e.p, N.val N.zero⟩)
            pure e
          | .slot c =>
            let z ← read c
            write c (N.mul z (N.val x.w))
            let z' ← read c
            let t' ← tabs
            setTabs (B.kronIns t' k x y ⟨e.p, z'⟩)
            pure e

/-- `kronecker` (Package.hpp:1939-1953) with `incIdx = true`. -/
def kronecker (k : Kind) (x y : Edge T) : SM σ F (Edge T) := do
  let t ← tabs
  let r ← kron2 K N B k (B.lvl t k x.p) x y
  finish N r

/-- A product with a table number, by way of a temporary number (Package.hpp:2069-2074, 2096-2101). -/
def scale (w : Wt T) (a : T) : SM σ F T :=
  if w = .tab N.one then pure a
  else do
    let z ← value N w
    let c ← getTemporary K (N.mul z (N.val a))
    let q ← read c
    lookup N q

/-- Non-cached `makeDDNode` (Package.hpp:993-1028), not modelled further: `plain` is what it does to the tables, the result and the values
written to temporary numbers. -/
structure Plain (σ T F : Type) where
  make : σ → Nat → (Fin 4 → Edge T) → σ × Edge T × List (Cx F)

/-- Recursive `trace` (Package.hpp:2040-2105). -/
def trace (Q : Plain σ T F) (elim : List Bool) : Nat → Edge T → Nat → SM σ F (Edge T)
  | 0, a, _ => if N.isZero (N.val a.w) then pure ⟨none, N.zero⟩ else pure a
  | l + 1, a, done =>
    if N.isZero (N.val a.w) then pure ⟨none, N.zero⟩
    else if elim.all (fun b => !b) then pure a
    else match a.p with
    | none => pure a
    | some p => do
      let t ← tabs
      let v := B.lvl t .m (some p) - 1
      let kid := B.kids t .m p
      if elim.getD v false then
        let t0 ← trace Q elim l (kid 0) (done + 1)
        let ta ← tabs
        let r1 ← add2 K N B .m (B.lvl ta .m t0.p) (zeroW N) (inj t0)
        let t1 ← trace Q elim l (kid 3) (done + 1)
        let tb ← tabs
        let r2 ← add2 K N B .m (max (B.lvl tb .m r1.p) (B.lvl tb .m t1.p)) r1 (inj t1)
        let w ← scale K N r2.w a.w
        giveIf (decide (r1.w ≠ .tab N.zero)) r1.w
        giveIf (decide (r2.w ≠ .tab N.zero)) r2.w
        pure ⟨r2.p, w⟩
      else
        let es ← seq 4 (fun i => trace Q elim l (kid i) done)
        let t' ← tabs
        let q := Q.make t' (v - (elim.count true - done)) es
        setTabs q.1
        temps K q.2.2
        let w ← scale K N (.tab q.2.1.w) a.w
        pure ⟨q.2.1.p, w⟩

/-- Recursive `makeStateFromVector` (Package.hpp:838-855) at level `l`. -/
def stateF : Nat → List (Cx F) → SM σ F (Edge (Wt T))
  | 0, xs => do
    match xs with
    | x :: y :: _ =>
      let c0 ← getCached K x
      let c1 ← getCached K y
      makeNode K N B .v 0 ![⟨none, .slot c0⟩, ⟨none, .slot c1⟩]
    | _ => fault
  | l + 1, xs => do
    let half := xs.length / 2
    let e0 ← stateF l (xs.take half)
    let e1 ← stateF l (xs.drop half)
    makeNode K N B .v (l + 1) ![e0, e1]

/-- Recursive `makeDDFromMatrix` (Package.hpp:873-896); the first argument is `level + 1`, `M i j` the entries. -/
def matrixF (M : Nat → Nat → Cx F) : Nat → Nat → Nat → Nat → Nat → SM σ F (Edge (Wt T))
  | 0, r0, _, c0, _ => do
    let s ← getCached K (M r0 c0)
    pure ⟨none, .slot s⟩
  | l + 1, r0, r1, c0, c1 => do
    let rm := (r0 + r1) / 2
    let cm := (c0 + c1) / 2
    let e0 ← matrixF M l r0 rm c0 cm
    let e1 ← matrixF M l r0 rm cm c1
    let e2 ← matrixF M l rm r1 c0 cm
    let e3 ← matrixF M l rm r1 cm c1
    makeNode K N B .m l ![e0, e1, e2, e3]

/-- Recursive `getVector` (Package.hpp:2646-2667); writing to the vector is left out, as it does not involve slots. The weight `amp` is
`Complex::one` or a slot. `getValueByPath` (2540-2588), `getMatrix` and `getDensityMatrix` (2708-2785) treat slots in the same way. -/
def walk (k : Kind) : Nat → Edge T → Wt T → SM σ F Unit
  | 0, e, amp => do
    let z ← value N amp
    let c ← getCached K (N.mul (N.val e.w) z)
    give c
  | l + 1, e, amp => do
    let z ← value N amp
    let c ← getCached K (N.mul (N.val e.w) z)
    match e.p with
    | none => give c
    | some a =>
      let t ← tabs
      let _ ← seq (ar k) (fun i =>
        if N.isZero (N.val (B.kids t k a i).w) then pure () else walk k l (B.kids t k a i) (.slot c))
      give c

/-- Recursive `exportAmplitudesRec` (Package.hpp:2787-2806, 2826-2842); the first argument bounds the levels. At the terminal a temporary number
is used. Writing the amplitudes is left out. -/
def exportF : Nat → Edge T → Nat × Nat → SM σ F Unit
  | l, e, amp =>
    match e.p with
    | none => do
      let z ← read amp
      let _ ← getTemporary K (N.mul z (N.val e.w))
      pure ()
    | some a =>
      match l with
      | 0 => pure ()
      | l + 1 => do
        let z ← read amp
        let c ← getCached K (N.mul z (N.val e.w))
        let t ← tabs
        exportF l (B.kids t .v a 0) c
        exportF l (B.kids t .v a 1) c
        give c

/-- `exportAmplitudes` (Package.hpp:2807-2815, 2843-2851); `unit` is the value `(1, 0)`. -/
def exportAmplitudes (unit : Cx F) (e : Edge T) : SM σ F Unit :=
  if e.p = none then pure ()
  else do
    let t ← tabs
    let c ← getCached K unit
    exportF K N B (B.lvl t .v e.p) e c
    give c

/-- `getVector`, `getMatrix` (Package.hpp:2640-2645, 2700-2706), and `getValueByPath` with indices (2534-2539, 2559-2564): traversal from the top with
`Complex::one`. -/
def readAll (k : Kind) (e : Edge T) : SM σ F Unit := do
  let t ← tabs
  walk K N B k (B.lvl t k e.p) e (.tab N.one)

/-- `makeStateFromVector` (Package.hpp:306-334) for `2 ^ (l + 1)` amplitudes. -/
def makeState (l : Nat) (xs : List (Cx F)) : SM σ F (Edge T) := do
  let e ← stateF K N B l xs
  finish N e

/-- `makeDDFromMatrix` (Package.hpp:342-375) for a matrix with `2 ^ l` rows and columns. -/
def makeMatrix (M : Nat → Nat → Cx F) (l : Nat) : SM σ F (Edge T) := do
  let e ← matrixF K N B M l 0 (2 ^ l) 0 (2 ^ l)
  finish N e

/-- `partialTrace` (Package.hpp:2017-2023). -/
def partialTrace (Q : Plain σ T F) (elim : List Bool) (a : Edge T) : SM σ F (Edge T) := do
  let t ← tabs
  trace K N B Q elim (B.lvl t .m a.p) a 0

/-- The end of the recursive reductions (Package.hpp:2362-2364, 2410-2412, 2493-2495) and of `transfer` and `deserialize` (2952-2955, 3061-3064): the
number is looked up before its slot is given back. -/
def topWeight (z : Cx F) : SM σ F T := do
  let c ← getCached K z
  let q ← read c
  let t ← lookup N q
  give c
  pure t

/-- The table of inner products (Package.hpp:1765; lookup 1857, insertion 1890), and complex conjugation (ComplexNumbers.hpp:103-113). -/
structure InnerTab (σ T F : Type) where
  look : σ → Option Nat → Option Nat → Option (Cx F)
  ins : σ → Option Nat → Option Nat → Cx F → σ
  conj : T → T

/-- Three consecutive writes to one temporary number: a value, and its products with two weights (Package.hpp:1859-1862, 1891-1894). -/
def tempProd (z : Cx F) (x y : T) : SM σ F (Cx F) := do
  let c ← getTemporary K z
  let z1 ← read c
  write c (N.mul z1 (N.val x))
  let z2 ← read c
  write c (N.mul z2 (N.val y))
  read c

/-- Successor `i` of an operand of `innerProduct` (Package.hpp:1870-1882). -/
def innerChild (t : σ) (x : Edge T) (w : Nat) (i : Fin 2) (f : T → T) : Edge T :=
  match x.p with
  | none => ⟨none, N.one⟩
  | some a => if B.lvl t .v (some a) = w + 1 then ⟨(B.kids t .v a i).p, f (B.kids t .v a i).w⟩ else ⟨some a, N.one⟩

/-- Recursive `innerProduct` (Package.hpp:1841-1895). -/
def innerF (I : InnerTab σ T F) : Nat → Edge T → Edge T → SM σ F (Cx F)
  | l, x, y =>
    if N.isZero (N.val x.w) || N.isZero (N.val y.w) then pure (N.val N.zero)
    else match l with
    | 0 => do
      let c ← getTemporary K (N.mul (N.val x.w) (N.val y.w))
      read c
    | l + 1 => do
      let t ← tabs
      match I.look t x.p y.p with
      | some z => tempProd K N z x.w y.w
      | none =>
        let c0 ← innerF I l (innerChild N B t x l 0 I.conj) (innerChild N B t y l 0 id)
        let c1 ← innerF I l (innerChild N B t x l 1 I.conj) (innerChild N B t y l 1 id)
        let sum := N.add (N.add (N.val N.zero) c0) c1
        let t' ← tabs
        setTabs (I.ins t' x.p y.p sum)
        tempProd K N sum x.w y.w

/-- `innerProduct` (Package.hpp:1773-1793). -/
def innerProduct (I : InnerTab σ T F) (x y : Edge T) : SM σ F (Cx F) :=
  if N.isZero (N.val x.w) || N.isZero (N.val y.w) then pure (N.val N.zero)
  else do
    let t ← tabs
    innerF K N B I (max (B.lvl t .v x.p) (B.lvl t .v y.p)) ⟨x.p, I.conj x.w⟩ y

end Slots
end DD
