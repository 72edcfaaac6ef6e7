import Verif.Model.Package

/-!
# Construction and extraction of diagrams

Model of the functions of `include/dd/Package.hpp` that build diagrams from classical data (states, vectors, matrices,
gates), change them in place (`deleteEdge`, traces) and read them out again. As in `Package.lean` arithmetic is exact.
The parameter `start` is 0.
-/

namespace DD

/-- The single-qubit states `makeBasisState` knows (Definitions.hpp, `BasisStates`). -/
inductive Basis where
  | zero
  | one
  | plus
  | minus
  | right
  | left
deriving DecidableEq, Repr

/-- A control qubit (Control.hpp:15-22). -/
structure Ctrl where
  qubit : Nat
  neg : Bool
deriving DecidableEq, Repr

namespace Pkg

section
variable {R : Type} [Field R] [LinearOrder R] [IsStrictOrderedRing R] [HasSqrt R]

/-- The loop of `makeIdent` (Package.hpp:2189-2192): `k` runs from `lo + 1` to `hi`; first argument: number of steps. -/
def identLoop (P : PCfg R) : Nat → Nat → Pkg R → PEdge R → Pkg R × PEdge R
  | 0, _, s, e => (s, e)
  | n + 1, k, s, e =>
    let r := makeDDNode P .m s k ![e, zeroE, zeroE, e] false
    identLoop P n (k + 1) r.1 r.2

/-- `makeIdent(leastSignificantQubit, mostSignificantQubit)` (Package.hpp:2174-2197); `hi` is `mostSignificantQubit + 1`,
so `hi ≤ lo` is the case `mostSignificantQubit < leastSignificantQubit`. -/
def makeIdentR (P : PCfg R) (s : Pkg R) (lo hi : Nat) : Pkg R × PEdge R :=
  match hi with
  | 0 => (s, oneE)
  | m + 1 =>
    if m < lo then (s, oneE)
    else match (if lo = 0 then s.idTab m else none) with
    | some e => (s, e)
    | none =>
      match (if 1 ≤ m then s.idTab (m - 1) else none) with
      | some e =>
        let r := makeDDNode P .m s m ![e, zeroE, zeroE, e] false
        ({ r.1 with idTab := Function.update r.1.idTab m (some r.2) }, r.2)
      | none =>
        let r0 := makeDDNode P .m s lo ![oneE, zeroE, zeroE, oneE] false
        let r := identLoop P (m - lo) (lo + 1) r0.1 r0.2
        if lo = 0 then ({ r.1 with idTab := Function.update r.1.idTab m (some r.2) }, r.2) else r

/-- `makeIdent(n)` (Package.hpp:2173). -/
def makeIdent (P : PCfg R) (s : Pkg R) (n : Nat) : Pkg R × PEdge R := makeIdentR P s 0 n

/-- `SQRT2_2` (Definitions.hpp:56). -/
def sqrt12 : R := HasSqrt.sqrt (1 / 2)

/-- One iteration of the loop of `makeBasisState` (Package.hpp:280-301). -/
def basisStep (P : PCfg R) (b : Basis) (p : Nat) (s : Pkg R) (f : PEdge R) : Pkg R × PEdge R :=
  let h : R := sqrt12
  match b with
  | .zero => makeDDNode P .v s p ![f, zeroE] false
  | .one => makeDDNode P .v s p ![zeroE, f] false
  | .plus => makeDDNode P .v s p ![⟨f.p, ⟨h, 0⟩⟩, ⟨f.p, ⟨h, 0⟩⟩] false
  | .minus => makeDDNode P .v s p ![⟨f.p, ⟨h, 0⟩⟩, ⟨f.p, ⟨-h, 0⟩⟩] false
  | .right => makeDDNode P .v s p ![⟨f.p, ⟨h, 0⟩⟩, ⟨f.p, ⟨0, h⟩⟩] false
  | .left => makeDDNode P .v s p ![⟨f.p, ⟨h, 0⟩⟩, ⟨f.p, ⟨0, -h⟩⟩] false

/-- The loop over qubits `0 .. n - 1` of `makeBasisState` (Package.hpp:279-302). -/
def basisLoop (P : PCfg R) (st : Nat → Basis) : Nat → Pkg R → Pkg R × PEdge R
  | 0, s => (s, oneE)
  | n + 1, s =>
    let r := basisLoop P st n s
    basisStep P (st n) n r.1 r.2

/-- `makeBasisState` for general states (Package.hpp:266-304); `none` is the exception. -/
def makeBasisStates (P : PCfg R) (s : Pkg R) (n : Nat) (state : List Basis) : Option (Pkg R × PEdge R) :=
  if n > (s.ut .v).nvars then none
  else if state.length < n then none
  else some (basisLoop P (fun i => state.getD i .zero) n s)

/-- `makeBasisState` for bits (Package.hpp:249-264). The code does not check the length of `state`; reading beyond it is
undefined behaviour. -/
def makeBasisState (P : PCfg R) (s : Pkg R) (n : Nat) (state : List Bool) : Option (Pkg R × PEdge R) :=
  if n > (s.ut .v).nvars then none
  else some (basisLoop P (fun i => if state.getD i false then .one else .zero) n s)

/-- `makeZeroState` (Package.hpp:234-247). -/
def makeZeroState (P : PCfg R) (s : Pkg R) (n : Nat) : Option (Pkg R × PEdge R) :=
  if n > (s.ut .v).nvars then none
  else some (basisLoop P (fun _ => .zero) n s)

/-- Recursive `makeStateFromVector` (Package.hpp:838-854); the first argument is `level`. -/
def stateF (P : PCfg R) : Nat → Pkg R → List (Cx R) → Pkg R × PEdge R
  | 0, s, xs => makeDDNode P .v s 0 ![⟨none, xs.getD 0 0⟩, ⟨none, xs.getD 1 0⟩] true
  | l + 1, s, xs =>
    let half := xs.length / 2
    let r0 := stateF P l s (xs.take half)
    let r1 := stateF P l r0.1 (xs.drop half)
    makeDDNode P .v r1.1 (l + 1) ![r0.2, r1.2] true

/-- `makeStateFromVector` (Package.hpp:307-334); `none` is the exception. The function does not check that the vector fits
the package. -/
def makeStateFromVector (P : PCfg R) (s : Pkg R) (xs : List (Cx R)) : Option (Pkg R × PEdge R) :=
  if xs = [] then some (s, oneE)
  else if xs.length &&& (xs.length - 1) ≠ 0 then none
  else if xs.length = 1 then some (s, ⟨none, xs.getD 0 0⟩)
  else some (stateF P (Nat.log2 xs.length - 1) s xs)

/-- Recursive `makeDDFromMatrix` (Package.hpp:873-897); the first argument is `level + 1`, the bounds are those of the
block of rows and columns. -/
def matrixF (P : PCfg R) (M : List (List (Cx R))) : Nat → Pkg R → Nat → Nat → Nat → Nat → Pkg R × PEdge R
  | 0, s, r0, _, c0, _ => (s, ⟨none, (M.getD r0 []).getD c0 0⟩)
  | l + 1, s, r0, r1, c0, c1 =>
    let rm := (r0 + r1) / 2
    let cm := (c0 + c1) / 2
    let e0 := matrixF P M l s r0 rm c0 cm
    let e1 := matrixF P M l e0.1 r0 rm cm c1
    let e2 := matrixF P M l e1.1 rm r1 c0 cm
    let e3 := matrixF P M l e2.1 rm r1 cm c1
    makeDDNode P .m e3.1 l ![e0.2, e1.2, e2.2, e3.2] true

/-- `makeDDFromMatrix` (Package.hpp:342-375); `none` is the exception. Only the first row's width is checked; reading
beyond a shorter row is undefined behaviour. -/
def makeDDFromMatrix (P : PCfg R) (s : Pkg R) (M : List (List (Cx R))) : Option (Pkg R × PEdge R) :=
  if M = [] then some (s, oneE)
  else if M.length &&& (M.length - 1) ≠ 0 then none
  else if M.length ≠ (M.getD 0 []).length then none
  else if M.length = 1 then some (s, ⟨none, (M.getD 0 []).getD 0 0⟩)
  else some (matrixF P M (Nat.log2 M.length) s 0 M.length 0 (M.getD 0 []).length)

/-- Terminal edges for the entries of a gate matrix (Package.hpp:490-497, 564-579). -/
def gateEntry (x : Cx R) : PEdge R := if x.re = 0 ∧ x.im = 0 then zeroE else ⟨none, x⟩

/-- One line below the target in `makeGateDD` (Package.hpp:502-519): the new `em` and the new iterator, which is the
list of the remaining controls. -/
def gateBelow (P : PCfg R) (z : Nat) (s : Pkg R) (em : Fin 4 → PEdge R) (it : List Ctrl) :
    (Pkg R × (Fin 4 → PEdge R)) × List Ctrl :=
  let plain := seqFin 4 (fun i s => makeDDNode P .m s z ![em i, zeroE, zeroE, em i] false) s
  match it with
  | [] => (plain, [])
  | c :: rest =>
    if c.qubit = z then
      (seqFin 4 (fun i s =>
        let id := if i = 0 ∨ i = 3 then makeIdentR P s 0 z else (s, zeroE)
        makeDDNode P .m id.1 z (if c.neg then ![em i, zeroE, zeroE, id.2] else ![id.2, zeroE, zeroE, em i]) false) s, rest)
    else (plain, c :: rest)

/-- The loop over the lines below the target (Package.hpp:500-519), for `z = 0 .. n - 1`. -/
def gateBelowLoop (P : PCfg R) : Nat → Pkg R → (Fin 4 → PEdge R) → List Ctrl → (Pkg R × (Fin 4 → PEdge R)) × List Ctrl
  | 0, s, em, it => ((s, em), it)
  | z + 1, s, em, it =>
    let r := gateBelowLoop P z s em it
    gateBelow P z r.1.1 r.1.2 r.2

/-- One line above the target (Package.hpp:525-537). -/
def gateAbove (P : PCfg R) (q : Nat) (s : Pkg R) (e : PEdge R) (it : List Ctrl) : (Pkg R × PEdge R) × List Ctrl :=
  match it with
  | [] => (makeDDNode P .m s q ![e, zeroE, zeroE, e] false, [])
  | c :: rest =>
    if c.qubit = q then
      let id := makeIdentR P s 0 q
      (makeDDNode P .m id.1 q (if c.neg then ![e, zeroE, zeroE, id.2] else ![id.2, zeroE, zeroE, e]) false, rest)
    else (makeDDNode P .m s q ![e, zeroE, zeroE, e] false, c :: rest)

/-- The loop over the lines above the target: `n` lines starting with line `q0`. -/
def gateAboveLoop (P : PCfg R) (q0 : Nat) : Nat → Pkg R → PEdge R → List Ctrl → (Pkg R × PEdge R) × List Ctrl
  | 0, s, e, it => ((s, e), it)
  | n + 1, s, e, it =>
    let r := gateAboveLoop P q0 n s e it
    gateAbove P (q0 + n) r.1.1 r.1.2 r.2

/-- `makeGateDD` (Package.hpp:480-539); `none` is the exception. `controls` is the sorted content of the `std::set`
(Control.hpp:24-26, 48). -/
def makeGateDD (P : PCfg R) (s : Pkg R) (U : Fin 4 → Cx R) (n : Nat) (controls : List Ctrl) (target : Nat) :
    Option (Pkg R × PEdge R) :=
  if n > (s.ut .m).nvars then none
  else
    let b := gateBelowLoop P target s (fun i => gateEntry (U i)) controls
    let e := makeDDNode P .m b.1.1 target b.1.2 false
    some (gateAboveLoop P (target + 1) (n - 1 - target) e.1 e.2 b.2).1

/-- Put an identity on line `z` below every edge (Package.hpp:584-590, 613-617). -/
def wrapAll {m : Nat} (P : PCfg R) (z : Nat) (s : Pkg R) (em : Fin m → PEdge R) : Pkg R × (Fin m → PEdge R) :=
  seqFin m (fun i s => makeDDNode P .m s z ![em i, zeroE, zeroE, em i] false) s

/-- `n` such lines starting with line `z0`. -/
def wrapLoop {m : Nat} (P : PCfg R) (z0 : Nat) : Nat → Pkg R → (Fin m → PEdge R) → Pkg R × (Fin m → PEdge R)
  | 0, s, em => (s, em)
  | n + 1, s, em =>
    let r := wrapLoop P z0 n s em
    wrapAll P (z0 + n) r.1 r.2

/-- Index `i1 * RADIX + i2`. -/
def idx2 (i j : Fin 2) : Fin 4 := ![![0, 1], ![2, 3]] i j

/-- First and second digit of an index `i1 * RADIX + i2`. -/
def hi2 (i : Fin 4) : Fin 2 := ![0, 0, 1, 1] i
def lo2 (i : Fin 4) : Fin 2 := ![0, 1, 0, 1] i

/-- `static_cast<Qubit>(n)`: conversion to `std::int8_t` (Definitions.hpp:27). -/
def toQubit (n : Nat) : Int := (n : Int).bmod 256

/-- Number of iterations of `for (++z; z < static_cast<Qubit>(n + start); ++z)` after `z = hi` (Package.hpp:622). For 128
qubits the bound is -128. -/
def upperLines (n hi : Nat) : Nat := (toQubit n - (hi + 1)).toNat

/-- `makeTwoQubitGateDD` (Package.hpp:551-627); `none` is the exception. `U i1 i2` is `mat[i1][i2]`; the sixteen edges
`em[i1][i2]` are numbered `4 * i1 + i2`. -/
def makeTwoQubitGateDD (P : PCfg R) (s : Pkg R) (U : Fin 4 → Fin 4 → Cx R) (n : Nat) (target0 target1 : Nat) :
    Option (Pkg R × PEdge R) :=
  if n > (s.ut .m).nvars then none
  else
    let em0 : Fin 16 → PEdge R := fun i => gateEntry (U ⟨i / 4, by omega⟩ ⟨i % 4, by omega⟩)
    let lo := min target0 target1
    let hi := max target0 target1
    let r1 := wrapLoop P 0 lo s em0
    let em (i j : Fin 4) : PEdge R := r1.2 ⟨4 * i + j, by omega⟩
    let r2 := seqFin 4 (fun q s =>
      let row := hi2 q
      let col := lo2 q
      makeDDNode P .m s lo (fun ij =>
        if target0 > target1 then em (idx2 row (hi2 ij)) (idx2 col (lo2 ij))
        else em (idx2 (hi2 ij) row) (idx2 (lo2 ij) col)) false) r1.1
    let r3 := wrapLoop P (lo + 1) (hi - lo - 1) r2.1 r2.2
    let e := makeDDNode P .m r3.1 hi r3.2 false
    let r4 := wrapLoop P (hi + 1) (upperLines n hi) e.1 (fun _ : Fin 1 => e.2)
    some (r4.1, r4.2 0)

/-- Recursive `deleteEdge` (Package.hpp:1037-1073). The map `nodes` from nodes to results is an association list. -/
def deleteF (P : PCfg R) (k : Kind) (v : Nat) (idx : Fin (ar k)) : Nat → Pkg R × List (Nat × PEdge R) → PEdge R →
    (Pkg R × List (Nat × PEdge R)) × PEdge R
  | 0, s, e => (s, e)
  | l + 1, s, e =>
    match e.p with
    | none => (s, e)
    | some a =>
      match s.2.lookup a with
      | some r => (s, ⟨r.p, r.w * e.w⟩)
      | none =>
        let nd := (s.1.ut k).mem a
        let q :=
          if nd.v = v then (s, fun i => if i = idx then zeroE else nd.e i)
          else seqFin (ar k) (fun i s => deleteF P k v idx l s (nd.e i)) s
        let r := makeDDNode P k q.1.1 nd.v q.2 false
        ((r.1, (a, r.2) :: q.1.2), ⟨r.2.p, r.2.w * e.w⟩)

/-- `deleteEdge` (Package.hpp:1030-1034). -/
def deleteEdge (P : PCfg R) (k : Kind) (s : Pkg R) (e : PEdge R) (v : Nat) (idx : Fin (ar k)) : Pkg R × PEdge R :=
  let r := deleteF P k v idx (s.lv k e) (s, []) e
  (r.1.1, r.2)

/-- Recursive `trace` (Package.hpp:2041-2098). -/
def traceF (P : PCfg R) (elim : List Bool) : Nat → Pkg R → PEdge R → Nat → Pkg R × PEdge R
  | l, s, a, done =>
    if a.w = 0 then (s, zeroE)
    else if elim.all (fun b => !b) then (s, a)
    else match a.p with
    | none => (s, a)
    | some p =>
      match l with
      | 0 => (s, a)
      | l + 1 =>
        let nd := (s.ut .m).mem p
        if elim.getD nd.v false then
          let t0 := traceF P elim l s (nd.e 0) (done + 1)
          let r1 := add P .m t0.1 zeroE t0.2
          let t1 := traceF P elim l r1.1 (nd.e 3) (done + 1)
          let r := add P .m t1.1 r1.2 t1.2
          (r.1, ⟨r.2.p, r.2.w * a.w⟩)
        else
          let q := seqFin 4 (fun i s => traceF P elim l s (nd.e i) done) s
          let adjustedV := nd.v - (elim.count true - done)
          let r := makeDDNode P .m q.1 adjustedV q.2 false
          (r.1, ⟨r.2.p, r.2.w * a.w⟩)

/-- `partialTrace` (Package.hpp:2018-2024). -/
def partialTrace (P : PCfg R) (s : Pkg R) (a : PEdge R) (elim : List Bool) : Pkg R × PEdge R :=
  traceF P elim (s.lv .m a) s a 0

/-- `trace` (Package.hpp:2025-2032). -/
def trace (P : PCfg R) (s : Pkg R) (a : PEdge R) : Pkg R × Cx R :=
  let r := partialTrace P s a (List.replicate (s.ut .m).nvars true)
  (r.1, r.2.w)

end

section read
variable {R : Type} [Field R] {n : Nat}

/-- The loop of `getValueByPath` for a string of digits (Package.hpp:2522-2530); `elements v` is the digit at position
`v` of the string. -/
def pathLoop [DecidableEq R] (t : UTable (Cx R) n) (elements : Nat → Fin n) : Nat → PEdge R → Cx R → Cx R
  | 0, r, c => c * r.w
  | l + 1, r, c =>
    match r.p with
    | none => c * r.w
    | some a => pathLoop t elements l ((t.mem a).e (elements (t.mem a).v)) (c * r.w)

/-- `getValueByPath(e, elements)` (Package.hpp:2516-2533). -/
def valueByPath [DecidableEq R] (t : UTable (Cx R) n) (e : PEdge R) (elements : Nat → Fin n) : Cx R :=
  match e.p with
  | none => e.w
  | some _ => pathLoop t elements (t.lvl e) e 1

/-- `getValueByPath(e, amp, i)` (Package.hpp:2540-2558). The bit test is on unbounded numbers; in the code the shift
`1ULL << v` is undefined for levels above 63. -/
def valueVF [DecidableEq R] (t : UTable (Cx R) 2) : Nat → PEdge R → Cx R → Nat → Cx R
  | 0, e, am, _ => e.w * am
  | l + 1, e, am, i =>
    let c := e.w * am
    match e.p with
    | none => c
    | some a =>
      let one := i.testBit (t.mem a).v
      if !one && !decide (((t.mem a).e 0).w = 0) then valueVF t l ((t.mem a).e 0) c i
      else if one && !decide (((t.mem a).e 1).w = 0) then valueVF t l ((t.mem a).e 1) c i
      else 0

/-- `getValueByPath(e, i)` for vectors (Package.hpp:2534-2539). -/
def valueV [DecidableEq R] (t : UTable (Cx R) 2) (e : PEdge R) (i : Nat) : Cx R :=
  match e.p with
  | none => e.w
  | some _ => valueVF t (t.lvl e) e 1 i

/-- `getValueByPath(e, amp, i, j)` (Package.hpp:2565-2588). -/
def valueMF [DecidableEq R] (t : UTable (Cx R) 4) : Nat → PEdge R → Cx R → Nat → Nat → Cx R
  | 0, e, am, _, _ => e.w * am
  | l + 1, e, am, i, j =>
    let c := e.w * am
    match e.p with
    | none => c
    | some a =>
      let row := i.testBit (t.mem a).v
      let col := j.testBit (t.mem a).v
      if !row && !col && !decide (((t.mem a).e 0).w = 0) then valueMF t l ((t.mem a).e 0) c i j
      else if !row && col && !decide (((t.mem a).e 1).w = 0) then valueMF t l ((t.mem a).e 1) c i j
      else if row && !col && !decide (((t.mem a).e 2).w = 0) then valueMF t l ((t.mem a).e 2) c i j
      else if row && col && !decide (((t.mem a).e 3).w = 0) then valueMF t l ((t.mem a).e 3) c i j
      else 0

/-- `getValueByPath(e, i, j)` for matrices (Package.hpp:2559-2564). -/
def valueM [DecidableEq R] (t : UTable (Cx R) 4) (e : PEdge R) (i j : Nat) : Cx R :=
  match e.p with
  | none => e.w
  | some _ => valueMF t (t.lvl e) e 1 i j

/-- Recursive `getVector` (Package.hpp:2646-2667): the vector is a function from indices, initially zero. -/
def getVectorF [DecidableEq R] (t : UTable (Cx R) 2) : Nat → PEdge R → Cx R → Nat → (Nat → Cx R) → (Nat → Cx R)
  | 0, e, am, i, vec => Function.update vec i (e.w * am)
  | l + 1, e, am, i, vec =>
    let c := e.w * am
    match e.p with
    | none => Function.update vec i c
    | some a =>
      let x := i ||| 2 ^ (t.mem a).v
      let v0 := if ((t.mem a).e 0).w = 0 then vec else getVectorF t l ((t.mem a).e 0) c i vec
      if ((t.mem a).e 1).w = 0 then v0 else getVectorF t l ((t.mem a).e 1) c x v0

/-- `getVector` (Package.hpp:2639-2645): dimension and entries; `none` if the root is a terminal, for which the dimension
`2ULL << -1` is undefined. -/
def getVector [DecidableEq R] (t : UTable (Cx R) 2) (e : PEdge R) : Option (List (Cx R)) :=
  match e.p with
  | none => none
  | some a =>
    let dim := 2 <<< (t.mem a).v
    some ((List.range dim).map (getVectorF t (t.lvl e) e 1 0 (fun _ => 0)))

/-- Recursive `getMatrix` (Package.hpp:2708-2736). -/
def getMatrixF [DecidableEq R] (t : UTable (Cx R) 4) : Nat → PEdge R → Cx R → Nat → Nat → (Nat → Nat → Cx R) →
    (Nat → Nat → Cx R)
  | 0, e, am, i, j, M => Function.update M i (Function.update (M i) j (e.w * am))
  | l + 1, e, am, i, j, M =>
    let c := e.w * am
    match e.p with
    | none => Function.update M i (Function.update (M i) j c)
    | some a =>
      let x := i ||| 2 ^ (t.mem a).v
      let y := j ||| 2 ^ (t.mem a).v
      let m0 := if ((t.mem a).e 0).w = 0 then M else getMatrixF t l ((t.mem a).e 0) c i j M
      let m1 := if ((t.mem a).e 1).w = 0 then m0 else getMatrixF t l ((t.mem a).e 1) c i y m0
      let m2 := if ((t.mem a).e 2).w = 0 then m1 else getMatrixF t l ((t.mem a).e 2) c x j m1
      if ((t.mem a).e 3).w = 0 then m2 else getMatrixF t l ((t.mem a).e 3) c x y m2

/-- `getMatrix` (Package.hpp:2701-2707); `none` as for `getVector`. -/
def getMatrix [DecidableEq R] (t : UTable (Cx R) 4) (e : PEdge R) : Option (List (List (Cx R))) :=
  match e.p with
  | none => none
  | some a =>
    let dim := 2 <<< (t.mem a).v
    let M := getMatrixF t (t.lvl e) e 1 0 0 (fun _ _ => 0)
    some ((List.range dim).map fun i => (List.range dim).map (M i))

end read

end Pkg
end DD
