import Verif.Model.ApproxMul
import Verif.Model.Build

/-!
# Building gates and initial states with a tolerance

`makeIdent`, `makeGateDD`, `makeTwoQubitGateDD`, `makeZeroState` and `makeBasisState` on the tables of Model/Joint.lean, with all shortcuts for numbers that are
approximately equal and with rounded arithmetic, in the same way as Model/Approx.lean. The parameter `start` is 0. These functions call
`makeDDNode` with `cached = false`.
-/

namespace DD

variable {R : Type} [Field R] [LinearOrder R] [FloorRing R] [HasSqrt R]

namespace JState

variable (J : JCfg R)

/-- `vEdge::zero`, `mEdge::zero` (Edge.hpp:14, Node.hpp:27). -/
def zeroP : PtrEdge := ⟨none, CNum.zero⟩

/-- `vEdge::one`, `mEdge::one` (Edge.hpp:13). -/
def oneP : PtrEdge := ⟨none, CNum.one⟩

/-- The position of an identity in the table of identities (Package.hpp:2218), represented as a key (Model/Joint.lean). -/
def idKey (m : Nat) : CKey R := ([], [(m : Int)])

/-- `idTable[m]`, if it is set (Package.hpp:2179-2182). -/
def idLook (s : JState R) (m : Nat) : Option PtrEdge :=
  match (s.cache .idTable).lookup (J.h .idTable) (fun a b => decide (a.2 = b.2)) (fun _ => true) (idKey m) with
  | some (.ptr _ r) => some r
  | _ => none

/-- `idTable[m] = e` (Package.hpp:2183, 2197). -/
def idIns (s : JState R) (m : Nat) (e : PtrEdge) : JState R :=
  { s with cache := Function.update s.cache .idTable ((s.cache .idTable).insert (J.h .idTable) (idKey m) (.ptr .m e)) }

/-- `makeDDNode(z, {a, 0, 0, b})` (Package.hpp:993-1028). -/
def diagN (s : JState R) (z : Nat) (a b : PtrEdge) : JState R × PtrEdge :=
  makeN J (transposeF J z) s z ![a, zeroP, zeroP, b]

/-- The loop of `makeIdent` (Package.hpp:2192-2194): `k` runs from 1 to `mostSignificantQubit`; first argument: number of steps. -/
def identLoop : Nat → Nat → JState R → PtrEdge → JState R × PtrEdge
  | 0, _, s, e => (s, e)
  | n + 1, k, s, e =>
    let r := diagN J s k e e
    identLoop n (k + 1) r.1 r.2

/-- `makeIdent(0, n - 1)` (Package.hpp:2173-2200). -/
def makeIdent (s : JState R) (n : Nat) : JState R × PtrEdge :=
  match n with
  | 0 => (s, oneP)
  | m + 1 =>
    match s.idLook J m with
    | some e => (s, e)
    | none =>
      match (if 1 ≤ m then s.idLook J (m - 1) else none) with
      | some e =>
        let r := diagN J s m e e
        (r.1.idIns J m r.2, r.2)
      | none =>
        let r0 := diagN J s 0 oneP oneP
        let r := identLoop J m 1 r0.1 r0.2
        (r.1.idIns J m r.2, r.2)

/-- Terminal edges for the entries of a gate matrix (Package.hpp:490-497). -/
def gateEntry (s : JState R) (x : Cx R) : JState R × PtrEdge :=
  if x.re = 0 ∧ x.im = 0 then (s, zeroP)
  else
    let c := lookupC J s x
    (c.1, ⟨none, c.2⟩)

/-- One line below the target in `makeGateDD` (Package.hpp:502-519): the new `em` and the new iterator, which is the list of the remaining
controls. -/
def gateBelow (z : Nat) (s : JState R) (em : Fin 4 → PtrEdge) (it : List Ctrl) : (JState R × (Fin 4 → PtrEdge)) × List Ctrl :=
  let plain := seqFin 4 (fun i s => diagN J s z (em i) (em i)) s
  match it with
  | [] => (plain, [])
  | c :: rest =>
    if c.qubit = z then
      (seqFin 4 (fun i s =>
        let id := if i = 0 ∨ i = 3 then makeIdent J s z else (s, zeroP)
        if c.neg then diagN J id.1 z (em i) id.2 else diagN J id.1 z id.2 (em i)) s, rest)
    else (plain, c :: rest)

/-- The loop over the lines below the target (Package.hpp:500-519), for `z = 0 .. n - 1`. -/
def gateBelowLoop : Nat → JState R → (Fin 4 → PtrEdge) → List Ctrl → (JState R × (Fin 4 → PtrEdge)) × List Ctrl
  | 0, s, em, it => ((s, em), it)
  | z + 1, s, em, it =>
    let r := gateBelowLoop z s em it
    gateBelow J z r.1.1 r.1.2 r.2

/-- One line above the target (Package.hpp:525-537). -/
def gateAbove (q : Nat) (s : JState R) (e : PtrEdge) (it : List Ctrl) : (JState R × PtrEdge) × List Ctrl :=
  match it with
  | [] => (diagN J s q e e, [])
  | c :: rest =>
    if c.qubit = q then
      let id := makeIdent J s q
      (if c.neg then diagN J id.1 q e id.2 else diagN J id.1 q id.2 e, rest)
    else (diagN J s q e e, c :: rest)

/-- The loop over the lines above the target: `n` lines starting with line `q0` (Package.hpp:525-538). -/
def gateAboveLoop (q0 : Nat) : Nat → JState R → PtrEdge → List Ctrl → (JState R × PtrEdge) × List Ctrl
  | 0, s, e, it => ((s, e), it)
  | n + 1, s, e, it =>
    let r := gateAboveLoop q0 n s e it
    gateAbove J (q0 + n) r.1.1 r.1.2 r.2

/-- `makeGateDD` (Package.hpp:480-539); `none` is the exception. `controls` is the sorted content of the `std::set`
(Control.hpp:24-26, 48). -/
def makeGateDD (s : JState R) (U : Fin 4 → Cx R) (n : Nat) (controls : List Ctrl) (target : Nat) : Option (JState R × PtrEdge) :=
  if n > (s.tab .m).tab.nvars then none
  else
    let em := seqFin 4 (fun i s => gateEntry J s (U i)) s
    let b := gateBelowLoop J target em.1 em.2 controls
    let e := makeN J (transposeF J target) b.1.1 target b.1.2
    some (gateAboveLoop J (target + 1) (n - 1 - target) e.1 e.2 b.2).1

/-- Put an identity on line `z` below every edge (Package.hpp:584-590, 613-617). -/
def wrapAll {m : Nat} (z : Nat) (s : JState R) (em : Fin m → PtrEdge) : JState R × (Fin m → PtrEdge) :=
  seqFin m (fun i s => diagN J s z (em i) (em i)) s

/-- `n` such lines starting with line `z0`. -/
def wrapLoop {m : Nat} (z0 : Nat) : Nat → JState R → (Fin m → PtrEdge) → JState R × (Fin m → PtrEdge)
  | 0, s, em => (s, em)
  | n + 1, s, em =>
    let r := wrapLoop z0 n s em
    wrapAll J (z0 + n) r.1 r.2

/-- The successors of the node for row `hi2 q` and column `lo2 q` at the smaller target (Package.hpp:593-609); the sixteen edges
`em[i1][i2]` are numbered `4 * i1 + i2`. -/
def blockKids (target0 target1 : Nat) (em : Fin 16 → PtrEdge) (q : Fin 4) : Fin 4 → PtrEdge := fun ij =>
  if target0 > target1 then
    em ⟨4 * Pkg.idx2 (Pkg.hi2 q) (Pkg.hi2 ij) + Pkg.idx2 (Pkg.lo2 q) (Pkg.lo2 ij), by omega⟩
  else em ⟨4 * Pkg.idx2 (Pkg.hi2 ij) (Pkg.hi2 q) + Pkg.idx2 (Pkg.lo2 ij) (Pkg.lo2 q), by omega⟩

/-- `makeTwoQubitGateDD` (Package.hpp:551-627); `none` is the exception. `U i1 i2` is `mat[i1][i2]`. -/
def makeTwoQubitGateDD (s : JState R) (U : Fin 4 → Fin 4 → Cx R) (n : Nat) (target0 target1 : Nat) : Option (JState R × PtrEdge) :=
  if n > (s.tab .m).tab.nvars then none
  else
    let lo := min target0 target1
    let hi := max target0 target1
    let r0 := seqFin 16 (fun i s => gateEntry J s (U ⟨i / 4, by omega⟩ ⟨i % 4, by omega⟩)) s
    let r1 := wrapLoop J 0 lo r0.1 r0.2
    let r2 := seqFin 4 (fun q s => makeN J (transposeF J lo) s lo (blockKids target0 target1 r1.2 q)) r1.1
    let r3 := wrapLoop J (lo + 1) (hi - lo - 1) r2.1 r2.2
    let e := makeN J (transposeF J hi) r3.1 hi r3.2
    let r4 := wrapLoop J (hi + 1) (Pkg.upperLines n hi) e.1 (fun _ : Fin 1 => e.2)
    some (r4.1, r4.2 0)

/-- `cn.lookup` of a `Complex` (ComplexNumbers.hpp:141-152): the constants are returned as they are. -/
def lookupN (s : JState R) (c : CNum Loc) : JState R × CNum Loc :=
  if c = CNum.zero then (s, CNum.zero)
  else if c = CNum.one then (s, CNum.one)
  else lookupC J s (s.ct.cval J.C c)

/-- `makeDDNode` fetches a cell and gives it back (Package.hpp:995, 147-155 with `cached = false`). -/
def takeBackV (s : JState R) : JState R :=
  { s with
    tab := Function.update s.tab .v
      { s.tab .v with tab := ((s.tab .v).tab.getNode J.U).1.returnNode ((s.tab .v).tab.getNode J.U).2 } }

/-- `makeDDNode` with `cached = false` for vectors (Package.hpp:993-1028, `normalize` 134-223). -/
def makeU (s : JState R) (v : Nat) (es : Fin 2 → PtrEdge) : JState R × PtrEdge :=
  let z0 := s.ct.cval J.C (es 0).w
  let z1 := s.ct.cval J.C (es 1).w
  if s.ct.zeroV z0 then
    if s.ct.zeroV z1 then (takeBackV J s, zeroP)
    else
      let c := lookupN J s (es 1).w
      let n := nodeV J c.1 v ![es 0, ⟨(es 1).p, CNum.one⟩]
      (n.1, ⟨some n.2, c.2⟩)
  else if s.ct.zeroV z1 then
    let c := lookupN J s (es 0).w
    let n := nodeV J c.1 v ![⟨(es 0).p, CNum.one⟩, es 1]
    (n.1, ⟨some n.2, c.2⟩)
  else
    let mag0 := mag2F J.fl z0
    let mag1 := mag2F J.fl z1
    let norm2 := J.fl (mag0 + mag1)
    let first := decide (J.fl (mag0 + s.ct.tol) ≥ mag1)
    let norm := J.fl (HasSqrt.sqrt norm2)
    let magMax := J.fl (HasSqrt.sqrt (if first then mag0 else mag1))
    let commonFactor := J.fl (norm / magMax)
    let max := if first then z0 else z1
    let min := if first then z1 else z0
    let r := lookupC J s ⟨J.fl (max.re * commonFactor), J.fl (max.im * commonFactor)⟩
    if r.1.ct.zeroV (r.1.ct.cval J.C r.2) then (takeV J r.1, zeroP)
    else
      let a := lookupC J r.1 ⟨J.fl (magMax / norm), 0⟩
      let b := lookupC J a.1 (a.1.ct.divV J.fl min (a.1.ct.cval J.C r.2))
      let n := nodeV J b.1 v
        (if first then ![kidOf (es 0).p a.2, kidOf (es 1).p b.2] else ![kidOf (es 0).p b.2, kidOf (es 1).p a.2])
      (n.1, ⟨some n.2, r.2⟩)

/-- Successors with the node of `f` and two looked up weights (Package.hpp:288, 291, 294, 297). -/
def pairOf (s : JState R) (p : Option Nat) (x y : Cx R) : JState R × (Fin 2 → PtrEdge) :=
  let a := lookupC J s x
  let b := lookupC J a.1 y
  (b.1, ![⟨p, a.2⟩, ⟨p, b.2⟩])

/-- The edges given to `makeDDNode` by the loop of `makeBasisState` (Package.hpp:280-299). `SQRT2_2` (Definitions.hpp:49), also one of the static
entries of the complex table (ComplexTable.hpp:110), is a parameter of the model. -/
def basisKids (s : JState R) (b : Basis) (f : PtrEdge) : JState R × (Fin 2 → PtrEdge) :=
  let h : R := J.C.sq
  match b with
  | .zero => (s, ![f, zeroP])
  | .one => (s, ![zeroP, f])
  | .plus => pairOf J s f.p ⟨h, 0⟩ ⟨h, 0⟩
  | .minus => pairOf J s f.p ⟨h, 0⟩ ⟨-h, 0⟩
  | .right => pairOf J s f.p ⟨h, 0⟩ ⟨0, h⟩
  | .left => pairOf J s f.p ⟨h, 0⟩ ⟨0, -h⟩

/-- The loop over qubits `0 .. n - 1` of `makeBasisState` (Package.hpp:279-302). -/
def basisLoop (st : Nat → Basis) : Nat → JState R → JState R × PtrEdge
  | 0, s => (s, oneP)
  | n + 1, s =>
    let r := basisLoop st n s
    let k := basisKids J r.1 (st n) r.2
    makeU J k.1 n k.2

/-- `makeBasisState` for general states (Package.hpp:266-304); `none` is the exception. -/
def makeBasisStates (s : JState R) (n : Nat) (state : List Basis) : Option (JState R × PtrEdge) :=
  if n > (s.tab .v).tab.nvars then none
  else if state.length < n then none
  else some (basisLoop J (fun i => state.getD i .zero) n s)

/-- `makeBasisState` for bits (Package.hpp:249-264). The code does not check the length of `state`. -/
def makeBasisState (s : JState R) (n : Nat) (state : List Bool) : Option (JState R × PtrEdge) :=
  if n > (s.tab .v).tab.nvars then none
  else some (basisLoop J (fun i => if state.getD i false then .one else .zero) n s)

/-- `makeZeroState` (Package.hpp:234-247). -/
def makeZeroState (s : JState R) (n : Nat) : Option (JState R × PtrEdge) :=
  if n > (s.tab .v).tab.nvars then none
  else some (basisLoop J (fun _ => .zero) n s)

/-- `incRef(e)` (Package.hpp:914-917) for vectors. -/
def holdV (s : JState R) (e : PtrEdge) : JState R :=
  { s with
    ct := s.ct.incRefL J.C ((s.tab .v).tab.incRef J.U e).2
    tab := Function.update s.tab .v ⟨((s.tab .v).tab.incRef J.U e).1, e :: (s.tab .v).held,
      fun w => (s.tab .v).wref w + ((s.tab .v).tab.incRef J.U e).2.count w⟩ }

end JState
end DD
