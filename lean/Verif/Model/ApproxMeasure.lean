import Verif.Model.ApproxInner
import Verif.Model.Measure

/-!
# Measuring all qubits with a tolerance

`measureAll` on the tables of Model/Joint.lean, with numbers that are stored up to a tolerance and with rounded arithmetic. Random draws are
inputs.
-/

namespace DD

variable {R : Type} [Field R] [LinearOrder R] [IsStrictOrderedRing R] [FloorRing R] [HasSqrt R]

namespace JState

variable (J : JCfg R)

/-- The loop of `measureAll` (Package.hpp:1119-1137): qubits from `l - 1` down to 0; `draw i` is the random number drawn for qubit `i`. `none` is
the exception. The edges of the terminal have weight zero (Node.hpp:34), so the exception is also thrown if the terminal is met too early (for
`eps < 1`). -/
def measureF (s : JState R) (eps : R) (draw : Nat → R) : Nat → PtrEdge → (Nat → Char) → Option (Nat → Char)
  | 0, _, res => some res
  | l + 1, cur, res =>
    match cur.p with
    | none => none
    | some a =>
      let p0 := mag2F J.fl (s.ct.cval J.C (((s.tab .v).tab.mem a).e (0 : Fin 2)).w)
      let p1 := mag2F J.fl (s.ct.cval J.C (((s.tab .v).tab.mem a).e (1 : Fin 2)).w)
      let tmp := J.fl (p0 + p1)
      if |J.fl (tmp - 1)| > eps then none
      else if draw l < J.fl (p0 / tmp) then measureF s eps draw l (((s.tab .v).tab.mem a).e (0 : Fin 2)) res
      else measureF s eps draw l (((s.tab .v).tab.mem a).e (1 : Fin 2)) (Function.update res ((s.tab .v).tab.mem a).v '1')

/-- `measureAll` without collapse (Package.hpp:1103-1137, 1157). The warning is not modelled. -/
def measureAll (s : JState R) (x : PtrEdge) (eps : R) (draw : Nat → R) : Option (List Char) :=
  if |J.fl (mag2F J.fl (s.ct.cval J.C x.w) - 1)| > eps ∧ s.ct.zeroV (s.ct.cval J.C x.w) = true then none
  else (measureF J s eps draw (s.lvlV x.p) x (fun _ => '0')).map (Pkg.resultString (s.lvlV x.p))

/-- `decRef(e)` (Package.hpp:918-921) for vectors; `none` is an exception. -/
def dropV (s : JState R) (e : PtrEdge) : Option (JState R) :=
  match (s.tab .v).tab.decRef J.U e with
  | none => none
  | some r =>
    match s.ct.decRefL J.C r.2 with
    | none => none
    | some t => some { s with
        ct := t
        tab := Function.update s.tab .v ⟨r.1, (s.tab .v).held.erase e, fun w => (s.tab .v).wref w - r.2.count w⟩ }

/-- `measureAll` with collapse (Package.hpp:1139-1157): the new package, the new root edge and the string. The reference to the state is given
back, the basis state of the string is built bottom up as in `makeBasisState` (basisLoop in Model/ApproxGate.lean), a reference to it is taken
and garbage is collected. The loop counter is a signed 8-bit number compared with an unsigned one, so for 128 qubits the loop does not end
with the last qubit: modelled as undefined (`none`). -/
def measureAllCollapse (s : JState R) (x : PtrEdge) (eps : R) (draw : Nat → R) : Option (JState R × PtrEdge × List Char) :=
  match measureAll J s x eps draw with
  | none => none
  | some text =>
    if 128 ≤ text.length then none
    else
      match dropV J s x with
      | none => none
      | some s1 =>
        let r := basisLoop J (fun i => if (text.reverse.map (· == '1')).getD i false then .one else .zero) text.length s1
        some (((r.1.holdV J r.2).garbageCollect J false).1, r.2, text)

/-! ## One qubit -/

/-- What the first loop of `determineMeasurementProbabilities` does for one outgoing edge (Package.hpp:1193-1203, 1205-1215); `pr` is the
probability of the node. -/
def bfsEdge (s : JState R) (pr : R) (b : Bfs R) (e : PtrEdge) : Bfs R :=
  if s.ct.zeroV (s.ct.cval J.C e.w) then b
  else
    let tmp1 := J.fl (pr * mag2F J.fl (s.ct.cval J.C e.w))
    if e.p ∈ b.visited then { b with prob := Function.update b.prob e.p (J.fl (b.prob e.p + tmp1)) }
    else ⟨Function.update b.prob e.p tmp1, e.p :: b.visited, b.queue ++ [e.p]⟩

/-- The loop `while (q.front()->v != index)` (Package.hpp:1188-1216). The first argument bounds the number of iterations. An empty queue is
undefined behaviour. The outgoing edges of the terminal have weight zero (Node.hpp:34). -/
def bfsLoop (s : JState R) (index : Nat) : Nat → Bfs R → Option (Bfs R)
  | 0, _ => none
  | f + 1, b =>
    match b.queue with
    | [] => none
    | none :: q => bfsLoop s index f { b with queue := q }
    | some a :: q =>
      if ((s.tab .v).tab.mem a).v = index then some b
      else
        let pr := b.prob (some a)
        let b0 : Bfs R := { b with queue := q }
        let b1 := bfsEdge J s pr b0 (((s.tab .v).tab.mem a).e (0 : Fin 2))
        bfsLoop s index f (bfsEdge J s pr b1 (((s.tab .v).tab.mem a).e (1 : Fin 2)))

/-- `assignProbabilities` (Package.hpp:1163-1176); the first argument bounds the depth of the recursion. -/
def assignF (s : JState R) : Nat → PtrEdge → (Option Nat → Option R) → (Option Nat → Option R) × R
  | 0, e, m =>
    match m e.p with
    | some p => (m, J.fl (mag2F J.fl (s.ct.cval J.C e.w) * p))
    | none => (Function.update m e.p (some 1), J.fl (mag2F J.fl (s.ct.cval J.C e.w) * 1))
  | l + 1, e, m =>
    match m e.p with
    | some p => (m, J.fl (mag2F J.fl (s.ct.cval J.C e.w) * p))
    | none =>
      match e.p with
      | none => (Function.update m none (some 1), J.fl (mag2F J.fl (s.ct.cval J.C e.w) * 1))
      | some a =>
        let r0 := assignF s l (((s.tab .v).tab.mem a).e (0 : Fin 2)) m
        let r1 := assignF s l (((s.tab .v).tab.mem a).e (1 : Fin 2)) r0.1
        let sum := J.fl (r0.2 + r1.2)
        (Function.update r1.1 (some a) (some sum), J.fl (mag2F J.fl (s.ct.cval J.C e.w) * sum))

/-- What one node of the queue adds to the probability of outcome `c` (Package.hpp:1226-1232, 1243-1249); `below` is the factor for the
sub-diagram, `none` if there is none. -/
def addOutcome (s : JState R) (prob : Option Nat → R) (below : Option (Option Nat → R)) (c : Fin 2) (acc : R) (p : Option Nat) : R :=
  match p with
  | none => acc
  | some a =>
    let e := ((s.tab .v).tab.mem a).e c
    let w := s.ct.cval J.C e.w
    if s.ct.zeroV w then acc
    else
      match below with
      | none => J.fl (acc + J.fl (prob p * mag2F J.fl w))
      | some f => J.fl (acc + J.fl (J.fl (prob p * f e.p) * mag2F J.fl w))

/-- `determineMeasurementProbabilities` (Package.hpp:1179-1252); `fuel` bounds the number of iterations of the first loop. -/
def determineMeasurementProbabilities (s : JState R) (x : PtrEdge) (index : Nat) (assumeNorm : Bool) (fuel : Nat) : Option (R × R) :=
  match bfsLoop J s index fuel ⟨Function.update (fun _ => 0) x.p (mag2F J.fl (s.ct.cval J.C x.w)), [x.p], [x.p]⟩ with
  | none => none
  | some b =>
    let below : Option (Option Nat → R) :=
      if assumeNorm then none else some fun p => ((assignF J s (s.lvlV x.p) x (fun _ => none)).1 p).getD 0
    some (b.queue.foldl (addOutcome J s b.prob below 0) 0, b.queue.foldl (addOutcome J s b.prob below 1) 0)

/-- `measureOneCollapsing` (Package.hpp:1254-1293): the new package, the new root edge and the measured value. -/
def measureOneCollapsing (s : JState R) (x : PtrEdge) (index : Nat) (assumeNorm : Bool) (eps draw : R) (fuel : Nat) :
    Option (JState R × PtrEdge × Char) :=
  match determineMeasurementProbabilities J s x index assumeNorm fuel with
  | none => none
  | some (pzero, pone) =>
    let sum := J.fl (pzero + pone)
    if |J.fl (sum - 1)| > eps then none
    else
      let zero := decide (draw < J.fl (pzero / sum))
      let U : Fin 4 → Cx R := if zero then ![1, 0, 0, 0] else ![0, 0, 0, 1]
      let normalizationFactor := if zero then pzero else pone
      let result := if zero then '0' else '1'
      match makeGateDD J s U (s.lvlV x.p) [] index with
      | none => none
      | some gate =>
        let e := multiply J gate.1 gate.2 x
        let c : Cx R := ⟨J.fl (HasSqrt.sqrt (J.fl (1 / normalizationFactor))), 0⟩
        let w := lookupC J e.1 (e.1.ct.mulV J.fl (e.1.ct.cval J.C e.2.w) c)
        let e' : PtrEdge := ⟨e.2.p, w.2⟩
        match dropV J (w.1.holdV J e') x with
        | none => none
        | some s2 => some (s2, e', result)

end JState
end DD
