import Verif.Model.Derived

/-!
# Measurements

Model of the measurement functions of `include/dd/Package.hpp` (1100-1293). Random draws are inputs. Maps from nodes to
probabilities are functions from node pointers, `none` being the terminal; `std::map::operator[]` yields 0 for a missing
key. `none` as a result is an exception or undefined behaviour (or, for loops, not enough steps granted; the theorems say
that some number of steps suffices).
-/

namespace DD

/-- Local variables of the first loop of `determineMeasurementProbabilities` (Package.hpp:1180-1182). -/
structure Bfs (R : Type) where
  prob : Option Nat → R
  visited : List (Option Nat)
  queue : List (Option Nat)

namespace Pkg

variable {R : Type} [Field R] [LinearOrder R] [IsStrictOrderedRing R] [HasSqrt R]

/-- What the loop does for one outgoing edge (Package.hpp:1193-1203, 1205-1215); `pr` is the probability of the node. -/
def bfsEdge (pr : R) (b : Bfs R) (e : PEdge R) : Bfs R :=
  if e.w = 0 then b
  else
    let tmp1 := pr * e.w.mag2
    if e.p ∈ b.visited then { b with prob := Function.update b.prob e.p (b.prob e.p + tmp1) }
    else ⟨Function.update b.prob e.p tmp1, e.p :: b.visited, b.queue ++ [e.p]⟩

/-- The loop `while (q.front()->v != index)` (Package.hpp:1188-1216). The first argument bounds the number of iterations.
An empty queue is undefined behaviour. The outgoing edges of the terminal have weight zero (Node.hpp:34). -/
def bfsLoop (t : UTable (Cx R) 2) (index : Nat) : Nat → Bfs R → Option (Bfs R)
  | 0, _ => none
  | f + 1, b =>
    match b.queue with
    | [] => none
    | none :: q => bfsLoop t index f { b with queue := q }
    | some a :: q =>
      if (t.mem a).v = index then some b
      else
        let pr := b.prob (some a)
        let b0 : Bfs R := { b with queue := q }
        let b1 := bfsEdge pr b0 ((t.mem a).e 0)
        bfsLoop t index f (bfsEdge pr b1 ((t.mem a).e 1))

/-- `assignProbabilities` (Package.hpp:1163-1176); the first argument bounds the depth of the recursion. -/
def assignF (t : UTable (Cx R) 2) : Nat → PEdge R → (Option Nat → Option R) → (Option Nat → Option R) × R
  | 0, e, m =>
    match m e.p with
    | some p => (m, e.w.mag2 * p)
    | none => (Function.update m e.p (some 1), e.w.mag2 * 1)
  | l + 1, e, m =>
    match m e.p with
    | some p => (m, e.w.mag2 * p)
    | none =>
      match e.p with
      | none => (Function.update m none (some 1), e.w.mag2 * 1)
      | some a =>
        let r0 := assignF t l ((t.mem a).e 0) m
        let r1 := assignF t l ((t.mem a).e 1) r0.1
        (Function.update r1.1 (some a) (some (r0.2 + r1.2)), e.w.mag2 * (r0.2 + r1.2))

/-- The probability that one node of the queue contributes to outcome `b` (Package.hpp:1226-1232, 1243-1249); `below` is the
factor for the sub-diagram. -/
def outcomePart (t : UTable (Cx R) 2) (prob : Option Nat → R) (below : Option Nat → R) (b : Fin 2) (p : Option Nat) : R :=
  match p with
  | none => 0
  | some a => if ((t.mem a).e b).w = 0 then 0 else prob p * below ((t.mem a).e b).p * ((t.mem a).e b).w.mag2

/-- `determineMeasurementProbabilities` (Package.hpp:1179-1252); `fuel` bounds the number of iterations of the first loop. -/
def determineMeasurementProbabilities (s : Pkg R) (x : PEdge R) (index : Nat) (assumeNorm : Bool) (fuel : Nat) :
    Option (R × R) :=
  let t : UTable (Cx R) 2 := s.ut .v
  let b0 : Bfs R := ⟨Function.update (fun _ => 0) x.p x.w.mag2, [x.p], [x.p]⟩
  match bfsLoop t index fuel b0 with
  | none => none
  | some b =>
    let below : Option Nat → R :=
      if assumeNorm then fun _ => 1
      else
        let probs := (assignF t (s.lv .v x) x (fun _ => none)).1
        fun p => (probs p).getD 0
    some ((b.queue.map (outcomePart t b.prob below 0)).sum, (b.queue.map (outcomePart t b.prob below 1)).sum)

/-- The loop of `measureAll` (Package.hpp:1119-1137): qubits from `l - 1` down to 0; `draw i` is the random number drawn for
qubit `i`. `none` is the exception. The edges of the terminal have weight zero, so the exception is also thrown if the
terminal is met too early (for `eps < 1`). -/
def measureF (t : UTable (Cx R) 2) (eps : R) (draw : Nat → R) : Nat → PEdge R → (Nat → Char) → Option (Nat → Char)
  | 0, _, res => some res
  | l + 1, cur, res =>
    match cur.p with
    | none => none
    | some a =>
      let p0 := ((t.mem a).e 0).w.mag2
      let p1 := ((t.mem a).e 1).w.mag2
      let tmp := p0 + p1
      if |tmp - 1| > eps then none
      else if draw l < p0 / tmp then measureF t eps draw l ((t.mem a).e 0) res
      else measureF t eps draw l ((t.mem a).e 1) (Function.update res (t.mem a).v '1')

/-- The string `measureAll` returns: the character of the highest qubit first (Package.hpp:1157). -/
def resultString (n : Nat) (res : Nat → Char) : List Char := ((List.range n).map res).reverse

/-- `measureAll` without collapse (Package.hpp:1103-1137, 1157). The warning is not modelled. -/
def measureAll (s : Pkg R) (x : PEdge R) (eps : R) (draw : Nat → R) : Option (List Char) :=
  if |x.w.mag2 - 1| > eps ∧ x.w = 0 then none
  else
    let n := s.lv .v x
    (measureF (s.ut .v) eps draw n x (fun _ => '0')).map (resultString n)

/-- `measureAll` with collapse (Package.hpp:1139-1155): the new package, the new root edge and the string. The loop counter is
a signed 8-bit number compared with an unsigned one, so for 128 qubits the loop does not end with the last qubit: modelled
as undefined (`none`). -/
def measureAllCollapse (P : PCfg R) (g : GcEnv) (s : Pkg R) (x : PEdge R) (eps : R) (draw : Nat → R) :
    Option (Pkg R × PEdge R × List Char) :=
  if |x.w.mag2 - 1| > eps ∧ x.w = 0 then none
  else
    let n := s.lv .v x
    match measureF (s.ut .v) eps draw n x (fun _ => '0') with
    | none => none
    | some res =>
      if 128 ≤ n then none
      else
        match s.decRef P .v x with
        | none => none
        | some s1 =>
          let r := basisLoop P (fun i => if res i = '0' then .zero else .one) n s1
          let s2 := r.1.incRef P .v r.2
          some ((s2.garbageCollect P { g with force := false }).1, r.2, resultString n res)

/-- `measureOneCollapsing` (Package.hpp:1254-1293): the new package, the new root edge and the measured value. -/
def measureOneCollapsing (P : PCfg R) (s : Pkg R) (x : PEdge R) (index : Nat) (assumeNorm : Bool) (eps draw : R) (fuel : Nat) :
    Option (Pkg R × PEdge R × Char) :=
  match determineMeasurementProbabilities s x index assumeNorm fuel with
  | none => none
  | some (pzero, pone) =>
    let sum := pzero + pone
    if |sum - 1| > eps then none
    else
      let zero := decide (draw < pzero / sum)
      let U : Fin 4 → Cx R := if zero then ![1, 0, 0, 0] else ![0, 0, 0, 1]
      let normalizationFactor := if zero then pzero else pone
      let result := if zero then '0' else '1'
      match makeGateDD P s U (s.lv .v x) [] index with
      | none => none
      | some gate =>
        let e := multiply P .v gate.1 gate.2 x
        let w : Cx R := e.2.w * ⟨HasSqrt.sqrt (1 / normalizationFactor), 0⟩
        let e' : PEdge R := ⟨e.2.p, w⟩
        let s1 := e.1.incRef P .v e'
        match s1.decRef P .v x with
        | none => none
        | some s2 => some (s2, e', result)

end Pkg
end DD
