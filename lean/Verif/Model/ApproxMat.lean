import Verif.Model.Approx
import Verif.Model.Package

/-!
# Building and transposing matrices with a tolerance

`makeDDFromMatrix` and `transpose` on the tables of Model/Joint.lean, in the same way as Model/Approx.lean for vectors. Making a node for a
matrix marks it as symmetric or as identity; for that it transposes a successor.
-/

namespace DD

variable {R : Type} [Field R] [LinearOrder R] [FloorRing R]

/-- One round of the loop that determines the largest weight in `normalize` (Package.hpp:401-418); `m` is the index found so far, `none` is
`argmax == -1`; `fl` is the rounding. -/
def CTab.larger (t : CTab R) (fl : R → R) (z : Fin 4 → Cx R) (m : Option (Fin 4)) (i : Fin 4) : Option (Fin 4) :=
  if t.zeroV (z i) then m
  else match m with
    | none => some i
    | some j => if t.tol < fl (mag2F fl (z i) - mag2F fl (z j)) then some i else some j

/-- The loop that determines the largest weight in `normalize` (Package.hpp:382, 398-419). -/
def CTab.argmax (t : CTab R) (fl : R → R) (z : Fin 4 → Cx R) : Option (Fin 4) := ([0, 1, 2, 3] : List (Fin 4)).foldl (t.larger fl z) none

namespace JState

variable (J : JCfg R)

/-- `isSymmetric` of a matrix node; the terminal is symmetric (Node.hpp:56, 77). -/
def symmM (s : JState R) : Option Nat → Bool
  | none => true
  | some a => ((s.tab .m).tab.mem a).symm

/-- `isIdentity` of a matrix node; the terminal resembles the identity (Node.hpp:55, 77). -/
def identM (s : JState R) : Option Nat → Bool
  | none => true
  | some a => ((s.tab .m).tab.mem a).ident

/-- `setIdentity`, `setSymmetric` (Node.hpp:60-65). -/
def markM (s : JState R) (a : Nat) (ident symm : Bool) : JState R :=
  { s with tab := Function.update s.tab .m { s.tab .m with tab := (s.tab .m).tab.mark a ident symm } }

/-- `Edge::operator==` (Edge.hpp:26-28). -/
def sameE (s : JState R) (a b : PtrEdge) : Bool :=
  decide (a.p = b.p) && (⟨.zero, .one, s.ct.tol⟩ : NumEnv Loc R).eqC (s.ct.value J.C) a.w b.w

/-- `checkSpecialMatrices` (Package.hpp:814-836); `tr` is `transpose`. -/
def specialM (tr : JState R → PtrEdge → JState R × PtrEdge) (s : JState R) (a : Nat) : JState R :=
  let nd : Node (CNum Loc) 4 := (s.tab .m).tab.mem a
  let s0 := s.markM a false false
  if !(s0.symmM (nd.e 0).p) || !(s0.symmM (nd.e 3).p) then s0
  else
    let r := tr s0 (nd.e 1)
    if !(r.1.sameE J r.2 (nd.e 2)) then r.1
    else
      let id := r.1.identM (nd.e 0).p && decide ((nd.e 1).w = CNum.zero) && decide ((nd.e 2).w = CNum.zero) &&
        decide ((nd.e 0).w = CNum.one) && decide ((nd.e 3).w = CNum.one) && r.1.identM (nd.e 3).p
      r.1.markM a id true

/-- The rest of `makeDDNode` after normalisation (Package.hpp:1014-1027) for matrices. -/
def nodeM (tr : JState R → PtrEdge → JState R × PtrEdge) (s : JState R) (v : Nat) (es : Fin 4 → PtrEdge) : JState R × Nat :=
  let r := (s.tab .m).tab.mkNodeBy (s.sameEdges J) (J.H .m) J.U v es false false
  let s1 : JState R := { s with tab := Function.update s.tab .m { s.tab .m with tab := r.1 } }
  (if r.2 = ((s.tab .m).tab.getNode J.U).2 then specialM J tr s1 r.2 else s1, r.2)

/-- `makeDDNode` fetches a cell and does not use it (Package.hpp:995, 422-428 with `cached = true`). -/
def takeM (s : JState R) : JState R :=
  { s with tab := Function.update s.tab .m { s.tab .m with tab := ((s.tab .m).tab.getNode J.U).1 } }

/-- `makeDDNode` fetches a cell and gives it back (Package.hpp:995, 422-428 with `cached = false`). -/
def takeBackM (s : JState R) : JState R :=
  { s with
    tab := Function.update s.tab .m
      { s.tab .m with tab := ((s.tab .m).tab.getNode J.U).1.returnNode ((s.tab .m).tab.getNode J.U).2 } }

/-- One round of the loop that divides the weights by the largest one (Package.hpp:432-469): the successor `i` with node `p` and weight
`z`, `m` being the index of the largest weight `w`. -/
def kidM (m : Fin 4) (w : Cx R) (i : Fin 4) (p : Option Nat) (z : Cx R) (s : JState R) : JState R × PtrEdge :=
  if i = m then (s, ⟨p, CNum.one⟩)
  else if s.ct.zeroV z then (s, ⟨none, CNum.zero⟩)
  else
    let c := lookupC J s (s.ct.divV J.fl (if s.ct.oneV z then ⟨1, 0⟩ else z) w)
    (c.1, ⟨p, c.2⟩)

/-- `makeDDNode` with `cached = true` for matrices (Package.hpp:993-1028, `normalize` 380-471). -/
def makeM (tr : JState R → PtrEdge → JState R × PtrEdge) (s : JState R) (v : Nat) (es : Fin 4 → SEdge R) : JState R × SEdge R :=
  match s.ct.argmax J.fl (fun i => sval (es i).w) with
  | none => (takeM J s, ⟨none, none⟩)
  | some m =>
    let k := seqFin 4 (fun i => kidM J m (sval (es m).w) i (es i).p (sval (es i).w)) s
    let n := nodeM J tr k.1 v k.2
    (n.1, ⟨some n.2, some (sval (es m).w)⟩)

/-- `makeDDNode` with `cached = false` for matrices (Package.hpp:993-1028, `normalize` 380-471). -/
def makeN (tr : JState R → PtrEdge → JState R × PtrEdge) (s : JState R) (v : Nat) (es : Fin 4 → PtrEdge) : JState R × PtrEdge :=
  match s.ct.argmax J.fl (fun i => s.ct.cval J.C (es i).w) with
  | none => (takeBackM J s, ⟨none, CNum.zero⟩)
  | some m =>
    let k := seqFin 4 (fun i => kidM J m (s.ct.cval J.C (es m).w) i (es i).p (s.ct.cval J.C (es i).w)) s
    let n := nodeM J tr k.1 v k.2
    (n.1, ⟨some n.2, (es m).w⟩)

/-- The key of an operand in the cache of `transpose` (Package.hpp:1443, 1463). -/
def trKey (a : PtrEdge) : CKey R := ([.ptr .m a], [])

/-- Comparison of keys with one edge (UnaryComputeTable.hpp:57). -/
def sameKey1 (s : JState R) : CKey R → CKey R → Bool
  | ([.ptr _ a], _), ([.ptr _ b], _) => s.sameE J a b
  | _, _ => false

/-- `matrixTranspose.lookup` (Package.hpp:1443). -/
def trLook (s : JState R) (a : PtrEdge) : Option PtrEdge :=
  match (s.cache .matrixTranspose).lookup (J.h .matrixTranspose) (s.sameKey1 J) (fun _ => true) (trKey a) with
  | some (.ptr _ r) => some r
  | _ => none

/-- `matrixTranspose.insert` (Package.hpp:1463). -/
def trIns (s : JState R) (a r : PtrEdge) : JState R :=
  { s with
    cache := Function.update s.cache .matrixTranspose
      ((s.cache .matrixTranspose).insert (J.h .matrixTranspose) (trKey a) (.ptr .m r)) }

/-- `transpose` (Package.hpp:1437-1465). The first argument bounds the level. -/
def transposeF : Nat → JState R → PtrEdge → JState R × PtrEdge
  | l, s, a =>
    match a.p with
    | none => (s, a)
    | some n =>
      if s.symmM (some n) then (s, a)
      else
        match s.trLook J a with
        | some r => (s, r)
        | none =>
          match l with
          | 0 => (s, a)
          | l + 1 =>
            let nd : Node (CNum Loc) 4 := (s.tab .m).tab.mem n
            let q := seqFin 4 (fun i s => transposeF l s (nd.e (![0, 2, 1, 3] i))) s
            let r := makeN J (transposeF l) q.1 nd.v q.2
            let c := lookupC J r.1 (r.1.ct.mulV J.fl (r.1.ct.cval J.C r.2.w) (r.1.ct.cval J.C a.w))
            (c.1.trIns J a ⟨r.2.p, c.2⟩, ⟨r.2.p, c.2⟩)

/-- Level plus one of a matrix node; 0 for the terminal. -/
def lvlM (s : JState R) (p : Option Nat) : Nat := (s.tab .m).tab.lvl ⟨p, CNum.one⟩

/-- `transpose` (Package.hpp:1437-1465). -/
def transpose (s : JState R) (a : PtrEdge) : JState R × PtrEdge := transposeF J (s.lvlM a.p) s a

/-- Recursive `makeDDFromMatrix` (Package.hpp:873-897); the first argument is `level + 1`, `M i j` the entries. -/
def matrixF (M : Nat → Nat → Cx R) : Nat → Nat → Nat → Nat → Nat → JState R → JState R × SEdge R
  | 0, r0, _, c0, _, s => (s, ⟨none, some (M r0 c0)⟩)
  | l + 1, r0, r1, c0, c1, s =>
    let rm := (r0 + r1) / 2
    let cm := (c0 + c1) / 2
    let e0 := matrixF M l r0 rm c0 cm s
    let e1 := matrixF M l r0 rm cm c1 e0.1
    let e2 := matrixF M l rm r1 c0 cm e1.1
    let e3 := matrixF M l rm r1 cm c1 e2.1
    makeM J (transposeF J l) e3.1 l ![e0.2, e1.2, e2.2, e3.2]

/-- `makeDDFromMatrix` (Package.hpp:342-375); `none` is an exception. The width is that of the first row (353); rows of other lengths are not
looked at: the entries of shorter rows are taken to be 0 here (the code reads beyond their end). -/
def makeDDFromMatrix (s : JState R) (M : List (List (Cx R))) : Option (JState R × PtrEdge) :=
  if M = [] then some (s, ⟨none, CNum.one⟩)
  else if M.length &&& (M.length - 1) ≠ 0 then none
  else if M.length ≠ (M.getD 0 []).length then none
  else
    let ent := fun i j => (M.getD i []).getD j 0
    if M.length = 1 then
      let c := lookupC J s (ent 0 0)
      some (c.1, ⟨none, c.2⟩)
    else some (finishV J (matrixF J ent (Nat.log2 M.length) 0 M.length 0 M.length s))

end JState
end DD
