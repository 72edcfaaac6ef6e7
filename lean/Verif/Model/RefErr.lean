import Verif.Model.Joint

/-!
# What a call of `decRef` leaves behind when it throws

The models of `decRef` in Model/ComplexTable.lean, Model/UniqueTable.lean and Model/Joint.lean yield `none` for the
exceptions of ComplexTable.hpp:291-293 and UniqueTable.hpp:188-190. A program that catches the exception goes on with the
package, so here the same functions are modelled with the state in which they stop. The second component says whether an
exception has been thrown.
-/

namespace DD

variable {R : Type} [Field R] [LinearOrder R] [FloorRing R]

namespace CTab

/-- `ComplexTable::decRef` (ComplexTable.hpp:278-298). -/
def decRefX (C : CCfg R) (t : CTab R) (l : Loc) : CTab R × Bool :=
  if l.isStatic then (t, false)
  else if t.ref l = C.maxRef then (t, false)
  else if t.ref l = 0 then (t, true)
  else ({ t with ref := Function.update t.ref l (t.ref l - 1) }, false)

/-- `ComplexNumbers::decRef` (ComplexNumbers.hpp:197-203): real part first. -/
def decRefCX (C : CCfg R) (t : CTab R) (c : CNum Loc) : CTab R × Bool :=
  if c ≠ CNum.zero ∧ c ≠ CNum.one then
    let r := t.decRefX C c.r.loc
    if r.2 then r else r.1.decRefX C c.i.loc
  else (t, false)

end CTab

/-- `UniqueTable::decRef` (UniqueTable.hpp:179-203), with the number table it writes to. The order of the steps is that of
the code: the weight (180), the tests of the node (181-190), its count (192), the successors (195-199), the numbers of
active nodes (200-201). The fuel is the level, as in Model/UniqueTable.lean. -/
def decRefXF (C : CCfg R) (U : UCfg) {n : Nat} :
    Nat → CTab R × UTable (CNum Loc) n → PtrEdge → (CTab R × UTable (CNum Loc) n) × Bool
  | fuel, s, e =>
    let r := s.1.decRefCX C e.w
    if r.2 then ((r.1, s.2), true)
    else match e.p with
    | none => ((r.1, s.2), false)
    | some a =>
      if (s.2.mem a).ref = U.maxRef then ((r.1, s.2), false)
      else if (s.2.mem a).ref = 0 then ((r.1, s.2), true)
      else
        let nd := s.2.mem a
        let t1 := s.2.setRef a (nd.ref - 1)
        if nd.ref - 1 = 0 then
          match fuel with
          | 0 => ((r.1, t1), false)
          | f + 1 =>
            let q := (List.finRange n).foldl
              (fun (q : (CTab R × UTable (CNum Loc) n) × Bool) i => if q.2 then q else decRefXF C U f q.1 (nd.e i))
              ((r.1, t1), false)
            if q.2 then q
            else ((q.1.1, { q.1.2 with active := Function.update q.1.2.active nd.v (q.1.2.active nd.v - 1)
                                       activeNodeCount := q.1.2.activeNodeCount - 1 }), false)
        else ((r.1, t1), false)

/-- `Package::decRef(e)` (Package.hpp:918-921). The list of edges the user holds is not touched: an edge that is
given back without having been taken is not in it. -/
def JState.decRefX (J : JCfg R) (s : JState R) (k : NK) (e : PtrEdge) : JState R × Bool :=
  let r := decRefXF J.C J.U ((s.tab k).tab.lvl e) (s.ct, (s.tab k).tab) e
  ({ s with ct := r.1.1, tab := Function.update s.tab k { s.tab k with tab := r.1.2 } }, r.2)

end DD
