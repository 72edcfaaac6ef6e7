import Verif.Model.Start
import Verif.Model.Gates

/-!
# Products of diagrams that do not start at qubit 0

`multiply` has a parameter `start`, too, but the functions that compose a gate of several diagrams do not pass it on.
-/

namespace DD

namespace Pkg

section
variable {R : Type} [Field R] [LinearOrder R] [IsStrictOrderedRing R] [HasSqrt R]

/-- `multiply2` with `start` (Package.hpp:1582-1759), cf. `multiply2F`. The second argument is `var + 1 - start`. The key of
the cache does not contain `start`. -/
def multiply2FS (P : PCfg R) (k : Kind) (start : Nat) : Nat → Pkg R → PEdge R → PEdge R → Pkg R × PEdge R
  | l, s, x, y =>
    if x.w = 0 ∨ y.w = 0 then (s, zeroE)
    else match l with
    | 0 => (s, ⟨none, x.w * y.w⟩)
    | l + 1 =>
      let key : PEdge R × PEdge R := (⟨x.p, 1⟩, ⟨y.p, 1⟩)
      match look (P.mulH k) (s.mulC k) key with
      | some r =>
        if r.w = 0 then (s, zeroE)
        else
          let w := r.w * x.w * y.w
          if w = 0 then (s, zeroE) else (s, ⟨r.p, w⟩)
      | none =>
        let v := start + l
        let q := seqFin (ar k) (fun idx s' =>
          let m0 := multiply2FS P k start l s' (mulChild s .m x v (mulL k idx 0)) (mulChild s k y v (mulR k idx 0))
          let m1 := multiply2FS P k start l m0.1 (mulChild s .m x v (mulL k idx 1)) (mulChild s k y v (mulR k idx 1))
          if m0.2.w = 0 then m1
          else if m1.2.w ≠ 0 then add2F P k v m1.1 m0.2 m1.2
          else (m1.1, m0.2)) s
        let r := makeDDNode P k q.1 v q.2 true
        let s2 := { r.1 with mulC := Function.update r.1.mulC k ((r.1.mulC k).insert (P.mulH k) key r.2) }
        if r.2.w ≠ 0 then
          let w := r.2.w * x.w * y.w
          if w = 0 then (s2, zeroE) else (s2, ⟨r.2.p, w⟩)
        else (s2, r.2)

/-- `multiply(x, y, start)` (Package.hpp:1537-1579), for operands whose levels are at least `start - 1`. -/
def multiplyS (P : PCfg R) (k : Kind) (s : Pkg R) (x y : PEdge R) (start : Nat) : Pkg R × PEdge R :=
  multiply2FS P k start (max (s.lv .m x) (s.lv k y) - start) s x y

/-- `Xmat` (GateMatrixDefinitions.hpp:33). -/
def XmatS : Fin 4 → Cx R := ![0, 1, 1, 0]

/-- `makeDCXDD(n, controls, target0, target1, start)` (Package.hpp:695-703). The product is formed without `start`. -/
def makeDCXDDS (P : PCfg R) (s : Pkg R) (n : Nat) (controls : List Ctrl) (target0 target1 start : Nat) : Option (Pkg R × PEdge R) :=
  let c := ctrlInsert (posCtrl target0) controls
  (makeGateDDS P s XmatS n c target1 start).bind fun e =>
  let c := ctrlInsert (posCtrl target1) (ctrlErase (posCtrl target0) c)
  (makeGateDDS P e.1 XmatS n c target0 start).map fun g => multiply P .m g.1 e.2 g.2

end

end Pkg

end DD
