import Verif.Model.Slots
import Verif.Model.Build

/-!
# Exact arithmetic as an instance of the model with slots

The parameters of Model/Slots.lean for exact arithmetic (tolerance 0) and the tables of Model/Package.lean.
-/

namespace DD

section
variable {R : Type} [Field R] [LinearOrder R] [IsStrictOrderedRing R] [HasSqrt R]

/-- Exact arithmetic: numbers of the table are values, `lookup` is the identity. The parts of `normalize` are those of `Pkg.normV1`
and `Pkg.argMaxM` (Package.hpp:148-223, 399-419). -/
def exactNum (R : Type) [Field R] [LinearOrder R] [IsStrictOrderedRing R] [HasSqrt R] : Num (Pkg R) (Cx R) R where
  zero := 0
  one := 1
  val := id
  lookup s z := (s, z)
  isZero z := decide (z = 0)
  isOne z := decide (z = 1)
  add a b := a + b
  mul a b := a * b
  div a b := a / b
  vecMax a b := if a.mag2 ≥ b.mag2 then 0 else 1
  vecTop a b :=
    let big := if a.mag2 ≥ b.mag2 then a else b
    let commonFactor := HasSqrt.sqrt (a.mag2 + b.mag2) / HasSqrt.sqrt (if a.mag2 ≥ b.mag2 then a.mag2 else b.mag2)
    ⟨big.re * commonFactor, big.im * commonFactor⟩
  vecBig a b := ⟨HasSqrt.sqrt (if a.mag2 ≥ b.mag2 then a.mag2 else b.mag2) / HasSqrt.sqrt (a.mag2 + b.mag2), 0⟩
  matLess a b := decide (b.mag2 - a.mag2 > 0)

/-- The tables of the package (Model/Package.lean): node creation as in `Pkg.makeNodeWith` (Package.hpp:995-1027), and the operation tables.
`tmp` are the values written to temporary numbers by `transpose` (Package.hpp:1458) when a node is created; they are arbitrary. -/
def exactTabs (P : PCfg R) (tmp : Pkg R → List (Cx R)) : Tabs (Pkg R) (Cx R) R where
  kids s k a i := ((s.ut k).mem a).e i
  lvl s k p := (s.ut k).lvl ⟨p, 1⟩
  ident s a := ((s.ut .m).mem a).ident
  make s k v es :=
    let g := (s.ut k).getNode P.C
    let t2 := g.1.setMem g.2 { v := v, e := es, ref := (g.1.mem g.2).ref, ident := false, symm := false }
    let l := t2.lookup (P.uH k) g.2
    let s3 := s.setUt k l.1
    (if l.2 = g.2 ∧ k = .m then Pkg.checkSpecial (Pkg.transposeF P v) s3 l.2 else s3, some l.2, tmp s)
  drop s k := s.setUt k ((s.ut k).getNode P.C).1
  addLook s k x y := Pkg.look (P.addH k) (s.addC k) (x, y)
  addIns s k x y r := { s with addC := Function.update s.addC k ((s.addC k).insert (P.addH k) (x, y) r) }
  mulLook s k p q := Pkg.look (P.mulH k) (s.mulC k) (⟨p, 1⟩, ⟨q, 1⟩)
  mulIns s k p q r := { s with mulC := Function.update s.mulC k ((s.mulC k).insert (P.mulH k) (⟨p, 1⟩, ⟨q, 1⟩) r) }
  kronLook s k x y := Pkg.look (P.kronH k) (s.kronC k) (x, y)
  kronIns s k x y r := { s with kronC := Function.update s.kronC k ((s.kronC k).insert (P.kronH k) (x, y) r) }
  identTop s n y := ((Pkg.identOnTop P n s y).1, (Pkg.identOnTop P n s y).2.p, tmp s)

/-- Non-cached `makeDDNode` (Package.hpp:993-1028) of the package. -/
def exactPlain (P : PCfg R) (tmp : Pkg R → List (Cx R)) : Slots.Plain (Pkg R) (Cx R) R where
  make s v es := ((Pkg.makeDDNode P .m s v es false).1, (Pkg.makeDDNode P .m s v es false).2, tmp s)

/-- The table of inner products of the package. -/
def exactInner (P : PCfg R) : Slots.InnerTab (Pkg R) (Cx R) R where
  look s p q := Pkg.look P.innerH s.innerC (⟨p, 1⟩, ⟨q, 1⟩)
  ins s p q z := { s with innerC := s.innerC.insert P.innerH (⟨p, 1⟩, ⟨q, 1⟩) z }
  conj z := z.conj

end
end DD
