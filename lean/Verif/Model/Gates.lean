import Verif.Model.Build
import Verif.Model.RealNum
import Mathlib.Analysis.SpecialFunctions.Trigonometric.Basic

/-!
# Gate matrices and controlled two-qubit gates

The constants and functions of GateMatrixDefinitions.hpp and the controlled constructions of Package.hpp:629-810.
Simplification: the components are real numbers, `SQRT2_2` is the square root of 1/2, `PI` is π and `std::cos`,
`std::sin` are exact.
-/

namespace DD

open Real

/-- `GateMatrix` (GateMatrixDefinitions.hpp:33): the entries row by row. -/
abbrev GateMatrix := Fin 4 → Cx ℝ

/-- `TwoQubitGateMatrix` (GateMatrixDefinitions.hpp:87). -/
abbrev TwoQubitGateMatrix := Fin 4 → Fin 4 → Cx ℝ

namespace Gates

/-- `complex_one` (GateMatrixDefinitions.hpp:18). -/
noncomputable def one : Cx ℝ := ⟨1, 0⟩

/-- `complex_mone` (GateMatrixDefinitions.hpp:19). -/
noncomputable def mone : Cx ℝ := ⟨-1, 0⟩

/-- `complex_zero` (GateMatrixDefinitions.hpp:20). -/
noncomputable def zero : Cx ℝ := ⟨0, 0⟩

/-- `complex_i` (GateMatrixDefinitions.hpp:21). -/
noncomputable def i : Cx ℝ := ⟨0, 1⟩

/-- `complex_mi` (GateMatrixDefinitions.hpp:22). -/
noncomputable def mi : Cx ℝ := ⟨0, -1⟩

/-- `complex_SQRT2_2` (GateMatrixDefinitions.hpp:23). -/
noncomputable def SQRT2_2 : Cx ℝ := ⟨Pkg.sqrt12, 0⟩

/-- `complex_mSQRT2_2` (GateMatrixDefinitions.hpp:24). -/
noncomputable def mSQRT2_2 : Cx ℝ := ⟨-Pkg.sqrt12, 0⟩

/-- `complex_iSQRT2_2` (GateMatrixDefinitions.hpp:25). -/
noncomputable def iSQRT2_2 : Cx ℝ := ⟨0, Pkg.sqrt12⟩

/-- `complex_miSQRT2_2` (GateMatrixDefinitions.hpp:26). -/
noncomputable def miSQRT2_2 : Cx ℝ := ⟨0, -Pkg.sqrt12⟩

/-- `complex_1plusi` (GateMatrixDefinitions.hpp:27). -/
noncomputable def onePlusI : Cx ℝ := ⟨Pkg.sqrt12, Pkg.sqrt12⟩

/-- `complex_1minusi` (GateMatrixDefinitions.hpp:28). -/
noncomputable def oneMinusI : Cx ℝ := ⟨Pkg.sqrt12, -Pkg.sqrt12⟩

/-- `complex_1plusi_2` (GateMatrixDefinitions.hpp:29). -/
noncomputable def onePlusI2 : Cx ℝ := ⟨1 / 2, 1 / 2⟩

/-- `complex_1minusi_2` (GateMatrixDefinitions.hpp:30). -/
noncomputable def oneMinusI2 : Cx ℝ := ⟨1 / 2, -(1 / 2)⟩

/-- `Imat` (GateMatrixDefinitions.hpp:34). -/
noncomputable def Imat : GateMatrix := ![one, zero, zero, one]

/-- `Hmat` (GateMatrixDefinitions.hpp:35). -/
noncomputable def Hmat : GateMatrix := ![SQRT2_2, SQRT2_2, SQRT2_2, mSQRT2_2]

/-- `Xmat` (GateMatrixDefinitions.hpp:36). -/
noncomputable def Xmat : GateMatrix := ![zero, one, one, zero]

/-- `Ymat` (GateMatrixDefinitions.hpp:37). -/
noncomputable def Ymat : GateMatrix := ![zero, mi, i, zero]

/-- `Zmat` (GateMatrixDefinitions.hpp:38). -/
noncomputable def Zmat : GateMatrix := ![one, zero, zero, mone]

/-- `Smat` (GateMatrixDefinitions.hpp:39). -/
noncomputable def Smat : GateMatrix := ![one, zero, zero, i]

/-- `Sdagmat` (GateMatrixDefinitions.hpp:40). -/
noncomputable def Sdagmat : GateMatrix := ![one, zero, zero, mi]

/-- `Tmat` (GateMatrixDefinitions.hpp:41). -/
noncomputable def Tmat : GateMatrix := ![one, zero, zero, onePlusI]

/-- `Tdagmat` (GateMatrixDefinitions.hpp:42). -/
noncomputable def Tdagmat : GateMatrix := ![one, zero, zero, oneMinusI]

/-- `SXmat` (GateMatrixDefinitions.hpp:43). -/
noncomputable def SXmat : GateMatrix := ![onePlusI2, oneMinusI2, oneMinusI2, onePlusI2]

/-- `SXdagmat` (GateMatrixDefinitions.hpp:44). -/
noncomputable def SXdagmat : GateMatrix := ![oneMinusI2, onePlusI2, onePlusI2, oneMinusI2]

/-- `Vmat` (GateMatrixDefinitions.hpp:45). -/
noncomputable def Vmat : GateMatrix := ![SQRT2_2, miSQRT2_2, miSQRT2_2, SQRT2_2]

/-- `Vdagmat` (GateMatrixDefinitions.hpp:46). -/
noncomputable def Vdagmat : GateMatrix := ![SQRT2_2, iSQRT2_2, iSQRT2_2, SQRT2_2]

/-- `U3mat` (GateMatrixDefinitions.hpp:48-53). -/
noncomputable def U3mat (lambda phi theta : ℝ) : GateMatrix := 
  ![⟨cos (theta / 2), 0⟩,
    ⟨-cos lambda * sin (theta / 2), -sin lambda * sin (theta / 2)⟩,
    ⟨cos phi * sin (theta / 2), sin phi * sin (theta / 2)⟩,
    ⟨cos (lambda + phi) * cos (theta / 2), sin (lambda + phi) * cos (theta / 2)⟩]

/-- `U2mat` (GateMatrixDefinitions.hpp:55-60). -/
noncomputable def U2mat (lambda phi : ℝ) : GateMatrix := 
  ![SQRT2_2,
    ⟨-cos lambda * Pkg.sqrt12, -sin lambda * Pkg.sqrt12⟩,
    ⟨cos phi * Pkg.sqrt12, sin phi * Pkg.sqrt12⟩,
    ⟨cos (lambda + phi) * Pkg.sqrt12, sin (lambda + phi) * Pkg.sqrt12⟩]

/-- `Phasemat` (GateMatrixDefinitions.hpp:62-64). -/
noncomputable def Phasemat (lambda : ℝ) : GateMatrix := ![one, zero, zero, ⟨cos lambda, sin lambda⟩]

/-- `RXmat` (GateMatrixDefinitions.hpp:66-71). -/
noncomputable def RXmat (lambda : ℝ) : GateMatrix := 
  ![⟨cos (lambda / 2), 0⟩, ⟨0, -sin (lambda / 2)⟩, ⟨0, -sin (lambda / 2)⟩, ⟨cos (lambda / 2), 0⟩]

/-- `RYmat` (GateMatrixDefinitions.hpp:73-78). -/
noncomputable def RYmat (lambda : ℝ) : GateMatrix := 
  ![⟨cos (lambda / 2), 0⟩, ⟨-sin (lambda / 2), 0⟩, ⟨sin (lambda / 2), 0⟩, ⟨cos (lambda / 2), 0⟩]

/-- `RZmat` (GateMatrixDefinitions.hpp:80-85). -/
noncomputable def RZmat (lambda : ℝ) : GateMatrix := 
  ![⟨cos (lambda / 2), -sin (lambda / 2)⟩, zero, zero, ⟨cos (lambda / 2), sin (lambda / 2)⟩]

/-- `CXmat` (GateMatrixDefinitions.hpp:88-91). -/
noncomputable def CXmat : TwoQubitGateMatrix := 
  ![![one, zero, zero, zero],
    ![zero, one, zero, zero],
    ![zero, zero, zero, one],
    ![zero, zero, one, zero]]

/-- `CZmat` (GateMatrixDefinitions.hpp:93-96). -/
noncomputable def CZmat : TwoQubitGateMatrix := 
  ![![one, zero, zero, zero],
    ![zero, one, zero, zero],
    ![zero, zero, one, zero],
    ![zero, zero, zero, mone]]

/-- `SWAPmat` (GateMatrixDefinitions.hpp:98-101). -/
noncomputable def SWAPmat : TwoQubitGateMatrix := 
  ![![one, zero, zero, zero],
    ![zero, zero, one, zero],
    ![zero, one, zero, zero],
    ![zero, zero, zero, one]]

/-- `iSWAPmat` (GateMatrixDefinitions.hpp:103-106). -/
noncomputable def iSWAPmat : TwoQubitGateMatrix := 
  ![![one, zero, zero, zero],
    ![zero, zero, i, zero],
    ![zero, i, zero, zero],
    ![zero, zero, zero, one]]

/-- `iSWAPinvmat` (GateMatrixDefinitions.hpp:108-111). -/
noncomputable def iSWAPinvmat : TwoQubitGateMatrix := 
  ![![one, zero, zero, zero],
    ![zero, zero, mi, zero],
    ![zero, mi, zero, zero],
    ![zero, zero, zero, one]]

/-- `ECRmat` (GateMatrixDefinitions.hpp:113-116). -/
noncomputable def ECRmat : TwoQubitGateMatrix := 
  ![![zero, zero, SQRT2_2, iSQRT2_2],
    ![zero, zero, iSQRT2_2, SQRT2_2],
    ![SQRT2_2, miSQRT2_2, zero, zero],
    ![miSQRT2_2, SQRT2_2, zero, zero]]

/-- `DCXmat` (GateMatrixDefinitions.hpp:118-121). -/
noncomputable def DCXmat : TwoQubitGateMatrix := 
  ![![one, zero, zero, zero],
    ![zero, zero, zero, one],
    ![zero, one, zero, zero],
    ![zero, zero, one, zero]]

/-- `RXXmat` (GateMatrixDefinitions.hpp:123-131). -/
noncomputable def RXXmat (theta : ℝ) : TwoQubitGateMatrix := 
  ![![⟨cos (theta / 2), 0⟩, zero, zero, ⟨0, -sin (theta / 2)⟩],
    ![zero, ⟨cos (theta / 2), 0⟩, ⟨0, -sin (theta / 2)⟩, zero],
    ![zero, ⟨0, -sin (theta / 2)⟩, ⟨cos (theta / 2), 0⟩, zero],
    ![⟨0, -sin (theta / 2)⟩, zero, zero, ⟨cos (theta / 2), 0⟩]]

/-- `RYYmat` (GateMatrixDefinitions.hpp:133-141). -/
noncomputable def RYYmat (theta : ℝ) : TwoQubitGateMatrix := 
  ![![⟨cos (theta / 2), 0⟩, zero, zero, ⟨0, sin (theta / 2)⟩],
    ![zero, ⟨cos (theta / 2), 0⟩, ⟨0, -sin (theta / 2)⟩, zero],
    ![zero, ⟨0, -sin (theta / 2)⟩, ⟨cos (theta / 2), 0⟩, zero],
    ![⟨0, sin (theta / 2)⟩, zero, zero, ⟨cos (theta / 2), 0⟩]]

/-- `RZZmat` (GateMatrixDefinitions.hpp:143-151). -/
noncomputable def RZZmat (theta : ℝ) : TwoQubitGateMatrix := 
  ![![⟨cos (theta / 2), -sin (theta / 2)⟩, zero, zero, zero],
    ![zero, ⟨cos (theta / 2), sin (theta / 2)⟩, zero, zero],
    ![zero, zero, ⟨cos (theta / 2), sin (theta / 2)⟩, zero],
    ![zero, zero, zero, ⟨cos (theta / 2), -sin (theta / 2)⟩]]

/-- `RZXmat` (GateMatrixDefinitions.hpp:153-161). -/
noncomputable def RZXmat (theta : ℝ) : TwoQubitGateMatrix := 
  ![![⟨cos (theta / 2), 0⟩, ⟨0, -sin (theta / 2)⟩, zero, zero],
    ![⟨0, -sin (theta / 2)⟩, ⟨cos (theta / 2), 0⟩, zero, zero],
    ![zero, zero, ⟨cos (theta / 2), 0⟩, ⟨0, sin (theta / 2)⟩],
    ![zero, zero, ⟨0, sin (theta / 2)⟩, ⟨cos (theta / 2), 0⟩]]

/-- `XXMinusYYmat` (GateMatrixDefinitions.hpp:163-173). -/
noncomputable def XXMinusYYmat (theta beta : ℝ) : TwoQubitGateMatrix := 
  ![![⟨cos (theta / 2), 0⟩, zero, zero, ⟨sin beta * sin (theta / 2), -cos beta * sin (theta / 2)⟩],
    ![zero, one, zero, zero],
    ![zero, zero, one, zero],
    ![⟨-sin beta * sin (theta / 2), -cos beta * sin (theta / 2)⟩, zero, zero, ⟨cos (theta / 2), 0⟩]]

/-- `XXPlusYYmat` (GateMatrixDefinitions.hpp:175-185). -/
noncomputable def XXPlusYYmat (theta beta : ℝ) : TwoQubitGateMatrix := 
  ![![one, zero, zero, zero],
    ![zero, ⟨cos (theta / 2), 0⟩, ⟨sin beta * sin (theta / 2), -cos beta * sin (theta / 2)⟩, zero],
    ![zero, ⟨-sin beta * sin (theta / 2), -cos beta * sin (theta / 2)⟩, ⟨cos (theta / 2), 0⟩, zero],
    ![zero, zero, zero, one]]

end Gates

/-- `operator<` on controls (Control.hpp:24-26); a negative control comes before a positive one on the same qubit. -/
def Ctrl.lt (a b : Ctrl) : Bool := a.qubit < b.qubit || (a.qubit == b.qubit && a.neg && !b.neg)

/-- `Controls::insert` (Control.hpp:48, `std::set`): the list is the content of the set in order. -/
def ctrlInsert (x : Ctrl) : List Ctrl → List Ctrl
  | [] => [x]
  | c :: cs => if x.lt c then x :: c :: cs else if c.lt x then c :: ctrlInsert x cs else c :: cs

/-- `Controls::erase` (Control.hpp:48, `std::set`). -/
def ctrlErase (x : Ctrl) (cs : List Ctrl) : List Ctrl := cs.filter (fun c => !(c == x))

namespace Pkg

open Gates

/-- `e = multiply(e, makeGateDD(U, n, controls, target))` (e.g. Package.hpp:663). -/
noncomputable def mulGate (P : PCfg ℝ) (U : GateMatrix) (n : Nat) (controls : List Ctrl) (target : Nat) (r : Pkg ℝ × PEdge ℝ) :
    Option (Pkg ℝ × PEdge ℝ) :=
  (makeGateDD P r.1 U n controls target).map fun g => multiply P .m g.1 r.2 g.2

/-- `e = multiply(makeGateDD(U, n, controls, target), e)` (e.g. Package.hpp:646). -/
noncomputable def gateMul (P : PCfg ℝ) (U : GateMatrix) (n : Nat) (controls : List Ctrl) (target : Nat) (r : Pkg ℝ × PEdge ℝ) :
    Option (Pkg ℝ × PEdge ℝ) :=
  (makeGateDD P r.1 U n controls target).map fun g => multiply P .m g.1 g.2 r.2

/-- `Control{q}` (Control.hpp:19-20): positive. -/
def posCtrl (q : Nat) : Ctrl := ⟨q, false⟩

/-- `makeSWAPDD` with controls (Package.hpp:632-640). -/
noncomputable def makeSWAPDD (P : PCfg ℝ) (s : Pkg ℝ) (n : Nat) (controls : List Ctrl) (target0 target1 : Nat) : Option (Pkg ℝ × PEdge ℝ) :=
  let c := ctrlInsert (posCtrl target0) controls
  (makeGateDD P s Xmat n c target1).bind fun e =>
  let c := ctrlInsert (posCtrl target1) (ctrlErase (posCtrl target0) c)
  (gateMul P Xmat n c target0 e).map fun f => multiply P .m f.1 e.2 f.2

/-- `makePeresDD` with controls (Package.hpp:642-648). -/
noncomputable def makePeresDD (P : PCfg ℝ) (s : Pkg ℝ) (n : Nat) (controls : List Ctrl) (target0 target1 : Nat) : Option (Pkg ℝ × PEdge ℝ) :=
  let c := ctrlInsert (posCtrl target1) controls
  (makeGateDD P s Xmat n c target0).bind fun e => gateMul P Xmat n controls target1 e

/-- `makePeresdagDD` with controls (Package.hpp:650-656). -/
noncomputable def makePeresdagDD (P : PCfg ℝ) (s : Pkg ℝ) (n : Nat) (controls : List Ctrl) (target0 target1 : Nat) : Option (Pkg ℝ × PEdge ℝ) :=
  (makeGateDD P s Xmat n controls target1).bind fun e =>
  let c := ctrlInsert (posCtrl target1) controls
  gateMul P Xmat n c target0 e

/-- `makeiSWAPDD` with controls (Package.hpp:661-673). -/
noncomputable def makeiSWAPDD (P : PCfg ℝ) (s : Pkg ℝ) (n : Nat) (controls : List Ctrl) (target0 target1 : Nat) : Option (Pkg ℝ × PEdge ℝ) :=
  (makeGateDD P s Smat n controls target1).bind fun e =>
  (mulGate P Smat n controls target0 e).bind fun e =>
  (mulGate P Hmat n controls target0 e).bind fun e =>
  let c := ctrlInsert (posCtrl target0) controls
  (mulGate P Xmat n c target1 e).bind fun e =>
  let c := ctrlInsert (posCtrl target1) (ctrlErase (posCtrl target0) c)
  (mulGate P Xmat n c target0 e).bind fun e =>
  mulGate P Hmat n controls target1 e

/-- `makeiSWAPinvDD` with controls (Package.hpp:678-690). -/
noncomputable def makeiSWAPinvDD (P : PCfg ℝ) (s : Pkg ℝ) (n : Nat) (controls : List Ctrl) (target0 target1 : Nat) : Option (Pkg ℝ × PEdge ℝ) :=
  (makeGateDD P s Hmat n controls target1).bind fun e =>
  let c := ctrlInsert (posCtrl target1) controls
  (mulGate P Xmat n c target0 e).bind fun e =>
  let c := ctrlInsert (posCtrl target0) (ctrlErase (posCtrl target1) c)
  (mulGate P Xmat n c target1 e).bind fun e =>
  (mulGate P Hmat n controls target0 e).bind fun e =>
  (mulGate P Sdagmat n controls target0 e).bind fun e =>
  mulGate P Sdagmat n controls target1 e

/-- `makeDCXDD` with controls (Package.hpp:695-703). -/
noncomputable def makeDCXDD (P : PCfg ℝ) (s : Pkg ℝ) (n : Nat) (controls : List Ctrl) (target0 target1 : Nat) : Option (Pkg ℝ × PEdge ℝ) :=
  let c := ctrlInsert (posCtrl target0) controls
  (makeGateDD P s Xmat n c target1).bind fun e =>
  let c := ctrlInsert (posCtrl target1) (ctrlErase (posCtrl target0) c)
  mulGate P Xmat n c target0 e

/-- `makeRZZDD` with controls (Package.hpp:708-717). -/
noncomputable def makeRZZDD (P : PCfg ℝ) (s : Pkg ℝ) (n : Nat) (controls : List Ctrl) (target0 target1 : Nat) (theta : ℝ) : Option (Pkg ℝ × PEdge ℝ) :=
  let c := ctrlInsert (posCtrl target0) controls
  (makeGateDD P s Xmat n c target1).bind fun e =>
  let c := ctrlErase (posCtrl target0) c
  (mulGate P (RZmat theta) n c target1 e).bind fun e =>
  let c := ctrlInsert (posCtrl target0) c
  mulGate P Xmat n c target1 e

/-- `makeRYYDD` with controls (Package.hpp:722-730). -/
noncomputable def makeRYYDD (P : PCfg ℝ) (s : Pkg ℝ) (n : Nat) (controls : List Ctrl) (target0 target1 : Nat) (theta : ℝ) : Option (Pkg ℝ × PEdge ℝ) :=
  (makeGateDD P s (RXmat (π / 2)) n [] target0).bind fun e =>
  (mulGate P (RXmat (π / 2)) n [] target1 e).bind fun e =>
  ((makeRZZDD P e.1 n controls target0 target1 theta).map fun g => multiply P .m g.1 e.2 g.2).bind fun e =>
  (mulGate P (RXmat (-(π / 2))) n [] target1 e).bind fun e =>
  mulGate P (RXmat (-(π / 2))) n [] target0 e

/-- `makeRXXDD` with controls (Package.hpp:735-743). -/
noncomputable def makeRXXDD (P : PCfg ℝ) (s : Pkg ℝ) (n : Nat) (controls : List Ctrl) (target0 target1 : Nat) (theta : ℝ) : Option (Pkg ℝ × PEdge ℝ) :=
  (makeGateDD P s Hmat n [] target0).bind fun e =>
  (mulGate P Hmat n [] target1 e).bind fun e =>
  ((makeRZZDD P e.1 n controls target0 target1 theta).map fun g => multiply P .m g.1 e.2 g.2).bind fun e =>
  (mulGate P Hmat n [] target1 e).bind fun e =>
  mulGate P Hmat n [] target0 e

/-- `makeRZXDD` with controls (Package.hpp:748-754). -/
noncomputable def makeRZXDD (P : PCfg ℝ) (s : Pkg ℝ) (n : Nat) (controls : List Ctrl) (target0 target1 : Nat) (theta : ℝ) : Option (Pkg ℝ × PEdge ℝ) :=
  (makeGateDD P s Hmat n [] target1).bind fun e =>
  ((makeRZZDD P e.1 n controls target0 target1 theta).map fun g => multiply P .m g.1 e.2 g.2).bind fun e =>
  mulGate P Hmat n [] target1 e

/-- `makeECRDD` with controls (Package.hpp:759-764). -/
noncomputable def makeECRDD (P : PCfg ℝ) (s : Pkg ℝ) (n : Nat) (controls : List Ctrl) (target0 target1 : Nat) : Option (Pkg ℝ × PEdge ℝ) :=
  (makeRZXDD P s n controls target0 target1 (-(π / 4))).bind fun e =>
  (mulGate P Xmat n controls target0 e).bind fun e =>
  (makeRZXDD P e.1 n controls target0 target1 (π / 4)).map fun g => multiply P .m g.1 e.2 g.2

/-- `makeXXMinusYYDD` with controls (Package.hpp:769-787). -/
noncomputable def makeXXMinusYYDD (P : PCfg ℝ) (s : Pkg ℝ) (n : Nat) (controls : List Ctrl) (target0 target1 : Nat) (theta beta : ℝ) : Option (Pkg ℝ × PEdge ℝ) :=
  (makeGateDD P s (RZmat (-beta)) n [] target1).bind fun e =>
  (mulGate P (RZmat (-(π / 2))) n [] target0 e).bind fun e =>
  (mulGate P SXmat n [] target0 e).bind fun e =>
  (mulGate P (RZmat (π / 2)) n [] target0 e).bind fun e =>
  (mulGate P Smat n [] target1 e).bind fun e =>
  (mulGate P Xmat n [posCtrl target0] target1 e).bind fun e =>
  (mulGate P (RYmat (-theta / 2)) n controls target0 e).bind fun e =>
  (mulGate P (RYmat (theta / 2)) n controls target1 e).bind fun e =>
  (mulGate P Xmat n [posCtrl target0] target1 e).bind fun e =>
  (mulGate P Sdagmat n [] target1 e).bind fun e =>
  (mulGate P (RZmat (-(π / 2))) n [] target0 e).bind fun e =>
  (mulGate P SXdagmat n [] target0 e).bind fun e =>
  (mulGate P (RZmat (π / 2)) n [] target0 e).bind fun e =>
  mulGate P (RZmat (beta)) n [] target1 e

/-- `makeXXPlusYYDD` with controls (Package.hpp:792-810). -/
noncomputable def makeXXPlusYYDD (P : PCfg ℝ) (s : Pkg ℝ) (n : Nat) (controls : List Ctrl) (target0 target1 : Nat) (theta beta : ℝ) : Option (Pkg ℝ × PEdge ℝ) :=
  (makeGateDD P s (RZmat (beta)) n [] target1).bind fun e =>
  (mulGate P (RZmat (-(π / 2))) n [] target0 e).bind fun e =>
  (mulGate P SXmat n [] target0 e).bind fun e =>
  (mulGate P (RZmat (π / 2)) n [] target0 e).bind fun e =>
  (mulGate P Smat n [] target1 e).bind fun e =>
  (mulGate P Xmat n [posCtrl target0] target1 e).bind fun e =>
  (mulGate P (RYmat (theta / 2)) n controls target0 e).bind fun e =>
  (mulGate P (RYmat (theta / 2)) n controls target1 e).bind fun e =>
  (mulGate P Xmat n [posCtrl target0] target1 e).bind fun e =>
  (mulGate P Sdagmat n [] target1 e).bind fun e =>
  (mulGate P (RZmat (-(π / 2))) n [] target0 e).bind fun e =>
  (mulGate P SXdagmat n [] target0 e).bind fun e =>
  (mulGate P (RZmat (π / 2)) n [] target0 e).bind fun e =>
  mulGate P (RZmat (-beta)) n [] target1 e

end Pkg

end DD
