import Verif.Model.History
import Verif.Model.Measure
import Verif.Model.Derived
import Verif.Model.Serialize
import Verif.Model.Gates
import Verif.Proofs.UHist

/-!
# Histories with the functions composed of others

`PStep` has a constructor for each function of the package that works on the tables directly. `XStep` adds the functions that call others: the
measurements that collapse the state, expectation values, `extend`, `fidelity`, the reductions, reading a file and copying
a diagram from another package. `GStep` adds the controlled two-qubit gates, which are modelled over the real numbers.
-/

namespace DD

section
variable {R : Type} [Field R] [LinearOrder R] [IsStrictOrderedRing R] [HasSqrt R]

/-- The records read come from writing a diagram of the unique table `t`. -/
inductive WrittenFrom : (k : Kind) → UTable (Cx R) (ar k) → Nat → PEdge R → List (Rec R (ar k)) → Prop
  | v {binary : Bool} {t : UTable (Cx R) 2} {l : Nat} {x : PEdge R} {recs : List (Rec R 2)} : Valid t l x →
      SerializesV binary t x recs → WrittenFrom .v t l x recs
  | m {binary : Bool} {t : UTable (Cx R) 4} {l : Nat} {x : PEdge R} : Valid t l x →
      WrittenFrom .m t l x (serializeM binary t x)

/-- One call of a function of the package, including those composed of others. As in `PStep`, the premises are what the
interface asks of the caller. `P0`, `h0` is the package a diagram was written from or is copied from. The calls that replace a
reference of the caller (Package.hpp:1140-1155, 1286-1290, 2274-2276, 2296-2298, 2316-2318) also update the references held. -/
inductive XStep (P : PCfg R) (h : PHist R) : PHist R → Prop
  | basic {h' : PHist R} : PStep P h h' → XStep P h h'
  | measureAll {l : Nat} {x : PEdge R} {g : GcEnv} {eps : R} {draw : Nat → R} {r : Pkg R × PEdge R × List Char} :
      Valid (h.pkg.ut .v) l x → x.w ≠ 0 → x ∈ h.held .v → 0 ≤ eps → (∀ i < l, 0 ≤ draw i ∧ draw i < 1) →
      h.pkg.measureAllCollapse P g x eps draw = some r →
      XStep P h ⟨r.1, Function.update h.held .v (r.2.1 :: (h.held .v).erase x)⟩
  | measureOne {l : Nat} {x : PEdge R} {q : Fin l} {assumeNorm : Bool} {eps draw : R} {r : Pkg R × PEdge R × Char} :
      Valid (h.pkg.ut .v) l x → x.w ≠ 0 → x ∈ h.held .v → 0 ≤ draw ∧ draw < 1 →
      (∃ N, ∀ fuel, N ≤ fuel → h.pkg.measureOneCollapsing P x q assumeNorm eps draw fuel = some r) →
      XStep P h ⟨r.1, Function.update h.held .v ((r.2.1 :: h.held .v).erase x)⟩
  | expectationValue {l : Nat} {A x : PEdge R} {g : GcEnv} {r : Pkg R × R} : Valid (h.pkg.ut .m) l A → Valid (h.pkg.ut .v) l x →
      Pkg.expectationValue P g h.pkg A x = some r → XStep P h { h with pkg := r.1 }
  | extend {l : Nat} {e : PEdge R} {up low : Nat} : Valid (h.pkg.ut .m) l e → low + l + up ≤ (h.pkg.ut .m).nvars →
      XStep P h { h with pkg := (Pkg.extend P h.pkg e up low).1 }
  | reduceAncillae {l : Nat} {e : PEdge R} {mask : List Bool} {regular : Bool} {r : Pkg R × PEdge R} : Valid (h.pkg.ut .m) l e →
      e.w ≠ 0 → e ∈ h.held .m → (∃ i < l, mask.getD i false = true) →
      Pkg.reduceAncillae P h.pkg e mask regular = some r →
      XStep P h ⟨r.1, Function.update h.held .m (r.2 :: (h.held .m).erase e)⟩
  | reduceGarbageV {l : Nat} {e : PEdge R} {mask : List Bool} {r : Pkg R × PEdge R} : Valid (h.pkg.ut .v) l e →
      e.w ≠ 0 → e ∈ h.held .v → (∃ i < l, mask.getD i false = true) →
      Pkg.reduceGarbageV P h.pkg e mask = some r →
      XStep P h ⟨r.1, Function.update h.held .v (r.2 :: (h.held .v).erase e)⟩
  | reduceGarbageM {l : Nat} {e : PEdge R} {mask : List Bool} {regular : Bool} {r : Pkg R × PEdge R} : Valid (h.pkg.ut .m) l e →
      e.w ≠ 0 → e ∈ h.held .m → (∃ i < l, mask.getD i false = true) →
      Pkg.reduceGarbageM P h.pkg e mask regular = some r →
      XStep P h ⟨r.1, Function.update h.held .m (r.2 :: (h.held .m).erase e)⟩
  | deserialize {k : Kind} {l : Nat} {x : PEdge R} {recs : List (Rec R (ar k))} {P0 : PCfg R} {h0 : PHist R}
      {r : Pkg R × PEdge R} : P0.C.Good → PReach P0 h0 → WrittenFrom k (h0.pkg.ut k) l x recs → l ≤ (h.pkg.ut k).nvars →
      Pkg.deserialize P k h.pkg x.w recs = some r → XStep P h { h with pkg := r.1 }
  | transfer {k : Kind} {l : Nat} {x : PEdge R} {P0 : PCfg R} {h0 : PHist R} {r : Pkg R × PEdge R} : P0.C.Good → PReach P0 h0 →
      Valid (h0.pkg.ut k) l x → l ≤ (h.pkg.ut k).nvars → Pkg.Transfers P k (h0.pkg.ut k) h.pkg x r → XStep P h { h with pkg := r.1 }

end

/-- A set of controls and two targets, all different. -/
structure GoodTargets (controls : List Ctrl) (t0 t1 n : Nat) : Prop where
  lt0 : t0 < n
  lt1 : t1 < n
  ne : t0 ≠ t1
  first : GoodControls controls t0 n
  second : GoodControls controls t1 n

/-- The controlled two-qubit gates (Package.hpp:632-810). -/
inductive TwoGate
  | swap | peres | peresdag | iswap | iswapinv | dcx | ecr
  | rzz (theta : ℝ) | ryy (theta : ℝ) | rxx (theta : ℝ) | rzx (theta : ℝ)
  | xxMinusYY (theta beta : ℝ) | xxPlusYY (theta beta : ℝ)

/-- The construction of a gate (Package.hpp:632-810). -/
noncomputable def TwoGate.make (P : PCfg ℝ) (s : Pkg ℝ) (n : Nat) (controls : List Ctrl) (t0 t1 : Nat) : TwoGate → Option (Pkg ℝ × PEdge ℝ)
  | .swap => Pkg.makeSWAPDD P s n controls t0 t1
  | .peres => Pkg.makePeresDD P s n controls t0 t1
  | .peresdag => Pkg.makePeresdagDD P s n controls t0 t1
  | .iswap => Pkg.makeiSWAPDD P s n controls t0 t1
  | .iswapinv => Pkg.makeiSWAPinvDD P s n controls t0 t1
  | .dcx => Pkg.makeDCXDD P s n controls t0 t1
  | .ecr => Pkg.makeECRDD P s n controls t0 t1
  | .rzz theta => Pkg.makeRZZDD P s n controls t0 t1 theta
  | .ryy theta => Pkg.makeRYYDD P s n controls t0 t1 theta
  | .rxx theta => Pkg.makeRXXDD P s n controls t0 t1 theta
  | .rzx theta => Pkg.makeRZXDD P s n controls t0 t1 theta
  | .xxMinusYY theta beta => Pkg.makeXXMinusYYDD P s n controls t0 t1 theta beta
  | .xxPlusYY theta beta => Pkg.makeXXPlusYYDD P s n controls t0 t1 theta beta

/-- One call of a function of the package, including the controlled two-qubit gates. -/
inductive GStep (P : PCfg ℝ) (h : PHist ℝ) : PHist ℝ → Prop
  | basic {h' : PHist ℝ} : XStep P h h' → GStep P h h'
  | gate {G : TwoGate} {n : Nat} {controls : List Ctrl} {t0 t1 : Nat} {r : Pkg ℝ × PEdge ℝ} : GoodTargets controls t0 t1 n →
      n ≤ (h.pkg.ut .m).nvars → G.make P h.pkg n controls t0 t1 = some r → GStep P h { h with pkg := r.1 }

/-- The states a package can be in when all functions are called. -/
def XReach {R : Type} [Field R] [LinearOrder R] [IsStrictOrderedRing R] [HasSqrt R] (P : PCfg R) (h : PHist R) : Prop :=
  ∃ h0, PStart P h0 ∧ Relation.ReflTransGen (XStep P) h0 h

/-- The states a package can be in when all functions, including the controlled two-qubit gates, are called. -/
def GReach (P : PCfg ℝ) (h : PHist ℝ) : Prop := ∃ h0, PStart P h0 ∧ Relation.ReflTransGen (GStep P) h0 h

end DD
