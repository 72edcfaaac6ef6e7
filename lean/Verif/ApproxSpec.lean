import Verif.Model.ApproxInner
import Verif.Model.Derived
import Verif.Model.History
import Verif.Spec
import Verif.PkgSpec

/-!
# What accuracy means (specification for C59-C61, C68, C74-C76)

Vectors are read off the tables by following pointers to nodes and numbers, with exact arithmetic and without shortcuts. Distances are
measured by the absolute value of complex numbers, `Pkg.mag (a - b)`.
-/

namespace DD

variable {R : Type} [Field R] [LinearOrder R] [FloorRing R] [HasSqrt R]

/-- What is assumed of the rounding if the tolerance is `τ`: a relative error of at most `ε`, where `1000 ε` is at most `τ` (and 1), and below
that an absolute error of at most `η`, due to underflow, which is tiny. For `double` (Definitions.hpp:32) `ε` is 2⁻⁵³ and `η` is 2⁻¹⁰⁷⁵, and
the tolerance of the package (ComplexTable.hpp:489) is 2⁻⁴² = 2048 ε. Overflow is not modelled. -/
def JCfg.Rounds (J : JCfg R) (τ : R) : Prop :=
  ∃ ε η : R, 0 ≤ ε ∧ 1000 * ε ≤ τ ∧ 1000 * ε ≤ 1 ∧ 0 ≤ η ∧ η ≤ ε ∧ η ≤ ε * τ ^ 2 ∧ ∀ x, |J.fl x - x| ≤ ε * |x| + η

/-- The table with its weights replaced. -/
def UTable.mapW {V W : Type} {n : Nat} (f : V → W) (t : UTable V n) : UTable W n :=
  { t with mem := fun a =>
      { v := (t.mem a).v, e := fun i => ⟨((t.mem a).e i).p, f ((t.mem a).e i).w⟩, ref := (t.mem a).ref
        ident := (t.mem a).ident, symm := (t.mem a).symm } }

/-- The vector of a diagram over `l` qubits whose weights are pointers to numbers: the weights are replaced by the numbers they point
to. -/
def JState.vecJ (J : JCfg R) (s : JState R) (l : Nat) (e : PtrEdge) : (Fin l → Fin 2) → Cx R :=
  vec ((s.tab .v).tab.mapW (s.ct.cval J.C)) l ⟨e.p, s.ct.cval J.C e.w⟩

/-- `e` is a well-formed diagram of a vector over `l` qubits: its weight is a known number, it is a number (`l = 0`) or zero or leads
to a stored node at the top level. -/
def JState.ValidV (J : JCfg R) (s : JState R) (l : Nat) (e : PtrEdge) : Prop :=
  s.Known J (.num e.w.r.loc) ∧ s.Known J (.num e.w.i.loc) ∧
  match e.p with
  | none => l = 0 ∨ e.w = CNum.zero
  | some a => a ∈ (s.tab .v).tab.all ∧ ((s.tab .v).tab.mem a).v + 1 = l

/-- The matrix of a diagram over `l` qubits whose weights are pointers to numbers. -/
def JState.matJ (J : JCfg R) (s : JState R) (l : Nat) (e : PtrEdge) : Matrix (Fin l → Fin 2) (Fin l → Fin 2) (Cx R) :=
  mat ((s.tab .m).tab.mapW (s.ct.cval J.C)) l ⟨e.p, s.ct.cval J.C e.w⟩

/-- `e` is a well-formed diagram of a matrix over `l` qubits. -/
def JState.ValidM (J : JCfg R) (s : JState R) (l : Nat) (e : PtrEdge) : Prop :=
  s.Known J (.num e.w.r.loc) ∧ s.Known J (.num e.w.i.loc) ∧
  match e.p with
  | none => l = 0 ∨ e.w = CNum.zero
  | some a => a ∈ (s.tab .m).tab.all ∧ ((s.tab .m).tab.mem a).v + 1 = l

/-- The Euclidean norm of a list of amplitudes. -/
def norm2 (xs : List (Cx R)) : R := HasSqrt.sqrt (xs.map Cx.mag2).sum

/-- The Euclidean norm of a vector. -/
def vnorm {l : Nat} (f : (Fin l → Fin 2) → Cx R) : R := HasSqrt.sqrt (∑ d, (f d).mag2)

/-- The absolute values of the weights of a matrix diagram: in each node at level `j` below `p` the two weights of a row add up to at most
`K j`, and so do the two weights of a column. -/
def JState.RowCol (J : JCfg R) (s : JState R) (K : Nat → R) : Nat → Option Nat → Prop
  | 0, _ => True
  | _ + 1, none => True
  | l + 1, some a =>
    (∀ i : Fin 2,
      Pkg.mag (s.ct.cval J.C (((s.tab .m).tab.mem a).e (rc i 0)).w) + Pkg.mag (s.ct.cval J.C (((s.tab .m).tab.mem a).e (rc i 1)).w) ≤ K l ∧
      Pkg.mag (s.ct.cval J.C (((s.tab .m).tab.mem a).e (rc 0 i)).w) + Pkg.mag (s.ct.cval J.C (((s.tab .m).tab.mem a).e (rc 1 i)).w) ≤ K l) ∧
    ∀ i : Fin 4, RowCol J s K l (((s.tab .m).tab.mem a).e i).p

/-- The vectors of the nodes of a vector diagram have norm at most `B`. -/
def JState.NormLe (J : JCfg R) (s : JState R) (B : R) : Nat → Option Nat → Prop
  | 0, _ => True
  | _ + 1, none => True
  | l + 1, some a => vnorm (s.vecJ J (l + 1) ⟨some a, CNum.one⟩) ≤ B ∧
    ∀ i : Fin 2, NormLe J s B l (((s.tab .v).tab.mem a).e i).p

/-- The constant `SQRT2_2` of the code (Definitions.hpp:49) is the square root of 1/2 up to the tolerance. -/
def SqOk (J : JCfg R) (τ : R) : Prop := |J.C.sq - HasSqrt.sqrt (1 / 2)| ≤ τ

/-- What is assumed of the entries of a gate; unitary matrices with rounded entries have this property (C74). -/
def GateOk (τ : R) (U : Fin 4 → Cx R) : Prop := (∀ i, Pkg.mag (U i) ≤ 1 + τ / 20) ∧ ∃ i, 3 / 5 ≤ Pkg.mag (U i)

/-- The entries of the matrix `U`, which is given to the package, are those of the matrix `V`, which is meant, up to a twentieth of the
tolerance; the difference may be due to rounding. -/
def NearGate (τ : R) (U V : Fin 4 → Cx R) : Prop := ∀ i, Pkg.mag (U i - V i) ≤ τ / 20

/-- A block of a two-qubit gate: it has an entry of absolute value at least `c`, or only one entry is not zero, or all entries that are not
zero have the same absolute value up to `δ`. In the last case the weights of the diagram may be larger. -/
def BlockOk (δ c K : R) (u : Fin 2 → Fin 2 → Cx R) : Prop :=
  (∃ i j, c ≤ Pkg.mag (u i j)) ∨ (∃ k l, ∀ i j, (i, j) ≠ (k, l) → u i j = 0) ∨
    (26 ≤ K ∧ ∃ a, ∀ i j, u i j = 0 ∨ |Pkg.mag (u i j) - a| ≤ δ)

/-- What is assumed of the entries of a two-qubit gate: their absolute values are at most `1 + δ`, one of them is at least `c`, and the blocks
for a row and a column of one of the qubits are as in `BlockOk`. The gates of the package have this property (C84). -/
def TwoGateOk (δ c K : R) (U : Fin 4 → Fin 4 → Cx R) : Prop :=
  (∀ i j, Pkg.mag (U i j) ≤ 1 + δ) ∧ (∃ i j, c ≤ Pkg.mag (U i j)) ∧
  ∀ p q, BlockOk δ c K (fun i j => U (pair p i) (pair q j)) ∧ BlockOk δ c K (fun i j => U (pair i p) (pair j q))

/-- The entries of the matrix `U`, which is given to the package, are those of the matrix `V`, which is meant, up to a twentieth of the
tolerance; zeros are exact. -/
def NearTwoGate (τ : R) (U V : Fin 4 → Fin 4 → Cx R) : Prop := ∀ i j, Pkg.mag (U i j - V i j) ≤ τ / 20 ∧ (V i j = 0 → U i j = 0)

/-- One call on a package whose tolerance is `τ`: vectors are built or added, matrices are built or transposed, matrices are multiplied by
vectors, identities, gates on one or two qubits and basis states are made for a number of qubits that is small compared to `1 / τ`, inner products are computed,
vector nodes whose weights have norm about one are made (as in `transfer` and `deserialize`), or something else happens (numbers are looked
up or referenced, nodes and caches of matrices and density matrices are worked on, references are taken or given back, garbage is collected, caches are cleared, the package is reset or enlarged) that makes no new vector
nodes, only well-formed new matrix nodes, and no new entries in the caches for sums of vectors, for transposes, for products of matrices
and vectors, for identities and for inner products. -/
inductive TStep (J : JCfg R) (τ : R) : JState R → JState R → Prop
  | makeState {s s'} (xs : List (Cx R)) (e : PtrEdge) (hx : xs.length ≤ 2 ^ (s.tab .v).tab.nvars)
      (h : s.makeStateFromVector J xs = some (s', e)) : TStep J τ s s'
  | add {s} (l : Nat) (x y : PtrEdge) (hx : s.ValidV J l x) (hy : s.ValidV J l y) : TStep J τ s (s.add J x y).1
  | makeMatrix {s s'} (M : List (List (Cx R))) (e : PtrEdge) (hx : M.length ≤ 2 ^ (s.tab .m).tab.nvars)
      (h : s.makeDDFromMatrix J M = some (s', e)) : TStep J τ s s'
  | transpose {s} (l : Nat) (x : PtrEdge) (hx : s.ValidM J l x) : TStep J τ s (s.transpose J x).1
  | multiply {s} (l : Nat) (x y : PtrEdge) (hx : s.ValidM J l x) (hy : s.ValidV J l y) : TStep J τ s (s.multiply J x y).1
  | makeIdent {s} (n : Nat) (hn : n ≤ (s.tab .m).tab.nvars) (hz : 1000 * ((n : R) + 1) * τ ≤ 1) : TStep J τ s (s.makeIdent J n).1
  | makeGate {s s'} (U : Fin 4 → Cx R) (n : Nat) (controls : List Ctrl) (target : Fin n) (e : PtrEdge) (hc : GoodControls controls target n)
      (hU : GateOk τ U) (hz : 1000 * ((n : R) + 1) * τ ≤ 1) (h : s.makeGateDD J U n controls target = some (s', e)) : TStep J τ s s'
  | makeTwoQubitGate {s s'} (U : Fin 4 → Fin 4 → Cx R) (n : Nat) (target0 target1 : Fin n) (K : R) (e : PtrEdge) (ht : target0 ≠ target1)
      (hK : 2 + 56 * τ ≤ K) (hU : TwoGateOk (τ / 20) (3 / 5) K U) (hz : 1000 * ((n : R) + 1) * τ ≤ 1)
      (h : s.makeTwoQubitGateDD J U n target0 target1 = some (s', e)) : TStep J τ s s'
  | makeBasisStates {s s'} (n : Nat) (state : List Basis) (e : PtrEdge) (hs : SqOk J τ) (hz : 1000 * ((n : R) + 1) * τ ≤ 1)
      (h : s.makeBasisStates J n state = some (s', e)) : TStep J τ s s'
  | makeBasisState {s s'} (n : Nat) (state : List Bool) (e : PtrEdge) (hs : SqOk J τ) (hz : 1000 * ((n : R) + 1) * τ ≤ 1)
      (h : s.makeBasisState J n state = some (s', e)) : TStep J τ s s'
  | makeZeroState {s s'} (n : Nat) (e : PtrEdge) (hs : SqOk J τ) (hz : 1000 * ((n : R) + 1) * τ ≤ 1)
      (h : s.makeZeroState J n = some (s', e)) : TStep J τ s s'
  | innerProduct {s} (l : Nat) (x y : PtrEdge) (hx : s.ValidV J l x) (hy : s.ValidV J l y) : TStep J τ s (s.innerProduct J x y).1
  | makeNode {s} (l : Nat) (es : Fin 2 → PtrEdge) (hl : l < (s.tab .v).tab.nvars) (hes : ∀ i, s.ValidV J l (es i)) (hz : 1000 * τ ≤ 1)
      (h : |(s.ct.cval J.C (es 0).w).mag2 + (s.ct.cval J.C (es 1).w).mag2 - 1| ≤ 1 / 100) : TStep J τ s (s.makeU J l es).1
  | other {s s'} (h : JStep J (· = τ) s s') (hn : ∀ a ∈ (s'.tab .v).tab.all, a ∈ (s.tab .v).tab.all)
      (hm : ∀ a ∈ (s'.tab .m).tab.all, a ∈ (s.tab .m).tab.all ∨
        ∀ i : Fin 4, s'.ValidM J ((s'.tab .m).tab.mem a).v (((s'.tab .m).tab.mem a).e i))
      (hc : ∀ i k, (s'.cache .vectorAdd).slot i = some k → (s.cache .vectorAdd).slot i = some k)
      (ht : ∀ i k, (s'.cache .matrixTranspose).slot i = some k → (s.cache .matrixTranspose).slot i = some k)
      (hp : ∀ i k, (s'.cache .matrixVectorMultiplication).slot i = some k → (s.cache .matrixVectorMultiplication).slot i = some k)
      (hid : ∀ i k, (s'.cache .idTable).slot i = some k → (s.cache .idTable).slot i = some k)
      (hin : ∀ i k, (s'.cache .vectorInnerProduct).slot i = some k → (s.cache .vectorInnerProduct).slot i = some k) :
      TStep J τ s s'

/-- The states of a package with tolerance `τ`. -/
inductive TReach (J : JCfg R) (τ : R) : JState R → Prop
  | init (nq : Nat) (nbucket : NK → Nat) (hnb : ∀ k, 0 < nbucket k) (cell : (k : NK) → Node (CNum Loc) k.ar) :
      TReach J τ (JState.init J τ nq nbucket cell)
  | step {s s'} (h : TReach J τ s) (hs : TStep J τ s s') : TReach J τ s'

end DD
