# Design of the formal model of cda-tum/dd_package

## Approach

The model is written in Lean 4 (`/verif/lean/Verif`). It follows the layering of the C++ headers.

* **Layer A, data structures** (`ComplexTable`, `ComplexCache`, tagged pointers, `UniqueTable`, operation caches,
  hash functions). Each class is a state record plus total step functions. The invariants are proved for every
  history, for every hash function and for every tolerance where the property allows it.
* **Layer B, the package** (`Package.hpp`). Nodes live in a memory indexed by addresses, edges are
  (address, weight) pairs, node creation goes through normalisation and the unique table, and the recursive
  operations go through lossy operation caches, as in the code. The meaning of an edge is a function from digit
  strings to complex numbers (`den`), and the theorems relate the results to vectors `Fin (2^n) → K` and matrices
  `Matrix (Fin (2^n)) (Fin (2^n)) K` of Mathlib. The state may have been produced by any history.
* **Layer J, the tables together** (`Model/Joint.lean`), with edge weights that point into the number table, and on top of it
  **operations with a tolerance** (`Model/Approx.lean`): building, adding and reading vectors with all tolerance shortcuts.
* **Layer C, gate definitions**. Matrices with symbolic angles over the real numbers.
* **Layer D, traversals**. Serialization, transfer, export, counting.

### Idealisations (stated once, used everywhere)

1. `double` is replaced by an ordered field `R` (all theorems) with a square root (`ℝ` is an instance). No NaN, no infinity, and no
   rounding except in the accuracy layer (C59-C61, C68, C74-C81), where every arithmetic operation rounds.
2. In layer B the tolerance is 0: "approximately zero/one/equal" is equality, and `cn.lookup` returns the value it is
   given. Layer A treats the tolerance as a parameter and proves what lookup guarantees for it (C01-C08), in
   particular that pointer equality of canonical numbers is value equality, which is what layer B relies on.
3. Singly linked bucket chains are lists of addresses.
4. Addresses are natural numbers. Pointer tagging (C08, C09, C48) is modelled separately on 64-bit words.
5. Statistics counters that no function reads back are left out, unless a property speaks about them.

### Undefined behaviour and errors

Exceptions are `Except` outcomes. Undefined behaviour (reading an empty stack, reading past the end of a vector) is a
separate outcome of the model function so that theorems cannot be true because of a totalised default.

## Plan per property

| id | model | proof |
|----|-------|-------|
| C01-C06 | `ComplexTable` state: cells, bucket lists, tails, free list, bump pointer, counters; hash = clipped rounding | invariant (sorted, bucketed, separated, tails, free cells disjoint) by cases on every step |
| C04 | same | refuted by a concrete history at a bucket border; nearest-entry theorem for requests inside a bucket (`_partial`) |
| C07 | counters bounded by a maximum | case analysis |
| C08, C09 | tagged pointers over table entries; `BitVec 64` for the bit tricks | from the separation invariant; refuted at the exact boundary, with the positive theorem away from it |
| C10 | arithmetic on pairs over an ordered field, slots in a memory | inequalities |
| C11 | free list + bump pointer | invariant |
| C12 | `BitVec 64`, `Nat` modulo | inverse functions |
| C13-C16 | `UniqueTable` state, generic in the weight type and arity | invariant over all histories |
| C17 | node tables + number table + caches with explicit pointers | invariant over all histories; the Toffoli cache is refuted |
| C18 | direct-mapped caches with arbitrary hash | refinement of the last-write history |
| C19-C21 | normalisation exactly as coded; node memory | algebra; induction on levels |
| C22-C30, C34-C37 | layer B operations in state passing style | induction on levels, cache soundness as invariant |
| C31-C33 | gate construction loops | induction on qubits |
| C38 | recursion as coded | refuted by concrete witnesses; correctness under a side condition (`_partial`) |
| C39-C41 | probability propagation, sampling with explicit draws | induction on levels |
| C42 | layer B over histories | from the invariant and canonicity |
| C43-C45 | record lists, explicit stacks with an undefined-behaviour outcome | induction; refutation by witness for C45 |
| C46 | matrices over `ℝ`/`ℂ` with `Real.cos`, `Real.sin` | trigonometric identities |
| C47 | Stern-Brocot loop with exact rationals | loop invariant and termination measure |
| C48 | flags, tags and swaps on one node cell | case analysis on all flag values |
| C49-C52, C54 | direct recursion | induction |
| C53 | ledger of outstanding slots per operation | induction |
| C55 | number printing as tokens | case analysis on the branches |
| C56 | density nodes: reading through flags, applying and reverting them | case analysis, reading the memory back |
| C57 | the same recursion as C38 with another step | as C38 |
| C58 | the operations with slots, for exact arithmetic and the tables of the package | simulation by the operations on values (wp), then the theorems of layer B |
| C67 | `XStep` (`Model/AllHistory.lean`): histories with the functions composed of others | every such call is shown to be a sequence of basic steps (`Built`), using the theorems on the single functions |
| C68 | `multiply` of a matrix and a vector on the tables of layer J with a tolerance (`Model/ApproxMul.lean`) | invariant on the entries of the cache (each is accurate for all bounds its operands satisfy), Schur test for the norm of products of nodes, lower bounds for the norms of nodes, error recurrence by induction over the levels |
| C69 | `conditionalFormat`, `printPhaseFormatted`, `colorFromPhase`, `thicknessFromMagnitude` as relations between magnitude, argument and tokens (`Model/Polar.lean`) | Mathlib's complex exponential and argument; Lipschitz bound for exp(ix); C47 and C55 for fractions |
| C70 | the caller's loop over the gates of a circuit (`Model/Circuit.lean`) on top of layer B, with arbitrary other steps in between that keep the caller's references | induction over the run, using C15/C21 (held diagrams keep their value), C23, C31; unitarity by splitting sums over the target bit |
| C71 | `std::set<Control>` as sorted list with `operator<` (`Model/Gates.lean`), the iterator of `makeGateDD` (`Model/Build.lean`) | uniqueness of sorted lists; simulation between the iterator on all controls and on the honoured ones, then C31 |
| C72 | `createInitialMatrix` (`Model/Output.lean`) as composition of `makeIdent`, `incRef` and `reduceAncillae` | C34, C38 for matrices with entries 0 and 1 |
| C73 | `printVector`, `printMatrix` (`Model/Output.lean`) as lists of lines | list reasoning on top of the specification of `getValueByPath` |
| C74 | `makeGateDD`, `makeIdent`, `makeBasisState`, `makeZeroState` on the joint state with tolerance and rounding (`Model/ApproxGate.lean`) | an invariant of the identity table added to the invariant of C59; level by level error recursion with near-unit weights |
| C75 | the caller's protocol on the joint state (`Model/ApproxCircuit.lean`) | C74 and C68 for one gate, isometry of unitary circuits (C70), induction over the run |
| C76 | `innerProduct`, `fidelity` on the joint state with tolerance and rounding (`Model/ApproxInner.lean`) | an invariant of the cache added to that of C59: a cached number is the inner product of two nodes up to 40 tol n (1+B) times their norms; Cauchy-Schwarz at every node |
| C77 | `measureAll` with and without collapse on the joint state with tolerance and rounding (`Model/ApproxMeasure.lean`); `JCfg.Exact`, `SumsLe` (`MeasureApproxSpec.lean`) | the intervals of C40 recomputed with rounded quotients, products of their lengths compared with the squared amplitudes by induction on the levels; the collapse is a history of decRef, makeBasisState, incRef and garbageCollect |
| C78 | `determineMeasurementProbabilities`, `assignProbabilities`, `measureOneCollapsing` on the joint state with tolerance and rounding (`Model/ApproxMeasure.lean`); `outProb`, `project` (`MeasureSpec.lean`) | invariant of the breadth-first search: what has been collected plus what is pending is the mass above the qubit, up to one rounding per node; the collapse is the gate of C75 for the projector followed by a scaling |
| C79 | `expectationValue` on the joint state with tolerance and rounding (`Model/ApproxRead.lean`) | the bounds of C68 (product) and C76 (inner product) composed, the gate replaced by the exact matrix with C74, its norm by the isometry of C70 |
| C80 | `getMatrix`, `getValueByPath` (matrices), `trace` on the joint state with tolerance and rounding (`Model/ApproxRead.lean`) | induction on the level with the bound on rows and columns of C68; the trace only looks up numbers, so that the tables of nodes stay the same |
| C81 | IEEE double rounding (`Model/Double.lean`), the joint layer with the tolerance and table sizes of the code | rounding to nearest even is monotone, idempotent and has the standard error bound; C75 and C79, generalised to gates whose entries are rounded, are instantiated |
| C82 | regular expressions (`Model/Regex.lean`), decimal notation, `toString`, `fromString`, `std::stoi`, `std::stod`, lines and whole text files (`Model/Text.lean`), specification `TextSpec.lean` | the possible matches of each expression on the texts that are written are determined by the characters a sub-expression can begin with, end with and contain; the number read is the decimal written; with C43 and C44 diagrams are read exactly |
| C83 | `transfer` and `deserialize` on the tables with pointer weights and tolerance (`Model/ApproxCopy.lean`), specification `CopySpec.lean` | induction over the order in which the nodes are copied: each node is normalised again, its weights move by a multiple of the tolerance, up to one common phase; for steady nodes the phase is 1; counterexamples by evaluation in the kernel |
| C84 | `makeTwoQubitGateDD` on the tables with pointer weights and tolerance (`Model/ApproxGate.lean`) | as C74: each of the four blocks is built by induction over the qubits below the larger target, with bounds on the sums of the weights of a row or column of each node; the constant of the smaller target depends on the sizes of the entries of a block |
| C85 | circuits with `makeGateDD` and `makeTwoQubitGateDD` (`Model/ApproxCircuit2.lean`) | as C75: induction over the gates, each gate is an isometry, errors from C74 and C84 add up |
| C86 | `decRef` with the state in which it stops when it throws (`Model/RefErr.lean`) | induction over the level: agreement with the model of C14-C17 if it returns, only counts change in any case; concrete histories for the refutations |
| C87 | the bit patterns of doubles, `nextafter`, the loop of `ulpDistance` (`Model/Ulp.lean`) | decoding is strictly monotone in the bit pattern; induction over the rounds; the rounding of Model/Double.lean against all doubles |
| C88 | the functions with the parameter `start` (`Model/Start.lean`), meaning of the diagrams by `getValueByPath` | a weaker invariant (levels decrease along edges) kept by `makeDDNode` and `transpose`; induction over the lines; refutation for controls by witness |
| C89 | `makeTwoQubitGateDD` with the parameter `start` (`Model/Start.lean`) | the invariant of C88; induction over the lines; refutations by witness |
| C90 | `multiply` with the parameter `start`, `add` and `makeDCXDD` (`Model/StartMul.lean`) | an invariant for diagrams over ranges (`Proofs/StartMul.lean`): a diagram other than zero determines its range, so cached sums and products keep their meaning; induction over the levels; refutations by runs in exact rational arithmetic |
| C91 | `kronecker` with `incIdx = false` (`Model/StartKron.lean`) | induction on the range with the invariant of C90, extended to the tables of tensor products and to the identity marks of nodes; refutations by runs in exact rational arithmetic |
| C92 | controls with the qubit type of the code, literals, sets with lookup by qubit and `makeGateDD` on them (`Model/Literal.lean`) | order of the set by induction; simulation of `makeGateDD` of C71 with an iterator that may be stuck at a negative qubit |
| C93 | operation caches and unique tables with their statistics (`Model/Stats.lean`) | induction on the history against the answers of the cache without statistics |
| C94 | result of `garbageCollect` on the joint model of numbers, nodes and caches (`Model/Joint.lean`) | counts of the collections of the single tables against the stored entries before and after; invariants of C17 |
| C95 | `reset` on the joint model of numbers, nodes and caches (`Model/Joint.lean`) | invariants of C17; every lookup in an empty table |
| C66 | `isLocallyConsistent` and `isGloballyConsistent` on the joint layer | specification of the depth-first count, combined with the exact reference counts of C14 and C17 |
| C64, C65 | the walk of `toDot` and `exportEdgeWeights` as steps on a queue, labels computed from addresses | invariant over the steps and a measure; arithmetic on addresses and a pigeonhole argument |
| C62, C63 | density matrix nodes with flags in their pointers, operations that modify nodes in place, the two density caches with their key comparison, layer B for matrices | invariant on tables, caches and flags over histories; refutation by a run checked in the kernel |
| C61 | building matrices on the tables of layer J with a tolerance | as C59; the invariant of the recursion also says that a result whose weight is nearly zero stands for a nearly zero matrix and that entries exceed the weight only by a root of the tolerance |
| C59, C60 | vector operations on the tables of layer J with a tolerance | invariant on stored nodes and cache entries (weights bounded, cached sums accurate), error recurrences by induction over the levels, closed forms |

The final status of every property is in `MANIFEST.json`; deviations from this plan are recorded at the end of this
file.

## Trusted base

* Lean 4.33.0's kernel and the Mathlib definitions used in statements.
* Axioms: only `propext`, `Classical.choice`, `Quot.sound`.
* The correspondence between the C++ text and the Lean definitions, argued by the comment on each definition.
* Not modelled: floating-point rounding outside the accuracy layer (C59-C61, C68, C74-C81, C83-C85, C87), overflow, `std::` containers beyond their documented behaviour, the text of DOT files (the walk that produces them is modelled, C64),
  statistics, real random number generators (draws are inputs).

## Deviations and simplifications

* Layer A (numbers, pointers, caches, unique table) is modelled with its tolerances; layer B (the package) uses exact
  arithmetic over an ordered field with square roots and tolerance 0. Rounding is modelled in the accuracy layer only.
* `ComplexTable`: the tolerance is part of the state; two collision counters are omitted; buckets are lists; the static
  values are not in the memory; the loop of `garbageCollect` over a bucket is a `filter`.
* `ComplexCache`: `peakCount` is omitted (the code never updates it).
* Value hash: rounding of halves goes up (the code uses `std::round`, which rounds halves away from zero).
* Measurement: random draws are inputs; runs that would not terminate have no outcome.
* `resize` is only considered for growing packages (C52 shows why).
* Exports are modelled as numbers and tokens, not as text. `arg` is abstract (`LawfulArg`).
* Serialization works on records and items (binary) with exact numbers; the text format is modelled character by character (C82), without the order in which
  `std::regex` tries matches (all matches are considered), non-finite numbers, range errors of `std::stod` and the conversion of qubit numbers above 127. In `transfer` and `deserialize` the traversal
  order is computed before the actions are performed.
* The fraction search uses unbounded integers instead of 64-bit ones.
* Density matrix pointers are records of an address and three flags; the correspondence to words is proved (C48). The null
  pointer is not modelled. `getProbVector` is modelled for fewer than 63 qubits.
* Reduction masks are lists that read `false` beyond their end; the code would read out of bounds.
* Slots of the complex cache (C53) are explicit in Model/Slots.lean, where the arithmetic, the tolerance, the table of numbers and the
  node and operation tables are parameters. The in-place product of `kronecker2` on a zero edge (debug assertion) is left out there,
  and density matrices are not covered. Layer B uses values in place of slots; C58 proves that, for exact arithmetic, the operations with slots
  (Model/SlotExact.lean) yield the same results and tables.
* The tables together (C17, Model/Joint.lean): edge weights are pointers into the number table, so that the interplay of the number
  table, the three node tables and the fifteen caches is visible. A cache is a set of slots whose entries have the types of the C++ template
  arguments; operations are represented by the calls they make (look up a number, make a node, store an entry made of known edges).
  The unique tables compare weights up to the tolerance there, as the code does; cells that are fetched and not used are steps of their own.
  The flags in the pointers of density-matrix edges are left out; entries of the identity table have weight one (a hypothesis of the step,
  justified by `makeIdent`). Shrinking `resize` is not a step (see C52).
* Reference counts of nodes and of numbers: in layer B the counts of the weights are not tracked (layer A, C14-C16 and C17 do).
* Operations with a tolerance (C59, C60, Model/Approx.lean): number table, unique table and cache of `add` as in layer J, all tolerance
  comparisons of `normalize`, `mul`, `div`, `add2`, `getVector` as in the code; slots of the complex cache are the values they hold. Every
  `+`, `-`, `*`, `/` and `sqrt` of the modelled functions rounds with an arbitrary function `JCfg.fl` whose relative error is at most a
  thousandth of the tolerance (`JCfg.Rounds` in ApproxSpec.lean; for `double` and the tolerance of the package the error is τ/2048), with a tiny
  absolute error for underflow; no overflow, no contraction to fused operations. The comparisons with the tolerance inside the number table
  and in `approximatelyZero`, `approximatelyOne` and `approximatelyEquals` are exact (the subtraction in them is not rounded). Products of matrices and vectors (C68, Model/ApproxMul.lean) likewise. Other operations on vectors (kronecker) are
  not among the steps of `TReach`, since they would make vector nodes; everything that makes no vector nodes and only well-formed matrix
  nodes is.
* Matrices with a tolerance (C61, Model/ApproxMat.lean): `makeDDFromMatrix`, `normalize`, `makeDDNode`, `checkSpecialMatrices` and
  `transpose` with its cache, in the same way. How accurate the result of `transpose` is, is not stated; reading a matrix is C80. Gates on one and two qubits (C74, C84, Model/ApproxGate.lean) and
  calls of `makeDDNode` by the user are steps of the histories, too.
* Density matrix operations (C62, C63, Model/DensityOps.lean, Model/DensityHist.lean): `makeDDNode`, `add2`, `multiply2`, `multiply`,
  `applyOperationToDensity`, `makeZeroDensityOperator`, references, garbage collection, resize and reset with exact arithmetic as in layer B. Calls on vectors and
  matrices are steps as long as they remove no matrix nodes (those that do are steps of their own on all tables). Noise functions are not modelled.
* The parameter `start` (C88, C89, Model/Start.lean): states, gates on one qubit with controls and gates on two qubits, with exact
  arithmetic as in layer B. Elsewhere `start` is 0; the gates composed of several diagrams with `multiply` are modelled for 0 only.
  `makeTwoQubitGateDD` in Model/Build.lean is for different targets; equal targets are in Model/Start.lean.
