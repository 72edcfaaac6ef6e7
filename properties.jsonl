{"id": "C01", "title": "Number lookup is accurate", "statement": "Whatever was looked up, inserted or garbage collected before, looking up a non-negative real number in the number table yields an entry (stored or static) whose value differs from the requested number by at most the tolerance.", "quantifier": "every history of lookups, reference changes and collections, every requested value, every tolerance >= 0", "why_tests_cant": "which entry is found depends on the bucket border case and on all values stored earlier; the set of histories is infinite and the answer of a call depends on everything stored before it", "anchors": ["include/dd/ComplexTable.hpp: ComplexTable::lookup, findOrInsert, insert"]}
{"id": "C02", "title": "Number table never holds two entries within tolerance", "statement": "At every moment any two values stored in the number table differ by more than the tolerance and differ from 0, 1 and sqrt(1/2) by more than the tolerance; a lookup creates a new entry only if no stored or static value is within tolerance of the request.", "quantifier": "every history with a fixed tolerance smaller than half a bucket width", "why_tests_cant": "needs an invariant over all insertions, including requests that straddle two buckets", "anchors": ["include/dd/ComplexTable.hpp: lookup, findOrInsert, hash"]}
{"id": "C03", "title": "Number lookup is stable", "statement": "Looking up the value of an entry that is in the table returns that same entry, and repeating a lookup without a collection in between returns the same entry, no matter what else was looked up in between.", "quantifier": "every history, every entry", "why_tests_cant": "interleaved lookups could shadow an entry; only an invariant excludes it", "anchors": ["include/dd/ComplexTable.hpp: lookup"]}
{"id": "C04", "title": "Number lookup returns the nearest stored value", "statement": "When several stored values are within tolerance of the request, the lookup returns the nearest one, as the comments in the code state.", "quantifier": "every history and request", "why_tests_cant": "requires value triples within 1e-13 of a bucket border; random tests never hit it", "anchors": ["include/dd/ComplexTable.hpp: lookup, findOrInsert"]}
{"id": "C05", "title": "Number garbage collection is exact", "statement": "A forced collection of the number table removes exactly the entries whose reference count is zero, keeps every other entry at the same address with the same value and reference count, keeps them findable, and leaves the reported count equal to the number of stored entries.", "quantifier": "every reachable table, every assignment of reference counts", "why_tests_cant": "the combination of bucket chains, tail pointers and counts is unbounded", "anchors": ["include/dd/ComplexTable.hpp: garbageCollect, returnEntry"]}
{"id": "C06", "title": "Number table allocator never reuses a live entry", "statement": "An entry handed out for a new number is never one that is currently stored in the table, over any number of chunk allocations, collections and clears.", "quantifier": "every history, every chunk size and growth factor", "why_tests_cant": "aliasing would only show after particular long histories", "anchors": ["include/dd/ComplexTable.hpp: getEntry, returnEntry, clear"]}
{"id": "C07", "title": "Number reference counting laws", "statement": "incRef followed by decRef restores the reference count unless it is saturated; a saturated count never changes; the static numbers 0, sqrt(1/2), 1 are never changed; decRef on a stored number with count zero is reported as an error instead of wrapping around.", "quantifier": "all entries, all counts up to 2^32-1, both pointer signs", "why_tests_cant": "2^32 increments are needed to reach the saturated states", "anchors": ["include/dd/ComplexTable.hpp: incRef, decRef"]}
{"id": "C08", "title": "Canonical complex numbers", "statement": "After cn.lookup, two complex numbers are represented by identical pointers if and only if their values are equal, if and only if their components are within tolerance; in particular zero has exactly one representation.", "quantifier": "every history, every pair of complex values", "why_tests_cant": "the exact boundary (component equal to minus the tolerance) and sign tagging matter; tests sample the interior only", "anchors": ["include/dd/ComplexNumbers.hpp: lookup", "include/dd/ComplexTable.hpp: Entry::getNegativePointer, approximatelyEquals", "include/dd/Complex.hpp: Complex"]}
{"id": "C09", "title": "Conjugation and negation on tagged pointers", "statement": "conj and neg of a represented complex number denote the conjugate/negated value, are involutions on representations, never change the table, and map canonical representations to canonical representations.", "quantifier": "all tagged pointers", "why_tests_cant": "must hold for all 64-bit pointer values", "anchors": ["include/dd/ComplexNumbers.hpp: conj, neg", "include/dd/ComplexTable.hpp: Entry::flipPointerSign, getAlignedPointer, val"]}
{"id": "C10", "title": "Arithmetic helpers are accurate up to the tolerance", "statement": "mul and div with their shortcuts for operands close to one (or close to each other) return a value whose distance from the exact product/quotient is bounded in terms of the tolerance and the operands, and are exact for tolerance 0; results are correct also when the result slot aliases an operand.", "quantifier": "all operands, all tolerances, all aliasings in which the result number is one of the operands or both", "why_tests_cant": "the shortcut regions are tiny boxes around 1; universally quantified bound", "anchors": ["include/dd/ComplexNumbers.hpp: add, sub, mul, div"]}
{"id": "C11", "title": "Complex cache slots never alias", "statement": "Two complex numbers obtained from the cache and not yet returned never share storage, the reported count is twice the number of outstanding numbers, and a returned number can be handed out again; a temporary number never aliases an outstanding one.", "quantifier": "every history of get/return calls, every chunk size (even) and growth factor", "why_tests_cant": "free-list corruption shows only after specific histories", "anchors": ["include/dd/ComplexCache.hpp: getCachedComplex, getTemporaryComplex, returnToCache, clear"]}
{"id": "C12", "title": "Hash functions stay in range and mix injectively", "statement": "Every table index computed by the package is smaller than the number of buckets, and murmur64 is a bijection on 64-bit words, so distinct pointers have distinct mixed keys.", "quantifier": "all 64-bit inputs, all bucket counts", "why_tests_cant": "2^64 inputs", "anchors": ["include/dd/Definitions.hpp: murmur64, combineHash", "include/dd/ComputeTable.hpp: hash", "include/dd/UniqueTable.hpp: hash", "include/dd/ToffoliTable.hpp: hash"]}
{"id": "C13", "title": "Hash consing", "statement": "At any time no two nodes stored in the unique table have the same level and the same outgoing edges; looking up a node that is structurally equal to a stored one returns the stored one and gives the new node back to the allocator.", "quantifier": "every history of node creations, reference changes and collections; every hash function", "why_tests_cant": "sharing must hold between nodes created arbitrarily far apart", "anchors": ["include/dd/UniqueTable.hpp: lookup, searchTable, getNode, returnNode", "include/dd/Package.hpp: makeDDNode"]}
{"id": "C14", "title": "Node reference counts are exact", "statement": "After any sequence of incRef/decRef calls, the reference count of every stored node equals the number of external references to it plus the number of edges to it from stored nodes that are themselves referenced, or is saturated.", "quantifier": "every DAG, every history", "why_tests_cant": "recursive counting on shared DAGs cannot be enumerated", "anchors": ["include/dd/UniqueTable.hpp: incRef, decRef"]}
{"id": "C15", "title": "Garbage collection never removes a reachable node", "statement": "A package garbage collection removes no node reachable from an edge that holds an external reference, leaves those nodes unchanged (so the edge still represents the same vector or matrix), and removes, in the tables it processes, every node whose count is zero.", "quantifier": "every reachable package state, forced or not", "why_tests_cant": "depends on every earlier incRef/decRef", "anchors": ["include/dd/UniqueTable.hpp: garbageCollect", "include/dd/Package.hpp: garbageCollect"]}
{"id": "C16", "title": "incRef and decRef are inverse", "statement": "incRef(e) followed by decRef(e) restores every reference count (nodes and numbers) provided nothing saturates; decRef on an edge whose node has count zero raises an error.", "quantifier": "every DAG and every edge", "why_tests_cant": "recursion depth and sharing unbounded", "anchors": ["include/dd/UniqueTable.hpp: incRef, decRef"]}
{"id": "C17", "title": "No dangling weights or memo entries after collection", "statement": "After Package::garbageCollect every stored node only refers to stored nodes and stored numbers, and every entry left in any operation cache (including the Toffoli cache and the identity table) only refers to stored nodes and numbers.", "quantifier": "every reachable package state", "why_tests_cant": "needs the joint invariant of three node tables, the number table and a dozen caches", "anchors": ["include/dd/Package.hpp: garbageCollect, clearComputeTables", "include/dd/UniqueTable.hpp: garbageCollect", "include/dd/ComplexTable.hpp: garbageCollect"]}
{"id": "C18", "title": "Operation caches never answer a different question", "statement": "A cache lookup returns either nothing or the result of the most recent insertion whose operands equal the queried operands, and nothing that was inserted before the last clear; cache size and hash only influence whether it hits.", "quantifier": "every history of insert/lookup/clear, every hash function", "why_tests_cant": "collision patterns are unbounded", "anchors": ["include/dd/ComputeTable.hpp: insert, lookup, clear", "include/dd/UnaryComputeTable.hpp", "include/dd/ToffoliTable.hpp", "include/dd/DensityNoiseTable.hpp", "include/dd/StochasticNoiseOperationTable.hpp"]}
{"id": "C19", "title": "Vector normalisation", "statement": "Creating a vector node from two edges preserves the represented vector (with tolerance 0 and exact arithmetic) and the created node has unit norm with the largest-magnitude (first on ties) weight real and positive.", "quantifier": "all edge pairs, all package histories", "why_tests_cant": "all complex weight pairs", "anchors": ["include/dd/Package.hpp: normalize(vEdge), makeDDNode"]}
{"id": "C20", "title": "Matrix normalisation", "statement": "Creating a matrix node from four edges preserves the represented matrix (with tolerance 0 and exact arithmetic) and the first largest-magnitude weight of the node is exactly one.", "quantifier": "all edge quadruples, all package histories", "why_tests_cant": "all complex weight quadruples", "anchors": ["include/dd/Package.hpp: normalize(Edge<Node>), makeDDNode"]}
{"id": "C21", "title": "Canonicity", "statement": "Two edges of one package that represent the same state vector (or the same matrix) over the same qubits are the identical edge (with tolerance 0 and exact arithmetic), regardless of how and when they were built.", "quantifier": "every reachable package state, every pair of edges, every number of qubits", "why_tests_cant": "quantifies over all construction histories", "anchors": ["include/dd/Package.hpp: makeDDNode, normalize", "include/dd/UniqueTable.hpp: lookup"]}
{"id": "C22", "title": "Addition", "statement": "add(x,y) represents the element-wise sum of the vectors/matrices represented by x and y (with tolerance 0 and exact arithmetic) and does not change what any other edge represents.", "quantifier": "every reachable package state (arbitrary cache contents), all edges, any number of qubits", "why_tests_cant": "infinite operands and cache states", "anchors": ["include/dd/Package.hpp: add, add2"]}
{"id": "C23", "title": "Multiplication", "statement": "multiply(A,x) represents the matrix-vector (matrix-matrix) product of what A and x represent (with tolerance 0 and exact arithmetic) and does not change what any other edge represents.", "quantifier": "every reachable package state, all edges, any number of qubits", "why_tests_cant": "infinite operands and cache states", "anchors": ["include/dd/Package.hpp: multiply, multiply2"]}
{"id": "C24", "title": "Kronecker product", "statement": "kronecker(x,y) represents the Kronecker product of what x and y represent (with tolerance 0 and exact arithmetic).", "quantifier": "every reachable package state, all edges", "why_tests_cant": "the identity shortcut is only taken for special operands inside the recursion", "anchors": ["include/dd/Package.hpp: kronecker, kronecker2"]}
{"id": "C25", "title": "Transpose and adjoint", "statement": "transpose(A) and conjugateTranspose(A) represent the transposed and adjoint matrix of what A represents (with tolerance 0 and exact arithmetic).", "quantifier": "every reachable package state, all edges", "why_tests_cant": "infinite operands and cache states; symmetric-flag shortcut", "anchors": ["include/dd/Package.hpp: transpose, conjugateTranspose"]}
{"id": "C26", "title": "Inner product, fidelity, expectation value", "statement": "innerProduct(x,y) is the sum of conj(x_i)*y_i, fidelity its squared magnitude, expectationValue(A,x) is <x|A x> (with tolerance 0 and exact arithmetic).", "quantifier": "every reachable package state, all edges of equal qubit count", "why_tests_cant": "infinite operands and cache states", "anchors": ["include/dd/Package.hpp: innerProduct, fidelity, expectationValue"]}
{"id": "C27", "title": "Trace and partial trace", "statement": "trace(A) is the trace of the represented matrix and partialTrace(A, eliminate) represents the matrix obtained by tracing out the marked qubits (with tolerance 0 and exact arithmetic).", "quantifier": "every reachable state, every elimination mask over the qubits of A", "why_tests_cant": "2^n masks for every n", "anchors": ["include/dd/Package.hpp: trace, partialTrace"]}
{"id": "C28", "title": "Basis and zero states", "statement": "makeZeroState(n) and makeBasisState(n, bits) represent the computational basis (product) state they name, for every number of qubits within the package size, and reject larger requests.", "quantifier": "all n, all bit strings / product state labels, all histories", "why_tests_cant": "2^n inputs", "anchors": ["include/dd/Package.hpp: makeZeroState, makeBasisState"]}
{"id": "C29", "title": "Vector import/export round trip", "statement": "getVector(makeStateFromVector(v)) = v for every vector whose length is a power of two (with tolerance 0 and exact arithmetic); other lengths are rejected.", "quantifier": "all vectors of all power-of-two lengths", "why_tests_cant": "infinite", "anchors": ["include/dd/Package.hpp: makeStateFromVector, getVector"]}
{"id": "C30", "title": "Matrix import/export round trip", "statement": "getMatrix(makeDDFromMatrix(M)) = M for every square matrix whose dimension is a power of two (with tolerance 0 and exact arithmetic); other shapes are rejected.", "quantifier": "all matrices", "why_tests_cant": "infinite", "anchors": ["include/dd/Package.hpp: makeDDFromMatrix, getMatrix"]}
{"id": "C31", "title": "Controlled single-qubit gate", "statement": "makeGateDD(U,n,controls,target) represents the matrix that applies U to the target when every positive control is 1 and every negative control is 0 and acts as identity otherwise (with tolerance 0 and exact arithmetic).", "quantifier": "all n, all control sets on qubits other than the target, all targets, all 2x2 matrices", "why_tests_cant": "exponentially many control sets for each n", "anchors": ["include/dd/Package.hpp: makeGateDD"]}
{"id": "C32", "title": "Two-qubit gate", "statement": "makeTwoQubitGateDD(U,n,t0,t1) represents U acting on qubits (t0,t1), t0 being the more significant index of U, and identity elsewhere (with tolerance 0 and exact arithmetic).", "quantifier": "all n up to the supported 128, all pairs of distinct targets, all 4x4 matrices", "why_tests_cant": "all positions; the largest supported size is special", "anchors": ["include/dd/Package.hpp: makeTwoQubitGateDD"]}
{"id": "C33", "title": "Controlled two-qubit gate constructions", "statement": "Each of the controlled constructions (SWAP, iSWAP, inverse iSWAP, DCX, RZZ, RYY, RXX, RZX, ECR, XX-YY, XX+YY) multiplies out to exactly the corresponding two-qubit matrix when controls are satisfied and to the identity otherwise, for every angle.", "quantifier": "all angles, all target positions and control sets", "why_tests_cant": "angles are a continuum", "anchors": ["include/dd/Package.hpp: makeSWAPDD .. makeXXPlusYYDD", "include/dd/GateMatrixDefinitions.hpp"]}
{"id": "C34", "title": "Identity construction is history independent", "statement": "makeIdent(n) (and makeIdent(l,m)) returns the identity on the requested qubits no matter which identities were requested before.", "quantifier": "all histories of makeIdent calls, all ranges", "why_tests_cant": "the id table couples calls", "anchors": ["include/dd/Package.hpp: makeIdent"]}
{"id": "C35", "title": "Identity and symmetry marks", "statement": "A matrix node is marked as identity iff it represents the identity matrix, and as symmetric iff it represents a symmetric matrix (with tolerance 0 and exact arithmetic).", "quantifier": "every reachable package state, every node", "why_tests_cant": "marks are computed incrementally from children and a nested transpose", "anchors": ["include/dd/Package.hpp: checkSpecialMatrices", "include/dd/Node.hpp: mNode"]}
{"id": "C36", "title": "Element access agrees with export", "statement": "getValueByPath (by index or by path string) returns the element that getVector/getMatrix place at that index (with tolerance 0 and exact arithmetic).", "quantifier": "all diagrams, all indices", "why_tests_cant": "2^n indices", "anchors": ["include/dd/Package.hpp: getValueByPath, getVector, getMatrix"]}
{"id": "C37", "title": "deleteEdge", "statement": "deleteEdge(e, v, i) represents e with all entries whose digit at qubit v equals i set to zero, and leaves all other diagrams unchanged (with tolerance 0 and exact arithmetic).", "quantifier": "all diagrams, all positions", "why_tests_cant": "infinite", "anchors": ["include/dd/Package.hpp: deleteEdge"]}
{"id": "C38", "title": "Ancilla reduction", "statement": "reduceAncillae(M, ancillary, regular) represents M with the columns (rows) whose ancilla input bits are 1 set to zero (with tolerance 0 and exact arithmetic).", "quantifier": "all matrices, all ancilla masks", "why_tests_cant": "shared sub-diagrams with different weights and nested reductions are needed to expose errors", "anchors": ["include/dd/Package.hpp: reduceAncillae, reduceAncillaeRecursion"]}
{"id": "C39", "title": "Measurement probabilities", "statement": "determineMeasurementProbabilities(e, q) returns the sums of squared amplitude magnitudes over all basis states with bit q equal to 0 and 1 (with tolerance 0 and exact arithmetic, unit-norm state).", "quantifier": "all states, all qubits", "why_tests_cant": "infinite", "anchors": ["include/dd/Package.hpp: determineMeasurementProbabilities, assignProbabilities"]}
{"id": "C40", "title": "Sampling follows the Born rule", "statement": "measureAll returns bit string b for a set of random draws of volume |amplitude(b)|^2; in particular it never returns a bit string of zero amplitude.", "quantifier": "all states, all random draws", "why_tests_cant": "continuum of draws and states", "anchors": ["include/dd/Package.hpp: measureAll"]}
{"id": "C41", "title": "Collapse after measuring one qubit", "statement": "measureOneCollapsing sets the state to the projection onto the measured outcome divided by the square root of its probability (with tolerance 0 and exact arithmetic).", "quantifier": "all states, qubits and draws with non-zero outcome probability", "why_tests_cant": "infinite", "anchors": ["include/dd/Package.hpp: measureOneCollapsing"]}
{"id": "C42", "title": "Results do not depend on history", "statement": "The edge returned by an operation depends only on what its operands represent, up to the identity of stored nodes: for any two histories the returned edges represent the same object, and in one package repeating an operation after arbitrary other operations returns the identical edge while its operands are alive.", "quantifier": "all pairs of histories", "why_tests_cant": "cache hits, evictions and collections in between", "anchors": ["include/dd/Package.hpp: add, multiply, kronecker, transpose, garbageCollect"]}
{"id": "C43", "title": "Matrix serialization round trip", "statement": "deserialize(serialize(M)) yields the same edge in the same package and a diagram of the same matrix in any other package with enough qubits, leaving existing diagrams unchanged (record level, exact weights); the binary stream determines the records.", "quantifier": "all matrix diagrams with at least one qubit, zero included; all histories of both packages", "why_tests_cant": "all DAG shapes", "anchors": ["include/dd/Export.hpp: serialize(mEdge), serializeMatrix", "include/dd/Package.hpp: deserialize, deserializeNode"]}
{"id": "C44", "title": "Vector serialization round trip", "statement": "deserialize(serialize(v)) yields the same edge in the same package and a diagram of the same vector in any other package with enough qubits, leaving existing diagrams unchanged (record level, exact weights); serialize terminates; the binary stream determines the records.", "quantifier": "all vector diagrams with at least one qubit, zero included; all histories of both packages", "why_tests_cant": "all DAG shapes; the traversal is iterative", "anchors": ["include/dd/Export.hpp: serialize(vEdge)", "include/dd/Package.hpp: deserialize"]}
{"id": "C45", "title": "Transfer between packages", "statement": "transfer(e) yields in the target package a diagram that represents the same vector/matrix, without undefined behaviour.", "quantifier": "all diagrams", "why_tests_cant": "DAG shapes drive an explicit stack", "anchors": ["include/dd/Package.hpp: transfer"]}
{"id": "C46", "title": "Gate matrices are unitary", "statement": "All constant gate matrices and, for all angles, all parametrised gate matrices are unitary (exact reals); U2/U3/Phase/RX/RY/RZ satisfy their defining relations.", "quantifier": "all angles", "why_tests_cant": "continuum", "anchors": ["include/dd/GateMatrixDefinitions.hpp"]}
{"id": "C47", "title": "Fractions printed are in lowest terms and bounded", "statement": "getLowestFraction(x,maxDen,tol) terminates with exactly one result, which is in lowest terms with denominator between 1 and maxDen. If tol < x and some fraction with denominator at most maxDen is within tol of x, then so is the result, and it has the smallest denominator and numerator of all such fractions.", "quantifier": "all x, all maxDen >= 1, all tol (tol < x for the optimality)", "why_tests_cant": "number of iterations is unbounded", "anchors": ["include/dd/ComplexValue.hpp: getLowestFraction"]}
{"id": "C48", "title": "Density node flag protocol", "statement": "Applying and then reverting the temporary density-matrix modification on a node restores its edges, weights and flags exactly, and while applied the node represents the conjugate transpose (or the density matrix, or the plain matrix) as requested by the pointer. getDensityMatrix returns the matrix the edge refers to and leaves every node unchanged; for reduced diagrams it is Hermitian.", "quantifier": "all nodes and memories at rest, all flag combinations, any number of qubits", "why_tests_cant": "bit level state space", "anchors": ["include/dd/Node.hpp: applyDmChangesToNode, revertDmChangesToNode, alignDensityNodeNode", "include/dd/Package.hpp: getDensityMatrix"]}
{"id": "C49", "title": "Amplitude export", "statement": "exportAmplitudes (to a stream or an array) writes the amplitudes in index order and addAmplitudes adds the represented vector to the given array.", "quantifier": "all non-zero states over at least one qubit", "why_tests_cant": "2^n entries", "anchors": ["include/dd/Package.hpp: exportAmplitudes, addAmplitudes"]}
{"id": "C50", "title": "Size counts distinct nodes", "statement": "size(e)/nodeCount counts each node reachable from e exactly once (terminal included).", "quantifier": "all DAGs", "why_tests_cant": "all DAG shapes", "anchors": ["include/dd/Package.hpp: size, nodeCount"]}
{"id": "C51", "title": "Closeness to identity", "statement": "isCloseToIdentity(M, 0) accepts exactly the multiples of an identity with ancillary qubits: c times a diagonal matrix of zeros and ones with a one at index 0...0 that keeps its ones when low bits of the index are cleared. In particular, a matrix without zeros on its diagonal is accepted if and only if it is a multiple of the identity. A larger tolerance accepts more, and the entries of a matrix accepted with tolerance tol deviate by at most a bound depending on tol and the number of qubits.", "quantifier": "all matrices and tolerances", "why_tests_cant": "infinite", "anchors": ["include/dd/Package.hpp: isCloseToIdentity, isCloseToIdentityRecursive"]}
{"id": "C52", "title": "Package size limits", "statement": "The package accepts at most 128 qubits, constructors accept exactly the requests up to the current size, and enlarging a package keeps all its diagrams.", "quantifier": "all sizes", "why_tests_cant": "integer conversions at the boundary", "anchors": ["include/dd/Package.hpp: resize, makeZeroState, makeGateDD"]}
{"id": "C53", "title": "Temporary numbers are balanced", "statement": "Every public operation returns all cache slots it took: the complex cache count is the same before and after, and no slot is returned twice.", "quantifier": "all operations, operands and histories", "why_tests_cant": "leaks depend on which shortcut paths are taken", "anchors": ["include/dd/Package.hpp: add, multiply, kronecker, innerProduct, trace", "include/dd/ComplexNumbers.hpp: getCached, returnToCache"]}
{"id": "C54", "title": "Bit strings", "statement": "intToString(m, n) writes exactly the n low bits of m and distinct numbers below 2^n have distinct strings.", "quantifier": "all m, n", "why_tests_cant": "infinite", "anchors": ["include/dd/Package.hpp: intToString"]}
{"id": "C55", "title": "Printed numbers denote the value", "statement": "toString(real, imag, formatted) always yields a text, and the number written there differs from the given one by at most the tolerance times a fixed constant.", "quantifier": "all real and imaginary parts, tolerances and both formats", "why_tests_cant": "real numbers cannot be enumerated", "anchors": ["include/dd/ComplexValue.hpp: printFormatted, toString"]}
{"id": "C56", "title": "Probabilities read from a density matrix", "statement": "getProbVectorFromDensityMatrix(e, t) lists bit strings, none twice, with the positive diagonal entry of the density matrix for that basis state (qubit 0 first), and every basis state whose entry exceeds t is listed.", "quantifier": "all density diagrams with real diagonal weights (between 0 and 1 for completeness with positive threshold), all thresholds", "why_tests_cant": "diagrams and thresholds unbounded", "anchors": ["include/dd/Package.hpp: getProbVectorFromDensityMatrix"]}
{"id": "C57", "title": "Garbage reduction", "statement": "reduceGarbage(x, garbage) represents x with the entries that differ only in garbage qubits added up and placed where these qubits are 0 (for matrices: in each column, or in each row if not regular; with tolerance 0 and exact arithmetic). It moves the caller's reference from the argument to the result and leaves all other diagrams unchanged.", "quantifier": "all vectors and matrices, all garbage masks, both directions, all package histories", "why_tests_cant": "the recursion depends on which sub-diagrams share a node, so its results depend on the whole diagram and mask; tests see a few circuits", "anchors": ["include/dd/Package.hpp: reduceGarbage, reduceGarbageRecursion"]}
{"id": "C58", "title": "Memory for intermediate numbers does not affect results", "statement": "The results of the operations do not depend on the memory used for intermediate numbers: although the slots for them are reused all the time, every operation yields exactly the diagram, and leaves the package in exactly the state, that it would with a separate memory cell for each intermediate number; numbers the program itself keeps in such slots are never overwritten.", "quantifier": "all operations, operands, package histories, states of the cache of numbers and contents of its memory", "why_tests_cant": "which slot is reused when depends on the whole history of the cache and on which shortcuts are taken", "anchors": ["include/dd/Package.hpp: add, multiply, kronecker, innerProduct, partialTrace, makeStateFromVector, makeDDFromMatrix, normalize", "include/dd/ComplexCache.hpp: getCachedComplex, getTemporaryComplex, returnToCache"]}
{"id": "C59", "title": "States built with a tolerance are accurate", "statement": "In a package with tolerance t (numbers are stored, shared and compared up to t) whose arithmetic rounds with a relative error of at most t/1000, the diagram that makeStateFromVector builds from any vector whose length is a power of two represents every amplitude with an error of at most 2t(n(1+3N)+1)(1+4t)^n, where n is the number of qubits and N the norm of the vector, whatever numbers and nodes the package already holds; the amplitudes that getVector and getValueByPath read differ from the represented ones by at most a similar multiple of t; other diagrams do not change; other lengths are rejected. With tolerance 0 the results are exact.", "quantifier": "all tolerances, all vectors of all power-of-two lengths, all histories of the package (builds, sums, collections, anything that makes no vector nodes); all roundings of that accuracy", "why_tests_cant": "near-equal numbers and nodes left behind by the history decide what is shared; errors of sharing might accumulate over levels", "anchors": ["include/dd/Package.hpp: makeStateFromVector, normalize, makeDDNode, getVector, getValueByPath", "include/dd/ComplexTable.hpp: lookup", "include/dd/ComplexNumbers.hpp: mul, div, lookup"]}
{"id": "C60", "title": "Sums of vectors with a tolerance are accurate", "statement": "In a package with tolerance t whose arithmetic rounds with a relative error of at most t/1000, add(x, y) of two vectors represents the sum of the represented vectors with an error of at most a constant (depending on the number of qubits only) times t times the larger weight, although it takes shortcuts for numbers that are approximately zero, one or equal, reuses results cached for operands that are only approximately the same and shares nodes that are only approximately the same; other diagrams do not change. If t is small compared with 1/(1000 (n+1) 1.5^n) for n qubits, the error is at most 21 t (n+1) times one plus the norms of the two vectors. With tolerance 0 the sum is exact.", "quantifier": "all tolerances, all pairs of vector diagrams over the same number of qubits, all histories including all cache contents they produce; all roundings of that accuracy", "why_tests_cant": "wrong reuse of cached results depends on the history; error accumulation over levels", "anchors": ["include/dd/Package.hpp: add, add2, normalize, makeDDNode", "include/dd/ComputeTable.hpp: lookup, insert", "include/dd/Edge.hpp: operator=="]}
{"id": "C61", "title": "Matrices built with a tolerance are accurate up to the root of the tolerance", "statement": "In a package with tolerance t whose arithmetic rounds with a relative error of at most t/1000, the diagram that makeDDFromMatrix builds from any square matrix of dimension 2^n with entries of absolute value at most B (B >= 1) represents every entry with an error of at most 9(1+10B)^n(t+sqrt(n t)), whatever numbers, nodes and cached transposes the package already holds; other diagrams do not change, neither by building nor by transposing a matrix; matrices whose dimension is not a power of two or whose first row has another length are rejected. With tolerance 0 the result is exact. A bound proportional to t is false: entries of the size of sqrt(t) can be lost.", "quantifier": "all tolerances, all matrices of all power-of-two dimensions, all histories of the package; all roundings of that accuracy", "why_tests_cant": "the loss depends on near-ties of weights at several levels and on near-equal numbers and nodes left behind by the history", "anchors": ["include/dd/Package.hpp: makeDDFromMatrix, normalize (matrix), checkSpecialMatrices, transpose, makeDDNode", "include/dd/ComplexTable.hpp: lookup", "include/dd/ComplexNumbers.hpp: div, lookup"]}
{"id": "C62", "title": "Operations applied to a density matrix", "statement": "applyOperationToDensity(e, op, gen) for a referenced density matrix e does not throw; the edge it returns stands for U rho U^dagger, where U is the matrix of op and rho the density matrix of e; it is referenced in place of e; all other density matrices, matrices and vectors keep their value. This holds whether or not generateDensityMatrix is set.", "quantifier": "all histories of the package, all density matrices and operations over the same number of qubits, all contents of the caches, both values of generateDensityMatrix", "why_tests_cant": "the nodes are modified in place while the recursion runs, and products are reused from a cache whose keys do not contain the flags; wrong reuse depends on the history", "anchors": ["include/dd/Package.hpp: applyOperationToDensity, multiply, multiply2, add2, conjugateTranspose", "include/dd/Node.hpp: applyDmChangesToNode, revertDmChangesToNode, densityFromMatrixEdge", "include/dd/ComputeTable.hpp: lookup, insert"]}
{"id": "C63", "title": "Density matrix diagrams without the density matrix mode", "statement": "As long as generateDensityMatrix is never set: makeZeroDensityOperator(n) is the density matrix of the zero state; makeDDNode on density matrix edges has them as its blocks; multiply of density matrices and matrices is the matrix product; two density matrix edges are equal exactly if their matrices are; referenced density matrices keep their value through every call including garbage collection, resize and operations on vectors and matrices; releasing a held reference does not throw.", "quantifier": "all histories of the package without generateDensityMatrix, all operands, any number of qubits", "why_tests_cant": "histories, cache contents and collections are unbounded", "anchors": ["include/dd/Package.hpp: makeZeroDensityOperator, makeDDNode, multiply, multiply2, add2, incRef, decRef, garbageCollect, resize, reset"]}
{"id": "C64", "title": "Drawings and lists of edge weights are complete", "statement": "Drawing a diagram (toDot, export2Dot) and listing its edge weights (exportEdgeWeights) ends for every diagram; the drawing declares exactly the nodes that can be reached along edges that are not left out, each once and higher levels first, and contains exactly the edges out of these nodes that are not left out, each once and at its own port. The list of weights has exactly the weight of the root edge and the weights of these edges.", "quantifier": "all histories of the package, all diagrams, all choices of the edges that are left out, any order in which the priority queue returns nodes of the same level", "why_tests_cant": "diagrams share nodes in arbitrary ways and the queue order depends on addresses; a skipped or repeated node only shows for some shapes", "anchors": ["include/dd/Export.hpp: toDot, export2Dot, exportEdgeWeights"]}
{"id": "C65", "title": "Labels of nodes in drawings are unique", "statement": "In a drawing with memory or colored labels different nodes have different labels, so the drawing shows the diagram.", "quantifier": "all diagrams, all addresses at which the nodes may be stored", "why_tests_cant": "collisions depend on addresses and only appear in large diagrams", "anchors": ["include/dd/Export.hpp: toDot labels, memoryNode, classicEdge, modernNode"]}
{"id": "C66", "title": "What the consistency checks report", "statement": "For an edge e the user has referenced, isLocallyConsistent(e) returns true exactly if levels go down by one along every edge of the diagram: reference counts of nodes and numbers never make it fail. For any edge, if isLocallyConsistent(e) returns true, then a garbage collection keeps all nodes and numbers of the diagram. If no counter is saturated, isGloballyConsistent(e) for a referenced edge returns exactly if levels are consecutive and no other reference of the user leads to a node of the diagram of e, and throws otherwise.", "quantifier": "all histories of the package (lookups, node creation, references, collections, resize, reset in any order), all edges, vectors, matrices and density matrices", "why_tests_cant": "the checks compare counts that depend on the whole history and on arbitrary sharing of nodes", "anchors": ["include/dd/Package.hpp: isLocallyConsistent, isLocallyConsistent2, isGloballyConsistent, fillConsistencyCounter, checkConsistencyCounter"]}
{"id": "C67", "title": "Guarantees hold whatever mix of functions is called", "statement": "Measurements with collapse, expectation values, extend, the reductions, reading files, copying diagrams from other packages and building controlled two-qubit gates lead to no package state that the basic functions could not lead to. Hence every guarantee stated for packages used through the basic functions (canonicity, correctness of all operations, reference counting) also holds when these functions are called in between, and a diagram that is held keeps its value whatever functions are called.", "quantifier": "all sequences of calls of any length of all functions, all arguments the interface allows, all random draws, all source packages of files and copies", "why_tests_cant": "the sequences of calls are unbounded and each function may leave caches and tables in states no test of another function starts from", "anchors": ["include/dd/Package.hpp: measureAll, measureOneCollapsing, expectationValue, extend, reduceAncillae, reduceGarbage, deserialize, transfer, makeSWAPDD, makePeresDD, makeiSWAPDD, makeDCXDD, makeRZZDD, makeRYYDD, makeRXXDD, makeRZXDD, makeECRDD, makeXXMinusYYDD, makeXXPlusYYDD"]}
{"id": "C68", "title": "Products of matrices and vectors with a tolerance are accurate", "statement": "In a package with tolerance t whose arithmetic rounds with a relative error of at most t/1000, multiply(m, v) of a matrix and a vector represents the product of the represented matrix and vector with an error of at most 41 t (n+1)^2 times a factor that depends on the sizes of the weights in the matrix and on the norm of the nodes of the vector, provided t is small compared with 1/(1000 (n+1)^2 1.5^n), although it takes shortcuts for numbers that are approximately zero, one or equal, reuses cached products, adds with shortcuts and shares nodes that are only approximately the same; other diagrams do not change. With tolerance 0 the product is exact.", "quantifier": "all tolerances below the threshold, all matrix and vector diagrams over the same number n of qubits, all histories including all cache contents they produce; all roundings of that accuracy", "why_tests_cant": "errors accumulate over levels and through results cached by earlier calls; the histories are unbounded", "anchors": ["include/dd/Package.hpp: multiply, multiply2, add2, normalize, makeDDNode", "include/dd/ComputeTable.hpp: lookup, insert", "include/dd/ComplexNumbers.hpp: mul"]}
{"id": "C69", "title": "Labels, colours and widths of drawn edges denote the weight", "statement": "Every edge weight z gets exactly one label in a drawing with polar labels, and the number written (0, 1, i, -1, -i, a magnitude, exp(i pi x), or a product of both) differs from z by at most pi t + pi^2 t |z| for tolerance t; so two edges with the same label have almost the same weight. The colour is a hue in [0,1) that determines the argument of the weight; the width is at least 0.3, grows with the magnitude, and determines it from 0.1 on.", "quantifier": "all complex weights and all tolerances >= 0", "why_tests_cant": "the labels are chosen by nested comparisons and a fraction search over infinitely many weights", "anchors": ["include/dd/Export.hpp: conditionalFormat, printPhaseFormatted, colorFromPhase, thicknessFromMagnitude", "include/dd/ComplexValue.hpp: printFormatted, getLowestFraction"]}
{"id": "C70", "title": "Simulating and comparing circuits", "statement": "A caller who runs a circuit as the README describes (build each gate with makeGateDD, multiply it to the state or to the matrix so far, take a reference to the result with incRef and release the old one with decRef) ends with a reference to a diagram of the circuit's matrix applied to the initial state or matrix, whatever other calls, including garbage collections and calls by others, happen in between; no call throws; unitary gates preserve inner products and norms. Two circuits run on the identity in the same package yield the same edge if and only if their matrices are equal.", "quantifier": "all circuits of (multi-)controlled gates, all numbers of qubits, all initial diagrams, all interleavings with other calls that respect the references held", "why_tests_cant": "the circuits and interleavings are unbounded, and garbage collection between gates depends on the history", "anchors": ["README.md: Usage", "include/dd/Package.hpp: makeGateDD, multiply, incRef, decRef, garbageCollect", "test/main.cpp"]}
{"id": "C71", "title": "Gates with any set of controls", "statement": "The order in which controls are inserted into a set of controls and repeated insertions do not matter. makeGateDD with any set of controls whatsoever builds the gate whose controls are those of the set, in order of their qubits, up to the first one that lies on the target, on a qubit that already has a control, or beyond the last qubit; this one and all controls on higher qubits are silently ignored (so a gate can be applied although not all its controls are satisfied). All controls are honoured exactly if none of these cases occurs.", "quantifier": "all sets of controls, all orders of insertion, all gates, all numbers of qubits, all targets below it, all histories", "why_tests_cant": "the sets of controls and the histories are unbounded; invalid sets are accepted without an exception", "anchors": ["include/dd/Control.hpp: Control, operator<, CompareControl, Controls", "include/dd/Package.hpp: makeGateDD"]}
{"id": "C72", "title": "Initial matrices", "statement": "createInitialMatrix(n, ancillary) does not throw and returns a diagram of the projector to the basis states in which all ancillas are 0 (the identity if there are no ancillas); the caller holds one more reference than before, the one to the result; all other diagrams stay as they are.", "quantifier": "all numbers of qubits, all masks of all lengths, all histories", "why_tests_cant": "the masks and histories are unbounded, and the general function it relies on (reduceAncillae) is wrong for other matrices", "anchors": ["include/dd/Package.hpp: createInitialMatrix, makeIdent, reduceAncillae"]}
{"id": "C73", "title": "Printed vectors and matrices", "statement": "printVector(e) prints one line for each basis state in ascending order of the index, with the bits of the index from the topmost qubit down and the amplitude of that basis state; printMatrix(e) prints the entries row by row. For 64 qubits nothing is printed; for more qubits, for scalars and for the zero vector or matrix the calls are undefined.", "quantifier": "all vectors and matrices other than zero of 1 to 63 qubits in all histories", "why_tests_cant": "all diagrams and histories", "anchors": ["include/dd/Package.hpp: printVector, printMatrix, getValueByPath"]}
{"id": "C74", "title": "Gates, identities and basis states are accurate up to the tolerance", "statement": "With a tolerance and with rounded arithmetic, makeGateDD for a unitary 2x2 matrix (or any with entries of magnitude at most 1, one of them at least 3/5) and a valid set of controls returns a matrix each of whose rows differs from that of the controlled gate by at most 120 tolerances times (qubits + 1) in sum; makeIdent returns the identity matrix; makeBasisState (bits or 0, 1, +, -, L, R for each qubit) and makeZeroState return vectors whose amplitudes differ by at most 12 tolerances per qubit from those of the state. The calls fail only if there are more qubits than the package was made for (or the list of bits is too short), and all other vectors and matrices keep their values.", "quantifier": "all gates, control sets, targets, basis states and numbers of qubits n with 1000 (n+1) tolerance <= 1, all roundings whose error is small against the tolerance, all histories", "why_tests_cant": "the errors depend on which numbers earlier calls left in the tables, on all inputs and sizes", "anchors": ["include/dd/Package.hpp: makeGateDD, makeIdent, makeBasisState, makeZeroState, makeDDNode, normalize", "include/dd/ComplexTable.hpp: lookup"]}
{"id": "C75", "title": "Circuits are simulated accurately up to the tolerance", "statement": "Running a circuit of unitary gates (makeGateDD, multiply, incRef for every gate, arbitrary other calls in between that keep a reference to the current state, e.g. decRef of the old state and garbageCollect) in a package with a tolerance and rounded arithmetic never fails, and the state in the end differs from the matrix of the circuit times the initial state, in the Euclidean norm, by at most the number of gates times a constant proportional to the tolerance (320 tolerance (n+1)^2 (3/2)^n (1+B), where B bounds the norms of the nodes). The amplitudes read in the end, after a start from makeZeroState, are those of the first column of the matrix of the circuit up to this error.", "quantifier": "all circuits, all numbers of gates and qubits for which the error bound stays below 2/5, all interleaved calls that keep a reference to the current state, all histories before", "why_tests_cant": "errors accumulate over circuits of any length and depend on every number and node that is shared with earlier calls", "anchors": ["include/dd/Package.hpp: makeGateDD, multiply, incRef, decRef, garbageCollect, getValueByPath", "include/dd/ComplexTable.hpp: lookup", "test/main.cpp"]}
{"id": "C76", "title": "Inner products and fidelities are accurate up to the tolerance", "statement": "With a tolerance and with rounded arithmetic, innerProduct of two vectors on the same number n of qubits returns the sum of the products of the conjugated amplitudes of the first vector and the amplitudes of the second, up to 5 tol (1+B) (1/1000 + |x| + |y| + |x||y|) + 40 tol n (1+B) |x||y|, where B bounds the norms of the nodes (about 90 (n+1) tolerances for normalised states), and fidelity returns its squared absolute value up to about twice that. Only the compute table is changed: all vectors, matrices and numbers keep their values.", "quantifier": "all pairs of vectors, all numbers of qubits with 1000 (n+1) (1+B) tolerance <= 1, all roundings whose error is small against the tolerance, all histories", "why_tests_cant": "the result depends on inner products of nodes cached by any earlier calls and on all numbers shared within the tolerance; the bound must hold for all vectors and sizes", "anchors": ["include/dd/Package.hpp: innerProduct, fidelity", "include/dd/ComplexNumbers.hpp: add, mul", "include/dd/ComputeTable.hpp: lookup, insert"]}
{"id": "C77", "title": "Measuring all qubits follows the Born rule up to the tolerance", "statement": "With a tolerance and with rounded arithmetic, measureAll on a state of n qubits whose nodes are normalised up to delta never throws (for an epsilon of at least delta + tolerance) and returns each bit string with the squared absolute value of its amplitude, divided by that of the state, as probability, up to 2 n (2 delta + tol) (1 + 2 delta + tol)^n. A string whose amplitude is zero is never returned, whether or not the nodes are normalised. With the collapse flag the caller's reference is moved from the state to the basis state of the returned string, up to 12 n tolerances, and all other vectors the caller holds keep their values.", "quantifier": "all states, all numbers of qubits, all random draws in [0,1), all roundings whose error is small against the tolerance and that keep 0, 1 and rounded numbers, all histories", "why_tests_cant": "a probability is a statement about all random draws; rounding and sharing of numbers within the tolerance disturb every branching probability, and the sum of these errors over all levels has to be bounded for all states", "anchors": ["include/dd/Package.hpp: measureAll", "include/dd/ComplexNumbers.hpp: mag2"]}
{"id": "C78", "title": "Measuring one qubit follows the Born rule up to the tolerance", "statement": "With a tolerance and with rounded arithmetic, the two numbers returned by determineMeasurementProbabilities are the probabilities of the qubit being zero and one, up to the tolerance times the number of vector nodes plus a multiple of the number of qubits. measureOneCollapsing on a state held by the caller whose norm is one up to epsilon does not throw; there is a number theta, the probability of zero up to the tolerance, such that draws below theta give zero and all others one. The caller then holds the new state instead of the old one, all other states held keep their values, and the new state is the projection of the old one onto the outcome divided by its norm, up to the tolerance. If the norm is off by more than epsilon plus the bound, the exception is thrown.", "quantifier": "all states with normalised nodes, all numbers of qubits, all qubits, both values of the normalisation flag, all random draws in [0,1), all monotone roundings whose error is small against the tolerance and that keep 0, 1 and rounded numbers, all histories", "why_tests_cant": "a probability is a statement about all random draws; the breadth-first sum collects a rounding error at every node, and the collapse multiplies by a projector, a square root and a quotient, each rounded and shared within the tolerance", "anchors": ["include/dd/Package.hpp: determineMeasurementProbabilities", "include/dd/Package.hpp: assignProbabilities", "include/dd/Package.hpp: measureOneCollapsing"]}
{"id": "C79", "title": "Expectation values are accurate up to the tolerance", "statement": "With a tolerance and with rounded arithmetic, expectationValue(x, y) returns the real part of <y| x |y> up to an error proportional to the tolerance. For an observable built by makeGateDD from a unitary matrix with any controls and a state of norm one up to a percent the error is at most 810 (n+1)^2 (9/4)^n times the tolerance, or 400 (n+1)^2 (3/2)^n (1+B) times the tolerance if the nodes of the state have norm at most B. The diagrams held by the caller are the same afterwards, and calls can continue. Operands over different numbers of qubits are rejected; the zero matrix and the zero vector are edges to the terminal and are therefore rejected as well.", "quantifier": "all matrix and vector diagrams, all numbers of qubits, all unitary gates and control sets, all roundings whose error is small against the tolerance, all histories", "why_tests_cant": "the result passes through a product and an inner product, each of which rounds, replaces numbers that are nearly zero and shares numbers within the tolerance at every node; the errors have to be bounded for all diagrams", "anchors": ["include/dd/Package.hpp: expectationValue", "include/dd/Package.hpp: multiply", "include/dd/Package.hpp: innerProduct"]}
{"id": "C80", "title": "Entries and traces of matrices are accurate up to the tolerance", "statement": "With a tolerance and with rounded arithmetic, every entry that getMatrix or getValueByPath returns for a matrix diagram on n qubits is the entry of the matrix, and trace is the sum of its diagonal, up to an error proportional to the tolerance, the number of qubits (and, for the trace, the 2^n summands) and the sums of the weights of the nodes. trace creates no nodes and changes no diagram. For a gate built by makeGateDD the entries are those of the controlled gate up to 125 (n+1) times the tolerance, the trace up to 130 (n+1) 2^n times the tolerance. With tolerance 0 both are exact, and a matrix that is imported is exported unchanged.", "quantifier": "all matrix diagrams, all numbers of qubits, all rows and columns, all roundings whose error is small against the tolerance, all histories", "why_tests_cant": "every level multiplies rounded numbers and replaces those that are nearly zero or one, and the trace also stores every partial result in the table of numbers; the errors have to be bounded for all diagrams", "anchors": ["include/dd/Package.hpp: getMatrix", "include/dd/Package.hpp: getValueByPath", "include/dd/Package.hpp: trace"]}
{"id": "C81", "title": "Accuracy with IEEE double precision", "statement": "With the number type and the tolerance the package is compiled with (IEEE doubles, rounding to nearest with ties to even and gradual underflow; tolerance 1024 machine epsilons), for arbitrary hash functions: the amplitudes read after running L unitary gates on n qubits from |0...0>, where the entries of the gate matrices are themselves rounded to doubles, are those of the exact circuit up to (L+1)(n+1)^2(9/4)^n / 2^32, provided that (L+1)(n+1)^2(9/4)^n is at most 2^30; no call fails. Expectation values of gates with rounded entries are accurate up to (n+1)^2(9/4)^n / 2^32 under the same kind of condition. In general, double precision satisfies every assumption about the arithmetic that the accuracy properties C59-C61, C68 and C74-C80 make.", "quantifier": "all circuits of unitary gates with any controls, all numbers of qubits and gates within the bound, all histories, all hash functions, all real inputs to the rounding", "why_tests_cant": "a test compares a few circuits with an epsilon chosen by hand; that rounding, sharing within the tolerance and gate matrices that are not exactly unitary cannot add up to a wrong amplitude has to be shown for all circuits", "anchors": ["include/dd/Definitions.hpp: fp", "include/dd/ComplexTable.hpp: TOLERANCE", "include/dd/Package.hpp: makeGateDD", "include/dd/Package.hpp: multiply", "include/dd/Package.hpp: expectationValue"]}
{"id": "C82", "title": "The text format of serialized diagrams", "statement": "The text that serialize writes for a diagram, with its numbers in decimal notation, can be read by deserialize, and however the regular expressions of deserialize match it, the result is the same: the same nodes with the same numbers, qubits and edges to the same targets, where each component of a weight is 0 if it was within the tolerance, and otherwise is the written decimal (at most half a unit of the last digit away, and exact if the number has no more digits) rounded to the number type. Hence a matrix or vector whose weights have at most 16 decimal digits (17 for the root of a matrix) is read back exactly, into whatever package with enough qubits. Root weights of matrices are read exactly for all doubles above the tolerance; 16 digits, as written for all other weights, are not enough for this. A hand-written weight i without a sign is read as 0.", "quantifier": "all root weights, all lists of records in the range of the integer types, all numbers of edges per node, all tolerances, all ways in which the regular expressions can match, all diagrams of all histories, all packages the text is read into", "why_tests_cant": "the text depends on sign, magnitude and number of digits of every component of every weight, and the regular expressions are ambiguous (the real part may swallow the imaginary part or a part of it); tests read a few files", "anchors": ["include/dd/Export.hpp: serialize", "include/dd/Export.hpp: serializeMatrix", "include/dd/Package.hpp: deserialize", "include/dd/ComplexValue.hpp: toString", "include/dd/ComplexValue.hpp: fromString", "include/dd/Complex.hpp: toString"]}
{"id": "C83", "title": "Copies of diagrams with a tolerance", "statement": "With a tolerance and rounded arithmetic, a vector that is serialized and read back, or transferred to another package, keeps the moduli of its amplitudes up to a multiple of the tolerance that grows linearly with the number of qubits, and the other diagrams of the receiving package stay as they are. The amplitudes themselves are kept if each node has non-negative weights, or one non-negative weight that is larger than the other one by a margin. In general they are not: with the default tolerance there is a state of two qubits whose copy has fidelity below 1/400 with it, and a controlled gate whose copy is another matrix.", "quantifier": "all reachable packages, all vectors whose nodes are normalised, all numbers of qubits, all tolerances and roundings, both file formats", "why_tests_cant": "the nodes are normalised again when they are copied, with numbers that have been looked up again, so a difference of the size of the tolerance can change which weight of a node is made real; this needs weights of almost the same modulus and a table that already contains a number nearby", "anchors": ["include/dd/Package.hpp: transfer", "include/dd/Package.hpp: deserialize", "include/dd/Package.hpp: normalize", "include/dd/Export.hpp: serialize"]}
{"id": "C84", "title": "Two-qubit gates with a tolerance", "statement": "With a tolerance and rounded arithmetic, building the diagram of a two-qubit gate on any two different qubits of a register, after any history, yields a matrix each row of which differs from the gate's by at most a multiple of the tolerance times the number of qubits, and multiplying it by a state yields the gate's result up to a multiple of the tolerance. This holds for all two-qubit gates of the package (CX, CZ, SWAP, iSWAP and its inverse, ECR, DCX, and RXX, RYY, RZZ, RZX, XXMinusYY, XXPlusYY for all angles) with entries that are rounded. Registers larger than the package are rejected.", "quantifier": "all reachable packages and histories, all registers below 128 qubits, all pairs of different targets in both orders, all angles, all tolerances and roundings that are small enough", "why_tests_cant": "the error of a node depends on which numbers and nodes earlier calls have left in the tables, and on the sizes of the entries of its block; tests see a few histories and angles", "anchors": ["include/dd/Package.hpp: makeTwoQubitGateDD", "include/dd/Package.hpp: multiply", "include/dd/GateMatrixDefinitions.hpp"]}
{"id": "C85", "title": "Circuits of one- and two-qubit gates with a tolerance", "statement": "A circuit of unitary gates on one qubit (with controls) and on two qubits is simulated, gate by gate, in a package with a tolerance and rounded arithmetic. The amplitudes of the final state are those of the circuit's matrix up to an error proportional to the tolerance and to the number of gates, whatever the package was used for before and in between, including garbage collection. The matrices given to the package may be rounded. With double precision and the default tolerance the error is at most 2^-32 (19 L + 1) (n + 1)^2 (9/4)^n for L gates on n qubits, if this is at most 1/4. No call fails.", "quantifier": "all circuits of gates of the package with all angles, all numbers of qubits and gates within the stated range, all histories of the package before and between the gates", "why_tests_cant": "the error depends on the tables that earlier calls have left and accumulates over the circuit; a test sees one history", "anchors": ["include/dd/Package.hpp: makeTwoQubitGateDD", "include/dd/Package.hpp: makeGateDD", "include/dd/Package.hpp: multiply", "include/dd/Package.hpp: incRef", "README.md: Usage"]}
{"id": "C86", "title": "What a rejected decRef leaves behind", "statement": "When decRef reports an error, diagrams, stored numbers and caches are unchanged; only reference counts may have become smaller. If the edge points to a node without references, the call is always rejected and exactly the counts of the edge weight have been lowered; nothing at all changes if the parts of the weight are 0, 1 or the root of 1/2; taking the weight once more restores the package. Otherwise the package is damaged: a collection may remove a number that a referenced diagram uses, and a later number may overwrite it. A call that returns normally has had the full effect. Calls for edges that the user references are never rejected, but not every unbalanced call is reported.", "quantifier": "all states of the node and number tables, all edges, vectors, matrices and density matrices; the claim on balanced calls: all histories", "why_tests_cant": "the harm shows only after a collection and a further lookup that reuses the entry, long after the caught exception", "anchors": ["include/dd/UniqueTable.hpp: decRef", "include/dd/ComplexTable.hpp: decRef", "include/dd/ComplexNumbers.hpp: decRef", "include/dd/Package.hpp: decRef"]}
{"id": "C87", "title": "Distance in units in the last place, and rounding", "statement": "ulpDistance(a, b) returns for all finite doubles and is the number of doubles after the smaller argument up to and including the larger one. So it is 0 exactly for equal numbers, symmetric and additive along the line, fits into 64 bits, and n units mean a difference of at most n times the larger of 2^-1074 and 2^-52 of the larger number. The rounding used for the claims on double precision (C81, C85) yields the double nearest to the exact result, and the one with an even last bit of two that are equally near.", "quantifier": "all finite doubles, including subnormal ones; all real numbers for the rounding", "why_tests_cant": "the loop runs through up to 2^64 values and the claims range over all pairs of doubles; tests use two pairs", "anchors": ["include/dd/Definitions.hpp: ulpDistance", "include/dd/Definitions.hpp: fp"]}
{"id": "C88", "title": "States and gates that do not start at qubit 0", "statement": "With the parameter start, makeZeroState, makeBasisState and makeGateDD build a diagram over the qubits start .. n + start - 1: getValueByPath returns for every string of digits the amplitude (entry) of the requested state (gate) at the digits of these qubits, the digits of other qubits do not matter, and all other diagrams keep their values. With start = 0 the functions are the ordinary ones. The calls throw exactly if the range does not fit the package or too few states are given. The result does not depend on earlier calls. Every control given is honoured or the call is rejected.", "quantifier": "all ranges of qubits, states, gates and controls, all strings of digits, all histories including earlier diagrams built with start > 0", "why_tests_cant": "tests use start = 0 almost everywhere; the identity table couples calls; ranges and digits are unbounded", "anchors": ["include/dd/Package.hpp: makeZeroState", "include/dd/Package.hpp: makeBasisState", "include/dd/Package.hpp: makeGateDD", "include/dd/Package.hpp: makeIdent", "include/dd/Package.hpp: getValueByPath"]}
{"id": "C89", "title": "Two-qubit gates that do not start at qubit 0", "statement": "With the parameter start, makeTwoQubitGateDD builds a diagram over the qubits start .. n + start - 1: getValueByPath returns for every pair of rows and columns the entry of the gate on the two targets and of the identity on the other qubits of the range, in both orders of the targets; digits of other qubits do not matter and all other diagrams keep their values. With start = 0 it is the ordinary gate. It throws exactly if the range does not fit the package. Targets that are equal or below the range are rejected.", "quantifier": "all 4x4 matrices, ranges of qubits, pairs of targets, strings of digits and histories of the package", "why_tests_cant": "tests use start = 0 and a few targets; ranges, digits and histories are unbounded", "anchors": ["include/dd/Package.hpp: makeTwoQubitGateDD", "include/dd/Package.hpp: makeDDNode", "include/dd/Package.hpp: getValueByPath"]}
{"id": "C90", "title": "Products of diagrams that do not start at qubit 0", "statement": "multiply with the parameter start, applied to diagrams over the qubits start .. n + start - 1, is the product of the operations on these qubits, whatever has been computed before; with start = 0 it is the ordinary product. The sum of two diagrams over the same qubits is the sum of the vectors or matrices. Gates that are composed of several diagrams, such as makeDCXDD, represent the composed operation for every start.", "quantifier": "all pairs of diagrams over a range of qubits, values of start and histories of the package", "why_tests_cant": "no test multiplies diagrams with start > 0; histories and ranges are unbounded", "anchors": ["include/dd/Package.hpp: multiply", "include/dd/Package.hpp: multiply2", "include/dd/Package.hpp: add2", "include/dd/Package.hpp: makeDCXDD"]}
{"id": "C91", "title": "Tensor products without a shift of the indices", "statement": "kronecker(x, y, false), for a diagram x over the qubits right above those of y, is the diagram over all these qubits whose entries are the products of the entries of x and y, whatever has been computed before.", "quantifier": "all pairs of diagrams over adjacent ranges of qubits, and all histories of the package", "why_tests_cant": "no test calls kronecker with incIdx = false on diagrams above qubit 0; ranges and histories are unbounded", "anchors": ["include/dd/Package.hpp: kronecker", "include/dd/Package.hpp: kronecker2", "include/dd/Package.hpp: makeBasisState"]}
{"id": "C92", "title": "Control literals and sets of controls", "statement": "The literals q_pc and q_nc denote a positive and a negative control on qubit q. A set of controls contains exactly what was inserted, finds a control by its qubit, and a gate built with a set of such literals is applied exactly if the controls on the written qubits are satisfied.", "quantifier": "all numbers in literals, all sets of controls, all gates and targets, all histories of the package", "why_tests_cant": "the conversion to the 8-bit qubit type only shows for large numbers; sets and histories are unbounded", "anchors": ["include/dd/Control.hpp: Control", "include/dd/Control.hpp: CompareControl", "include/dd/Control.hpp: operator\"\"_pc", "include/dd/Package.hpp: makeGateDD"]}
{"id": "C93", "title": "Statistics of the tables", "statement": "The numbers of lookups and hits that the package reports for an operation cache are exactly the number of its lookups and of those that returned a result; for a unique table every lookup is counted as a hit or by the node it adds. Hence no hit ratio exceeds one. Clearing a table resets its statistics.", "quantifier": "all sequences of calls, all hash functions and contents", "why_tests_cant": "unbounded histories; the ratios are only printed", "anchors": ["include/dd/ComputeTable.hpp: lookup, clear, hitRatio", "include/dd/UnaryComputeTable.hpp: clear", "include/dd/ToffoliTable.hpp: clear", "include/dd/UniqueTable.hpp: lookup, searchTable, hitRatio, colRatio"]}
{"id": "C94", "title": "What garbageCollect reports", "statement": "Package::garbageCollect returns true exactly if it has removed something (a node or a number). Nothing appears in a collection. A collection right after a forced one, forced or not, removes nothing and returns false.", "quantifier": "all histories of lookups, node creations, references, cache insertions, resizes, resets and collections, followed by a collection", "why_tests_cant": "all histories; removal depends on the reference counts of all nodes and numbers", "anchors": ["include/dd/Package.hpp: garbageCollect", "include/dd/UniqueTable.hpp: garbageCollect", "include/dd/ComplexTable.hpp: garbageCollect"]}
{"id": "C95", "title": "reset empties the package", "statement": "After Package::reset no node is stored, no number except the static ones, and no entry in any operation cache; size and tolerance are kept. The first number looked up afterwards is a static number within the tolerance or is stored exactly, and a collection that is not forced does nothing. A package that has been reset behaves like a new one.", "quantifier": "all histories of lookups, node creations, references, cache insertions, resizes, resets and collections, followed by reset", "why_tests_cant": "all histories; remnants show up only in later operations", "anchors": ["include/dd/Package.hpp: reset, clearUniqueTables, clearComputeTables", "include/dd/UniqueTable.hpp: clear", "include/dd/ComplexTable.hpp: clear, ComplexTable", "include/dd/ComputeTable.hpp: clear"]}
