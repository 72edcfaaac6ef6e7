{
 "claims": [
  {
   "property": "C01",
   "status": "proved",
   "theorems": [
    "DD.C01_lookup_accurate",
    "DD.C01_statistics"
   ],
   "note": "Any history, any tolerances, exact reals instead of doubles."
  },
  {
   "property": "C02",
   "status": "proved",
   "theorems": [
    "DD.C02_separated",
    "DD.C02_creates",
    "DD.C02_wide_tolerance_false"
   ],
   "note": "For tolerances below half a bucket width as stated; C02_wide_tolerance_false shows the bound is needed."
  },
  {
   "property": "C03",
   "status": "partial",
   "theorems": [
    "DD.C03_entry",
    "DD.C03_static",
    "DD.C03_repeat_partial",
    "DD.C03_repeat_new",
    "DD.C03_repeat_false"
   ],
   "note": "First half proved. The second half (repeating a lookup returns the same entry whatever else was looked up) is false (C03_repeat_false); it is proved for requests that created their entry and if no entry near the request was created in between."
  },
  {
   "property": "C04",
   "status": "partial",
   "theorems": [
    "DD.C04_nearest_partial",
    "DD.C04_nearest_false",
    "DD.C04_static_false"
   ],
   "note": "False as stated at bucket borders and next to static numbers (both refuted by reachable tables); proved away from borders and when each border bucket has at most one entry within tolerance."
  },
  {
   "property": "C05",
   "status": "partial",
   "theorems": [
    "DD.C05_count",
    "DD.C05_collect_partial",
    "DD.C05_collect_pinned",
    "DD.C05_findable",
    "DD.C05_unforced",
    "DD.C05_single_false"
   ],
   "note": "Proved except for a table with a single entry, which a forced collection never touches (refuted by C05_single_false)."
  },
  {
   "property": "C06",
   "status": "proved",
   "theorems": [
    "DD.C06_allocator",
    "DD.C06_memory"
   ],
   "note": "Every history, chunk size and growth factor."
  },
  {
   "property": "C07",
   "status": "proved",
   "theorems": [
    "DD.C07_static",
    "DD.C07_saturated",
    "DD.C07_inc",
    "DD.C07_dec",
    "DD.C07_dec_zero",
    "DD.C07_inverse",
    "DD.C07_saturates",
    "DD.C07_sign",
    "DD.C07_complex",
    "DD.C07_accessor_false"
   ],
   "note": "All counts up to the maximum, both signs; C07_accessor_false records that Entry::ref negates the count of a negative pointer."
  },
  {
   "property": "C08",
   "status": "partial",
   "theorems": [
    "DD.C08_canonical_partial",
    "DD.C08_zero",
    "DD.C08_lookup_partial",
    "DD.C08_minus_tol_false"
   ],
   "note": "Proved for all requests except components exactly equal to minus the tolerance, for which lookup returns the negative pointer to zero (C08_minus_tol_false)."
  },
  {
   "property": "C09",
   "status": "partial",
   "theorems": [
    "DD.C09_flip_value",
    "DD.C09_flip_entry",
    "DD.C09_flip_flip_partial",
    "DD.C09_flip_flip_false",
    "DD.C09_flip_canonical",
    "DD.C09_flip_word",
    "DD.C09_value",
    "DD.C09_canonical_partial"
   ],
   "note": "All clauses proved for all 64-bit pointers, except that the involution law fails for the negative pointer to zero (C09_flip_flip_false); proved for every other pointer."
  },
  {
   "property": "C10",
   "status": "proved",
   "theorems": [
    "DD.C10_add_sub",
    "DD.C10_frame",
    "DD.C10_mul",
    "DD.C10_div",
    "DD.C10_exact",
    "DD.C10_crossed_false",
    "DD.C10_div_equal"
   ],
   "note": "Componentwise error bounds; aliasing of the result number with one or both operands (also conjugated or negated) is covered. C10_crossed_false: an operand built by hand with the result real slot as its imaginary part is not."
  },
  {
   "property": "C11",
   "status": "proved",
   "theorems": [
    "DD.C11_outstanding",
    "DD.C11_get",
    "DD.C11_return",
    "DD.C11_temporary",
    "DD.C11_temporary_shared"
   ],
   "note": "Every history, with even positive chunk size and positive growth factor."
  },
  {
   "property": "C12",
   "status": "proved",
   "theorems": [
    "DD.C12_range",
    "DD.C12_number_range",
    "DD.C12_onto",
    "DD.C12_onto_false",
    "DD.C12_murmur_bijective",
    "DD.C12_distinct",
    "DD.C12_combine_injective",
    "DD.C12_complex_distinct",
    "DD.C12_negative_undefined",
    "DD.C12_value_defined",
    "DD.C12_toffoli_zero"
   ],
   "note": "All 64-bit words. C12_negative_undefined records that hashing a complex value with a negative component converts a negative double to an unsigned integer, which C++ leaves undefined."
  },
  {
   "property": "C13",
   "status": "proved",
   "theorems": [
    "DD.C13_unique",
    "DD.C13_lookup",
    "DD.C13_again",
    "DD.C13_count"
   ],
   "note": "All histories of node creation, incRef, decRef, garbage collection and clear; arbitrary hash function, bucket count and level count."
  },
  {
   "property": "C14",
   "status": "proved",
   "theorems": [
    "DD.C14_exact",
    "DD.C14_weights",
    "DD.C14_weights_no_underflow",
    "DD.C14_decRef_ok",
    "DD.C14_active",
    "DD.C14_incRef_step"
   ],
   "note": "Counts exact until saturation; weights and active counts exact."
  },
  {
   "property": "C15",
   "status": "proved",
   "theorems": [
    "DD.C15_gc_keeps",
    "DD.C15_gc_exact",
    "DD.C15_held_stable"
   ],
   "note": "Exactness of a forced collection assumes that no counter is saturated; keeping does not."
  },
  {
   "property": "C16",
   "status": "proved",
   "theorems": [
    "DD.C16_inverse",
    "DD.C16_history_independent"
   ],
   "note": "Saturation-free; an example shows the hypothesis is needed."
  },
  {
   "property": "C17",
   "status": "partial",
   "theorems": [
    "DD.C17_nodes",
    "DD.C17_held",
    "DD.C17_caches",
    "DD.C17_toffoli_partial",
    "DD.C17_keeps",
    "DD.C17_count",
    "DD.C17_no_garbage",
    "DD.C17_release",
    "DD.C17_toffoli_false"
   ],
   "note": "Proved for all histories of the package (numbers, three node tables, references, fifteen caches): stored nodes, held edges and all cache entries except those of the Toffoli cache only refer to stored nodes and known numbers; everything reachable survives a collection unchanged; number counts are exact; releasing never fails. The claim about the Toffoli cache is refuted (C17_toffoli_false: the cache is not cleared when only numbers are collected); its nodes are always stored and static weights are fine (C17_toffoli_partial)."
  },
  {
   "property": "C18",
   "status": "proved",
   "theorems": [
    "DD.C18_cache_answers",
    "DD.C18_cache_latest",
    "DD.C18_noise_ops",
    "DD.C18_noise_ops_range"
   ],
   "note": ""
  },
  {
   "property": "C19",
   "status": "proved",
   "theorems": [
    "DD.C19_value",
    "DD.C19_normal",
    "DD.C19_norm"
   ],
   "note": "For every package reachable by any sequence of calls (PReach), exact arithmetic (tolerance 0), arbitrary hash functions and cache contents. "
  },
  {
   "property": "C20",
   "status": "proved",
   "theorems": [
    "DD.C20_value",
    "DD.C20_normal"
   ],
   "note": "For every package reachable by any sequence of calls (PReach), exact arithmetic (tolerance 0), arbitrary hash functions and cache contents. "
  },
  {
   "property": "C21",
   "status": "proved",
   "theorems": [
    "DD.C21_vector",
    "DD.C21_matrix",
    "DD.C21_levels",
    "DD.C21_later"
   ],
   "note": "For every package reachable by any sequence of calls (PReach), exact arithmetic (tolerance 0), arbitrary hash functions and cache contents. C21_later: also across garbage collections for held diagrams."
  },
  {
   "property": "C22",
   "status": "proved",
   "theorems": [
    "DD.C22_vector",
    "DD.C22_matrix"
   ],
   "note": "For every package reachable by any sequence of calls (PReach), exact arithmetic (tolerance 0), arbitrary hash functions and cache contents. "
  },
  {
   "property": "C23",
   "status": "proved",
   "theorems": [
    "DD.C23_vector",
    "DD.C23_matrix"
   ],
   "note": "For every package reachable by any sequence of calls (PReach), exact arithmetic (tolerance 0), arbitrary hash functions and cache contents. "
  },
  {
   "property": "C24",
   "status": "partial",
   "theorems": [
    "DD.C24_vector",
    "DD.C24_matrix_partial",
    "DD.C24_extend_top",
    "DD.C24_matrix_false",
    "DD.C24_extend_partial"
   ],
   "note": "For every package reachable by any sequence of calls (PReach), exact arithmetic (tolerance 0), arbitrary hash functions and cache contents. Proved for vectors. False for matrices: C24_matrix_false shows that the factor of a scaled identity in the left operand is lost; C24_matrix_partial proves the claim for all other left operands."
  },
  {
   "property": "C25",
   "status": "proved",
   "theorems": [
    "DD.C25_transpose",
    "DD.C25_adjoint"
   ],
   "note": "For every package reachable by any sequence of calls (PReach), exact arithmetic (tolerance 0), arbitrary hash functions and cache contents. "
  },
  {
   "property": "C26",
   "status": "proved",
   "theorems": [
    "DD.C26_inner",
    "DD.C26_fidelity",
    "DD.C26_expectation",
    "DD.C26_expectation_reject",
    "DD.C26_real",
    "DD.C26_outcomes"
   ],
   "note": "For every package reachable by any sequence of calls (PReach), exact arithmetic (tolerance 0), arbitrary hash functions and cache contents. "
  },
  {
   "property": "C27",
   "status": "proved",
   "theorems": [
    "DD.C27_partialTrace",
    "DD.C27_trace"
   ],
   "note": "For every package reachable by any sequence of calls (PReach), exact arithmetic (tolerance 0), arbitrary hash functions and cache contents. "
  },
  {
   "property": "C28",
   "status": "proved",
   "theorems": [
    "DD.C28_product",
    "DD.C28_basis",
    "DD.C28_zero",
    "DD.C28_reject"
   ],
   "note": "For every package reachable by any sequence of calls (PReach), exact arithmetic (tolerance 0), arbitrary hash functions and cache contents. start = 0 (other values: C88)."
  },
  {
   "property": "C29",
   "status": "partial",
   "theorems": [
    "DD.C29_roundtrip_partial",
    "DD.C29_elements",
    "DD.C29_undefined",
    "DD.C29_reject"
   ],
   "note": "For every package reachable by any sequence of calls (PReach), exact arithmetic (tolerance 0), arbitrary hash functions and cache contents. The exported vector equals the imported one unless that is zero or of length one; for those the export is undefined behaviour (C29_undefined). Reading element by element works for all vectors."
  },
  {
   "property": "C30",
   "status": "partial",
   "theorems": [
    "DD.C30_roundtrip_partial",
    "DD.C30_elements",
    "DD.C30_undefined",
    "DD.C30_reject"
   ],
   "note": "For every package reachable by any sequence of calls (PReach), exact arithmetic (tolerance 0), arbitrary hash functions and cache contents. As C29; additionally rows after the first are assumed to have the right length, which the code does not check."
  },
  {
   "property": "C31",
   "status": "proved",
   "theorems": [
    "DD.C31_gate",
    "DD.C31_reject"
   ],
   "note": "For every package reachable by any sequence of calls (PReach), exact arithmetic (tolerance 0), arbitrary hash functions and cache contents. start = 0 (other values: C88); controls distinct from each other and from the target."
  },
  {
   "property": "C32",
   "status": "partial",
   "theorems": [
    "DD.C32_gate_partial",
    "DD.C32_128_false",
    "DD.C32_reject"
   ],
   "note": "For every package reachable by any sequence of calls (PReach), exact arithmetic (tolerance 0), arbitrary hash functions and cache contents. Proved for fewer than 128 qubits; for 128 qubits the loop over the upper lines does nothing because the bound wraps around (C32_128_false)."
  },
  {
   "property": "C33",
   "status": "proved",
   "theorems": [
    "DD.C33_swap",
    "DD.C33_iswap",
    "DD.C33_iswapinv",
    "DD.C33_dcx",
    "DD.C33_rzz",
    "DD.C33_ryy",
    "DD.C33_rxx",
    "DD.C33_rzx",
    "DD.C33_ecr",
    "DD.C33_xx_minus_yy",
    "DD.C33_xx_plus_yy",
    "DD.C33_peres",
    "DD.C33_peresdag"
   ],
   "note": "Model over the reals with exact sine, cosine and square root of 1/2; start = 0. Also the Peres gate and its inverse."
  },
  {
   "property": "C34",
   "status": "partial",
   "theorems": [
    "DD.C34_identity_partial",
    "DD.C34_same",
    "DD.C34_range_after",
    "DD.C34_range_before",
    "DD.C34_range_false"
   ],
   "note": "For every package reachable by any sequence of calls (PReach), exact arithmetic (tolerance 0), arbitrary hash functions and cache contents. Proved for makeIdent(n); for ranges that do not begin at qubit 0 the result depends on earlier calls (C34_range_false)."
  },
  {
   "property": "C35",
   "status": "proved",
   "theorems": [
    "DD.C35_identity",
    "DD.C35_symmetric"
   ],
   "note": "For every package reachable by any sequence of calls (PReach), exact arithmetic (tolerance 0), arbitrary hash functions and cache contents. "
  },
  {
   "property": "C36",
   "status": "proved",
   "theorems": [
    "DD.C36_vector",
    "DD.C36_matrix",
    "DD.C36_path_vector",
    "DD.C36_path_matrix"
   ],
   "note": "For every package reachable by any sequence of calls (PReach), exact arithmetic (tolerance 0), arbitrary hash functions and cache contents. "
  },
  {
   "property": "C37",
   "status": "proved",
   "theorems": [
    "DD.C37_vector",
    "DD.C37_matrix"
   ],
   "note": "For every package reachable by any sequence of calls (PReach), exact arithmetic (tolerance 0), arbitrary hash functions and cache contents. "
  },
  {
   "property": "C38",
   "status": "partial",
   "theorems": [
    "DD.C38_call",
    "DD.C38_none",
    "DD.C38_flat_partial",
    "DD.C38_single_partial",
    "DD.C38_shared",
    "DD.C38_shared_false",
    "DD.C38_nested_false"
   ],
   "note": "Proved: the call never throws, moves the reference and changes no other diagram (all matrices and masks); correct for matrices with entries 0 and one number (all masks), and for one ancilla if no two quadrants are different multiples of each other. The property is false of the code otherwise: general refutation for proportional quadrants, witness for two ancillas."
  },
  {
   "property": "C39",
   "status": "proved",
   "theorems": [
    "DD.C39_probabilities",
    "DD.C39_sum",
    "DD.C39_index_above"
   ],
   "note": "Proved for every state of every reachable package, every qubit and both settings of the normalisation flag, including termination of the search. Also shown: an index outside the state is not detected (the search runs out of nodes, undefined behaviour in C++). Exact arithmetic, tolerance 0."
  },
  {
   "property": "C40",
   "status": "proved",
   "theorems": [
    "DD.C40_born",
    "DD.C40_probability",
    "DD.C40_possible",
    "DD.C40_zero",
    "DD.C40_collapse"
   ],
   "note": "The set of draws for each string is a box of the right volume (C40_born), as a statement about Lebesgue measure over the reals in C40_probability; collapse for fewer than 128 qubits (the loop counter of the code overflows at 128)."
  },
  {
   "property": "C41",
   "status": "proved",
   "theorems": [
    "DD.C41_collapse",
    "DD.C41_repeat"
   ],
   "note": "Outcome, new state, references and unchanged rest of the package; the exception for states that are not normalised; a second measurement yields the same outcome with certainty."
  },
  {
   "property": "C42",
   "status": "proved",
   "theorems": [
    "DD.C42_values",
    "DD.C42_inner",
    "DD.C42_repeat"
   ],
   "note": "For every package reachable by any sequence of calls (PReach), exact arithmetic (tolerance 0), arbitrary hash functions and cache contents. Two arbitrary histories of two packages with possibly different hash functions; repetition in one package while operands and result are referenced."
  },
  {
   "property": "C43",
   "status": "proved",
   "theorems": [
    "DD.C43_roundtrip",
    "DD.C43_same",
    "DD.C43_binary"
   ],
   "note": "Record and item level with exact numbers; the representation of numbers by bytes or decimal digits and malformed streams are not modelled."
  },
  {
   "property": "C44",
   "status": "proved",
   "theorems": [
    "DD.C44_roundtrip",
    "DD.C44_same",
    "DD.C44_binary",
    "DD.C44_terminal"
   ],
   "note": "Record and item level with exact numbers. C44_terminal: a bare number (no qubits) is read as zero, so the property needs at least one qubit."
  },
  {
   "property": "C45",
   "status": "partial",
   "theorems": [
    "DD.C45_vector",
    "DD.C45_vector_one",
    "DD.C45_vector_two",
    "DD.C45_matrix_partial",
    "DD.C45_matrix_diagonal",
    "DD.C45_matrix_one_false",
    "DD.C45_matrix_false"
   ],
   "note": "Refuted in general: stack.top() on an empty stack for some one- and two-qubit diagrams (exact characterisation for vectors), and matrix nodes where a new successor follows a repeated one use a null pointer. Proved for all vectors of at least three qubits and for matrices without such nodes."
  },
  {
   "property": "C46",
   "status": "proved",
   "theorems": [
    "DD.C46_constant",
    "DD.C46_parametrised",
    "DD.C46_two_constant",
    "DD.C46_two_parametrised",
    "DD.C46_roots",
    "DD.C46_adjoints",
    "DD.C46_pauli",
    "DD.C46_rotations",
    "DD.C46_two_rotations",
    "DD.C46_u3",
    "DD.C46_additive",
    "DD.C46_two_actions",
    "DD.C46_two_mixed"
   ],
   "note": "Exact reals; SQRT2_2 is the square root of 1/2."
  },
  {
   "property": "C47",
   "status": "proved",
   "theorems": [
    "DD.C47_terminates",
    "DD.C47_lowest",
    "DD.C47_best",
    "DD.Ex.C47_zero_false"
   ],
   "note": "Exact arithmetic, no 64-bit wraparound. For x <= tol the answer need not be the smallest fraction (C47_zero_false: 1/2 is returned for 0.2 with tolerance 0.25 although 0/1 is within it), so the optimality is stated for tol < x."
  },
  {
   "property": "C48",
   "status": "proved",
   "theorems": [
    "DD.C48_word",
    "DD.C48_restore",
    "DD.C48_aligned",
    "DD.C48_applied",
    "DD.C48_getDensityMatrix",
    "DD.C48_second_call",
    "DD.C48_hermitian"
   ],
   "note": "Nodes at rest have no negative zero as imaginary part (C09 shows flipping it twice is not the identity). C48_second_call: getDensityMatrix clears the density flag of the caller's edge, so a second call reads the diagram as an ordinary matrix; an example shows the two results differ. Another example shows that applying the modification twice to an aliased node is not undone."
  },
  {
   "property": "C49",
   "status": "proved",
   "theorems": [
    "DD.C49_stream",
    "DD.C49_array",
    "DD.C49_add",
    "DD.C49_terminal"
   ],
   "note": "The amplitudes as numbers; the text format of the stream is not modelled. C49_terminal: for a root without a node (the zero vector), nothing is written, hence the restriction of the property."
  },
  {
   "property": "C50",
   "status": "proved",
   "theorems": [
    "DD.C50_size",
    "DD.C50_package"
   ],
   "note": ""
  },
  {
   "property": "C51",
   "status": "proved",
   "theorems": [
    "DD.C51_exact",
    "DD.C51_identity",
    "DD.C51_mono",
    "DD.C51_tolerance",
    "DD.Ex.C51_scalar_false"
   ],
   "note": "The argument function is a parameter that is zero exactly on the nonnegative real axis (LawfulArg, met by Complex.arg). The obvious statement 'accepts exactly the multiples of the identity' is false (Ex.C51_scalar_false: a projector is accepted); the theorems give the exact set."
  },
  {
   "property": "C52",
   "status": "proved",
   "theorems": [
    "DD.C52_limit",
    "DD.C52_reach",
    "DD.C52_diagrams",
    "DD.C52_states",
    "DD.C52_gates",
    "DD.C52_enlarge",
    "DD.C52_shrink_false"
   ],
   "note": "Packages are only enlarged in the model of histories; shrinking a package that contains diagrams breaks uniqueness of nodes (C52_shrink_false, remarked in the source)."
  },
  {
   "property": "C53",
   "status": "proved",
   "theorems": [
    "DD.C53_add",
    "DD.C53_multiply",
    "DD.C53_kronecker",
    "DD.C53_makeState",
    "DD.C53_makeMatrix",
    "DD.C53_partialTrace",
    "DD.C53_readAll",
    "DD.C53_exportAmplitudes",
    "DD.C53_topWeight",
    "DD.C53_innerProduct"
   ],
   "note": "Operations modelled with explicit cache slots (Model/Slots.lean) over arbitrary arithmetic, tolerance and tables: they never return a slot they do not hold, leave exactly the slots of the caller outstanding with unchanged contents and the count as before, and their result does not depend on the state of the cache."
  },
  {
   "property": "C54",
   "status": "proved",
   "theorems": [
    "DD.C54_bits",
    "DD.C54_injective",
    "DD.C54_low_bits",
    "DD.C54_surjective"
   ],
   "note": ""
  },
  {
   "property": "C55",
   "status": "partial",
   "theorems": [
    "DD.C55_total",
    "DD.C55_printFormatted",
    "DD.C55_accurate_partial",
    "DD.C55_tiny_false"
   ],
   "note": "Text as tokens. The excluded corner (real part within the tolerance of zero and of the imaginary part, imaginary part above the tolerance) prints (1+i), as C55_tiny_false proves."
  },
  {
   "property": "C56",
   "status": "proved",
   "theorems": [
    "DD.C56_sound",
    "DD.C56_complete",
    "DD.Ex.C56_order"
   ],
   "note": "Keys have qubit 0 first, unlike the strings of measureAll (Ex.C56_order). Threshold is compared before each factor, so listed values may be below it."
  },
  {
   "property": "C57",
   "status": "partial",
   "theorems": [
    "DD.C57_vector_call",
    "DD.C57_matrix_call",
    "DD.C57_basis_partial",
    "DD.C57_flat_partial",
    "DD.C57_permutation",
    "DD.C57_vector_bounded",
    "DD.C57_matrix_bounded",
    "DD.C57_vector_shared",
    "DD.C57_matrix_shared",
    "DD.C57_vector_shared_false"
   ],
   "note": "Proved: the call never throws, moves the reference and changes no other diagram; correct for basis states and for matrices with entries 0 and one number of magnitude at most 1 that are not added up (permutations). The property is false of the code otherwise: proportional halves become equal, and no entry of a result exceeds 1 in magnitude."
  },
  {
   "property": "C58",
   "status": "proved",
   "theorems": [
    "DD.C58_refine_add",
    "DD.C58_refine_multiply",
    "DD.C58_refine_kronecker",
    "DD.C58_refine_partialTrace",
    "DD.C58_refine_makeState",
    "DD.C58_refine_makeMatrix",
    "DD.C58_refine_innerProduct",
    "DD.C58_add",
    "DD.C58_add_matrix",
    "DD.C58_multiply",
    "DD.C58_multiply_matrix",
    "DD.C58_kronecker",
    "DD.C58_innerProduct",
    "DD.C58_partialTrace"
   ],
   "note": "The operations with explicit slots (Model/Slots.lean), instantiated with exact arithmetic and the tables of the package (Model/SlotExact.lean), yield exactly the results and tables of the operations on values (Model/Package.lean), for every state of the cache; hence they are right for every history. For every tolerance and every implementation of the tables, C53 gives that results and tables do not depend on the state of the cache. The operations covered are those of Model/Slots.lean; the last step of the reductions, transfer and deserialize is in C53."
  },
  {
   "property": "C59",
   "status": "proved",
   "theorems": [
    "DD.C59_build",
    "DD.C59_reject",
    "DD.C59_read",
    "DD.C59_roundtrip",
    "DD.C59_exact"
   ],
   "note": "Every arithmetic operation rounds (any rounding with a relative error of at most a thousandth of the tolerance, JCfg.Rounds; Ex.JD_rounds: 53 bits and the tolerance of the package); comparisons with the tolerance are exact; no overflow. Reading assumes that the root is a node."
  },
  {
   "property": "C60",
   "status": "proved",
   "theorems": [
    "DD.C60_add",
    "DD.C60_exact",
    "DD.C60_small"
   ],
   "note": "Every arithmetic operation rounds as in C59; the constant is explicit: 68 (1+2t) (3/2 (1+2t)(1+4t)^2)^n."
  },
  {
   "property": "C61",
   "status": "proved",
   "theorems": [
    "DD.C61_build",
    "DD.C61_reject",
    "DD.C61_exact",
    "DD.C61_transpose",
    "DD.C61_not_linear"
   ],
   "note": "Every arithmetic operation rounds as in C59. C61_not_linear shows that a bound proportional to the tolerance is false (the entry 2.8e-7 is lost with the default tolerance)."
  },
  {
   "property": "C62",
   "status": "partial",
   "theorems": [
    "DD.C62_apply_partial",
    "DD.Ex62.C62_false"
   ],
   "note": "Proved for all histories in which generateDensityMatrix is never set (any hash functions, any cache contents, garbage collections and resizes in between). With generateDensityMatrix the property is false: C62_false exhibits, in the default configuration, two unitary operations on the zero state after which a third unitary operation gives a wrong matrix, because products are looked up without regard to the flags of the operands."
  },
  {
   "property": "C63",
   "status": "proved",
   "theorems": [
    "DD.C63_zero",
    "DD.C63_makeDDNode",
    "DD.C63_multiply",
    "DD.C63_canonical",
    "DD.C63_step",
    "DD.C63_decRef"
   ],
   "note": "DReach histories: functions on vectors and matrices (PStep) and on density matrices in any order, generateDensityMatrix never set, exact arithmetic."
  },
  {
   "property": "C64",
   "status": "proved",
   "theorems": [
    "DD.C64_ends",
    "DD.C64_complete",
    "DD.C64_all",
    "DD.C64_weights"
   ],
   "note": "The walk of toDot and exportEdgeWeights with a queue that returns any node of the highest level. The text of the output is not modelled."
  },
  {
   "property": "C65",
   "status": "partial",
   "theorems": [
    "DD.C65_labels_partial",
    "DD.C65_false",
    "DD.C65_false_chunk"
   ],
   "note": "Proved for diagrams whose nodes lie within 2 MiB. False in general: the label is 20 bits of the address of which two are always zero, so any drawing of more than 2^18 nodes has two nodes with the same label (C65_false), and two vector nodes 32768 cells apart in one block always share their label (C65_false_chunk)."
  },
  {
   "property": "C66",
   "status": "proved",
   "theorems": [
    "DD.C66_local",
    "DD.C66_local_keeps",
    "DD.C66_global",
    "DD.Ex66.C66_global_false"
   ],
   "note": "Joint layer (pointer weights, tolerance). C66_global is an equivalence; C66_global_false shows that the check throws for a referenced edge of a package that is in order as soon as two references share a node."
  },
  {
   "property": "C67",
   "status": "proved",
   "theorems": [
    "DD.C67_reach",
    "DD.C67_kept",
    "DD.C67_canonical",
    "DD.C67_gates",
    "DD.C67_gates_kept"
   ],
   "note": "Exact layer. C67_reach and C67_gates are equivalences between reachability with all functions and with the basic ones. Density matrix functions have their own histories (C62, C63)."
  },
  {
   "property": "C68",
   "status": "proved",
   "theorems": [
    "DD.C68_keeps",
    "DD.C68_multiply",
    "DD.C68_bounds",
    "DD.C68_exact"
   ],
   "note": "Every arithmetic operation rounds as in C59. C68_bounds shows that the weight and norm bounds in C68_multiply exist for every diagram of every history."
  },
  {
   "property": "C69",
   "status": "proved",
   "theorems": [
    "DD.C69_label",
    "DD.C69_phase",
    "DD.C69_mag",
    "DD.C69_total",
    "DD.C69_same_label",
    "DD.C69_hue",
    "DD.C69_thickness"
   ],
   "note": "Text is modelled as tokens; decimal numbers are taken to be printed exactly (the stream prints 6 digits), and the hue is taken before rounding to 3 digits."
  },
  {
   "property": "C70",
   "status": "proved",
   "theorems": [
    "DD.C70_run",
    "DD.C70_exists",
    "DD.C70_no_throw",
    "DD.C70_equivalence",
    "DD.C70_gate_unitary",
    "DD.C70_circuit_unitary",
    "DD.C70_isometry",
    "DD.C70_norm"
   ],
   "note": "Exact arithmetic (layer B)."
  },
  {
   "property": "C71",
   "status": "proved",
   "theorems": [
    "DD.C71_content",
    "DD.C71_order",
    "DD.C71_same",
    "DD.C71_gate",
    "DD.C71_all",
    "DD.C71_target_false"
   ],
   "note": "Exact arithmetic (layer B). The target is below the number of qubits; the parameter start is 0. C71_target_false: a gate that is applied although its controls are not satisfied."
  },
  {
   "property": "C72",
   "status": "proved",
   "theorems": [
    "DD.C72_initial",
    "DD.C72_identity"
   ],
   "note": "Exact arithmetic (layer B)."
  },
  {
   "property": "C73",
   "status": "proved",
   "theorems": [
    "DD.C73_vector",
    "DD.C73_matrix",
    "DD.C73_excluded"
   ],
   "note": "Exact arithmetic (layer B). The text of a number is the subject of C55."
  },
  {
   "property": "C74",
   "status": "proved",
   "theorems": [
    "DD.C74_ident",
    "DD.C74_gate",
    "DD.C74_gate_reject",
    "DD.C74_unitary",
    "DD.C74_basis",
    "DD.C74_bits",
    "DD.C74_zero",
    "DD.C74_reject",
    "DD.C74_rounded"
   ],
   "note": "Layer J with tolerance and rounding. Real number of qubits bounded by 1000 (n+1) tau <= 1 (n < 4 * 10^9 for the default tolerance)."
  },
  {
   "property": "C75",
   "status": "proved",
   "theorems": [
    "DD.C75_simulation",
    "DD.C75_any",
    "DD.C75_runs",
    "DD.C75_amplitudes"
   ],
   "note": "Layer J with tolerance and rounding. C75_simulation: B given; C75_any: B = (3/2 (1 + 4 tau))^n, which always holds; C75_runs: a run exists. The matrices given to the package may differ from unitary ones by rounding."
  },
  {
   "property": "C76",
   "status": "proved",
   "theorems": [
    "DD.C76_keeps",
    "DD.C76_inner",
    "DD.C76_any",
    "DD.C76_exact",
    "DD.C76_fidelity",
    "DD.C76_states"
   ],
   "note": "Layer J with tolerance and rounding. C76_any: B = (3/2 (1 + 4 tau))^n, which always holds; C76_states: normalised states, error linear in n."
  },
  {
   "property": "C77",
   "status": "proved",
   "theorems": [
    "DD.C77_born",
    "DD.C77_probability",
    "DD.C77_possible",
    "DD.C77_collapse",
    "DD.C77_normalised",
    "DD.C77_basis",
    "DD.C77_zero"
   ],
   "note": "Layer J with tolerance and rounding. C77_normalised and C77_basis say when nodes are normalised; Ex.C77_throws is a run in which they are not (two amplitudes of about the tolerance) and the exception is thrown on a state of norm one."
  },
  {
   "property": "C78",
   "status": "proved",
   "theorems": [
    "DD.C78_probabilities",
    "DD.C78_measure",
    "DD.C78_throws",
    "DD.C78_basis"
   ],
   "note": "Layer J with tolerance and rounding. C78_basis says that product states meet the hypotheses; the example is a state of ten qubits with the tolerance of the code."
  },
  {
   "property": "C79",
   "status": "proved",
   "theorems": [
    "DD.C79_expectation",
    "DD.C79_observable",
    "DD.C79_any",
    "DD.C79_throws"
   ],
   "note": "Layer J with tolerance and rounding. The bound needs the tolerance to be small for the number of qubits; the example is an observable on five qubits with the tolerance of the code. The matrix given to makeGateDD may differ from a unitary one by rounding."
  },
  {
   "property": "C80",
   "status": "proved",
   "theorems": [
    "DD.C80_entries",
    "DD.C80_trace",
    "DD.C80_gate",
    "DD.C80_exact",
    "DD.C80_round_trip"
   ],
   "note": "Layer J with tolerance and rounding. Full traces only; partial traces are in the exact layer (C27)."
  },
  {
   "property": "C81",
   "status": "proved",
   "theorems": [
    "DD.C81_arithmetic",
    "DD.C81_rounded",
    "DD.C81_circuit",
    "DD.C81_expectation"
   ],
   "note": "Model/Double.lean: IEEE 754 binary64 rounding over the reals without overflow. Rounding is proved monotone, idempotent and accurate to 2^-53 relative plus 2^-1075 absolute."
  },
  {
   "property": "C82",
   "status": "proved",
   "theorems": [
    "DD.C82_text",
    "DD.C82_unique",
    "DD.C82_exact",
    "DD.C82_matrix",
    "DD.C82_vector",
    "DD.C82_root",
    "DD.C82_sixteen_false",
    "DD.C82_unit"
   ],
   "note": "Texts are lists of characters; the regular expressions are modelled with capture groups and negative lookahead, and every way to match is considered. Decimal notation is %g with rounding to nearest over the reals; numbers are finite; hexadecimal notation and range errors of std::stod are left out. C82_sixteen_false is the statement that 16 digits lose information."
  },
  {
   "property": "C83",
   "status": "partial",
   "theorems": [
    "DD.C83_serialize_partial",
    "DD.C83_transfer_partial",
    "DD.Ex.C83_serialize_false",
    "DD.Ex.C83_transfer_false",
    "DD.Ex.C83_matrix_false",
    "DD.Ex.C83_steady_example"
   ],
   "note": "Moduli are kept for all normalised vectors, amplitudes for steady diagrams (CopySpec.lean). The claim that copies are accurate is false for phases and for matrices: the three _false theorems are concrete runs with the default tolerance of the code. Files are lists of records with exact numbers; the text format is C82. Missing: accuracy for matrices under a similar condition."
  },
  {
   "property": "C84",
   "status": "proved",
   "theorems": [
    "DD.C84_gate",
    "DD.C84_sharp",
    "DD.C84_reject",
    "DD.C84_rounded",
    "DD.C84_apply",
    "DD.C84_gates",
    "DD.C84_gates_xxyy",
    "DD.C84_gates_rot"
   ],
   "note": "C84_gate and C84_apply assume TwoGateOk (ApproxSpec.lean); the C84_gates theorems show it for all two-qubit gates of GateMatrixDefinitions.hpp (K = 26 for RXX, RYY and RZX, any K otherwise), C84_rounded carries it over to rounded entries. The bound n < 128 is the range of the qubit type (see C32)."
  },
  {
   "property": "C85",
   "status": "proved",
   "theorems": [
    "DD.C85_simulation",
    "DD.C85_any",
    "DD.C85_amplitudes",
    "DD.C85_runs",
    "DD.C85_unitary",
    "DD.C85_double"
   ],
   "note": "Generalises C75 and C81_circuit to two-qubit gates. The bound n < 128 is the range of the qubit type. Overflow is not modelled."
  },
  {
   "property": "C86",
   "status": "proved",
   "theorems": [
    "DD.C86_ok",
    "DD.C86_only_counts",
    "DD.C86_rejected",
    "DD.C86_harmless",
    "DD.C86_repair",
    "DD.C86_balanced",
    "DD.C86_false",
    "DD.C86_silent"
   ],
   "note": "C86_false and C86_silent refute the stronger claims that a rejected call is harmless and that unbalanced calls are always reported."
  },
  {
   "property": "C87",
   "status": "proved",
   "theorems": [
    "DD.C87_ends",
    "DD.C87_count",
    "DD.C87_metric",
    "DD.C87_fits",
    "DD.C87_difference",
    "DD.C87_order",
    "DD.C87_neighbours",
    "DD.C87_rounding",
    "DD.C87_ties",
    "DD.C87_fixed"
   ],
   "note": "Infinities and NaN are not modelled (the loop does not end for NaN). std::nextafter is modelled after the C standard."
  },
  {
   "property": "C88",
   "status": "partial",
   "theorems": [
    "DD.C88_product",
    "DD.C88_basis",
    "DD.C88_zero",
    "DD.C88_gate",
    "DD.C88_controlled_partial",
    "DD.C88_controlled_false",
    "DD.C88_default",
    "DD.C88_error",
    "DD.C88_undefined",
    "DD.C88_length_false",
    "DD.C88_hidden_false",
    "DD.C88_below_false",
    "DD.C88_above_false"
   ],
   "note": "True for states and for gates without controls. For gates with controls the claim is false (C88_controlled_false): makeIdent(start, ..) returns the identity from qubit 0 if that identity has been requested before, so the result depends on earlier calls; C88_controlled_partial proves it while no identity is kept. The vector of states is indexed from qubit 0 although only a length of n is checked: C88_undefined states exactly when the read is out of bounds, C88_length_false that a description of just the n qubits always is. Two-qubit gates: C89. The gates composed with multiply are not modelled for start > 0. C88_hidden_false: a control on the target, outside the range or on a qubit that has a control is ignored together with all controls after it (C71 for start = 0). Targets outside the range are not rejected: C88_below_false and C88_above_false state what is built instead."
  },
  {
   "property": "C89",
   "status": "partial",
   "theorems": [
    "DD.C89_gate_partial",
    "DD.C89_128_false",
    "DD.C89_error",
    "DD.C89_default",
    "DD.C89_equal_false",
    "DD.C89_below_false"
   ],
   "note": "False for ranges that end with qubit 127 (C89_128_false: the lines above the larger target are missing, since the bound 128 is converted to -128), proved for all others. Equal targets and targets below the range are not rejected: C89_equal_false and C89_below_false state on which qubits the gate is built instead."
  },
  {
   "property": "C90",
   "status": "partial",
   "theorems": [
    "DD.C90_default",
    "DD.C90_matrix_partial",
    "DD.C90_vector_partial",
    "DD.C90_gates_partial",
    "DD.C90_add",
    "DD.C90_span",
    "DD.C90_cached",
    "DD.C90_plain_false",
    "DD.C90_cached_false",
    "DD.C90_composed_false",
    "DD.C90_composed_default"
   ],
   "note": "Proved for all histories in which every product was formed with the first qubit of its range as start, for matrices, vectors and sums over any range (C90_matrix_partial, C90_vector_partial, C90_add); C90_span shows that states and gates are such diagrams. False: after the product of the same operands with another start (C90_cached for all states and operands, C90_cached_false for an instance with a wrong entry), and for composed gates with start > 0, whose product is formed without start (C90_plain_false, C90_composed_false)."
  },
  {
   "property": "C91",
   "status": "partial",
   "theorems": [
    "DD.C91_state_partial",
    "DD.C91_matrix_partial",
    "DD.C91_gate_partial",
    "DD.C91_basis_partial",
    "DD.C91_cached",
    "DD.C91_cached_false",
    "DD.C91_matrix_false"
   ],
   "note": "Proved for states of any range, and for matrices whose left operand has no node like an identity on its qubit (C91_matrix_partial; C91_gate_partial for any one-qubit gate other than a multiple of the identity on top of any matrix), for all histories in which diagrams were combined in this way without a shift only (diagrams from qubit 0 may have been combined with a shift before). False after kronecker(x, y, true) of the same operands, since the key of the table does not contain incIdx (C91_cached for all states and operands, C91_cached_false for an instance with a wrong amplitude), and for matrices that contain an identity below the top, which the shortcut puts on a qubit of the right operand (C91_matrix_false). Missing: left operands with identity-like nodes for which the shortcut happens not to be taken or not to matter."
  },
  {
   "property": "C92",
   "status": "partial",
   "theorems": [
    "DD.C92_literal",
    "DD.C92_wrap",
    "DD.C92_content",
    "DD.C92_find",
    "DD.C92_gate_partial",
    "DD.C92_negative_false"
   ],
   "note": "Proved for all numbers below 128 (C92_literal states that these are exactly the ones for which the literal is right). Other numbers are not rejected: C92_wrap states which qubit they denote, and C92_negative_false that a literal with a remainder of 128 or more modulo 256 makes the gate ignore all controls of the set."
  },
  {
   "property": "C93",
   "status": "partial",
   "theorems": [
    "DD.C93_answer",
    "DD.C93_counts",
    "DD.C93_ratio",
    "DD.C93_clear",
    "DD.C93_clear_false",
    "DD.C93_lookup",
    "DD.C93_unique",
    "DD.C93_collisions_false"
   ],
   "note": "The counts and ratios are proved for all histories. Resetting is proved for the unary and the Toffoli table, and false for all other caches: clear keeps their statistics (C93_clear_false). The collision ratio of a unique table may exceed one (C93_collisions_false). The table of complex numbers is in C01 (C01_statistics). Counters are unbounded; a ratio before the first lookup (0/0) is not modelled; the table of stochastic noise operations is not included."
  },
  {
   "property": "C94",
   "status": "partial",
   "theorems": [
    "DD.C94_result_partial",
    "DD.C94_subset",
    "DD.C94_again",
    "DD.C94_density_false"
   ],
   "note": "The result is true exactly if a vector node, a matrix node or a number has been removed (C94_result_partial). Removed nodes of density matrices are not reported, so the claim as stated is false (C94_density_false). That nothing appears and nothing is left after a forced collection is proved for all kinds of nodes and numbers. The model is that of C17."
  },
  {
   "property": "C95",
   "status": "partial",
   "theorems": [
    "DD.C95_empty",
    "DD.C95_lookup",
    "DD.C95_quiet",
    "DD.C95_half_false"
   ],
   "note": "That a reset package is empty is proved for all histories. That it is in the state of a new one is false: a new package stores the number 1/2 with a reference of its own, a reset one does not (C95_half_false); also, the first limit for collections of numbers differs. The model is that of C17; edges the user keeps over a reset are dangling and not covered."
  }
 ]
}