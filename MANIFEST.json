{
 "claims": [
  {
   "property": "C01",
   "status": "proved",
   "theorems": [
    "Heir.NumTheory.C01_multiplicativeInverse",
    "Heir.NumTheory.C01_precondition"
   ],
   "note": "Every width, m>=2, x<m; assertion failure otherwise."
  },
  {
   "property": "C02",
   "status": "partial",
   "theorems": [
    "Heir.NumTheory.C02_modMul",
    "Heir.NumTheory.C02_modExp_partial",
    "Heir.NumTheory.C02_modExp_violated_modulus_one"
   ],
   "note": "modularMultiplication in full; modularExponentiation fails only for modulus 1 with exponent 0 (returns 1), proved elsewhere."
  },
  {
   "property": "C03",
   "status": "proved",
   "theorems": [
    "Heir.NumTheory.C03_prime_accepted",
    "Heir.NumTheory.C03_rejected_not_prime",
    "Heir.NumTheory.C03_defined"
   ],
   "note": "Every width; test proved total. The converse (accepted implies prime) is not claimed by the property."
  },
  {
   "property": "C04",
   "status": "proved",
   "theorems": [
    "Heir.NumTheory.C04_factorize"
   ],
   "note": "Includes the 64-bit fast path with wrapping d*d and the wide path; totality included."
  },
  {
   "property": "C05",
   "status": "partial",
   "theorems": [
    "Heir.NumTheory.C05_findPrimitiveRoot",
    "Heir.NumTheory.C05_findPrimitiveRoot_large_partial"
   ],
   "note": "Full for q <= 2^64; above that only conditional on the uint64 counter not wrapping."
  },
  {
   "property": "C06",
   "status": "proved",
   "theorems": [
    "Heir.NumTheory.C06_findPrimitive2nthRoot",
    "Heir.NumTheory.C06_none",
    "Heir.NumTheory.C06_degree_too_wide"
   ],
   "note": "q <= 2^64 (64-bit candidate counter); nullopt and assertion cases included."
  },
  {
   "property": "C07",
   "status": "proved",
   "theorems": [
    "Heir.NumTheory.C07_nextPowerOfTwo",
    "Heir.NumTheory.C07_nextPowerOfTwo_zero",
    "Heir.NumTheory.C07_nextPowerOfTwo_overflow",
    "Heir.NumTheory.C07_isPowerOfTwo"
   ],
   "note": "All 64-bit inputs; the out-of-range results are characterised too."
  },
  {
   "property": "C08",
   "status": "proved",
   "theorems": [
    "Heir.NTT.C08_reverseBits",
    "Heir.NTT.C08_slot",
    "Heir.NTT.C08_ntt",
    "Heir.NTT.C08_length_truncated",
    "Heir.NTT.C08_violated_at_two_pow_32"
   ],
   "note": "Every length 2^k < 2^32 and every modulus; the length is truncated to uint32_t and the claim is shown false at 2^32."
  },
  {
   "property": "C09",
   "status": "proved",
   "theorems": [
    "Heir.NTT.C09_intt_ntt",
    "Heir.NTT.C09_ntt_intt"
   ],
   "note": "Both directions, residues below 2^64; n < q is derived from psi^n = -1."
  },
  {
   "property": "C10",
   "status": "proved",
   "theorems": [
    "Heir.NTT.C10_mul_negacyclic"
   ],
   "note": "Prime limb moduli with 2n | q-1; inputs need not be canonical, outputs are."
  },
  {
   "property": "C11",
   "status": "proved",
   "theorems": [
    "Heir.NTT.C11_emitted_ntt",
    "Heir.NTT.C11_emitted_roundtrip",
    "Heir.NTT.C11_emitted_roundtrip'"
   ],
   "note": "Forward value and both round trips on any input words; single-limb storage (modulus width = storage width)."
  },
  {
   "property": "C12",
   "status": "proved",
   "theorems": [
    "Heir.ModArith.C12_add",
    "Heir.ModArith.C12_sub",
    "Heir.ModArith.C12_mul",
    "Heir.ModArith.C12_mac",
    "Heir.ModArith.C12_program",
    "Heir.ModArith.C12_bound_needed",
    "Heir.ModArith.C12_modulus_zero_accepted_but_undefined"
   ],
   "note": "Scalar lowering of add/sub/mul/mac and of whole expressions, any width; modulus nonzero (verifier accepts 0, shown undefined)."
  },
  {
   "property": "C13",
   "status": "proved",
   "theorems": [
    "Heir.ModArith.C13_reduce"
   ],
   "note": "All storage words, any accepted nonzero modulus."
  },
  {
   "property": "C14",
   "status": "partial",
   "theorems": [
    "Heir.ModArith.C14_lift_standard",
    "Heir.ModArith.C14_lift_centered_partial",
    "Heir.ModArith.C14_lift_centered_violated",
    "Heir.ModArith.C14_lift_centered_violated_i8"
   ],
   "note": "Standard lift proved in full; centered lift false for modulus 2^(w-1)-1 (signed overflow of q+1), proved for all other accepted moduli."
  },
  {
   "property": "C15",
   "status": "proved",
   "theorems": [
    "Heir.ModArith.C15_barrett",
    "Heir.ModArith.C15_extra_modulus_occurs",
    "Heir.ModArith.C15_narrow_attribute_undefined"
   ],
   "note": "Needs the modulus attribute at least 3*bits wide (else APInt::trunc asserts) and modulus >= 2."
  },
  {
   "property": "C16",
   "status": "partial",
   "theorems": [
    "Heir.ModArith.C16_exact",
    "Heir.ModArith.C16_modSwitch_partial",
    "Heir.ModArith.C16_violated",
    "Heir.ModArith.C16_violated_example"
   ],
   "note": "Exact value proved for all inputs; the centering disagrees with lift centered at (q-1)/2 for odd q (violation proved)."
  },
  {
   "property": "C17",
   "status": "partial",
   "theorems": [
    "Heir.RNS.C17_interpolate",
    "Heir.RNS.C17_unique",
    "Heir.RNS.C17_decompose_partial",
    "Heir.RNS.C17_roundtrip_partial",
    "Heir.RNS.C17_limbs_roundtrip_partial",
    "Heir.RNS.C17_equal_width_violated",
    "Heir.RNS.C17_verifier_wraps_violated"
   ],
   "note": "Interpolation is proved for every basis, width and limb words (C17_interpolate, C17_unique). Decomposition and both round trips are proved when the limb storage is strictly narrower than the storage of Q; for equal widths, which the verifier accepts, the emitted arith.trunci is invalid (C17_equal_width_violated). The verifier's product check wraps (C17_verifier_wraps_violated)."
  },
  {
   "property": "C18",
   "status": "proved",
   "theorems": [
    "Heir.ModArith.C18_fold_eq_lower",
    "Heir.ModArith.C18_fold_value",
    "Heir.ModArith.C18_noncanonical_disagree"
   ],
   "note": "Folder vs lowered code on canonical constants; folder value also for non-canonical constants."
  },
  {
   "property": "C19",
   "status": "partial",
   "theorems": [
    "Heir.ModArith.C19_negative_constant_iff",
    "Heir.ModArith.C19_negative_constant_partial",
    "Heir.ModArith.C19_violated",
    "Heir.ModArith.C19_violated_65537",
    "Heir.ModArith.C19_violated_unfolded",
    "Heir.ModArith.C19_nonnegative"
   ],
   "note": "False in general: exact iff (modulus divides 2^w) proved, with witnesses."
  },
  {
   "property": "C20",
   "status": "proved",
   "theorems": [
    "Heir.ModArith.C20_rewrites_preserve_value",
    "Heir.ModArith.C20_rewrites_preserve_lowered_code"
   ],
   "note": "All 19 registered patterns, the mac rewrite, folding and commutation, closed under congruence and any number of steps."
  },
  {
   "property": "C21",
   "status": "partial",
   "theorems": [
    "Heir.RNS.C21_formula",
    "Heir.RNS.C21_documented",
    "Heir.RNS.C21_convert_basis_partial",
    "Heir.RNS.C21_violated_three_limbs"
   ],
   "note": "Proved for the documented algorithm with any number of limbs (C21_documented), and for the code as written for at most two input limbs. From three limbs on the code multiplies by the wrong modulus (C21_violated_three_limbs). Moduli 2^(w-1)-1 are excluded because the centred lift is wrong there."
  },
  {
   "property": "C22",
   "status": "partial",
   "theorems": [
    "Heir.Poly.C22_mul_partial",
    "Heir.Poly.C22_violated_zero_remainder",
    "Heir.Poly.C22_violated_zero_operand",
    "Heir.Poly.C22_remainder_unique",
    "Heir.Poly.C22_violated_negative_leading",
    "Heir.Poly.C22_violated_degree_one",
    "Heir.Poly.C22_mul_rns_partial"
   ],
   "note": "Proved for single-modulus and RNS coefficient types, any degree >= 2, any canonical inputs whose product is not a multiple of the ring polynomial; the remainder is unique (C22_remainder_unique). For every other pair of inputs the emitted code reads at index -1 (C22_violated_zero_remainder). Negative leading coefficients and degree one rings also fail (C22_violated_negative_leading, C22_violated_degree_one). The while loop is modelled with an iteration budget; any budget of at least 2n suffices."
  },
  {
   "property": "C23",
   "status": "partial",
   "theorems": [
    "Heir.Poly.C23_coefficient_partial",
    "Heir.Poly.C23_wide_storage",
    "Heir.Poly.C23_tensor_partial",
    "Heir.Poly.C23_rns_partial",
    "Heir.Poly.C23_violated_truncation",
    "Heir.Poly.C23_violated_large_modulus"
   ],
   "note": "Proved for coefficients that fit the storage width and, for a single modulus, moduli of at most 2^63; wider coefficients are truncated (C23_violated_truncation) and larger moduli assert (C23_violated_large_modulus)."
  },
  {
   "property": "C24",
   "status": "partial",
   "theorems": [
    "Heir.PolyClass.C24_equality",
    "Heir.PolyClass.C24_degree",
    "Heir.PolyClass.C24_scale_partial",
    "Heir.PolyClass.C24_violated_scale_zero",
    "Heir.PolyClass.C24_monomialMul",
    "Heir.PolyClass.C24_denseVector",
    "Heir.PolyClass.C24_fromMonomials",
    "Heir.PolyClass.C24_fromCoefficients",
    "Heir.PolyClass.C24_canonicalize",
    "Heir.PolyClass.C24_add_partial",
    "Heir.PolyClass.C24_violated_add_clash",
    "Heir.PolyClass.C24_sub_partial",
    "Heir.PolyClass.C24_violated_add_witness",
    "Heir.PolyClass.C24_naiveMul_partial",
    "Heir.PolyClass.C24_violated_naiveMul_zero",
    "Heir.PolyClass.C24_compose_sound",
    "Heir.PolyClass.C24_compose_partial",
    "Heir.PolyClass.C24_violated_compose_constant"
   ],
   "note": "Every operation is proved to denote the polynomial operation over an arbitrary commutative ring. add/sub are proved right exactly when the exponents do not clash; on every clash they trip an assertion (C24_violated_add_clash is an iff). Products with the zero polynomial and some compositions are undefined, and scaling by zero leaves non-canonical terms; each has a violation theorem."
  },
  {
   "property": "C25",
   "status": "partial",
   "theorems": [
    "Heir.PolyClass.C25_chebyshev",
    "Heir.PolyClass.C25_toStandardBasis_partial",
    "Heir.PolyClass.C25_toStandardBasis_sound",
    "Heir.PolyClass.C25_violated_toStandardBasis",
    "Heir.PolyClass.C25_compose_partial",
    "Heir.PolyClass.C25_violated_degree_two",
    "Heir.PolyClass.C25_violated_empty"
   ],
   "note": "getChebyshevPolynomials is proved for all n over ordered rings. toStandardBasis is right whenever it is defined (any ring), and defined when no coefficient of a partial sum vanishes; it asserts on [1,1,1,1,1]. Composition with a linear map is proved for every length except 3, where the result is off by c_2/2 for every input (C25_violated_degree_two), and the empty vector, which is read out of bounds."
  },
  {
   "property": "C26",
   "status": "proved",
   "theorems": [
    "Heir.PolyEval.C26_horner"
   ],
   "note": "All coefficient maps and input nodes; coefficients in any commutative ring."
  },
  {
   "property": "C27",
   "status": "proved",
   "theorems": [
    "Heir.PolyEval.C27_patersonStockmeyer",
    "Heir.PolyEval.C27_any_chunk_size"
   ],
   "note": "All coefficient maps, for the code's chunk size and for any other positive chunk size."
  },
  {
   "property": "C28",
   "status": "proved",
   "theorems": [
    "Heir.PolyEval.C28_evaluates",
    "Heir.PolyEval.C28_error_bound",
    "Heir.PolyEval.C28_zero_series_is_null"
   ],
   "note": "Exact value when only zeros are dropped; error bound over the reals for any threshold; the zero series is a null pointer (remark theorem)."
  },
  {
   "property": "C29",
   "status": "proved",
   "theorems": [
    "Heir.PolyEval.C29_divide",
    "Heir.PolyEval.C29_decompose",
    "Heir.PolyEval.C29_zero_diverges"
   ],
   "note": "Division and decomposition for every k >= 1; divergence for k = 0 is stated as a remark."
  },
  {
   "property": "C30",
   "status": "proved",
   "theorems": [
    "Heir.Dag.C30_evalKernel",
    "Heir.Dag.C30_evalKernel_tree",
    "Heir.Dag.C30_multiEvalKernel",
    "Heir.Dag.C30_stale_variables",
    "Heir.Dag.C30_unscoped_use_violated"
   ],
   "note": "Full equality (including failure) of the caching evaluator with a cache-free denotation, for arbitrary operators, sharing, nested loops and conditionals; hypotheses: acyclic, loop variables scoped."
  },
  {
   "property": "C31",
   "status": "partial",
   "theorems": [
    "Heir.Kernel.C31_accum_add_partial",
    "Heir.Kernel.C31_accum_mul_partial",
    "Heir.Kernel.C31_rolled",
    "Heir.Kernel.C31_accum_violated"
   ],
   "note": "The accumulation is proved for power-of-two step counts (unrolled) and for all counts the rolled variant admits; the unrolled violation on a non-power-of-two count is C31_accum_violated."
  },
  {
   "property": "C32",
   "status": "proved",
   "theorems": [
    "Heir.Kernel.C32_bsgs",
    "Heir.Kernel.C32_bsgsRolled",
    "Heir.Kernel.C32_any_split",
    "Heir.Kernel.C32_naive",
    "Heir.Kernel.C32_no_steps",
    "Heir.Kernel.C32_false_entries_differ"
   ],
   "note": "Proved for the unrolled and rolled variants with any split, any declared zero diagonals that are zero, in a semantics where a rotation without key is undefined. The variants read map entries with value false differently (C32_false_entries_differ); callers only insert true."
  },
  {
   "property": "C33",
   "status": "proved",
   "theorems": [
    "Heir.Kernel.C33_haleviShoup",
    "Heir.Kernel.C33_haleviShoupRolled"
   ],
   "note": "Slot count a power of two up to 2^24 holding the padded dimensions; packed operands in, packed product out."
  },
  {
   "property": "C34",
   "status": "proved",
   "theorems": [
    "Heir.Kernel.C34_bicyclic",
    "Heir.Kernel.C34_bicyclic_rejected"
   ],
   "note": "Kernel, addition of the initial value and replication of the valid prefix; C34_bicyclic_rejected covers slot counts that are too small (assertion)."
  },
  {
   "property": "C35",
   "status": "proved",
   "theorems": [
    "Heir.Kernel.C35_tricyclic",
    "Heir.Kernel.C35_tricyclic_rejected"
   ],
   "note": "As C34 for batches."
  },
  {
   "property": "C36",
   "status": "proved",
   "theorems": [
    "Heir.Kernel.C36_accum",
    "Heir.Kernel.C36_bsgs",
    "Heir.Kernel.C36_lintrans"
   ],
   "note": "The kernels evaluate without an undefined rotation when only the declared keys exist, at every slot count."
  },
  {
   "property": "C37",
   "status": "proved",
   "theorems": [
    "Heir.Shift.C37_populate",
    "Heir.Shift.C37_network",
    "Heir.Shift.C37_empty"
   ],
   "note": "End to end from the requested pairs to the evaluated expressions, for any iteration order, shift order and tie-breaking. The caches of VosVosErkinShiftNetworks are not modelled (their keys are compared by content). Quantified up to 2^31 slots: beyond that defaultShiftOrder shifts an int out of range."
  },
  {
   "property": "C38",
   "status": "proved",
   "theorems": [
    "Heir.Graph.C38_edges",
    "Heir.Graph.C38_topologicalSort"
   ],
   "note": "Any linear order of vertices, any history of addVertex/addEdge; the loop ends within one iteration per vertex."
  },
  {
   "property": "C39",
   "status": "proved",
   "theorems": [
    "Heir.Graph.C39_sortGraphByLevels",
    "Heir.Graph.C39_cyclic",
    "Heir.Graph.C39_level_from_inputs_violated"
   ],
   "note": "Level = longest walk to a sink, counted from the end; the comment in the header describes a different level (violation witness)."
  },
  {
   "property": "C40",
   "status": "proved",
   "theorems": [
    "Heir.Graph.C40_color",
    "Heir.Graph.C40_priorityQueue"
   ],
   "note": "Any priority queue that returns some element (Pops), in particular the one of the code; self-loops excluded from properness."
  },
  {
   "property": "C41",
   "status": "partial",
   "theorems": [
    "Heir.Graph.C41_unit_partial",
    "Heir.Graph.C41_loop_violated",
    "Heir.Graph.C41_default_violated",
    "Heir.Graph.C41_weight_violated"
   ],
   "note": "Violated: forward links are overwritten. Proved for unit weights: failure iff unreachable, and any returned path is a shortest path; three violation witnesses."
  },
  {
   "property": "C42",
   "status": "partial",
   "theorems": [
    "Heir.Rotate.C42_rewrites_partial",
    "Heir.Rotate.C42_defined_partial",
    "Heir.Rotate.C42_combine_violated_type",
    "Heir.Rotate.C42_combine_partial",
    "Heir.Rotate.C42_combine_violated",
    "Heir.Rotate.C42_normalize_partial",
    "Heir.Rotate.C42_normalize_violated",
    "Heir.Rotate.C42_normalize_violated_ub",
    "Heir.Rotate.C42_fold_partial",
    "Heir.Rotate.C42_fold_violated",
    "Heir.Rotate.C42_fold_violated_rank",
    "Heir.Rotate.C42_extract_partial",
    "Heir.Rotate.C42_extract_violated",
    "Heir.Rotate.C42_extract_violated_type"
   ],
   "note": "Any sequence of rewrites at any position keeps all values when the last dimension is a power of two below the range of the shift types and rotated constants fill one row; single patterns for other lengths under range hypotheses. Missing: fails otherwise (witnesses)."
  },
  {
   "property": "C43",
   "status": "partial",
   "theorems": [
    "Heir.Reduce.C43_complete_partial",
    "Heir.Reduce.C43_assertions_partial",
    "Heir.Reduce.C43_violated"
   ],
   "note": "A complete reduction reported by the analysis is the reduction of every element once, over all valid programs with nonnegative known rotations; negative rotations violate it (witness). No internal assertion of the analysis fails."
  },
  {
   "property": "C44",
   "status": "partial",
   "theorems": [
    "Heir.Chain.C44_step_partial",
    "Heir.Chain.C44_chains_partial",
    "Heir.Chain.C44_terminates",
    "Heir.Chain.C44_violated"
   ],
   "note": "Any number of rewrites keeps all executions and the typing if no value has two inserts of extracted elements into it; branching chains violate the property (witness). The walk terminates."
  },
  {
   "property": "C45",
   "status": "proved",
   "theorems": [
    "Heir.Balance.C45_balance",
    "Heir.Balance.C45_pass",
    "Heir.Balance.C45_depth"
   ],
   "note": "Block-level: no erase failure, well-formed result, all other ops kept, all remaining values equal for any associative commutative ops, any secretness; trees have depth exactly ceil(log2 n). Floating point addition and multiplication are treated as associative."
  },
  {
   "property": "C46",
   "status": "proved",
   "theorems": [
    "Heir.PolyEval.C46_computePowers_depth",
    "Heir.PolyEval.C46_genPowers_depth",
    "Heir.PolyEval.C46_chebValues_depth",
    "Heir.PolyEval.C46_chebyshev_depth"
   ],
   "note": "Exact depth of the power and Chebyshev bases, upper bound for the whole evaluation DAG."
  },
  {
   "property": "C47",
   "status": "partial",
   "theorems": [
    "Heir.Dag.C47_floorDiv_partial",
    "Heir.Dag.C47_floorDiv_zero_violated",
    "Heir.Dag.C47_floorDiv_vector_violated",
    "Heir.Dag.C47_floorDiv_negative_violated"
   ],
   "note": "Holds for positive operands; zero, vector and negative dividends are refuted."
  },
  {
   "property": "C48",
   "status": "proved",
   "theorems": [
    "Heir.Dag.C48_vector_ops",
    "Heir.Dag.C48_rotate",
    "Heir.Dag.C48_mixed_operands_violated"
   ],
   "note": "Pointwise and cyclic claims proved; mixed vector/scalar operands silently return the left operand."
  },
  {
   "property": "C49",
   "status": "proved",
   "theorems": [
    "Heir.Kernel.C49_secret_lhs",
    "Heir.Kernel.C49_secret_rhs"
   ],
   "note": "Both secret sides. The reach is period*(n-1)."
  },
  {
   "property": "C50",
   "status": "partial",
   "theorems": [
    "Heir.Layout.C50_rowMajor_partial",
    "Heir.Layout.C50_rowMajor_float_violated",
    "Heir.Layout.C50_diagonal",
    "Heir.Layout.C50_bicyclic_partial",
    "Heir.Layout.C50_bicyclic_not_coprime",
    "Heir.Layout.C50_tricyclic_partial",
    "Heir.Layout.C50_perRow",
    "Heir.Layout.C50_bicyclicDiagonal",
    "Heir.Layout.C50_crtAssign_bicyclic",
    "Heir.Layout.C50_crtAssign_tricyclic"
   ],
   "note": "Row-major, bicyclic and tricyclic only up to 2^24 elements because the ciphertext bound is computed in float; C50_rowMajor_float_violated is a tensor whose last element is not stored."
  },
  {
   "property": "C51",
   "status": "partial",
   "theorems": [
    "Heir.Shift.C51_best_violated",
    "Heir.Shift.C51_best_partial"
   ],
   "note": "The comparison of numbers of rounds never distinguishes two orders."
  },
  {
   "property": "C52",
   "status": "partial",
   "theorems": [
    "Heir.Reduce.C52_replace_partial",
    "Heir.Reduce.C52_violated"
   ],
   "note": "Every replacement keeps the value for power-of-two tensors; other sizes are miscompiled (witness)."
  },
  {
   "property": "C53",
   "status": "partial",
   "theorems": [
    "Heir.Rotate.C53_slices_partial",
    "Heir.Rotate.C53_violated_dynamic",
    "Heir.Rotate.C53_violated_const"
   ],
   "note": "Slices are the rotation for all shapes and shifts if the type of the shift holds twice the dimension (constant shift) or four times (run-time shift); narrower types violate it (witnesses)."
  },
  {
   "property": "C54",
   "status": "partial",
   "theorems": [
    "Heir.Balance.C54_depth_partial",
    "Heir.Balance.C54_other_depth",
    "Heir.Balance.C54_violated"
   ],
   "note": "Holds when the operands of each balanced tree have one depth, and for the depth in other kinds of op; a deep operand violates it (witness)."
  },
  {
   "property": "C55",
   "status": "partial",
   "theorems": [
    "Heir.Static.C55_for_partial",
    "Heir.Static.C55_violated"
   ],
   "note": "The secret lower bound must lie on the grid of the annotated one; the negation is proved for step 2."
  },
  {
   "property": "C56",
   "status": "partial",
   "theorems": [
    "Heir.Static.C56_while_partial",
    "Heir.Static.C56_violated"
   ],
   "note": "Loop variables must be forwarded unchanged and in order; the check in the code does not see permutations (negation proved)."
  },
  {
   "property": "C57",
   "status": "partial",
   "theorems": [
    "Heir.Static.C57_extract_partial",
    "Heir.Static.C57_insert_partial",
    "Heir.Static.C57_violated_dynamic",
    "Heir.Static.C57_only_secret_vectors",
    "Heir.Static.C57_violated_large"
   ],
   "note": "Static extents below 2^31; dynamic and larger extents are violations, proved."
  },
  {
   "property": "C58",
   "status": "proved",
   "theorems": [
    "Heir.Secret.C58_values",
    "Heir.Secret.C58_wellformed",
    "Heir.Secret.C58_terminates",
    "Heir.Secret.C58_hoists_reveals"
   ],
   "note": "Structured programs over named values with pure ops, region ops, effects, scf.if and scf.for; any number of rewrites anywhere. Termination for pure programs. C58_hoists_reveals records that reveals are hoisted."
  },
  {
   "property": "C59",
   "status": "partial",
   "theorems": [
    "Heir.Secret.C59_noninterference_partial",
    "Heir.Secret.C59_labels_known",
    "Heir.Secret.C59_oblivious_partial",
    "Heir.Secret.C59_violated_branch",
    "Heir.Secret.C59_violated_unknown",
    "Heir.Secret.C59_violated_memory"
   ],
   "note": "Noninterference for stable states reached from fresh labels in any visiting order, for programs whose branch conditions and loop bounds are labelled public, whose yields have known labels and whose impure ops do not load. Each missing hypothesis has a proved counterexample."
  },
  {
   "property": "C60",
   "status": "proved",
   "theorems": [
    "Heir.Quart.C60_add",
    "Heir.Quart.C60_small",
    "Heir.Quart.C60_chain"
   ],
   "note": "Chunks are 16-bit words as generated; chains are arbitrary addition trees over fresh chunks."
  },
  {
   "property": "C61",
   "status": "partial",
   "theorems": [
    "Heir.Quart.C61_const_partial",
    "Heir.Quart.C61_violated_const",
    "Heir.Quart.C61_violated_const_width",
    "Heir.Quart.C61_extui_partial",
    "Heir.Quart.C61_extsi_partial",
    "Heir.Quart.C61_violated_extsi",
    "Heir.Quart.C61_violated_extui",
    "Heir.Quart.C61_mul_exact",
    "Heir.Quart.C61_mul_partial",
    "Heir.Quart.C61_violated_mul"
   ],
   "note": "Constants, zero and sign extensions and products are right under the stated conditions (bytes below 128, operands in range, nonnegative for extsi, no carry lost in the second column); witnesses show each condition is needed. C61_mul_exact gives the exact number the product code computes."
  },
  {
   "property": "C62",
   "status": "partial",
   "theorems": [
    "Heir.Forward.C62_preserved_partial",
    "Heir.Forward.C62_violated_index",
    "Heir.Forward.C62_violated_alias",
    "Heir.Forward.C62_violated_call",
    "Heir.Forward.C62_violated_erase",
    "Heir.Forward.C62_violated_memref_stored"
   ],
   "note": "Whole final state is preserved by every sequence of both rewrites, for every order of the use lists, under the no-aliasing hypotheses stated in Good; each of them is necessary (witnesses). Erasure of dead loads is left to the driver."
  },
  {
   "property": "C63",
   "status": "partial",
   "theorems": [
    "Heir.Forward.C63_partial",
    "Heir.Forward.C63_violated_index",
    "Heir.Forward.C63_violated_large"
   ],
   "note": "Any chain of inserts over an argument, a splat, a dense constant or from_elements; partial since walked-past run-time indices must differ, witness shown."
  },
  {
   "property": "C64",
   "status": "partial",
   "theorems": [
    "Heir.Fold.C64_indices",
    "Heir.Fold.C64_transpose_partial",
    "Heir.Fold.C64_broadcast_partial",
    "Heir.Fold.C64_slice_partial",
    "Heir.Fold.C64_violated_large"
   ],
   "note": "Transpose, broadcast and slice-of-broadcast folds have the element of the original at every index, for all ranks and shapes below 2^31 elements; from there on the int counter and int positions break it (C64_violated_large). Splat constants are not modelled."
  },
  {
   "property": "C65",
   "status": "partial",
   "theorems": [
    "Heir.Linalg.C65_map_partial",
    "Heir.Linalg.C65_violated_swapped",
    "Heir.Linalg.C65_violated_outer",
    "Heir.Linalg.C65_violated_yield",
    "Heir.Linalg.C65_violated_attrs",
    "Heir.Linalg.C65_generic",
    "Heir.Linalg.C65_generic_total"
   ],
   "note": "The linalg.generic rewrite is proved for all bodies, including that it succeeds and the result is defined. The linalg.map rewrite is proved when the op's operands are the inputs in order, its attributes are those of the map and its result is yielded; counterexamples for each otherwise."
  },
  {
   "property": "C66",
   "status": "partial",
   "theorems": [
    "Heir.Conv.C66_undilate1D",
    "Heir.Conv.C66_undilate2D",
    "Heir.Conv.C66_pool1D_partial",
    "Heir.Conv.C66_pool2D_partial",
    "Heir.Conv.C66_violated_divInto",
    "Heir.Conv.C66_violated_init"
   ],
   "note": "Undilated convolutions equal the dilated ones over any commutative ring, for all shapes, strides and positive dilations, reading no further; poolings equal their convolutions over fields when the constant is the divisor and a divided pooling starts from zero (witnesses otherwise). Float rounding is not modelled."
  },
  {
   "property": "C67",
   "status": "partial",
   "theorems": [
    "Heir.Conv.C67_extent",
    "Heir.Conv.C67_int",
    "Heir.Conv.C67_float_partial",
    "Heir.Conv.C67_violated_map",
    "Heir.Conv.C67_violated_yield"
   ],
   "note": "The fused convolution equals the scaled pooling of the convolution for all shapes, strides, dilations and initial values; a matched linalg.generic must read in place and yield its result (C67_violated_map, C67_violated_yield). Float rounding is not modelled."
  },
  {
   "property": "C68",
   "status": "partial",
   "theorems": [
    "Heir.Fold.C68_constant",
    "Heir.Fold.C68_from_elements_partial",
    "Heir.Fold.C68_single_use",
    "Heir.Fold.C68_violated_large"
   ],
   "note": "Constant insertion sets exactly one element; the from_elements fold has the elements after the chain, below 2^31 elements (C68_violated_large is the witness above)."
  },
  {
   "property": "C69",
   "status": "partial",
   "theorems": [
    "Heir.Linalg.C69_reassociation",
    "Heir.Linalg.C69_expand_shape",
    "Heir.Linalg.C69_materialize_partial",
    "Heir.Linalg.C69_violated_order",
    "Heir.Linalg.C69_refused"
   ],
   "note": "Reassociation, expand_shape and refusal are proved for all shapes. The materialized broadcast is proved when the dimensions occur in increasing order in the map; counterexample for a permuting map."
  },
  {
   "property": "C70",
   "status": "partial",
   "theorems": [
    "Heir.Lwe.C70_pk_partial",
    "Heir.Lwe.C70_sk_partial",
    "Heir.Lwe.C70_violated_sk",
    "Heir.Lwe.C70_violated_pk",
    "Heir.Lwe.C70_violated_noise"
   ],
   "note": "Violated as written: public-key ciphertexts decrypt to s*m, secret-key ciphertexts to 2us+m+e, and the public-key noise factor is always 0. Proved: decryption inverts encryption for the exchanged ciphertext (public key) and for the negated key (secret key) under an exact no-wraparound condition on message plus noise."
  },
  {
   "property": "C71",
   "status": "partial",
   "theorems": [
    "Heir.Lwe.C71_add_partial",
    "Heir.Lwe.C71_violated_sizes",
    "Heir.Lwe.C71_mulScalar",
    "Heir.Lwe.C71_negate_exact",
    "Heir.Lwe.C71_negate_partial",
    "Heir.Lwe.C71_violated_negate",
    "Heir.Lwe.C71_mul",
    "Heir.Lwe.C71_mulRingElt"
   ],
   "note": "Add, subtract, scalar, ciphertext and ring-element products act on the phase in both conventions, for all rings, moduli and sizes. Violated: negation for moduli not dividing 2^w, operands of different sizes, plaintext operands."
  },
  {
   "property": "C72",
   "status": "proved",
   "theorems": [
    "Heir.Lwe.C72_mod_down",
    "Heir.Lwe.C72_key_switch",
    "Heir.Lwe.C72_relinearize",
    "Heir.Lwe.C72_rejects"
   ],
   "note": "Key switch, relinearization and mod-down proved for all RNS bases, all partitions, all keys and noises with an explicit noise identity and bounds; wrong keys are rejected."
  },
  {
   "property": "C73",
   "status": "proved",
   "theorems": [
    "Heir.Mgmt.C73_insertion_keeps_result",
    "Heir.Mgmt.C73_bfv_insertion_keeps_result"
   ],
   "note": "Straight-line bodies; all options of the BGV/CKKS passes and the B/FV pass; the meaning of the arithmetic ops is arbitrary."
  },
  {
   "property": "C74",
   "status": "proved",
   "theorems": [
    "Heir.Mgmt.C74_levels_match",
    "Heir.Mgmt.C74_dropped_moduli_match"
   ],
   "note": "Total: the pass never looks up a missing state. Levels that the analysis calls invalid (bootstrapping required) are exempt, as in the code. Insertions have at most two secret operands."
  },
  {
   "property": "C75",
   "status": "partial",
   "theorems": [
    "Heir.Mgmt.C75_products_relinearized",
    "Heir.Mgmt.C75_two_components",
    "Heir.Mgmt.C75_bfv_relinearization_violated",
    "Heir.Mgmt.C75_bfv_relinearization_partial"
   ],
   "note": "Proved for BGV and CKKS. The B/FV pass skips a product whose operand was relinearized in the same walk (violated, witness x*x*x); the partial theorem covers programs without a product directly of a product."
  },
  {
   "property": "C76",
   "status": "partial",
   "theorems": [
    "Heir.Mgmt.C76_depth_counts_paths_partial",
    "Heir.Mgmt.C76_depth_violated_beyond_budget"
   ],
   "note": "Exact up to depth 40; beyond the analysis is invalid and the assertion in getMaxMulDepth fails (violated for every deeper program)."
  },
  {
   "property": "C77",
   "status": "proved",
   "theorems": [
    "Heir.Mgmt.C77_fresh_operands_adjusted"
   ],
   "note": "Stated with path counts on the produced program. Insertions have at most two secret operands."
  },
  {
   "property": "C78",
   "status": "partial",
   "theorems": [
    "Heir.Scale.C78_populated_validates_partial",
    "Heir.Scale.C78_reduced_operands_violated",
    "Heir.Scale.C78_bootstrap_violated"
   ],
   "note": "Straight-line bodies. Proved when values reduced below the default scale only meet operands at the default scale, and without adjustments or bootstraps in the input; both restrictions are needed (violation theorems with witnesses)."
  },
  {
   "property": "C79",
   "status": "partial",
   "theorems": [
    "Heir.Scale.C79_validated_scales_hold_partial",
    "Heir.Scale.C79_populated_scales_hold_partial",
    "Heir.Scale.C79_arguments_at_input_scale",
    "Heir.Scale.C79_bootstrap_room",
    "Heir.Scale.C79_containers_violated"
   ],
   "note": "Over any field and algebra; rounding and the gap between a prime and a power of two are not modelled. Operations without a rule must keep scales, which validation does not check (violation theorem)."
  },
  {
   "property": "C80",
   "status": "partial",
   "theorems": [
    "Heir.Noise.C80_generated_digits",
    "Heir.Noise.C80_noise_bounded_partial",
    "Heir.Noise.C80_insert_violated",
    "Heir.Noise.C80_digits_violated"
   ],
   "note": "Proved for the worst-case variant on straight-line programs, in every commutative ring with a coefficient size (instance: integer polynomials modulo X^N + 1), when operations that inherit noise have one secret operand and enough digits are counted (C80_generated_digits). Violated by tensor.insert_slice and by dnum from attributes."
  },
  {
   "property": "C81",
   "status": "partial",
   "theorems": [
    "Heir.Noise.C81_validated_decrypts_partial",
    "Heir.Noise.C81_fresh_violated"
   ],
   "note": "Proved for public-key or extended encryption with the deviation of the code, and for all values computed with an addition, subtraction, multiplication or adjustment; violated for fresh secret-key ciphertexts at the limit of the budget."
  },
  {
   "property": "C82",
   "status": "partial",
   "theorems": [
    "Heir.Range.C82_ranges_bound_partial",
    "Heir.Range.C82_sub_violated",
    "Heir.Range.C82_negative_elements_violated",
    "Heir.Range.C82_resource_violated",
    "Heir.Range.C82_combination_violated",
    "Heir.Range.C82_constants_undefined",
    "Heir.Range.C82_loop_diverges"
   ],
   "note": "Proved for straight-line programs without subtractions, without negative elements in integer tensors, and with other operations taking elements from their first operand; each exclusion has a witness where the code breaks the claim."
  },
  {
   "property": "C83",
   "status": "partial",
   "theorems": [
    "Heir.Range.C83_first_modulus_room_partial",
    "Heir.Range.C83_arguments_violated",
    "Heir.Range.C83_zero_undefined"
   ],
   "note": "Proved for results with a range under the conditions of C82; arguments at level zero are not looked at by the code (witness)."
  },
  {
   "property": "C84",
   "status": "proved",
   "theorems": [
    "Heir.Relin.C84_result_kept",
    "Heir.Relin.C84_valid",
    "Heir.Relin.C84_feasible",
    "Heir.Relin.C84_least",
    "Heir.Relin.C84_optimal_exists",
    "Heir.Relin.C84_dimension"
   ],
   "note": "The solver is any solution (or any optimal one) of the linear program over the rationals; straight-line bodies of secret.generic as in the management model."
  },
  {
   "property": "C85",
   "status": "partial",
   "theorems": [
    "Heir.InPlace.C85_values_partial",
    "Heir.InPlace.C85_allocating_values",
    "Heir.InPlace.C85_arguments",
    "Heir.InPlace.C85_defined",
    "Heir.InPlace.C85_unseen_violated",
    "Heir.InPlace.C85_fetch_violated",
    "Heir.InPlace.C85_memref_violated",
    "Heir.InPlace.C85_undefined"
   ],
   "note": "Proved for all blocks, mixed in-place input, under: references kept by recognised ops only, fetched values kept visibly or arguments, loaded cells loaded once and held nowhere else. Each condition is necessary: witnesses for from_elements, loop results, memref pattern, missing level. Arguments unchanged and termination proved."
  },
  {
   "property": "C86",
   "status": "partial",
   "theorems": [
    "Heir.InPlace.C86_levels_partial",
    "Heir.InPlace.C86_memref_violated"
   ],
   "note": "Proved for all level assignments on blocks meeting C85's conditions when loaded ciphertexts have not consumed more levels than results; the memref pattern without that is a witness of the violation."
  },
  {
   "property": "C87",
   "status": "partial",
   "theorems": [
    "Heir.InPlace.C87_values_partial",
    "Heir.InPlace.C87_insert_violated",
    "Heir.InPlace.C87_extract_violated",
    "Heir.InPlace.C87_arguments_violated"
   ],
   "note": "Proved for allocating blocks that fetch nothing and keep references only at the end; tensor insertion, extraction and the caller's arguments are violated by witnesses."
  },
  {
   "property": "C88",
   "status": "partial",
   "theorems": [
    "Heir.Place.C88_sound_partial",
    "Heir.Place.C88_plain_violated"
   ],
   "note": "Straight-line bodies, no level_reduce_min, plaintext factors constant; violated for other plaintext factors."
  },
  {
   "property": "C89",
   "status": "partial",
   "theorems": [
    "Heir.Place.C89_levels_partial",
    "Heir.Place.C89_consumed_violated",
    "Heir.Place.C89_annotated_violated"
   ],
   "note": "Proved for unannotated arguments and targets whose bootstrap consumes no levels; violated otherwise."
  },
  {
   "property": "C90",
   "status": "partial",
   "theorems": [
    "Heir.Place.C90_bootstraps",
    "Heir.Place.C90_rescalings_partial",
    "Heir.Place.C90_uncharged_violated"
   ],
   "note": "Bootstraps are charged exactly; rescalings when no bootstrap is placed, violated otherwise."
  },
  {
   "property": "C91",
   "status": "partial",
   "theorems": [
    "Heir.Place.C91_depth_partial",
    "Heir.Place.C91_product_violated"
   ],
   "note": "Proved when the lower bound is at least 1 or no bootstrap is placed; violated with the default lower bound 0."
  },
  {
   "property": "C92",
   "status": "proved",
   "theorems": [
    "Heir.Toeplitz.C92_conv1d",
    "Heir.Toeplitz.C92_conv2d",
    "Heir.Toeplitz.C92_conv1dMulti",
    "Heir.Toeplitz.C92_conv2dMulti",
    "Heir.Toeplitz.C92_unambiguous",
    "Heir.Toeplitz.C92_sequence",
    "Heir.Toeplitz.C92_windows"
   ],
   "note": "All four kinds of convolution, any stride and padding; the stepwise relation for two dimensions equals the direct one."
  },
  {
   "property": "C93",
   "status": "partial",
   "theorems": [
    "Heir.Toeplitz.C93_conv1d",
    "Heir.Toeplitz.C93_conv2d",
    "Heir.Toeplitz.C93_conv1dMulti_partial",
    "Heir.Toeplitz.C93_conv1dMulti_sizes",
    "Heir.Toeplitz.C93_conv2dMulti_partial",
    "Heir.Toeplitz.C93_fold",
    "Heir.Toeplitz.C93_columns_violated",
    "Heir.Toeplitz.C93_dilation_violated",
    "Heir.Toeplitz.C93_chain_violated"
   ],
   "note": "Full for conv_1d and conv_2d (as compiled: stride 1, no padding). conv_1d_ncw_fcw under equal padded sizes, which holds when the stride divides w-k without padding (C93_conv1dMulti_sizes); conv_2d_nchw_fchw with equal strides. Negations with witnesses: columns no window reaches, dilations, a convolution after a strided one."
  },
  {
   "property": "C94",
   "status": "proved",
   "theorems": [
    "Heir.Toeplitz.C94_interchange1",
    "Heir.Toeplitz.C94_interchange2",
    "Heir.Toeplitz.C94_undivided_violated",
    "Heir.Toeplitz.C94_result1",
    "Heir.Toeplitz.C94_result2"
   ],
   "note": "Permutation in one and two dimensions; result layouts complete and unambiguous over any number of ciphertexts."
  },
  {
   "property": "C95",
   "status": "partial",
   "theorems": [
    "Heir.Lut.C95_gate_meaning",
    "Heir.Lut.C95_converted",
    "Heir.Lut.C95_secretToCggi",
    "Heir.Lut.C95_decompose_partial",
    "Heir.Lut.C95_verified",
    "Heir.Lut.C95_tfheRust",
    "Heir.Lut.C95_decrypt",
    "Heir.Lut.C95_jaxite",
    "Heir.Lut.C95_gates_violated",
    "Heir.Lut.C95_expanded_violated"
   ],
   "note": "Proved for programs with a table (any number of gates around it), for tfhe-rust and jaxite, and for whatever the verifiers accept before expansion. Violated: programs of gates alone get one message bit and are rejected after decomposition; an expanded combination is accepted with too few message bits."
  },
  {
   "property": "C96",
   "status": "partial",
   "theorems": [
    "Heir.Lut.C96_select_partial",
    "Heir.Lut.C96_select_iff",
    "Heir.Lut.C96_select_violated"
   ],
   "note": "Exact value of the emitted selections: inputs negated and in reverse order. Violated e.g. by the conjunction of three bits."
  },
  {
   "property": "C97",
   "status": "partial",
   "theorems": [
    "Heir.Lut.C97_integer",
    "Heir.Lut.C97_tensor_partial",
    "Heir.Lut.C97_vector_exact",
    "Heir.Lut.C97_vector_violated",
    "Heir.Lut.C97_matrix_violated",
    "Heir.Lut.C97_flatten"
   ],
   "note": "Proved for integers, one-element tensors and for the index conversions. Violated for vectors and matrices: the shape is passed as strides."
  },
  {
   "property": "C98",
   "status": "partial",
   "theorems": [
    "Heir.Lut.C98_gates",
    "Heir.Lut.C98_lut3_partial",
    "Heir.Lut.C98_lut3_iff",
    "Heir.Lut.C98_lut3_violated"
   ],
   "note": "Proved for gates; tables get their operands in reverse order, so only batches of symmetric tables are right (exact characterization)."
  },
  {
   "property": "C99",
   "status": "partial",
   "theorems": [
    "Heir.Lut.C99_import_partial",
    "Heir.Lut.C99_import_violated",
    "Heir.Lut.C99_table_partial"
   ],
   "note": "Proved for up to five inputs, beyond that the shift is undefined behaviour."
  },
  {
   "property": "C100",
   "status": "partial",
   "theorems": [
    "Heir.Vectorize.C100_vectorize_partial",
    "Heir.Vectorize.C100_vectorize_straight",
    "Heir.Vectorize.C100_batched",
    "Heir.Vectorize.C100_parallelism",
    "Heir.Vectorize.C100_batchCompatible",
    "Heir.Vectorize.C100_areCompatible",
    "Heir.Vectorize.C100_sameKind_partial",
    "Heir.Vectorize.C100_sameKind_batched",
    "Heir.Vectorize.C100_lut3_violated",
    "Heir.Vectorize.C100_captured_violated",
    "Heir.Vectorize.C100_types_violated"
   ],
   "note": "Proved for any block in which no region uses a value that depends on a candidate (in particular straight-line blocks: C100_vectorize_straight), for any symmetric and transitive compatibility, any limit and any topological order. Violated when a region captures a candidate's result and feeds another candidate: the batch closes a cycle; and the straight-line vectorizer gives operands the result type."
  },
  {
   "property": "C101",
   "status": "partial",
   "theorems": [
    "Heir.Rewrite.C101_int_partial",
    "Heir.Rewrite.C101_float_partial",
    "Heir.Rewrite.C101_i1_violated",
    "Heir.Rewrite.C101_float_violated"
   ],
   "note": "Integers of at least two bits: proved for all shapes. Violated for i1 and index operands and for a scalar condition on shaped floats."
  },
  {
   "property": "C102",
   "status": "partial",
   "theorems": [
    "Heir.Rewrite.C102_number_partial",
    "Heir.Rewrite.C102_inverted_violated",
    "Heir.Rewrite.C102_int_violated",
    "Heir.Rewrite.C102_ugt_violated",
    "Heir.Rewrite.C102_ult_violated"
   ],
   "note": "The number before the conversion is characterised; the rewritten comparison is wrong except on equal operands, proved as a negation."
  },
  {
   "property": "C103",
   "status": "partial",
   "theorems": [
    "Heir.Rewrite.C103_max",
    "Heir.Rewrite.C103_maxF_partial",
    "Heir.Rewrite.C103_nan_violated",
    "Heir.Rewrite.C103_domain",
    "Heir.Rewrite.C103_domain_once",
    "Heir.Rewrite.C103_domain_kept_partial",
    "Heir.Rewrite.C103_domain_violated",
    "Heir.Rewrite.C103_softmax"
   ],
   "note": "Maximum on integers and softmax proved in full; floats without NaN; bounds of raised operations kept, those of others violated."
  },
  {
   "property": "C104",
   "status": "partial",
   "theorems": [
    "Heir.Rewrite.C104_accuracy",
    "Heir.Rewrite.C104_constant",
    "Heir.Rewrite.C104_lower_partial",
    "Heir.Rewrite.C104_upper_partial",
    "Heir.Rewrite.C104_upper_violated",
    "Heir.Rewrite.C104_oneSided_violated",
    "Heir.Rewrite.C104_long_violated"
   ],
   "note": "Accuracy proved in full over the reals; lower bound for both or no declared bounds and up to 22026 entries, upper bound for widths up to two; the rest is violated by witnesses."
  },
  {
   "property": "C105",
   "status": "proved",
   "theorems": [
    "Heir.Rewrite.C105_fold",
    "Heir.Rewrite.C105_foldF"
   ],
   "note": "Integers with all flags, and floats as a commutative ring."
  },
  {
   "property": "C106",
   "status": "partial",
   "theorems": [
    "Heir.Rewrite.C106_trailing_partial",
    "Heir.Rewrite.C106_complete",
    "Heir.Rewrite.C106_transposed_violated"
   ],
   "note": "Trailing reduced dimensions: exact acceptance and equality. The projection is always accepted. Violated with leading reduced dimensions and a permuted map."
  },
  {
   "property": "C107",
   "status": "partial",
   "theorems": [
    "Heir.Approx.C107_points",
    "Heir.Approx.C107_symmetric",
    "Heir.Approx.C107_interpolates_partial",
    "Heir.Approx.C107_even_count",
    "Heir.Approx.C107_reproduces_partial",
    "Heir.Approx.C107_odd_violated"
   ],
   "note": "Missing: an odd number of values that are odd but for the middle one; there the claim is false (C107_odd_violated)."
  },
  {
   "property": "C108",
   "status": "partial",
   "theorems": [
    "Heir.Approx.C108_range",
    "Heir.Approx.C108_dropped_partial",
    "Heir.Approx.C108_kept",
    "Heir.Approx.C108_chops",
    "Heir.Approx.C108_defined_partial",
    "Heir.Approx.C108_relative_violated",
    "Heir.Approx.C108_exponent_violated",
    "Heir.Approx.C108_outOfBounds_violated",
    "Heir.Approx.C108_close_partial",
    "Heir.Approx.C108_alias_violated"
   ],
   "note": "Proved: range, dropped coefficients at most tol^(1/3), what is kept, when it cuts, closeness at the sampled points. False: relative to the largest, exponent 2/3, definedness, closeness elsewhere (violated theorems)."
  },
  {
   "property": "C109",
   "status": "partial",
   "theorems": [
    "Heir.Approx.C109_zero_violated",
    "Heir.Approx.C109_rescale",
    "Heir.Approx.C109_unit",
    "Heir.Approx.C109_inverse",
    "Heir.Approx.C109_kernel",
    "Heir.Approx.C109_lowered_partial",
    "Heir.Approx.C109_degree"
   ],
   "note": "Missing: quality of the reduced-degree approximation (eigenvector is a parameter) and inputs between the points. False: the zero function has no evaluation."
  },
  {
   "property": "C110",
   "status": "partial",
   "theorems": [
    "Heir.Approx.C110_value",
    "Heir.Approx.C110_accuracy_partial",
    "Heir.Approx.C110_steps",
    "Heir.Approx.C110_domain_violated"
   ],
   "note": "False without a declared domain (C110_domain_violated)."
  },
  {
   "property": "C111",
   "status": "proved",
   "theorems": [
    "Heir.Approx.C111_pow",
    "Heir.Approx.C111_rejected"
   ],
   "note": "Full: powers of every exponent that is not negative and fits in 64 bits; all other exponents are rejected."
  },
  {
   "property": "C112",
   "status": "partial",
   "theorems": [
    "Heir.Approx.C112_unary_partial",
    "Heir.Approx.C112_applies",
    "Heir.Approx.C112_nan_violated"
   ],
   "note": "False for minima with NaN (C112_nan_violated)."
  },
  {
   "property": "C113",
   "status": "proved",
   "theorems": [
    "Heir.Generic.C113_noninterference"
   ],
   "note": "One block, operations without effects."
  },
  {
   "property": "C114",
   "status": "proved",
   "theorems": [
    "Heir.Generic.C114_step",
    "Heir.Generic.C114_steps"
   ],
   "note": "All patterns that apply without a condition on the rest of the function, in any order."
  },
  {
   "property": "C115",
   "status": "partial",
   "theorems": [
    "Heir.Generic.C115_valid",
    "Heir.Generic.C115_noninterference",
    "Heir.Generic.C115_signature_partial",
    "Heir.Generic.C115_signature_violated"
   ],
   "note": "Violated by RemoveUnusedGenericArgs on a cleartext operand that is passed on (C115_signature_violated); the types of returned values are kept by every other application."
  },
  {
   "property": "C116",
   "status": "partial",
   "theorems": [
    "Heir.Generic.C116_before_partial",
    "Heir.Generic.C116_after_partial",
    "Heir.Generic.C116_captured_violated",
    "Heir.Generic.C116_twice_violated",
    "Heir.Generic.C116_unused_violated"
   ],
   "note": "Violated for captured values, results yielded twice and results not yielded; the partial theorems exclude these."
  },
  {
   "property": "C117",
   "status": "partial",
   "theorems": [
    "Heir.Generic.C117_insert_partial",
    "Heir.Generic.C117_constant_partial",
    "Heir.Generic.C117_insert_violated",
    "Heir.Generic.C117_constant_violated"
   ],
   "note": "Violated where the value replaced is used elsewhere in the function."
  },
  {
   "property": "C118",
   "status": "proved",
   "theorems": [
    "Heir.Generic.C118_normal",
    "Heir.Generic.C118_capture_progress",
    "Heir.Generic.C118_isolated"
   ],
   "note": "Normal forms of four patterns, progress of capturing and isolation."
  },
  {
   "property": "C119",
   "status": "partial",
   "theorems": [
    "Heir.RotKeys.C119_covers_partial",
    "Heir.RotKeys.C119_store_violated",
    "Heir.RotKeys.C119_condition_violated",
    "Heir.RotKeys.C119_constant_violated",
    "Heir.RotKeys.C119_unknown_violated",
    "Heir.RotKeys.C119_argument_violated",
    "Heir.RotKeys.C119_region_violated",
    "Heir.RotKeys.C119_slice_violated",
    "Heir.RotKeys.C119_unsigned_violated",
    "Heir.RotKeys.C119_narrow_violated",
    "Heir.RotKeys.C119_rank_violated",
    "Heir.RotKeys.C119_division_violated"
   ],
   "note": "For loops whose amounts are integers computed by known operations from constants and loop counters and whose results need all rotations (tame); otherwise false: eleven programs with a rotation without key or a crash."
  },
  {
   "property": "C120",
   "status": "proved",
   "theorems": [
    "Heir.RotKeys.C120_recorded"
   ],
   "note": "Membership in the log is equivalent to the failure of the cacheless evaluation that stops at the amount."
  },
  {
   "property": "C121",
   "status": "partial",
   "theorems": [
    "Heir.RotKeys.C121_power",
    "Heir.RotKeys.C121_compose",
    "Heir.RotKeys.C121_distinct",
    "Heir.RotKeys.C121_generated",
    "Heir.RotKeys.C121_keys_partial"
   ],
   "note": "The end-to-end theorem inherits the condition of C119; the arithmetic of Galois elements is complete."
  },
  {
   "property": "C122",
   "status": "partial",
   "theorems": [
    "Heir.Memref.C122_forward_partial",
    "Heir.Memref.C122_forwards_partial",
    "Heir.Memref.C122_local_partial",
    "Heir.Memref.C122_view_partial",
    "Heir.Memref.C122_dynamic_offset_violated",
    "Heir.Memref.C122_other_write_violated",
    "Heir.Memref.C122_undefined_violated"
   ],
   "note": "Partial: static layouts, and only affine.store writes to what is loaded; violations proved for dynamic offsets, other writes and unknown sources."
  },
  {
   "property": "C123",
   "status": "partial",
   "theorems": [
    "Heir.Memref.C123_erase_partial",
    "Heir.Memref.C123_nested_violated"
   ],
   "note": "Partial: a view of a view is undefined behaviour."
  },
  {
   "property": "C124",
   "status": "partial",
   "theorems": [
    "Heir.Memref.C124_copy_partial",
    "Heir.Memref.C124_dynamic_violated"
   ],
   "note": "Partial: static dimensions; for a dynamic dimension nothing is copied."
  },
  {
   "property": "C125",
   "status": "partial",
   "theorems": [
    "Heir.Memref.Extract.C125_extract_partial",
    "Heir.Memref.Extract.C125_done_partial",
    "Heir.Memref.Extract.C125_search",
    "Heir.Memref.Extract.C125_last_violated",
    "Heir.Memref.Extract.C125_direct_violated",
    "Heir.Memref.Extract.C125_late_load_violated",
    "Heir.Memref.Extract.C125_outer_violated",
    "Heir.Memref.Extract.C125_induction_variable_violated"
   ],
   "note": "Partial: the function must return the stored value and the verifier must accept the result; five violations."
  },
  {
   "property": "C126",
   "status": "partial",
   "theorems": [
    "Heir.Memref.C126_affine",
    "Heir.Memref.C126_load_partial",
    "Heir.Memref.C126_load_violated"
   ],
   "note": "affine.load for all layouts; memref.load for the identity layout only."
  },
  {
   "property": "C127",
   "status": "partial",
   "theorems": [
    "Heir.Verilog.C127_function_partial",
    "Heir.Verilog.C127_unsigned_violated",
    "Heir.Verilog.C127_bit_violated",
    "Heir.Verilog.C127_bit_max_violated",
    "Heir.Verilog.C127_constant_violated",
    "Heir.Verilog.C127_index_cast_violated"
   ],
   "note": "Proved for functions without regions that meet GoodRun; violated for unsigned comparisons of more than one bit, signed operations on i1, constants of more than 32 bits and index casts of negative numbers. Calls, loops, stores and index arguments are not modelled here."
  },
  {
   "property": "C128",
   "status": "partial",
   "theorems": [
    "Heir.Verilog.C128_constant_partial",
    "Heir.Verilog.C128_crash_violated",
    "Heir.Verilog.C128_constant_violated",
    "Heir.Verilog.C128_from_elements_reversed",
    "Heir.Verilog.C128_from_elements_violated"
   ],
   "note": "Proved for constants whose element width is a multiple of 4; violated for other widths (crash or misplaced elements) and for tensor.from_elements (reversed)."
  },
  {
   "property": "C129",
   "status": "partial",
   "theorems": [
    "Heir.Verilog.C129_insert_partial",
    "Heir.Verilog.C129_low_violated",
    "Heir.Verilog.C129_first_violated"
   ],
   "note": "Proved for the bits from the inserted element on; violated below it and, for the first element, at bit 0."
  },
  {
   "property": "C130",
   "status": "partial",
   "theorems": [
    "Heir.Verilog.C130_ctlz_partial",
    "Heir.Verilog.C130_ctlz_violated"
   ],
   "note": "Proved below 16; violated for all multiples of 2^16 from 2^17 on."
  },
  {
   "property": "C131",
   "status": "partial",
   "theorems": [
    "Heir.Verilog.C131_width",
    "Heir.Verilog.C131_load_partial",
    "Heir.Verilog.C131_load_violated"
   ],
   "note": "The width is proved; the access is proved in the lower half of the range and violated in the upper half."
  },
  {
   "property": "C132",
   "status": "proved",
   "theorems": [
    "Heir.Graph.C132_components"
   ],
   "note": "Full: for every graph built by any sequence of calls."
  },
  {
   "property": "C133",
   "status": "partial",
   "theorems": [
    "Heir.Graph.C133_contract_partial",
    "Heir.Graph.C133_missing",
    "Heir.Graph.C133_missing_same",
    "Heir.Graph.C133_loop_violated",
    "Heir.Graph.C133_merge_violated"
   ],
   "note": "Proved for contractions of edges between different vertices with a mergeFn that leaves source alone; both conditions are needed (loop and merge witnesses)."
  },
  {
   "property": "C134",
   "status": "partial",
   "theorems": [
    "Heir.Graph.C134_condense_partial",
    "Heir.Graph.C134_acyclic_partial",
    "Heir.Graph.C134_loop_violated",
    "Heir.Graph.C134_deleted_violated",
    "Heir.Graph.C134_hang_violated"
   ],
   "note": "Proved if every vertex with a loop is alone in its component, and acyclicity if there are no loops; the witnesses show deletion, a cycle left, and nontermination with loops."
  },
  {
   "property": "C135",
   "status": "partial",
   "theorems": [
    "Heir.Graph.C135_critical_partial",
    "Heir.Graph.C135_path_violated"
   ],
   "note": "What is returned is characterised; it is not a path (witness)."
  },
  {
   "property": "C136",
   "status": "partial",
   "theorems": [
    "Heir.Rtlil.C136_import_partial",
    "Heir.Rtlil.C136_total_partial",
    "Heir.Rtlil.C136_determined",
    "Heir.Rtlil.C136_violated_copy",
    "Heir.Rtlil.C136_violated_split",
    "Heir.Rtlil.C136_violated_default",
    "Heir.Rtlil.C136_violated_order"
   ],
   "note": "Copies of whole wires are served only from inputs to adjacent bits of one wire; netlists outside of that fail or, for bits of an output assigned as a whole, give a wrong function (four violations proved)."
  },
  {
   "property": "C137",
   "status": "partial",
   "theorems": [
    "Heir.Tfhe.C137_cggi_partial",
    "Heir.Tfhe.C137_violated_compare",
    "Heir.Tfhe.C137_violated_max",
    "Heir.Tfhe.C137_violated_min",
    "Heir.Tfhe.C137_violated_shift",
    "Heir.Tfhe.C137_violated_extension",
    "Heir.Tfhe.C137_violated_amount",
    "Heir.Tfhe.C137_violated_shifted",
    "Heir.Tfhe.C137_violated_fails"
   ],
   "note": "Partial: served programs only; signed operations on ciphertexts, integers on the left of ordered comparisons, shifts of 128 places or more, shifts by ciphertexts, and/or are shown wrong or failing."
  },
  {
   "property": "C138",
   "status": "partial",
   "theorems": [
    "Heir.Tfhe.C138_tfhe_partial",
    "Heir.Tfhe.C138_violated_not"
   ],
   "note": "Partial: negations of more than one bit are shown wrong for every message; constants of more than 64 bits are excluded."
  },
  {
   "property": "C139",
   "status": "partial",
   "theorems": [
    "Heir.Tfhe.C139_rust_partial",
    "Heir.Tfhe.C139_pipeline_partial",
    "Heir.Tfhe.C139_bool",
    "Heir.Tfhe.C139_violated_negative",
    "Heir.Tfhe.C139_violated_sign",
    "Heir.Tfhe.C139_violated_width",
    "Heir.Tfhe.C139_violated_fails"
   ],
   "note": "Partial: negative constants, constants of widths that Rust lacks and operations without a printer are shown to fail or to be wrong. The pipeline theorem takes its conditions on the intermediate programs."
  },
  {
   "property": "C140",
   "status": "partial",
   "theorems": [
    "Heir.Codegen.C140_forward_partial",
    "Heir.Codegen.C140_reverse_partial",
    "Heir.Codegen.C140_reverse_once_partial",
    "Heir.Codegen.C140_violated_sequence",
    "Heir.Codegen.C140_violated_root",
    "Heir.Codegen.C140_violated_region",
    "Heir.Codegen.C140_violated_point",
    "Heir.Codegen.C140_violated_shadow",
    "Heir.Codegen.C140_violated_overflow",
    "Heir.Codegen.C140_violated_operator"
   ],
   "note": "Proved for trees whose root is a loop, with typed expressions, distinct names of nested loops and numbers of 32 bits; reversed for trees without sequences. Violations: sequences under reverse, roots that are not loops, shadowed names, an inclusive bound of 2^31 - 1, operators that stop early."
  },
  {
   "property": "C141",
   "status": "partial",
   "theorems": [
    "Heir.Assign.C141_packs_partial",
    "Heir.Assign.C141_empty",
    "Heir.Assign.C141_chain_partial",
    "Heir.Assign.Ex.C141_violated_ambiguous",
    "Heir.Assign.Ex.C141_violated_outside"
   ],
   "note": "Proved for all inputs, strategies and paths, given that isl's answers about the layout are right; partial for that, for layouts with two elements in a slot and for slots out of range, where counterexamples are proved."
  },
  {
   "property": "C142",
   "status": "partial",
   "theorems": [
    "Heir.Assign.C142_unpacks_partial",
    "Heir.Assign.C142_scalar",
    "Heir.Assign.C142_roundtrip_partial",
    "Heir.Assign.C142_chain_partial",
    "Heir.Assign.Ex.C142_violated_negative"
   ],
   "note": "Proved for all shapes and lists of layouts, given isl's answers; layouts with negative indices do not unpack, proved by a counterexample."
  },
  {
   "property": "C143",
   "status": "partial",
   "theorems": [
    "Heir.Assign.C143_permutes_partial",
    "Heir.Assign.C143_rejects",
    "Heir.Assign.Ex.C143_violated_negative",
    "Heir.Assign.Ex.C143_violated_twice"
   ],
   "note": "Proved for permutations with different targets and no negative entries; negative entries are accepted and undefined."
  },
  {
   "property": "C144",
   "status": "partial",
   "theorems": [
    "Heir.ArithMod.C144_agrees_partial",
    "Heir.ArithMod.C144_rejects",
    "Heir.ArithMod.C144_violated_top",
    "Heir.ArithMod.C144_violated_extui",
    "Heir.ArithMod.C144_violated_extsi",
    "Heir.ArithMod.C144_violated_i1",
    "Heir.ArithMod.C144_violated_load"
   ],
   "note": "Proved: programs on integers of 1 to 64 bits are converted and agree with the source modulo 2^(w-1). Missing: the modulus is half of the natural one, extensions are right in the middle half of the range only, i1."
  },
  {
   "property": "C145",
   "status": "partial",
   "theorems": [
    "Heir.ArithMod.C145_exact_partial",
    "Heir.ArithMod.C145_agrees_partial",
    "Heir.ArithMod.C145_rejects",
    "Heir.ArithMod.C145_violated_unreduced",
    "Heir.ArithMod.C145_violated_negative",
    "Heir.ArithMod.C145_violated_load64"
   ],
   "note": "Proved for constants and loads below the modulus, dense constants not negative, loads below 64 bits. Missing: the others, which are computed wrongly or rejected."
  },
  {
   "property": "C146",
   "status": "partial",
   "theorems": [
    "Heir.PolyNtt.C146_same_partial",
    "Heir.PolyNtt.C146_rejects",
    "Heir.PolyNtt.C146_violated_constant",
    "Heir.PolyNtt.C146_violated_modswitch"
   ],
   "note": "Proved for every feasible solution by a simulation, given that the transform is inverted and multiplicative, that operations put in evaluation form commute with it and that constants in evaluation form have the right numbers. The last two fail in the code: C146_violated_constant (attributes are only relabelled), C146_violated_modswitch."
  },
  {
   "property": "C147",
   "status": "partial",
   "theorems": [
    "Heir.PolyNtt.C147_transforms",
    "Heir.PolyNtt.C147_optimal_partial",
    "Heir.PolyNtt.C147_optimal_noconst",
    "Heir.PolyNtt.C147_solvable",
    "Heir.PolyNtt.C147_violated_constants"
   ],
   "note": "Exact count and existence of a best solution proved for all functions; optimality against all placements proved for functions without constants (C147_optimal_noconst) and with constants counted (C147_optimal_partial). C147_violated_constants: the objective charges for constants, so every best solution can have a transform that is not needed."
  },
  {
   "property": "C148",
   "status": "proved",
   "theorems": [
    "Heir.Halo.C148_sound",
    "Heir.Halo.C148_exact"
   ],
   "note": "Soundness for all programs with nested loops and conditionals and any solution of the analysis; exactness (accepted iff it runs, levels equal) without control flow and with reductions of at least one level."
  },
  {
   "property": "C149",
   "status": "proved",
   "theorems": [
    "Heir.Halo.C149_same",
    "Heir.Halo.C149_levels",
    "Heir.Halo.C149_needed"
   ],
   "note": "Levels and values after the pass for any body accepted from bootstrapped arguments, any trip count; initial values may be replaced by what they were reduced from."
  },
  {
   "property": "C150",
   "status": "partial",
   "theorems": [
    "Heir.Halo.C150_iterations",
    "Heir.Halo.C150_same",
    "Heir.Halo.C150_levels_partial",
    "Heir.Halo.C150_bootstraps",
    "Heir.Halo.C150_violated_ignored",
    "Heir.Halo.C150_violated_peak"
   ],
   "note": "Values and order of iterations always; number of bootstraps; levels when no point of the body is deeper than the deepest end and that end fits twice. Two violations show that the pass checks neither."
  },
  {
   "property": "C151",
   "status": "partial",
   "theorems": [
    "Heir.Halo.C151_same",
    "Heir.Halo.C151_when_partial",
    "Heir.Halo.C151_only",
    "Heir.Halo.C151_rounding",
    "Heir.Halo.C151_violated_float"
   ],
   "note": "Values always; the condition exact for sizes up to 2^24; violated beyond by float rounding."
  },
  {
   "property": "C152",
   "status": "partial",
   "theorems": [
    "Heir.Fuse.C152_scale_partial",
    "Heir.Fuse.C152_broadcast_partial",
    "Heir.Fuse.C152_expand_partial",
    "Heir.Fuse.C152_fires",
    "Heir.Fuse.C152_violated_scalar",
    "Heir.Fuse.C152_violated_bias",
    "Heir.Fuse.C152_violated_order",
    "Heir.Fuse.C152_violated_shared",
    "Heir.Fuse.C152_violated_axis"
   ],
   "note": "Proved for zero or empty initial tensors, the linear result as dividend, no other users, vectors repeated along the output channels (both for linalg.broadcast and tensor.expand_shape). Each of these conditions is needed and not checked by the pass: C152_violated_bias, _order, _shared, _axis; scalars behind tensor.splat make the pass cast a scalar to ShapedType (C152_violated_scalar). Floats are elements of a field."
  },
  {
   "property": "C153",
   "status": "partial",
   "theorems": [
    "Heir.Fuse.C153_add_partial",
    "Heir.Fuse.C153_fires",
    "Heir.Fuse.C153_violated_order",
    "Heir.Fuse.C153_violated_shared",
    "Heir.Fuse.C153_violated_max",
    "Heir.Fuse.C153_violated_min",
    "Heir.Fuse.C153_violated_reduce",
    "Heir.Fuse.C153_violated_generic"
   ],
   "note": "Proved for sums, the linear result as minuend, no other users. Not checked by the pass: C153_violated_order, _shared, _max, _min, _reduce, _generic."
  },
  {
   "property": "C154",
   "status": "proved",
   "theorems": [
    "Heir.Hoist.C154_collapse",
    "Heir.Hoist.C154_collapse_declines",
    "Heir.Hoist.C154_collapse_layout",
    "Heir.Hoist.C154_pad",
    "Heir.Hoist.C154_pad_layout"
   ],
   "note": "Proved for all layouts of the collapsed or padded tensor."
  },
  {
   "property": "C155",
   "status": "partial",
   "theorems": [
    "Heir.Hoist.C155_collapse_partial",
    "Heir.Hoist.C155_expand_partial",
    "Heir.Hoist.C155_violated_groups",
    "Heir.Hoist.C155_violated_units",
    "Heir.Hoist.C155_violated_expand",
    "Heir.Hoist.C155_expand_asserts"
   ],
   "note": "C155_collapse_partial covers one group with several dimensions, C155_expand_partial groups with exactly one real dimension. Violated for several groups with units and for groups of units only."
  },
  {
   "property": "C156",
   "status": "partial",
   "theorems": [
    "Heir.Hoist.C156_matvec_partial",
    "Heir.Hoist.C156_violated_permutation",
    "Heir.Hoist.C156_violated_rectangular",
    "Heir.Hoist.C156_fold_partial",
    "Heir.Hoist.C156_violated_gap",
    "Heir.Hoist.C156_violated_repeat"
   ],
   "note": "Proved for rotations of square matrices that fill the slots, and for vectors in the first slots when the padded columns fill the slots; every other permutation of slots is a violation, and so are rectangular matrices, gaps and columns that do not fill the slots."
  },
  {
   "property": "C157",
   "status": "partial",
   "theorems": [
    "Heir.Hoist.C157_unambiguous_partial",
    "Heir.Hoist.C157_complete_partial",
    "Heir.Hoist.C157_slices_partial",
    "Heir.Hoist.C157_rank",
    "Heir.Hoist.C157_violated_rank"
   ],
   "note": "Proved for layouts given in the dimensions that are not units. Violated for slices with some of their unit dimensions: the relation gets the wrong rank."
  },
  {
   "property": "C158",
   "status": "partial",
   "theorems": [
    "Heir.LayoutOpt.C158_count_partial",
    "Heir.LayoutOpt.C158_loop_partial",
    "Heir.LayoutOpt.C158_violated_variable",
    "Heir.LayoutOpt.C158_violated_trips"
   ],
   "note": "Proved for kernels without loops with any sharing, and for loops whose variables are not rotated, whose body shares no node with the initial values and whose step divides the range. Violated: a rotated accumulator counts nothing, and the number of iterations is rounded down."
  },
  {
   "property": "C159",
   "status": "partial",
   "theorems": [
    "Heir.LayoutOpt.C159_least_partial",
    "Heir.LayoutOpt.C159_exact_partial",
    "Heir.LayoutOpt.C159_defined",
    "Heir.LayoutOpt.C159_violated_splat",
    "Heir.LayoutOpt.C159_violated_rounds",
    "Heir.LayoutOpt.C159_violated_outputs"
   ],
   "note": "Proved: an upper bound for all networks, exact when no rotation is shared, and when it is defined. Violated: k rounds cost 2^k - 1 for k rotations, outputs count shared rotations again, splats fail an assertion."
  },
  {
   "property": "C160",
   "status": "partial",
   "theorems": [
    "Heir.LayoutOpt.C160_hoist_partial",
    "Heir.LayoutOpt.C160_violated_user",
    "Heir.LayoutOpt.C160_violated_twice",
    "Heir.LayoutOpt.C160_fold",
    "Heir.LayoutOpt.C160_argument"
   ],
   "note": "Proved in full for folding and for arguments; for hoisting if all users of the operation are conversions and equal operands are wanted in equal layouts. Violated for other users, and for an operand wanted in two layouts."
  },
  {
   "property": "C161",
   "status": "partial",
   "theorems": [
    "Heir.LayoutOpt.C161_pick",
    "Heir.LayoutOpt.C161_cost_partial",
    "Heir.LayoutOpt.C161_violated_others",
    "Heir.LayoutOpt.C161_violated_layout",
    "Heir.LayoutOpt.C161_violated_empty"
   ],
   "note": "Proved: the least cost is taken and only if it is not positive; the sum does not grow with one conversion of the result, a trivial kernel and operands wanted in the layout of the result. Violated with other conversions, with other layouts of operands, and without options (undefined behaviour)."
  },
  {
   "property": "C162",
   "status": "proved",
   "theorems": [
    "Heir.Rotom.C162_split",
    "Heir.Rotom.C162_slots"
   ],
   "note": "Sizes do not wrap."
  },
  {
   "property": "C163",
   "status": "proved",
   "theorems": [
    "Heir.Rotom.C163_one_copy",
    "Heir.Rotom.C163_one_element"
   ],
   "note": "For layouts that have a lowering."
  },
  {
   "property": "C164",
   "status": "partial",
   "theorems": [
    "Heir.Rotom.C164_placed_partial",
    "Heir.Rotom.C164_exact",
    "Heir.Rotom.C164_violated_padding"
   ],
   "note": "Elements are lost exactly when a ciphertext dim of two or more values stands before padding on the ciphertext side (C164_exact); witness in C164_violated_padding."
  },
  {
   "property": "C165",
   "status": "proved",
   "theorems": [
    "Heir.Rotom.C165_filled",
    "Heir.Rotom.C165_empty"
   ],
   "note": "Padding on the slot side leaves slots empty (C165_empty)."
  },
  {
   "property": "C166",
   "status": "proved",
   "theorems": [
    "Heir.Rotom.C166_fills",
    "Heir.Rotom.C166_rolls",
    "Heir.Rotom.C166_relation",
    "Heir.Rotom.C166_accepted",
    "Heir.Rotom.C166_stable"
   ],
   "note": "Relation, rolls, acceptance and stability."
  },
  {
   "property": "C167",
   "status": "partial",
   "theorems": [
    "Heir.Rotom.C167_dim",
    "Heir.Rotom.C167_round_trip_partial",
    "Heir.Rotom.C167_parsed_accepted",
    "Heir.Rotom.C167_no_text",
    "Heir.Rotom.C167_violated_no_text"
   ],
   "note": "Round trip except for layouts with one slot whose last dim has several values, which no text denotes (C167_no_text). The lexer is not modelled."
  },
  {
   "property": "C168",
   "status": "partial",
   "theorems": [
    "Heir.Rotom.C168_lowers_iff",
    "Heir.Rotom.C168_lowers_partial",
    "Heir.Rotom.C168_no_rolls",
    "Heir.Rotom.C168_violated_split",
    "Heir.Rotom.C168_violated_stride"
   ],
   "note": "Exact condition in C168_lowers_iff; accepted layouts without lowering in C168_violated_split and C168_violated_stride."
  },
  {
   "property": "C169",
   "status": "partial",
   "theorems": [
    "Heir.Rotom.C169_tuples",
    "Heir.Rotom.C169_seed_packs",
    "Heir.Rotom.C169_complete",
    "Heir.Rotom.C169_seeded_partial",
    "Heir.Rotom.C169_violated_small"
   ],
   "note": "Packing and completeness are proved for all shapes; tensors with fewer elements than slots get no seed (C169_violated_small)."
  },
  {
   "property": "C170",
   "status": "proved",
   "theorems": [
    "Heir.Rotom.C170_axes",
    "Heir.Rotom.C170_meaning"
   ],
   "note": "Full meaning of the relation for every accepted layout that lowers, including all rolls."
  },
  {
   "property": "C171",
   "status": "partial",
   "theorems": [
    "Heir.Preproc.C171_split_partial",
    "Heir.Preproc.C171_iterations",
    "Heir.Preproc.C171_types",
    "Heir.Preproc.C171_violated_decrypt"
   ],
   "note": "Proved for functions of pure operations with conditionals and loops of one induction variable with constant bounds, for all interpretations. Violated if a cleartext is computed from a ciphertext and encoded: the pass succeeds and uses a placeholder (C171_violated_decrypt). Removal of dead values, loop normalization, while loops and loops with several induction variables are missing."
  },
  {
   "property": "C172",
   "status": "partial",
   "theorems": [
    "Heir.Preproc.C172_needed",
    "Heir.Preproc.C172_functions_partial",
    "Heir.Preproc.C172_ciphertext_operations"
   ],
   "note": "The cloned set is exactly the needed operations; a loop that carries ciphertexts is cloned with the operations on them (C172_ciphertext_operations), which remove-dead-values (not modelled) is to clean up."
  },
  {
   "property": "C173",
   "status": "partial",
   "theorems": [
    "Heir.Preproc.C173_places_partial"
   ],
   "note": "Loops have one induction variable and constant bounds; index arithmetic at run time does not wrap in the model."
  },
  {
   "property": "C174",
   "status": "partial",
   "theorems": [
    "Heir.Preproc.C174_lowered_partial"
   ],
   "note": "As C171, with the flat memory of the memref lowering; index arithmetic at run time does not wrap in the model. Functions that share storage between calls are missing."
  },
  {
   "property": "C175",
   "status": "partial",
   "theorems": [
    "Heir.Preproc.C175_analysis_partial"
   ],
   "note": "Trip counts are natural numbers of any size (getStaticTripCount fits its width in the model)."
  },
  {
   "property": "C176",
   "status": "partial",
   "theorems": [
    "Heir.Preproc.C176_validate_partial",
    "Heir.Preproc.C176_meaning"
   ],
   "note": "The checks on one preprocessing.empty per function and on storage types are not modelled."
  },
  {
   "property": "C177",
   "status": "proved",
   "theorems": [
    "Heir.Emit.C177_value",
    "Heir.Emit.C177_private"
   ],
   "note": "General statement under visibleAfter (SSA dominance of the emitted block), and without it for DAGs with private regions."
  },
  {
   "property": "C178",
   "status": "partial",
   "theorems": [
    "Heir.Emit.C178_scope_partial",
    "Heir.Emit.C178_straight",
    "Heir.Emit.C178_violated_constant",
    "Heir.Emit.C178_violated_branches"
   ],
   "note": "Partial: holds without regions (C178_straight) and for regions that compute nothing used outside of them; violated for a constant shared by a loop body and the code behind it and for a node shared by two branches."
  },
  {
   "property": "C179",
   "status": "proved",
   "theorems": [
    "Heir.Emit.C179_once"
   ],
   "note": "Index casts, loop bounds and the divisor of a floor division count with the operation they belong to."
  },
  {
   "property": "C180",
   "status": "partial",
   "theorems": [
    "Heir.Emit.C180_scalar",
    "Heir.Emit.C180_index",
    "Heir.Emit.C180_tensor_partial",
    "Heir.Emit.C180_tensors_partial",
    "Heir.Emit.C180_violated_negative"
   ],
   "note": "Partial: integer constant tensors convert double to uint64_t, so negative values are undefined (C180_violated_negative); a true i1 scalar fails the signed fit of APInt."
  },
  {
   "property": "C181",
   "status": "partial",
   "theorems": [
    "Heir.Params.C181_table",
    "Heir.Params.C181_bgv_partial",
    "Heir.Params.C181_ckks_partial",
    "Heir.Params.C181_conservative",
    "Heir.Params.C181_violated_truncation"
   ],
   "note": "C181_table and C181_conservative hold as stated. C181_bgv_partial and C181_ckks_partial miss one bit: the sum of the logarithms is cut to an int before the comparison, so the product can exceed the limit (C181_violated_truncation)."
  },
  {
   "property": "C182",
   "status": "proved",
   "theorems": [
    "Heir.Params.C182_bgv",
    "Heir.Params.C182_ckks"
   ],
   "note": "Proved for BGV/BFV and for both CKKS generators, for every result that is returned."
  },
  {
   "property": "C183",
   "status": "partial",
   "theorems": [
    "Heir.Params.C183_bgv",
    "Heir.Params.C183_ckks_partial",
    "Heir.Params.C183_ckks_bits_partial",
    "Heir.Params.C183_violated_ckks"
   ],
   "note": "Proved for BGV/BFV. For CKKS only for digits of as many moduli as there are special ones (C183_ckks_partial); with the dnum of the parameters it fails (C183_violated_ckks)."
  },
  {
   "property": "C184",
   "status": "partial",
   "theorems": [
    "Heir.Params.C184_bgv",
    "Heir.Params.C184_ckks_partial",
    "Heir.Params.C184_violated_ckks",
    "Heir.Params.C184_violated_dnum"
   ],
   "note": "Proved for BGV/BFV. For CKKS ring dimension and moduli survive (C184_ckks_partial), the level never does (C184_violated_ckks) and the number of digits need not (C184_violated_dnum)."
  },
  {
   "property": "C185",
   "status": "partial",
   "theorems": [
    "Heir.Params.C185_defined",
    "Heir.Params.C185_sizes_partial",
    "Heir.Params.C185_moduli_partial",
    "Heir.Params.C185_violated_hole",
    "Heir.Params.C185_bfv"
   ],
   "note": "BFV as stated. BGV if the levels of the mod reductions have no holes; otherwise sizes are written past the end of a vector, exactly characterised by C185_defined (C185_violated_hole)."
  },
  {
   "property": "C186",
   "status": "proved",
   "theorems": [
    "Heir.Params.C186_smaller"
   ],
   "note": "Proved for all results whose moduli are below 2^60."
  },
  {
   "property": "C187",
   "status": "partial",
   "theorems": [
    "Heir.TensorOps.C187_elements",
    "Heir.TensorOps.C187_insert",
    "Heir.TensorOps.C187_order_partial",
    "Heir.TensorOps.C187_violated_constant",
    "Heir.TensorOps.C187_violated_transposed",
    "Heir.TensorOps.C187_violated_empty"
   ],
   "note": "All ranks from one on for extraction, insertion and reading of elements; constants, from_elements and putting together again for one dimension. Violated for two dimensions, where constants are in row-major and scalars in column-major order, and for rank zero. Missing: more dimensions for the latter three, where the property is false."
  },
  {
   "property": "C188",
   "status": "partial",
   "theorems": [
    "Heir.TensorOps.C188_loops_partial",
    "Heir.TensorOps.C188_violated_rank_zero"
   ],
   "note": "All shapes with at least one dimension, any operation and operands. Missing: rank zero, where the operation is not replaced."
  },
  {
   "property": "C189",
   "status": "partial",
   "theorems": [
    "Heir.TensorOps.C189_loops_partial",
    "Heir.TensorOps.C189_pointwise",
    "Heir.TensorOps.C189_violated_index"
   ],
   "note": "All sizes, maps, inputs, outputs and bodies without linalg.index. Missing: linalg.index, which is left outside of linalg."
  },
  {
   "property": "C190",
   "status": "partial",
   "theorems": [
    "Heir.TensorOps.C190_forward_partial",
    "Heir.TensorOps.C190_disjoint",
    "Heir.TensorOps.C190_violated_dynamic",
    "Heir.TensorOps.C190_violated_unit"
   ],
   "note": "All chains of insertions of slices with static offsets and fully dropped unit dimensions; disjointness is exact. Missing: dynamic offsets and kept dimensions of size one, where the relation is wrong and the property false."
  },
  {
   "property": "C191",
   "status": "proved",
   "theorems": [
    "Heir.Config.C191_ends",
    "Heir.Config.C191_reaches"
   ],
   "note": "All call graphs over finitely many functions; termination by a lexicographic measure, completeness by an invariant."
  },
  {
   "property": "C192",
   "status": "partial",
   "theorems": [
    "Heir.Config.C192_needs_partial",
    "Heir.Config.C192_only",
    "Heir.Config.C192_violated_square",
    "Heir.Config.C192_violated_silent"
   ],
   "note": "All modules and call graphs, given a result of the rotation analysis that covers the rotations; nothing superfluous. Missing: squares, for which no key is generated, and failing analyses, after which the pass succeeds."
  },
  {
   "property": "C193",
   "status": "partial",
   "theorems": [
    "Heir.Config.C193_bound_partial",
    "Heir.Config.C193_exact",
    "Heir.Config.C193_violated_reduced",
    "Heir.Config.C193_violated_insert"
   ],
   "note": "All programs in which reduced ciphertexts are operands of products only and the first of several operands has the largest counts; exact there. Missing: other programs, where the property is false."
  },
  {
   "property": "C194",
   "status": "partial",
   "theorems": [
    "Heir.Config.C194_option",
    "Heir.Config.C194_covers_partial",
    "Heir.Config.C194_attained",
    "Heir.Config.C194_bfv_partial",
    "Heir.Config.C194_other",
    "Heir.Config.C194_violated_bfv",
    "Heir.Config.C194_violated_scheme",
    "Heir.Config.C194_violated_square"
   ],
   "note": "The option, and all programs of counted multiplications without scheme parameters; BFV with a depth. Missing: squares, series, scheme parameters with bootstrapping, BFV of depth zero, where the property is false."
  },
  {
   "property": "C195",
   "status": "partial",
   "theorems": [
    "Heir.PolyFold.C195_monomial_mul_partial",
    "Heir.PolyFold.C195_rns_partial",
    "Heir.PolyFold.C195_reduce_int",
    "Heir.PolyFold.C195_refuses",
    "Heir.PolyFold.C195_violated_wide_modulus"
   ],
   "note": "Typed constants are compared by their value in every ring where q = 0 and x^n + 1 = 0. Partial: moduli below 2^63, coefficients that fit the storage width, exponents below n; C195_violated_wide_modulus shows what a modulus of 64 bits does. The reduction of dense integer polynomials (C195_reduce_int) has no such restriction."
  },
  {
   "property": "C196",
   "status": "partial",
   "theorems": [
    "Heir.PolyFold.C196_scalar_partial",
    "Heir.PolyFold.C196_violated_truncated"
   ],
   "note": "Partial: coefficients that fit the storage width of the modulus (otherwise C196_violated_truncated), moduli below 2^63; integer and float scalars are not modelled."
  },
  {
   "property": "C197",
   "status": "partial",
   "theorems": [
    "Heir.PolyFold.C197_fallback",
    "Heir.PolyFold.C197_add_partial",
    "Heir.PolyFold.C197_sub_partial",
    "Heir.PolyFold.C197_mul_partial",
    "Heir.PolyFold.C197_violated_other_modulus",
    "Heir.PolyFold.C197_violated_wraparound",
    "Heir.PolyFold.C197_violated_zero",
    "Heir.PolyFold.C197_violated_wide_add"
   ],
   "note": "Sums and differences hold for every polynomial modulus, products for X^n + 1 with NTT-friendly primes (through C10). Violations: the polynomial modulus is ignored in products (C197_violated_other_modulus), the fallback multiplies with 64-bit wraparound (C197_violated_wraparound) and reads the last term of a zero polynomial (C197_violated_zero), sums wrap for moduli of 64 bits (C197_violated_wide_add)."
  },
  {
   "property": "C198",
   "status": "partial",
   "theorems": [
    "Heir.LogArith.C198_of",
    "Heir.LogArith.C198_mul",
    "Heir.LogArith.C198_lt",
    "Heir.LogArith.C198_add_exact",
    "Heir.LogArith.C198_expr_partial",
    "Heir.LogArith.C198_violated_lost"
   ],
   "note": "Doubles are real numbers, with negative infinity for the logarithm of zero; rounding is left out. Partial: a summand more than 2^512 times smaller than the other is dropped, so that results are lower, not upper bounds (C198_violated_lost)."
  },
  {
   "property": "C199",
   "status": "partial",
   "theorems": [
    "Heir.BfvNoise.C199_fresh",
    "Heir.BfvNoise.C199_keySwitch",
    "Heir.BfvNoise.C199_bound_partial",
    "Heir.BfvNoise.C199_decrypts_partial",
    "Heir.BfvNoise.C199_violated_floor",
    "Heir.BfvNoise.C199_violated_rounding"
   ],
   "note": "Proved for programs without products (evalMul not modelled), worst-case variant, reals for doubles, total noise of inputs within evalEncrypt. Ciphertexts scaled by floor(Q/t) break evalAdd when Q mod t > 1 (C199_violated_floor); evalEncrypt leaves out the rounding of the scaled message (C199_violated_rounding)."
  }
 ]
}