{"id": "C01", "title": "Modular inverse is an inverse or an honest zero", "statement": "multiplicativeInverse(x, m) returns a value r with 0 <= r < m and x*r = 1 (mod m) whenever gcd(x,m)=1, and returns 0 whenever gcd(x,m) != 1; no intermediate of the computation depends on the bit width chosen for the APInts.", "quantifier": "every bit width, every modulus m >= 2 representable in it, every 0 < x < m", "why_tests_cant": "The range is all pairs of arbitrary-width integers; wrap-around of the signed cofactor only shows for adversarial quotient sequences.", "anchors": ["lib/Utils/APIntUtils.cpp:multiplicativeInverse"]}
{"id": "C02", "title": "Modular exponentiation computes the power", "statement": "modularExponentiation(b, e, m) returns b^e mod m, and modularMultiplication(a,b,m) returns a*b mod m with no overflow in the doubled width.", "quantifier": "all operands of all widths with m > 0", "why_tests_cant": "Exponents range over unbounded integers; square-and-multiply errors appear only on specific bit patterns.", "anchors": ["lib/Utils/APIntUtils.cpp:modularExponentiation", "lib/Utils/APIntUtils.cpp:modularMultiplication"]}
{"id": "C03", "title": "A prime is never rejected by the primality test", "statement": "isPrime(n) returns true for every prime n; equivalently, if isPrime answers false then n is 0, 1 or composite.", "quantifier": "every n of every width", "why_tests_cant": "There are infinitely many primes; a wrong witness loop rejects sparse sets of primes.", "anchors": ["lib/Utils/APIntUtils.cpp:isPrime"]}
{"id": "C04", "title": "Factorization returns exactly the prime divisors", "statement": "Every number in the list returned by factorize(n) is prime and divides n, and every prime dividing n is in the list.", "quantifier": "every n >= 1", "why_tests_cant": "Completeness speaks about all primes dividing all integers.", "anchors": ["lib/Utils/APIntUtils.cpp:factorize"]}
{"id": "C05", "title": "Primitive roots generate the unit group", "statement": "For prime q, findPrimitiveRoot(q) returns g whose powers run over all nonzero residues modulo q (multiplicative order exactly q-1), and it always finds one.", "quantifier": "every prime q", "why_tests_cant": "The order of an element is a statement about all exponents below q-1, for every prime.", "anchors": ["lib/Utils/MathUtils.cpp:findPrimitiveRoot"]}
{"id": "C06", "title": "The NTT root has order exactly 2n", "statement": "For prime q with q = 1 (mod 2n), findPrimitive2nthRoot(q,n) returns psi with psi^n = -1 (mod q) and order exactly 2n; when 2n does not divide q-1 it returns nothing.", "quantifier": "every prime q and every n >= 1", "why_tests_cant": "As above; a root of smaller order makes the transform silently non-invertible for particular (q,n).", "anchors": ["lib/Utils/MathUtils.cpp:findPrimitive2nthRoot"]}
{"id": "C07", "title": "Power-of-two rounding", "statement": "nextPowerOfTwo(x) is the least power of two >= x for every 1 <= x <= 2^63, and isPowerOfTwo(x) holds exactly for powers of two.", "quantifier": "all 64-bit inputs", "why_tests_cant": "2^64 inputs.", "anchors": ["lib/Utils/MathUtils.h:nextPowerOfTwo", "lib/Utils/MathUtils.h:isPowerOfTwo"]}
{"id": "C08", "title": "Compile-time NTT evaluates at the odd powers of the root", "statement": "After nttInPlace(coeffs, q, psi), slot bitrev(k) holds the input polynomial evaluated at psi^(2k+1) modulo q.", "quantifier": "every power-of-two length n < 2^32 (the code holds the length in a uint32_t), every modulus q < 2^63, every psi with psi^n = -1, every coefficient vector", "why_tests_cant": "Unbounded vector length and modulus.", "anchors": ["lib/Utils/Polynomial/NTT.cpp:nttInPlace"]}
{"id": "C09", "title": "Compile-time NTT followed by its inverse is the identity", "statement": "inttInPlace(nttInPlace(v)) = v for canonical residues v.", "quantifier": "every power-of-two length n < 2^32, every modulus q < 2^64 in which n is invertible, every psi with psi^n=-1, every vector of residues", "why_tests_cant": "Unbounded vector length and modulus.", "anchors": ["lib/Utils/Polynomial/NTT.cpp:nttInPlace", "lib/Utils/Polynomial/NTT.cpp:inttInPlace"]}
{"id": "C10", "title": "RNS polynomial multiplication is negacyclic multiplication limb by limb", "statement": "Multiplying two RNS polynomials in coefficient form (transform, pointwise multiply, transform back) yields, in each limb, the product modulo X^n+1 and the limb modulus.", "quantifier": "every number of limbs, every choice of prime limb moduli below 2^64 congruent to 1 modulo 2n, every power-of-two degree n < 2^32, every pair of polynomials", "why_tests_cant": "Unbounded degree, limb count and moduli.", "anchors": ["lib/Utils/Polynomial/RNSPolynomial.cpp:RNSPolynomial::mul", "lib/Utils/Polynomial/RNSPolynomial.cpp:RNSPolynomial::toNtt", "lib/Utils/Polynomial/RNSPolynomial.cpp:RNSPolynomial::toCoefficient"]}
{"id": "C11", "title": "The lowered run-time NTT evaluates at odd powers of the root and is inverted by the lowered INTT", "statement": "The loop nest emitted for polynomial.ntt maps coefficient vector a to the vector whose k-th entry is a(psi^(2k+1)) mod q, and the loop nest emitted for polynomial.intt with the inverse root maps it back to a.", "quantifier": "every power-of-two degree >= 2, every modulus type, every root psi with psi^n=-1, every input tensor", "why_tests_cant": "Tests run a handful of degrees/moduli; the stage/stride/exponent arithmetic must be right for all of them.", "anchors": ["lib/Dialect/Polynomial/Conversions/PolynomialToModArith/PolynomialToModArith.cpp:fastNTT", "lib/Dialect/Polynomial/Conversions/PolynomialToModArith/PolynomialToModArith.cpp:computeReverseBitOrder"]}
{"id": "C12", "title": "Lowered modular add/sub/mul/mac are arithmetic in Z/q on canonical representatives", "statement": "On canonical inputs (0 <= x < q) the arith code emitted for mod_arith.add/sub/mul/mac produces the canonical representative of the mathematical result; no intermediate overflow changes the result.", "quantifier": "every storage width, every modulus accepted by the type verifier, all canonical inputs", "why_tests_cant": "All widths and all moduli.", "anchors": ["lib/Dialect/ModArith/Conversions/ModArithToArith/ModArithToArith.cpp:ConvertAdd/ConvertSub/ConvertMul/ConvertMac", "lib/Dialect/ModArith/IR/ModArithTypes.cpp:ModArithType::verify"]}
{"id": "C13", "title": "Lowered reduce produces the canonical representative of a signed value", "statement": "The code emitted for mod_arith.reduce maps any storage value, read as a signed integer, to its residue in [0,q).", "quantifier": "every storage width, every accepted modulus, every storage value including negatives", "why_tests_cant": "All widths, moduli, values.", "anchors": ["lib/Dialect/ModArith/Conversions/ModArithToArith/ModArithToArith.cpp:ConvertReduce"]}
{"id": "C14", "title": "Lifts return the documented representative", "statement": "The code for mod_arith.lift standard returns the representative in [0,q); for lift centered the representative in [-q/2, q/2) congruent to the input.", "quantifier": "every storage width, every accepted modulus, every storage value", "why_tests_cant": "Boundary behaviour at q/2 for odd and even moduli and at the width limit.", "anchors": ["lib/Dialect/ModArith/Conversions/ModArithToArith/ModArithToArith.cpp:ConvertLift", "lib/Dialect/ModArith/IR/ModArithOps.td:ModArith_LiftOp"]}
{"id": "C15", "title": "Barrett reduction leaves at most one extra modulus", "statement": "For 0 <= x < q^2, the code emitted for mod_arith.barrett_reduce computes x mod q or (x mod q)+q, and a following subifge with q yields x mod q.", "quantifier": "every modulus and every x below its square, every permitted input width", "why_tests_cant": "The off-by-one of the quotient estimate depends on q and x jointly.", "anchors": ["lib/Dialect/ModArith/Conversions/ModArithToArith/ModArithToArith.cpp:ConvertBarrettReduce", "lib/Dialect/ModArith/Conversions/ModArithToArith/ModArithToArith.td:ConvertSubIfGE"]}
{"id": "C16", "title": "Modulus switching between integers reduces the centered representative", "statement": "The code for mod_arith.mod_switch between two integer moduli maps a residue to the residue of its centered representative, using the same centering as mod_arith.lift centered.", "quantifier": "all pairs of widths and moduli, all canonical inputs", "why_tests_cant": "The disagreement, if any, is at one boundary residue per modulus.", "anchors": ["lib/Dialect/ModArith/Conversions/ModArithToArith/ModArithToArith.cpp:ConvertModSwitch"]}
{"id": "C17", "title": "CRT decomposition followed by interpolation is the identity", "statement": "mod_switch from Z/Q to the RNS basis and back returns the original residue, and interpolation returns the unique residue modulo Q with the given limbs.", "quantifier": "every pairwise-coprime basis whose product is Q, every residue", "why_tests_cant": "Unbounded number of limbs and widths; the intermediate width formula must be sufficient for all of them.", "anchors": ["lib/Dialect/ModArith/Conversions/ModArithToArith/ModArithToArith.cpp:ConvertModSwitch", "lib/Dialect/ModArith/IR/ModArithOps.cpp:verifySingleToMultiModSwitch"]}
{"id": "C18", "title": "Constant folding of modular ops agrees with the lowered code", "statement": "Folding add/sub/mul/mac on constant residues gives the same canonical value as executing the lowered code on those constants.", "quantifier": "every width, every accepted modulus, all constant operands that are canonical", "why_tests_cant": "All widths, moduli and constants.", "anchors": ["lib/Dialect/ModArith/IR/ModArithOps.cpp:foldScalarModOp", "lib/Dialect/ModArith/IR/ModArithOps.cpp:ConstantOp::fold"]}
{"id": "C19", "title": "Negative modular constants denote their residue", "statement": "A mod_arith.constant written with a negative integer c denotes c mod q, before and after folding.", "quantifier": "every width, modulus and negative constant accepted by the parser", "why_tests_cant": "The defect depends on q not dividing a power of two.", "anchors": ["lib/Dialect/ModArith/IR/ModArithOps.cpp:ConstantOp::parse", "lib/Dialect/ModArith/IR/ModArithOps.cpp:ConstantOp::fold"]}
{"id": "C20", "title": "Modular arithmetic canonicalizations preserve values", "statement": "Each registered mod_arith canonicalization pattern and the mul+add to mac rewrite replaces an expression by one with the same value in Z/q.", "quantifier": "every modulus, all operand values and constants", "why_tests_cant": "All moduli and operands, including q=1 and q=2 where -1 coincides with other constants.", "anchors": ["lib/Dialect/ModArith/IR/ModArithCanonicalization.td", "lib/Dialect/ModArith/Transforms/ConvertToMac.cpp:FindMac"]}
{"id": "C21", "title": "RNS basis conversion converts the centered integer", "statement": "The code emitted for rns.convert_basis maps residues of x modulo the input basis to the residues of the centered representative of x modulo each target modulus.", "quantifier": "every odd pairwise-coprime input basis of any length, every odd target basis, every input", "why_tests_cant": "Tests use two-limb bases; a Horner constant used from the third limb on is never exercised.", "anchors": ["lib/Dialect/RNS/IR/RNSOps.cpp:computeMixedRadixCoeffs", "lib/Dialect/RNS/IR/RNSOps.cpp:buildQInvProds", "lib/Dialect/RNS/Transforms/LowerConvertBasis.cpp:LowerConvertBasisOp"]}
{"id": "C22", "title": "Lowered coefficient-form polynomial multiplication is multiplication in the quotient ring", "statement": "The emitted convolution followed by the emitted polynomial-mod function returns the remainder of the product modulo the ring polynomial, for every pair of inputs, without reading outside the coefficient tensors.", "quantifier": "every ring polynomial with invertible leading coefficient, every coefficient modulus, every pair of inputs (including ones whose product reduces to zero)", "why_tests_cant": "Zero products and remainders are a measure-zero corner that random tests miss.", "anchors": ["lib/Dialect/Polynomial/Conversions/PolynomialToModArith/PolynomialToModArith.cpp:ConvertMulCoeffForm", "lib/Dialect/Polynomial/Conversions/PolynomialToModArith/PolynomialToModArith.cpp:buildPolynomialModFunc", "lib/Dialect/Polynomial/Conversions/PolynomialToModArith/PolynomialToModArith.cpp:ConvertLeadingTerm"]}
{"id": "C23", "title": "Polynomial constants are stored as the residues of their integer coefficients", "statement": "Lowering a polynomial constant stores, for each monomial, the residue of its integer coefficient modulo the coefficient modulus.", "quantifier": "every modulus type and every integer coefficient, negative or larger than the modulus", "why_tests_cant": "The defect needs a coefficient wider than the storage type.", "anchors": ["lib/Dialect/Polynomial/Conversions/PolynomialToModArith/PolynomialToModArith.cpp:ConvertConstant"]}
{"id": "C24", "title": "Integer/float polynomial objects behave as polynomials", "statement": "add, sub, scale, monomial multiplication, naive multiplication and composition of the Polynomial class agree with polynomial arithmetic, results stay in canonical form (strictly increasing exponents, no zero coefficients), and the dense coefficient vector lists the coefficients.", "quantifier": "all polynomials of all degrees over a commutative ring", "why_tests_cant": "Unbounded number of terms; canonical form is an invariant over operation histories.", "anchors": ["lib/Utils/Polynomial/Polynomial.h:PolynomialBase::add/sub/scale/monomialMul/naiveMul/compose", "lib/Utils/Polynomial/Polynomial.cpp:getDenseCoefficientVector"]}
{"id": "C25", "title": "Chebyshev-to-monomial conversion and Chebyshev composition are exact", "statement": "toStandardBasis of a Chebyshev-coefficient polynomial is the polynomial sum_i c_i T_i, getChebyshevPolynomials(n) lists T_0..T_n, and composing with a linear map is polynomial composition.", "quantifier": "every coefficient vector over a commutative ring", "why_tests_cant": "Unbounded degree.", "anchors": ["lib/Utils/Polynomial/Polynomial.cpp:ChebyshevPolynomial", "lib/Utils/Polynomial/Polynomial.cpp:getChebyshevPolynomials"]}
{"id": "C26", "title": "Horner evaluation DAG computes the polynomial", "statement": "Evaluating the DAG built by hornerMonomialPolynomialEvaluation at x gives sum_i c_i x^i.", "quantifier": "every coefficient map of any degree and every x in a commutative ring", "why_tests_cant": "Unbounded degree.", "anchors": ["lib/Utils/Polynomial/Horner.h:hornerMonomialPolynomialEvaluation"]}
{"id": "C27", "title": "Paterson-Stockmeyer evaluation DAG computes the polynomial", "statement": "Evaluating the DAG built by patersonStockmeyerMonomialPolynomialEvaluation at x gives sum_i c_i x^i.", "quantifier": "every coefficient map of any degree >= 1 and every x in a commutative ring", "why_tests_cant": "Unbounded degree; chunk boundaries depend on ceil(sqrt(degree)).", "anchors": ["lib/Utils/Polynomial/PatersonStockmeyer.h:patersonStockmeyerMonomialPolynomialEvaluation"]}
{"id": "C28", "title": "Chebyshev Paterson-Stockmeyer evaluation DAG computes the Chebyshev series", "statement": "Evaluating the DAG built by patersonStockmeyerChebyshevPolynomialEvaluation at x gives sum_i c_i T_i(x) when no coefficient is below the drop threshold.", "quantifier": "every coefficient vector and x in a commutative ring with 2 invertible where needed", "why_tests_cant": "Unbounded degree and recursion.", "anchors": ["lib/Utils/Polynomial/ChebyshevPatersonStockmeyer.h", "lib/Utils/Polynomial/ChebyshevDecomposition.cpp:decompose"]}
{"id": "C29", "title": "Chebyshev long division and decomposition reconstruct the polynomial", "statement": "Dividing a Chebyshev series by T_n yields quotient q and remainder r with p = q*T_n + r and deg r < n; decompose(p,k) yields blocks b_j with p = sum_j b_j * T_k^j, each block of degree below k.", "quantifier": "every coefficient vector, every n, k >= 1", "why_tests_cant": "Unbounded degree and recursion depth.", "anchors": ["lib/Utils/Polynomial/ChebyshevDecomposition.cpp:dividePolynomials", "lib/Utils/Polynomial/ChebyshevDecomposition.cpp:decompose"]}
{"id": "C30", "title": "DAG evaluation with memoization equals plain evaluation", "statement": "Evaluating an arithmetic DAG with the caching evaluator, including rolled loops whose body is re-evaluated per iteration, returns the value defined by the structural semantics of the DAG.", "quantifier": "every DAG of every shape with shared nodes and nested loops, every leaf assignment", "why_tests_cant": "Stale-cache bugs depend on the sharing pattern.", "anchors": ["lib/Kernel/ArithmeticDag.h:CachingVisitor", "lib/Kernel/EvalVisitor.cpp"]}
{"id": "C31", "title": "Rotation accumulation sums all rotations", "statement": "The rotate-and-reduce accumulation kernel applied to v with period p and n steps returns sum_{i<n} rotate(v, i*p) (any associative-commutative reduce op).", "quantifier": "all vectors, periods and step counts", "why_tests_cant": "Step counts that are not powers of two are outside the tested set.", "anchors": ["lib/Kernel/KernelImplementation.h:implementRotateAndReduceAccumulation", "lib/Kernel/KernelImplementation.h:implementRotateAndReduceAccumulationRolled"]}
{"id": "C32", "title": "Baby-step giant-step equals the naive diagonal sum", "statement": "The BSGS kernel returns sum_{i<n} diag_i * rotate(v, i*p), for both the unrolled and rolled variants, whatever the giant-step split and whichever diagonals are declared zero (and are zero).", "quantifier": "all vectors, periods, step counts >= 1, all diagonal families, all sets of zero diagonals", "why_tests_cant": "All sizes; the index algebra between plaintext pre-rotation and ciphertext post-rotation must cancel for every (giant,baby).", "anchors": ["lib/Kernel/KernelImplementation.h:implementBabyStepGiantStep", "lib/Kernel/KernelImplementation.h:implementBabyStepGiantStepRolled", "lib/Kernel/KernelImplementation.h:implementRotateAndReduce"]}
{"id": "C33", "title": "Halevi-Shoup kernel on the diagonal layout is the matrix-vector product", "statement": "Packing a matrix by the squat-diagonal layout and a vector by the row-major layout and running the Halevi-Shoup kernel puts (A v)_r in every slot s with s mod paddedRows = r < rows.", "quantifier": "all matrix shapes, slot counts and entries admitted by the layout", "why_tests_cant": "All shapes, paddings and slot counts.", "anchors": ["lib/Kernel/KernelImplementation.h:implementHaleviShoup", "lib/Utils/Layout/Utils.cpp:getDiagonalLayoutRelation", "lib/Utils/Layout/Utils.cpp:getRowMajorLayoutRelation"]}
{"id": "C34", "title": "Bicyclic kernel on the bicyclic layout is the matrix product", "statement": "With coprime dimensions, running the bicyclic matmul kernel on bicyclic packings of A (m x n) and B (n x p) gives the bicyclic packing of A*B.", "quantifier": "all pairwise coprime m,n,p, all entries, all admissible slot counts", "why_tests_cant": "CRT index algebra over all coprime shapes.", "anchors": ["lib/Kernel/KernelImplementation.h:implementBicyclicMatmul", "lib/Utils/Layout/Utils.cpp:getBicyclicLayoutRelation"]}
{"id": "C35", "title": "Tricyclic kernel on the tricyclic layout is the batched matrix product", "statement": "With pairwise coprime dimensions, the tricyclic batch matmul kernel on tricyclic packings gives the packing of the batched product.", "quantifier": "all pairwise coprime h,m,n,p, all entries", "why_tests_cant": "CRT index algebra over all coprime shapes.", "anchors": ["lib/Kernel/KernelImplementation.h:implementTricyclicBatchMatmul", "lib/Utils/Layout/Utils.cpp:getTricyclicLayoutRelation"]}
{"id": "C36", "title": "Declared rotation keys cover the rotations performed", "statement": "Every non-trivial ciphertext rotation amount performed by the rotate-and-reduce / BSGS / linear-transform kernels is contained, modulo the slot count, in the set of rotation indices computed for key generation.", "quantifier": "all periods, step counts, slot counts and split ratios", "why_tests_cant": "A missing key only shows at run time for particular parameters.", "anchors": ["lib/Utils/RotationUtils.h:rotateAndReduceRotationIndices", "lib/Utils/RotationUtils.h:lintransRotationIndices", "lib/Utils/RotationUtils.h:findBestBSGSRatio"]}
{"id": "C37", "title": "Shift network realizes the requested slot mapping", "statement": "The kernel built by implementShiftNetwork for a mapping returns ciphertexts whose slot t equals the input slot mapped to t (a closest one among the requested sources), and zero in every unmapped slot of every ciphertext, using only rotations by powers of two below the slot count.", "quantifier": "every nonempty request (one source to many targets and many candidate sources per target allowed), every number of ciphertexts and power-of-two slot count with at most 2^31 slots in total, every shift order, iteration order of the hash maps and priority-queue tie-breaking, every input", "why_tests_cant": "The correctness rests on an invariant over rounds and on the colouring of an arbitrary conflict graph.", "anchors": ["lib/Dialect/TensorExt/Transforms/ImplementShiftNetwork.cpp:findShiftScheme", "lib/Dialect/TensorExt/Transforms/RotationGroupKernel.h:implementShiftNetwork", "lib/Dialect/TensorExt/Transforms/ShiftScheme.cpp"]}
{"id": "C38", "title": "Topological sort is a topological order or reports a cycle", "statement": "topologicalSort returns every vertex exactly once with all edges pointing forward when the graph is acyclic, and fails exactly when it has a cycle.", "quantifier": "all finite directed graphs and edge-insertion histories", "why_tests_cant": "Unbounded graph size.", "anchors": ["lib/Utils/Graph/Graph.h:Graph::topologicalSort"]}
{"id": "C39", "title": "Level sort partitions an acyclic graph by longest path", "statement": "sortGraphByLevels returns disjoint levels covering all vertices such that every edge goes from a lower to a strictly higher level.", "quantifier": "all finite directed acyclic graphs", "why_tests_cant": "Unbounded graph size.", "anchors": ["lib/Utils/Graph/Graph.h:Graph::sortGraphByLevels"]}
{"id": "C40", "title": "Greedy colouring is total and proper", "statement": "The DSatur colouring assigns a colour to every vertex, adjacent vertices get different colours, and no more than maxDegree+1 colours are used.", "quantifier": "all finite undirected graphs, all priority-queue tie-breaking orders", "why_tests_cant": "Unbounded graph size.", "anchors": ["lib/Utils/Graph/Graph.h:GreedyGraphColoring"]}
{"id": "C41", "title": "Shortest path returns a path of the graph of minimum weight", "statement": "getShortestPath(s,t) returns a sequence of vertices from s to t along existing edges of minimum total weight.", "quantifier": "all finite weighted acyclic graphs and endpoint pairs", "why_tests_cant": "Unbounded graph size; the back-link defect needs a vertex with two relaxed successors.", "anchors": ["lib/Utils/Graph/Graph.h:Graph::getShortestPath"]}
{"id": "C42", "title": "Rotation canonicalizations preserve tensor values", "statement": "Normalizing a rotation amount, merging consecutive rotations, folding a rotation of a constant and folding rotate+extract all leave the observable values unchanged.", "quantifier": "all tensor sizes, all constant rotation amounts (negative, larger than the size), all tensor ranks", "why_tests_cant": "Unsigned remainder and flattening defects need non-power-of-two sizes, negative shifts or rank >= 2.", "anchors": ["lib/Dialect/TensorExt/IR/TensorExtCanonicalization.td", "lib/Dialect/TensorExt/IR/TensorExtOps.cpp:FoldRotateOfConst"]}
{"id": "C43", "title": "Detected reductions really sum the whole tensor", "statement": "If the partial-reduction analysis reports a value as a complete reduction of a tensor, then that value is the reduction of each tensor element exactly once.", "quantifier": "all expression trees over rotations, extractions and the reduce op, all tensor sizes, all rotation amounts", "why_tests_cant": "Sound only as an invariant over all rewrite histories; negative rotation amounts break it.", "anchors": ["lib/Analysis/PartialReductionRotateAnalysis/PartialReductionRotateAnalysis.h:PartialReduction", "lib/Transforms/RotateAndReduce"]}
{"id": "C44", "title": "Collapsing insertion chains preserves the assembled tensor", "statement": "Replacing a chain of extract/insert pairs with a constant index offset by a rotation yields the same tensor.", "quantifier": "all chains and tensors, including branching chains", "why_tests_cant": "Branching chains are not in the tests.", "anchors": ["lib/Dialect/TensorExt/Transforms/CollapseInsertionChains.cpp"]}
{"id": "C45", "title": "Operation balancing preserves values and flattens depth", "statement": "Rebalancing a tree of additions or multiplications keeps its value and yields a tree of depth ceil(log2(number of operands)).", "quantifier": "all operand lists of length >= 2, all commutative-associative operations, all secretness assignments", "why_tests_cant": "Unbounded operand count.", "anchors": ["lib/Transforms/OperationBalancer/OperationBalancer.cpp:recursiveProduceBalancedTree", "lib/Transforms/OperationBalancer/OperationBalancer.cpp:tryBalanceBlock"]}
{"id": "C46", "title": "Evaluation DAGs have the documented multiplicative depth", "statement": "The nodes for x^i and T_i(x) (computePowers, genChebyshevPowersRecursive, computeChebyshevPolynomialValues) have multiplicative depth exactly ceil(log2 i), and the Chebyshev Paterson-Stockmeyer DAG of a series of degree d >= 1 has depth at most ceil(log2(d+1)).", "quantifier": "all degrees, all coefficient vectors, all drop thresholds", "why_tests_cant": "Unbounded degree; the split point comes from a cost model.", "anchors": ["lib/Utils/Polynomial/ChebyshevPatersonStockmeyer.h:computePowers", "lib/Utils/Polynomial/ChebyshevPatersonStockmeyer.h:genChebyshevPowerRecursive", "lib/Utils/Polynomial/ChebyshevPatersonStockmeyer.h:patersonStockmeyerChebyshevPolynomialEvaluation"]}
{"id": "C47", "title": "The floor-division node computes the floor of the quotient", "statement": "Evaluating a floorDiv node with dividend a and divisor d > 0 returns floor(a/d), for scalars and elementwise for vectors.", "quantifier": "all 32-bit dividends and divisors, all vectors", "why_tests_cant": "Zero and negative dividends are exactly the untested ones.", "anchors": ["lib/Kernel/EvalVisitor.cpp:FloorDivNode", "lib/Kernel/ArithmeticDag.h:floorDiv"]}
{"id": "C48", "title": "Vector nodes are pointwise and rotation is cyclic", "statement": "Evaluating add/sub/mul of two vectors is pointwise; evaluating leftRotate(v, a) puts v[(i+a) mod n] in slot i for every integer a, negative or larger than n.", "quantifier": "all vector lengths, all elements whose results fit 32 bits, all rotation amounts", "why_tests_cant": "The whole range of rotation amounts.", "anchors": ["lib/Kernel/EvalVisitor.cpp", "lib/Utils/RotationUtils.h:normalizeRotation"]}
{"id": "C49", "title": "Ciphertext-plaintext products by generalized diagonals are matrix products", "statement": "With n coprime to the rotation period, the rotate-and-reduce kernel on the bicyclic packing of the secret factor and the generalized diagonals of the cleartext factor, plus the packed initial value, replicated from its valid prefix, is the bicyclic packing of A*B + C, for either side being secret.", "quantifier": "all m, n, p with the period coprime to n, all entries, all slot counts large enough for one period of the result in front of the rotation reach", "why_tests_cant": "CRT index algebra over all shapes.", "anchors": ["lib/Transforms/ConvertToCiphertextSemantics/ConvertToCiphertextSemantics.cpp:bicyclicDiagonalKernel", "lib/Utils/Layout/Utils.cpp:getBicyclicDiagonalRelation", "lib/Transforms/LayoutPropagation/LayoutPropagation.cpp"]}
{"id": "C50", "title": "Packing layouts lose no element and never collide", "statement": "In the row-major, diagonal, bicyclic, tricyclic, per-row and bicyclic-diagonal layouts every tensor element occupies at least one slot and every slot holds at most one element; the emitted CRT assignment loop stores exactly the layout.", "quantifier": "all tensor shapes, all slot counts admitted by the layout", "why_tests_cant": "Float rounding in the ciphertext bound loses an element only for large tensors.", "anchors": ["lib/Utils/Layout/Utils.cpp:getRowMajorLayoutRelation", "lib/Utils/Layout/Utils.cpp:getDiagonalLayoutRelation", "lib/Utils/Layout/Utils.cpp:getBicyclicLayoutRelation", "lib/Utils/Layout/Utils.cpp:getTricyclicLayoutRelation", "lib/Utils/Layout/Utils.cpp:getPerRowLayoutRelation"]}
{"id": "C51", "title": "The best shift scheme is no worse than any other one tried", "statement": "findBestShiftScheme returns a scheme whose number of rotation groups is minimal among the shift orders it tried.", "quantifier": "all mappings, all seeds, all numbers of tries", "why_tests_cant": "A test sees one seed; the comparison is between quantities that never differ.", "anchors": ["lib/Dialect/TensorExt/Transforms/ImplementShiftNetwork.cpp:findBestShiftScheme"]}
{"id": "C52", "title": "Rotate-and-reduce preserves the program's values", "statement": "When the pass replaces a detected reduction by its logarithmic rotate-and-reduce kernel, combined with the saved scalars, the replaced operation keeps its value: in every slot if it is a tensor, and the same scalar if it is a scalar.", "quantifier": "all SSA programs of rotations, extractions, reduce ops and opaque ops, all tensor sizes, all contents, all saved values", "why_tests_cant": "Sizes that are not a power of two compile without complaint; only powers of two are tested.", "anchors": ["lib/Transforms/RotateAndReduce/RotateAndReduce.cpp", "lib/Kernel/KernelImplementation.h:implementRotateAndReduceAccumulation"]}
{"id": "C53", "title": "Lowering a rotation to slices rotates the tensor", "statement": "The pair of extract_slice/insert_slice operations made from tensor_ext.rotate is the left rotation of the last axis by the shift, for every sign and size of the shift.", "quantifier": "all shapes, all contents, all constant and run-time shifts, all integer types of the shift", "why_tests_cant": "Narrow shift types and all run-time values of the shift cannot be enumerated.", "anchors": ["lib/Dialect/TensorExt/Conversions/TensorExtToTensor/TensorExtToTensor.cpp:ConvertRotateOp"]}
{"id": "C54", "title": "Balancing never increases multiplicative depth", "statement": "After operation balancing the depth of every remaining value, counted in the balanced kind of operation, is at most what it was; the depth counted in other kinds is unchanged.", "quantifier": "all blocks, all operand depths, all secretness assignments", "why_tests_cant": "The balancer ignores that operands may themselves be deep; only shallow operands are tested.", "anchors": ["lib/Transforms/OperationBalancer/OperationBalancer.cpp:tryBalanceBlock"]}
{"id": "C55", "title": "Static loops replace secret-bounded loops faithfully", "statement": "When a scf.for with a secret bound is converted to an affine.for between the annotated bounds with a guarded body, and the annotated bounds enclose the real ones, the loop results are those of the original loop.", "quantifier": "all bounds, annotations, constant steps, bodies and initial values", "why_tests_cant": "All run-time bounds for all steps; only step 1 with lower annotation 0 is tested.", "anchors": ["lib/Transforms/ConvertSecretForToStaticFor/ConvertSecretForToStaticFor.cpp:SecretForToStaticForConversion"]}
{"id": "C56", "title": "Static loops replace secret-conditioned while loops faithfully", "statement": "When a scf.while with a secret condition is converted to an affine.for of max_iter iterations with a guarded body, and the original loop leaves within max_iter iterations, the results are those of the original loop.", "quantifier": "all conditions, bodies, numbers of loop variables and initial values", "why_tests_cant": "Only loops with one variable forwarded unchanged are tested.", "anchors": ["lib/Transforms/ConvertSecretWhileToStaticFor/ConvertSecretWhileToStaticFor.cpp:SecretWhileToStaticForConversion"]}
{"id": "C57", "title": "Static scans replace secret tensor accesses faithfully", "statement": "The scan over all positions that replaces tensor.extract (tensor.insert) at a secret index yields the element at that index (the tensor with that element replaced) for every index inside the tensor.", "quantifier": "all tensors, all in-range indices, all secretness states", "why_tests_cant": "All tensor sizes, including sizes only known at run time.", "anchors": ["lib/Transforms/ConvertSecretExtractToStaticExtract/ConvertSecretExtractToStaticExtract.cpp", "lib/Transforms/ConvertSecretInsertToStaticInsert/ConvertSecretInsertToStaticInsert.cpp"]}
{"id": "C58", "title": "If-to-select conversion preserves values", "statement": "Replacing scf.if by hoisted branches and arith.select, in any order and at any nesting depth, keeps every value that remains in the program and the sequence of side effects.", "quantifier": "all structured programs, all nestings, all orders of rewriting, all inputs", "why_tests_cant": "All nestings and rewriting orders.", "anchors": ["lib/Transforms/ConvertIfToSelect/ConvertIfToSelect.cpp:IfToSelectConversion"]}
{"id": "C59", "title": "Values reported public do not depend on secrets", "statement": "If the secretness analysis labels a value public, then two runs whose public inputs agree give that value the same contents; and if all branch conditions and loop bounds are labelled public the two runs take the same branches and trip counts.", "quantifier": "all structured programs, all orders in which the solver visits operations, all pairs of runs", "why_tests_cant": "A statement about pairs of runs (noninterference).", "anchors": ["lib/Analysis/SecretnessAnalysis/SecretnessAnalysis.cpp", "lib/Analysis/SecretnessAnalysis/SecretnessAnalysis.h:join"]}
{"id": "C60", "title": "Chunked addition adds", "statement": "The carry-handling code generated for an addition of integers split into 8-bit chunks yields chunks denoting the sum modulo two to the width, also when its operands are results of earlier chunked additions.", "quantifier": "all chunk counts, all operands, all chains of additions", "why_tests_cant": "Chains of additions leave chunks above 255; tests compare generated text only.", "anchors": ["lib/Dialect/Arith/Conversions/ArithToCGGIQuart/ArithToCGGIQuart.cpp:ConvertQuartAddI"]}
{"id": "C61", "title": "Chunked constants, extensions and products denote the right integers", "statement": "The chunks generated for a constant denote the constant, those of a sign or zero extension the extended integer, and those of a product the product modulo 2^32.", "quantifier": "all constants, all operands, all widths the conversion accepts", "why_tests_cant": "2^64 operand pairs.", "anchors": ["lib/Dialect/Arith/Conversions/ArithToCGGIQuart/ArithToCGGIQuart.cpp:ConvertQuartConstantOp", "lib/Dialect/Arith/Conversions/ArithToCGGIQuart/ArithToCGGIQuart.cpp:ConvertQuartExt", "lib/Dialect/Arith/Conversions/ArithToCGGIQuart/ArithToCGGIQuart.cpp:ConvertQuartMulI"]}
{"id": "C62", "title": "Forwarding stores to loads preserves memory semantics", "statement": "Replacing a load by the value of the store chosen by the pass, and erasing a store the pass finds overwritten, leaves the contents of every later load and the final memory unchanged.", "quantifier": "all straight-line blocks of loads, stores and pure ops, all index values at run time, all memories", "why_tests_cant": "Index values that coincide only at run time.", "anchors": ["lib/Transforms/ForwardStoreToLoad/ForwardStoreToLoad.cpp:isForwardableOp", "lib/Transforms/ForwardStoreToLoad/ForwardStoreToLoad.cpp:isPostDominated"]}
{"id": "C63", "title": "Forwarding inserts to extracts preserves values", "statement": "The value found by walking back from tensor.extract through inserts, constants and from_elements is the element the extract reads.", "quantifier": "all insertion chains, all shapes, all constant and run-time indices", "why_tests_cant": "Index values that coincide only at run time.", "anchors": ["lib/Transforms/ForwardInsertToExtract/ForwardInsertToExtract.cpp:getValueAtIndex", "lib/Utils/TensorUtils.cpp:getFlattenedIndex"]}
{"id": "C64", "title": "Folded constant tensors have the right elements", "statement": "The constant that replaces a transpose, broadcast, or slice of a broadcast of a constant has, at every index, the element the replaced ops produce.", "quantifier": "all ranks, shapes, permutations, broadcast dimensions, offsets and strides, all constants", "why_tests_cant": "Every shape and permutation is its own index computation; tests fold a few small ones.", "anchors": ["lib/Transforms/LinalgCanonicalizations/LinalgCanonicalizations.cpp:FoldConstantLinalgTranspose", "lib/Transforms/LinalgCanonicalizations/LinalgCanonicalizations.cpp:FoldConstantBroadcast", "lib/Transforms/LinalgCanonicalizations/LinalgCanonicalizations.cpp:FoldBroadcastExtractSlice", "lib/Utils/TensorUtils.cpp:getIndicesFromRowMajorShape"]}
{"id": "C65", "title": "Element-wise linalg ops keep their values", "statement": "Replacing linalg.map by the op of its body, and an element-wise linalg.generic by tensor ops, computes at every index what the body computes from the elements there.", "quantifier": "all bodies, all operand orders, all tensors", "why_tests_cant": "Bodies are arbitrary programs; tests use ops whose operands are in the order of the inputs.", "anchors": ["lib/Transforms/LinalgCanonicalizations/LinalgCanonicalizations.cpp:LinalgMapToElementwise", "lib/Transforms/LinalgCanonicalizations/LinalgCanonicalizations.cpp:LinalgGenericToElementwise"]}
{"id": "C66", "title": "Convolutions with materialized filters compute the same results", "statement": "An undilated convolution, and the convolution that replaces a sum or average pooling, produce the results of the op they replace.", "quantifier": "all shapes, strides, dilations, inputs, filters and initial values", "why_tests_cant": "Tests compare the generated text of a few shapes.", "anchors": ["lib/Transforms/LinalgCanonicalizations/LinalgCanonicalizations.cpp:UndilateConv1DNcwFcw", "lib/Transforms/LinalgCanonicalizations/LinalgCanonicalizations.cpp:UndilateConv2DNchwFchw", "lib/Transforms/LinalgCanonicalizations/LinalgCanonicalizations.cpp:RewriteAvgPoolAsConv1D", "lib/Transforms/LinalgCanonicalizations/LinalgCanonicalizations.cpp:RewriteAvgPoolAsConv2D"]}
{"id": "C67", "title": "Fusing a convolution with the pooling after it preserves results", "statement": "The convolution with the fused filter, effective strides and pooled initial value produces the pooled, scaled results of the original convolution.", "quantifier": "all shapes, strides, dilations, inputs, filters, initial values and scales", "why_tests_cant": "Six nested loops over overlapping windows; tests fix the sizes.", "anchors": ["lib/Transforms/LinalgCanonicalizations/ConvPoolFusion.cpp:fuseFiltersImpl", "lib/Transforms/LinalgCanonicalizations/ConvPoolFusion.cpp:matchScalingFactor", "lib/Transforms/LinalgCanonicalizations/LinalgCanonicalizations.cpp:FuseConv2DPooling"]}
{"id": "C68", "title": "Folding insertions into constants preserves tensors", "statement": "The constant or tensor.from_elements that replaces insertions into a constant has the elements of the last insertion's result.", "quantifier": "all shapes, all chains of insertions, all constants and scalars", "why_tests_cant": "Chains may overwrite elements, leave the constant's and be used elsewhere.", "anchors": ["lib/Transforms/FoldConstantTensors/FoldConstantTensors.cpp:InsertAfterConstant", "lib/Transforms/FoldConstantTensors/FoldConstantTensors.cpp:InsertIntoFromElements"]}
{"id": "C69", "title": "Broadcasts and reshapes are materialized faithfully", "statement": "Replacing a unit broadcast by tensor.expand_shape, and an operand of an element-wise linalg.generic with fewer dimensions by a broadcast of it, gives every iteration the same elements.", "quantifier": "all ranks, shapes, broadcast dimensions and indexing maps", "why_tests_cant": "Indexing maps may permute dimensions; tests use ordered ones.", "anchors": ["lib/Transforms/LinalgCanonicalizations/LinalgCanonicalizations.cpp:BroadcastToExpandShape", "lib/Transforms/LinalgCanonicalizations/LinalgCanonicalizations.cpp:MaterializeBroadcasts", "lib/Utils/TensorUtils.cpp:getReassociationForReshapeAtDim"]}
{"id": "C70", "title": "Decryption inverts encryption", "statement": "Decrypting with the secret key what the lowered encryption produces from a plaintext returns that plaintext, for secret-key and public-key encryption, whenever the noise is small compared to the ciphertext modulus.", "quantifier": "all rings, moduli, keys, plaintexts and samples of the noise", "why_tests_cant": "Noise and keys are random, and the tests only compare the emitted ops with expected text.", "anchors": ["lib/Dialect/LWE/Conversions/LWEToPolynomial/LWEToPolynomial.cpp:ConvertRLWEEncrypt", "lib/Dialect/LWE/Conversions/LWEToPolynomial/LWEToPolynomial.cpp:ConvertRLWEDecrypt"]}
{"id": "C71", "title": "Lowered ciphertext operations act on the encrypted values", "statement": "Addition, subtraction, negation, multiplication by a scalar, by a plaintext and of two ciphertexts, once lowered to polynomials, add, subtract, negate and multiply the values the ciphertexts decrypt to.", "quantifier": "all rings, moduli, ciphertexts of any size, secret keys", "why_tests_cant": "The identity is over all keys and ciphertexts; tests match the emitted ops.", "anchors": ["lib/Dialect/LWE/Conversions/LWEToPolynomial/LWEToPolynomial.cpp:ConvertRAdd", "lib/Dialect/LWE/Conversions/LWEToPolynomial/LWEToPolynomial.cpp:ConvertRMul", "lib/Dialect/LWE/Conversions/LWEToPolynomial/LWEToPolynomial.cpp:ConvertRNegate", "lib/Dialect/LWE/Conversions/LWEToPolynomial/LWEToPolynomial.cpp:ConvertRMulPlain"]}
{"id": "C72", "title": "Key switching keeps the encrypted value", "statement": "The ciphertext produced by the decomposed key switch decrypts under the output key to the product of the switched component and the input key up to the rounded noise of the key, relinearization decrypts to the same value as its input up to that noise, and mod-down rounds the quotient by the dropped moduli.", "quantifier": "all RNS bases, all splits of the basis by the number of key-switch primes, all ring elements, keys and noises", "why_tests_cant": "The noise identity is over all inputs and keys; tests run the pipeline on one basis without checking values.", "anchors": ["lib/Dialect/LWE/Transforms/DecomposeLWEOps.cpp:DecomposeKeySwitchPattern", "lib/Dialect/LWE/Transforms/DecomposeLWEOps.cpp:DecomposeModDownPattern", "lib/Dialect/LWE/Transforms/DecomposeLWEOps.cpp:createPInvModQConstant", "lib/Dialect/CKKS/Transforms/DecomposeRelinearize.cpp:DecomposeRelinearizePattern"]}
{"id": "C73", "title": "Inserting ciphertext management does not change what a program computes", "statement": "After plaintext initialisation, modulus reduction before or after multiplications, relinearization, level matching and scale matching have been inserted, the program yields the same values as before for every meaning of the arithmetic operations, given that a management operation returns the message of its operand.", "quantifier": "all straight-line programs of any length, all option combinations, all input values", "why_tests_cant": "Insertion rewires operands op by op; a test sees one wiring.", "anchors": ["lib/Transforms/SecretInsertMgmt/Pipeline.cpp:runInsertMgmtPipeline", "lib/Transforms/SecretInsertMgmt/SecretInsertMgmtPatterns.cpp:ModReduceBefore", "lib/Transforms/SecretInsertMgmt/SecretInsertMgmtPatterns.cpp:ModReduceAfterMult", "lib/Transforms/SecretInsertMgmt/SecretInsertMgmtPatterns.cpp:MatchCrossLevel", "lib/Transforms/SecretInsertMgmt/SecretInsertMgmtPatterns.cpp:UseInitOpForPlaintextOperand"]}
{"id": "C74", "title": "After management insertion operands of an operation are at one level", "statement": "In the program produced by management insertion every addition, subtraction, multiplication and insertion with a secret result has all its secret operands at the level of its result, as computed afresh on the produced program, unless the level is reported invalid; and no lookup of a missing analysis state happens.", "quantifier": "all straight-line programs, level budgets and options", "why_tests_cant": "Level mismatches depend on the shape of the whole dataflow graph.", "anchors": ["lib/Transforms/SecretInsertMgmt/SecretInsertMgmtPatterns.cpp:MatchCrossLevel", "lib/Transforms/SecretInsertMgmt/SecretInsertMgmtPatterns.cpp:updateResultLevelLattice", "lib/Analysis/LevelAnalysis/LevelAnalysis.cpp:LevelAnalysis::visitOperation", "lib/Analysis/LevelAnalysis/LevelAnalysis.cpp:transferForward"]}
{"id": "C75", "title": "Every product of ciphertexts is relinearized before it is used", "statement": "In the program produced by management insertion every operation except a relinearization only sees secret operands of dimension two, and so do the yielded values, for the BGV, CKKS and B/FV passes.", "quantifier": "all straight-line programs and options", "why_tests_cant": "A missing relinearization shows up only for particular chains of multiplications.", "anchors": ["lib/Transforms/SecretInsertMgmt/SecretInsertMgmtPatterns.cpp:MultRelinearize", "lib/Transforms/SecretInsertMgmt/SecretInsertMgmtBFV.cpp:runOnOperation", "lib/Analysis/DimensionAnalysis/DimensionAnalysis.cpp:DimensionAnalysis::visitOperation"]}
{"id": "C76", "title": "The multiplicative depth analysis counts multiplications on paths", "statement": "The depth the analysis gives a secret value is the largest number of multiplications on a path of secret values leading to it, and the maximum handed to B/FV parameter selection is the maximum over the program.", "quantifier": "all straight-line programs of any depth", "why_tests_cant": "Paths are exponentially many and the depth is unbounded.", "anchors": ["lib/Analysis/MulDepthAnalysis/MulDepthAnalysis.cpp:deriveResultMulDepth", "lib/Analysis/MulDepthAnalysis/MulDepthAnalysis.cpp:getMaxMulDepth"]}
{"id": "C77", "title": "Fresh operands never meet once-multiplied operands unadjusted", "statement": "In the program produced by BGV management insertion no addition, subtraction, multiplication or insertion has a secret operand with no multiplication on any path beside a secret operand with one multiplication on its longest path; a scale adjustment, which counts as a multiplication, stands in between.", "quantifier": "all straight-line programs and options", "why_tests_cant": "The insertion changes depths seen by later operations; tests see single expressions.", "anchors": ["lib/Transforms/SecretInsertMgmt/SecretInsertMgmtPatterns.cpp:MatchCrossMulDepth", "lib/Transforms/SecretInsertMgmt/Pipeline.cpp:handleCrossMulDepthOps"]}
{"id": "C78", "title": "Programs with populated CKKS scales validate", "statement": "The program --populate-scale-ckks produces passes --validate-scale with the scales the pass annotates, and every value of the input is still there with the level and the message it had.", "quantifier": "all straight-line programs, all default scales, input scales and modulus chains", "why_tests_cant": "The pass inserts adjustments with the scales of a first analysis and annotates those of a second one; whether the two fit depends on the whole program.", "anchors": ["lib/Transforms/PopulateScale/PopulateScaleCKKS.cpp:runOnOperation", "lib/Analysis/ScaleAnalysis/ScaleAnalysis.cpp:ScaleAnalysis::visitOperation", "lib/Transforms/ValidateScale/ValidateScale.cpp:runCKKSValidation"]}
{"id": "C79", "title": "Annotated CKKS scales are the scales ciphertexts are at", "statement": "In a program accepted by scale validation every ciphertext and encoded plaintext holds its message times two to the power of its annotated scale, and after --populate-scale-ckks this holds for every value of the input with the message it had there.", "quantifier": "all straight-line programs, parameters and inputs, over any field", "why_tests_cant": "Tests compare annotations with expected text; what the ciphertext really holds depends on all operations before it.", "anchors": ["lib/Transforms/ValidateScale/ValidateScale.cpp:runCKKSValidation", "lib/Transforms/PopulateScale/PopulateScaleCKKS.cpp:runOnOperation", "lib/Transforms/PopulateScale/PopulateScalePatterns.cpp:ConvertAdjustScaleToMulPlain"]}
{"id": "C80", "title": "The BGV noise analysis bounds the noise ciphertexts have", "statement": "For every secret value of a straight-line BGV program the worst-case coefficient-bound noise analysis gives a number e such that, whatever errors encryption, key switching and modulus switching add within their limits, the phase of the ciphertext is congruent modulo the ciphertext modulus to a polynomial that is congruent to the message modulo the plaintext modulus t and whose coefficients are at most t(e + 1/2).", "quantifier": "all programs, ring dimensions, parameters, keys, messages and error polynomials within the stated limits", "why_tests_cant": "The bound is about all error polynomials and messages of every program; tests run one program with one random error and print the estimate.", "anchors": ["lib/Analysis/NoiseAnalysis/BGV/NoiseByBoundCoeffModel.cpp:evalMul", "lib/Analysis/NoiseAnalysis/BGV/NoiseByBoundCoeffModel.cpp:evalRelinearizeHYBRID", "lib/Analysis/NoiseAnalysis/BGV/NoiseAnalysis.cpp:visitOperation", "lib/Parameters/BGV/Params.cpp"]}
{"id": "C81", "title": "BGV programs accepted by noise validation decrypt correctly", "statement": "If --validate-noise accepts a straight-line BGV program under the worst-case coefficient-bound model, then every secret value of it decrypts to the message the program computes: its phase has a representative below half the ciphertext modulus, and any such representative is congruent to the message modulo the plaintext modulus.", "quantifier": "all programs, parameters, keys, messages and error polynomials within the stated limits", "why_tests_cant": "Acceptance of finitely many programs with sampled errors says nothing about unlikely errors or other programs, and a wrong budget shows only when errors are near their limits.", "anchors": ["lib/Transforms/ValidateNoise/ValidateNoise.cpp:validateNoiseForValue", "lib/Analysis/NoiseAnalysis/BGV/NoiseByBoundCoeffModel.cpp:toLogBudget"]}
{"id": "C82", "title": "The range analysis bounds the magnitude of every value", "statement": "For inputs within the input range given to the CKKS range analysis, no element of any value of the program has a magnitude above the range the analysis reports for that value, for every straight-line program of sums, products, constants of all attribute kinds, insertions of elements, rotations, slices and ciphertext management.", "quantifier": "all straight-line programs, all inputs within the range, all constants, all elements", "why_tests_cant": "Tests look at the printed range of a few programs; that a range is a bound is a statement about all inputs, and constants have many attribute kinds.", "anchors": ["lib/Analysis/RangeAnalysis/RangeAnalysis.cpp:47-163", "lib/Analysis/RangeAnalysis/RangeAnalysis.h:21-100"]}
{"id": "C83", "title": "The first CKKS modulus has room for every result at level zero", "statement": "When --generate-param-ckks chooses the size of the first modulus from the range analysis, or validates a given size without a warning, every value at level zero, encoded at the scaling modulus, stays below a quarter of the first modulus, for all inputs within the input range; and the size it chooses is the least that leaves this room for the computed ranges.", "quantifier": "all straight-line programs, all inputs within the range, all scaling modulus sizes", "why_tests_cant": "Decryption only goes wrong for extreme inputs, which end-to-end tests do not pick; least size and room are statements about all programs.", "anchors": ["lib/Transforms/GenerateParam/GenerateParamCKKS.cpp:57-127"]}
{"id": "C84", "title": "--optimize-relinearization leaves a program the backends can run, with as few relinearizations as possible", "statement": "For every program of a secret.generic, whatever relinearizations it has, --optimize-relinearization computes the same results; its linear program always has a solution; after inserting the relinearizations of any solution no ciphertext has more than three components, every rotation, modulus reduction and ciphertext-plaintext operation acts on two components, every yielded ciphertext has two, and, unless allow-mixed-degree-operands is set, the ciphertext operands of an operation have equally many; and for an optimal solution no placement of relinearizations after operations that meets these requirements uses fewer. The dimension the analysis then annotates is the number of components.", "quantifier": "for all well-formed programs, all sets of rotations, both values of allow-mixed-degree-operands, all solutions of the linear program, all alternative placements", "why_tests_cant": "Tests run the pass on about a dozen fixed programs and compare the printed result of one solver run; they cannot show that every solution of the constraints is a valid placement, that the constraints exclude no valid placement, or that they are satisfiable for every program.", "anchors": ["lib/Analysis/OptimizeRelinearizationAnalysis/OptimizeRelinearizationAnalysis.cpp:46-460", "lib/Transforms/OptimizeRelinearization/OptimizeRelinearization.cpp:30-120", "lib/Analysis/DimensionAnalysis/DimensionAnalysis.cpp:33-88"]}
{"id": "C85", "title": "lattigo-alloc-to-inplace does not change what any operation reads or what is returned or stored", "statement": "For every block of straight-line code, after lattigo-alloc-to-inplace every operation, when it runs, finds in the ciphertext objects of its operands the values the program before the pass gives them, every ciphertext that is returned, stored in memory or inserted into a tensor still has its value at the end, and the caller's argument ciphertexts are unchanged; the pass does not abort.", "quantifier": "for all straight-line blocks (allocating and in-place operations mixed), all meanings of the evaluator operations, all inputs, all levels", "why_tests_cant": "A wrongly reused object only shows when a later operation happens to read it; the lit tests check the printed IR of a handful of programs, not which objects are overwritten while a reference to them exists.", "anchors": ["lib/Utils/AllocToInPlaceUtils.h:45-295", "lib/Dialect/Lattigo/Transforms/AllocToInPlace.cpp:54-342"]}
{"id": "C86", "title": "lattigo-alloc-to-inplace never writes a result into an object with fewer levels than the result needs", "statement": "After lattigo-alloc-to-inplace the object each operation writes to is, after the operation, at exactly the level LevelAnalysis computed for the result, although Lattigo lowers a result to the level of the object it is given.", "quantifier": "for all straight-line blocks, all assignments of levels to values, all in-place operations of the input that respect levels", "why_tests_cant": "Levels only matter at run time in the backend: a truncated ciphertext fails or decrypts wrongly only if the level is used up later; tests have one or two examples of levels.", "anchors": ["lib/Utils/AllocToInPlaceUtils.h:178-245", "lib/Dialect/Lattigo/Transforms/AllocToInPlace.cpp:54-130"]}
{"id": "C87", "title": "openfhe-alloc-to-inplace does not change what any operation reads or what is returned or stored", "statement": "For every block of straight-line code, after openfhe-alloc-to-inplace every operation, when it runs, finds in the ciphertext objects of its operands the values the program before the pass gives them, every ciphertext returned or put into a tensor still has its value at the end, and the caller's argument ciphertexts are unchanged.", "quantifier": "for all straight-line blocks, all meanings of the operations, all inputs", "why_tests_cant": "OpenFHE ciphertexts are shared pointers, so overwriting one changes every alias; whether an alias is looked at later depends on the whole program, and lit tests only compare printed IR.", "anchors": ["lib/Utils/AllocToInPlaceUtils.h:297-372", "lib/Dialect/Openfhe/Transforms/AllocToInPlace.cpp:20-212", "lib/Target/OpenFhePke/OpenFhePkeEmitter.cpp:885-970"]}
{"id": "C88", "title": "Whatever solution the solver finds, ilp-bootstrap-placement makes a program whose ciphertexts have the levels and scales they need", "statement": "For every straight-line secret.generic body and every solution of the integer program built for it, --ilp-bootstrap-placement does not fail; the program it makes computes the same values, every product of ciphertexts is relinearized, every ciphertext stays within the levels and scales there are, every operation finds its ciphertext operands at one level and, apart from products, one scale, no more levels are used up than there are, bootstraps start at the lower bound or above at the rescaling factor, and the yielded ciphertexts are at the annotated levels and scales.", "quantifier": "for all programs, all options with positive waterline scale and rescaling factor, all annotations, all solutions of the constraints (optimal or not)", "why_tests_cant": "Tests solve a few programs with one solver; which of the feasible points a solver returns, and how edge, node and bootstrap decisions combine, cannot be enumerated.", "anchors": ["lib/Analysis/ILPBootstrapPlacementAnalysis/ILPBootstrapPlacementAnalysis.cpp:73-530", "lib/Transforms/ILPBootstrapPlacement/ILPBootstrapPlacement.cpp"]}
{"id": "C89", "title": "The levels annotated after ilp-bootstrap-placement are those of the solution", "statement": "On the program --ilp-bootstrap-placement makes, the level analysis of annotate-mgmt finds for every ciphertext the waterline minus the level the solution gives it, and the operands of every operation at one level.", "quantifier": "for all programs, all solutions, all annotations of arguments and all targets", "why_tests_cant": "Two descriptions of levels, counted up and counted down, meet only in the final annotation; a mismatch needs a particular combination of bootstraps and operands.", "anchors": ["lib/Transforms/ILPBootstrapPlacement/ILPBootstrapPlacement.cpp", "lib/Analysis/LevelAnalysis/LevelAnalysis.cpp", "lib/Analysis/ILPBootstrapPlacementAnalysis/ILPBootstrapPlacementAnalysis.cpp:207-260"]}
{"id": "C90", "title": "The objective of ilp-bootstrap-placement charges for every bootstrap and rescaling placed", "statement": "For every solution, the objective charges the bootstrap cost once for each mgmt.bootstrap placed and the rescaling cost at least once for each mgmt.modreduce placed.", "quantifier": "for all programs and all solutions", "why_tests_cant": "The optimum is only meaningful if the objective counts what is emitted; a test sees the emitted operations, not the objective.", "anchors": ["lib/Analysis/ILPBootstrapPlacementAnalysis/ILPBootstrapPlacementAnalysis.cpp:457-530", "lib/Transforms/ILPBootstrapPlacement/README.md"]}
{"id": "C91", "title": "In level-only mode ilp-bootstrap-placement leaves at most bootstrap-waterline multiplications between bootstraps", "statement": "For every program placed without scales, along every path from an argument or a bootstrap to a value without a bootstrap in between there are at most bootstrap-waterline multiplications of ciphertexts.", "quantifier": "for all programs, all solutions, all paths", "why_tests_cant": "The longest path and the bootstraps on it depend on the whole program and on the solution picked.", "anchors": ["lib/Transforms/ILPBootstrapPlacement/ILPBootstrapPlacement.td", "lib/Analysis/ILPBootstrapPlacementAnalysis/ILPBootstrapPlacementAnalysis.cpp:285-456"]}
{"id": "C92", "title": "The expanded filter of a convolution times the flattened data is the convolution", "statement": "For each of linalg.conv_1d, conv_2d, conv_1d_ncw_fcw and conv_2d_nchw_fchw, with any strides and zero padding on both sides, the matrix built from the filter has at most one filter element at each position, and its product with the data flattened in row-major order is the convolution of the padded data, element by element in row-major order of the output; the relation built in steps for conv_2d_nchw_fchw is the same matrix.", "quantifier": "for all sizes of data and filter, all strides and paddings, all numbers of channels, all values in a commutative ring", "why_tests_cant": "Tests evaluate the relation for a few sizes; an off-by-one in a bound shows only for sizes and strides where the last window, the padding or the channel offset matters.", "anchors": ["lib/Utils/Layout/Convolution.cpp:28-602", "lib/Utils/Layout/Convolution.h"]}
{"id": "C93", "title": "A convolution compiled by layout propagation leaves the convolution in the result layout", "statement": "When the filter is packed in the layout assigned by --layout-propagation and the data in row-major order, the Halevi-Shoup kernel emitted by --convert-to-ciphertext-semantics computes a ciphertext that holds the convolution in the layout assigned to the result, with zeros elsewhere, also when padding of the data is folded into the convolution and when a stride interchanges rows.", "quantifier": "for all sizes, strides, paddings, channels, slot counts that are powers of two and hold the matrix, all values", "why_tests_cant": "The layouts, the rounding of sizes to powers of two and the kernel are tested apart and for few shapes; whether they agree depends on the shape.", "anchors": ["lib/Transforms/LayoutPropagation/LayoutPropagation.cpp:141-248", "lib/Transforms/LayoutPropagation/LayoutPropagation.cpp:844-1270", "lib/Transforms/LayoutPropagation/Utils.cpp:62-76", "lib/Transforms/ConvertToCiphertextSemantics/ConvertToCiphertextSemantics.cpp:1041-1525", "lib/Utils/Layout/Utils.cpp:237-256"]}
{"id": "C94", "title": "The row interchange of strided convolutions is a permutation and result layouts lose no element", "statement": "The interchange that moves output channels into gaps maps rows to rows one to one when the channels are a multiple of the gap (its square in two dimensions), and the layouts of the results of convolutions store every element somewhere and no two elements in one slot, over any number of ciphertexts.", "quantifier": "for all channel counts, sizes, gaps and slot counts", "why_tests_cant": "A collision or a gap in the numbering depends on the channels, the stride and the size together.", "anchors": ["lib/Utils/Layout/Convolution.cpp:615-843", "lib/Transforms/LayoutPropagation/LayoutPropagation.cpp:1238-1250"]}
{"id": "C95", "title": "Truth tables and gates on encrypted bits give the table's bit in every back end", "statement": "A program of gates and truth tables on secret and clear bits, converted by --secret-to-cggi with the message bits the pass chooses, then decomposed by --cggi-decompose-operations with or without expanding combinations, or lowered to tfhe-rust or jaxite, is accepted by the verifiers and returns an encryption of the bit of the table numbered by the inputs, first input most significant.", "quantifier": "for all programs, all tables of three and four inputs, all inputs, all numbers of message bits", "why_tests_cant": "Tests compare the emitted IR of single operations; whether positions wrap in the message space depends on the message bits, which depend on the whole program.", "anchors": ["lib/Dialect/Secret/Conversions/SecretToCGGI/SecretToCGGI.cpp:193-356", "lib/Dialect/Secret/Conversions/SecretToCGGI/SecretToCGGI.cpp:742-759", "lib/Dialect/CGGI/Transforms/DecomposeOperations.cpp:31-110", "lib/Dialect/CGGI/IR/CGGIOps.cpp:43-101", "lib/Dialect/CGGI/Conversions/CGGIToTfheRust/CGGIToTfheRust.cpp:142-252", "lib/Dialect/CGGI/Conversions/CGGIToJaxite/CGGIToJaxite.cpp:107-141"]}
{"id": "C96", "title": "A truth table on clear inputs is computed by the selections emitted for it", "statement": "The tree of arith.select operations that replaces a comb.truth_table whose inputs are all clear returns the bit of the table numbered by the inputs, first input most significant.", "quantifier": "for all numbers of inputs, all tables, all inputs", "why_tests_cant": "Tests check the shape of the emitted selections, not their value on inputs.", "anchors": ["lib/Dialect/Secret/Conversions/SecretToCGGI/SecretToCGGI.cpp:66-87"]}
{"id": "C97", "title": "Concealing clear integers and tensors keeps every bit at its place", "statement": "secret.conceal of an integer encrypts bit i at position i, and of a tensor encrypts the bits of each element at the element's position; the conversions between indices and positions of a strided memref are inverse to each other.", "quantifier": "for all widths, all values, all shapes, all offsets", "why_tests_cant": "Tests check types of the emitted operations for a few shapes; the positions read show only on values.", "anchors": ["lib/Dialect/Secret/Conversions/SecretToCGGI/SecretToCGGI.cpp:577-650", "lib/Transforms/MemrefToArith/Utils.cpp:55-74"]}
{"id": "C98", "title": "Batched gates and tables compute what the single operations compute", "statement": "A group of gates or of three-input tables replaced by one packed operation, and lowered to jaxite, gives in each lane the result of the operation it replaces.", "quantifier": "for all batches, all tables, all inputs", "why_tests_cant": "Tests check that a batch is formed; the order of the operands inside it shows only on tables that are not symmetric.", "anchors": ["lib/Dialect/CGGI/IR/CGGIOps.cpp:142-186", "lib/Dialect/CGGI/IR/CGGIOps.cpp:294-314", "lib/Transforms/BooleanVectorizer/BooleanVectorizer.cpp:36-75", "lib/Dialect/CGGI/Conversions/CGGIToJaxite/CGGIToJaxite.cpp:143-192"]}
{"id": "C99", "title": "A lookup table imported from Yosys computes the cell", "statement": "For a LUT cell with constant ports P0, P1, ... and inputs A, B, ..., the truth table operation that is built returns the port numbered by the inputs, A least significant.", "quantifier": "for all numbers of inputs, all ports, all inputs", "why_tests_cant": "Tests use cells of three inputs; the shift that builds the table is only defined below the width of int.", "anchors": ["lib/Transforms/YosysOptimizer/LUTImporter.cpp:23-66"]}
{"id": "C100", "title": "Vectorizing straight-line code keeps the values of the program", "statement": "After --bool-vectorize or --straight-line-vectorize, the operations of a block can be put in an order where each value is defined before its uses, no operation is used after it is erased, and every operation that was not batched, the terminator included, sees the values it saw before; operations of one level with compatible kinds are batched, in groups of at most the requested parallelism.", "quantifier": "for all blocks, all dependences between their operations, all symmetric and transitive compatibility relations, all limits, all inputs, and all topological orders the sorting may choose", "why_tests_cant": "The levels and groups depend on the whole dependence graph; tests show a handful of small circuits, and a group that closes a cycle appears only for particular shapes.", "anchors": ["lib/Transforms/BooleanVectorizer/BooleanVectorizer.cpp:36-236", "lib/Transforms/StraightLineVectorizer/StraightLineVectorizer.cpp:29-152", "lib/Dialect/CGGI/IR/CGGIOps.cpp:188-315", "lib/Utils/Graph/Graph.h:22-250"]}
{"id": "C101", "title": "Rewriting a selection as arithmetic keeps its value", "statement": "--select-rewrite replaces arith.select by c*t + (1-c)*f; the result is the operand that the condition selects, element by element for shaped operands, and for a scalar condition the whole operand. The pass accepts every integer, index or float type of operand, and the operations it builds are valid.", "quantifier": "for all widths, all shapes, all conditions and all operands", "why_tests_cant": "Tests check the printed operations for i16, i32 and f32 operands; that the types of the built operations fit for every type of operand needs a case analysis, and the value needs all conditions at all positions.", "anchors": ["lib/Transforms/SelectRewrite/SelectRewrite.td:14-58", "lib/Transforms/SelectRewrite/SelectRewrite.cpp:25-80"]}
{"id": "C102", "title": "Rewriting a comparison through the sign keeps its value", "statement": "--compare-to-sign-rewrite replaces arith.cmpf and arith.cmpi by the sign of the difference, scaled to [0,1] and converted to i1; the result is one exactly where the comparison holds.", "quantifier": "for all pairs of numbers, all widths, and all predicates that the pass rewrites", "why_tests_cant": "Tests check the printed operations, not values; the orientation of the difference and the conversion of one to a single bit show up only when the result is computed.", "anchors": ["lib/Transforms/CompareToSignRewrite/CompareToSignRewrite.cpp:29-125", "lib/Dialect/MathExt/IR/MathExtOps.td:14-23"]}
{"id": "C103", "title": "Raising selections and quotients to maximum and softmax keeps values and declared domains", "statement": "--activation-canonicalizations turns select(a > c, a, c) into a maximum with the same value and the domain bounds that applied to the selection, and bounds are never on the enclosing linalg.generic and on its body at once; an operation that is not raised keeps the bounds that applied to it. --softmax-canonicalizations raises exp(x - m) / sum(exp(x - m)) to a softmax of the same value for any subtrahend m of a row.", "quantifier": "for all widths, predicates, operands including NaN, all bodies and declared bounds, all matrices of scores", "why_tests_cant": "Tests show one body each; the bounds depend on which operations of the body are raised, and the value has to be equal for all operands, NaN included.", "anchors": ["lib/Transforms/ActivationCanonicalizations/Rewrites.td:16-31", "lib/Transforms/ActivationCanonicalizations/ActivationCanonicalizations.cpp:57-146", "lib/Transforms/SoftmaxCanonicalizations/SoftmaxCanonicalizations.cpp:161-215"]}
{"id": "C104", "title": "The softmax by cumulants is accurate and its exponential stays in its declared domain", "statement": "--softmax-to-cgf-softmax replaces the softmax by exp(x - (mean + variance/2 + log n)). For rows in [L, U] the result is within a factor e^((U-L)^2/8) of the softmax, equal to it on constant rows, and the argument of the exponential lies between the domain_lower and domain_upper attached to it, by which later passes choose the approximating polynomial.", "quantifier": "for all lengths of rows, all rows in the declared domain, all declared domains that the pass accepts", "why_tests_cant": "The fuzz program samples random rows of a few lengths; the worst rows are extreme points (one entry at the top), and the bounds must hold for every row and length.", "anchors": ["lib/Transforms/SoftmaxToCgfSoftmax/SoftmaxToCgfSoftmax.cpp:100-202"]}
{"id": "C105", "title": "Folding two plaintext masks keeps values and poison", "statement": "--fold-plaintext-masks replaces two multiplications by 0/1 masks by one multiplication by their intersection, for the six ways to associate and order the factors; every element that was not poison keeps its value, for all overflow flags of the two products, and the new mask is a mask.", "quantifier": "for all widths including one bit, all masks, all values, all six patterns and all flags; for floats in every commutative ring", "why_tests_cant": "Tests check printed masks of a few elements; that the flags of one product may be reused for the folded one is a statement on all values at the edge of overflow.", "anchors": ["lib/Transforms/FoldPlaintextMasks/FoldPlaintextMasks.cpp:24-111", "lib/Transforms/FoldPlaintextMasks/Patterns.td:12-66"]}
{"id": "C106", "title": "A generic that is raised to a reduction computes that reduction", "statement": "--reduction-canonicalizations raises a linalg.generic with reduction iterators to linalg.reduce; its check of the output map accepts the projection that forgets the reduced dimensions for all iterators, and whatever map it accepts, the reduction has the value of the generic.", "quantifier": "for all numbers of dimensions, all iterator types, all output maps, all shapes, all inputs and all bodies", "why_tests_cant": "Tests have reductions of the last dimension of rank-two and rank-three tensors; the wrong acceptance needs reduced dimensions that come first and a permuted map.", "anchors": ["lib/Transforms/ReductionCanonicalizations/ReductionCanonicalizations.cpp:58-159"]}
{"id": "C107", "title": "Chebyshev interpolation takes the given values at the Chebyshev points", "statement": "getChebyshevPoints(n) are n increasing points from -1 to 1, symmetric about 0; interpolateChebyshev turns values at these points into Chebyshev coefficients of the polynomial that takes exactly these values there, and gives back the coefficients of any series from its own values.", "quantifier": "for all n and all values; for all series", "why_tests_cant": "Tests compare coefficients of a few functions with those of another program; that the transform, its scaling at the ends and the shortcuts for even and odd data are right for every length and all data is an orthogonality argument.", "anchors": ["lib/Utils/Approximation/Chebyshev.cpp:27-142"]}
{"id": "C108", "title": "The choice of the degree drops only small coefficients", "statement": "standardChop is defined for all coefficients and returns between 1 and n; the coefficients that it drops are small relative to the largest, it cuts whenever enough of the last coefficients are below the tolerance, and keeps no more than needed. interpolateChebyshevWithSmartDegreeSelection returns at most maxDegree+1 coefficients whose series is close to the function.", "quantifier": "for all lists of coefficients, all tolerances in (0,1), all functions and all maximal degrees", "why_tests_cant": "Tests try a few smooth functions of size about one; the branches depend on comparisons of all coefficients with powers of the tolerance, and the scale of the coefficients only matters when it is not one.", "anchors": ["lib/Utils/Approximation/Chebyshev.cpp:144-315"]}
{"id": "C109", "title": "The lowered evaluation of an approximated function evaluates it at the right place", "statement": "The evaluation emitted for an approximation on [L,U] maps the input to [-1,1] by the inverse of the mapping under which the function was approximated, whichever of the multiplication and the addition is left out, so that its value is close to the function at the images of the Chebyshev points; no more coefficients than asked for are emitted, and every function has an evaluation.", "quantifier": "for all L < U, all inputs, all functions, all degrees", "why_tests_cant": "Tests run a few intervals; the emitted code depends on whether the factor is one and the shift is zero, and the error has to be bounded for every function.", "anchors": ["lib/Transforms/LowerPolynomialEval/Patterns.cpp:170-275", "lib/Transforms/PolynomialApproximation/PolynomialApproximation.cpp:221-242", "lib/Utils/Approximation/CaratheodoryFejer.cpp:27-135"]}
{"id": "C110", "title": "The exponential by squarings is accurate on every domain that is accepted", "statement": "The pass replaces math.exp by (1 + x/2^k)^(2^k), k the least number with degree <= 2^k; on every domain that it accepts the value is not negative, at most e^x and at least e^x (1 - x^2/2^k).", "quantifier": "for all k, all degrees, all accepted domains and all x in them", "why_tests_cant": "Tests evaluate a few points; a bound on the error is a statement on all inputs and all numbers of squarings.", "anchors": ["lib/Transforms/PolynomialApproximation/PolynomialApproximation.cpp:447-530"]}
{"id": "C111", "title": "A power with a constant exponent is computed by squarings and products", "statement": "math.fpowi with a constant exponent becomes squarings and multiplications whose value is the power; negative exponents are rejected.", "quantifier": "for all widths of the exponent, all exponents and all bases in every monoid", "why_tests_cant": "Tests have a few exponents; the loop over the bits needs induction.", "anchors": ["lib/Transforms/PolynomialApproximation/PolynomialApproximation.cpp:632-671"]}
{"id": "C112", "title": "A binary operation with a constant operand is approximated as the unary function it is", "statement": "For arith.maximumf, maxnumf, minimumf and minnumf with a constant operand the function that is approximated is the operation with the constant in its place, NaN included.", "quantifier": "for all operations, both positions of the constant, all constants and all inputs", "why_tests_cant": "Tests have a maximum with zero; which library function belongs to which operation only shows with NaN.", "anchors": ["lib/Transforms/PolynomialApproximation/PolynomialApproximation.cpp:358-394", "lib/Transforms/PolynomialApproximation/PolynomialApproximation.cpp:756-763"]}
{"id": "C113", "title": "What a function returns in the clear does not depend on secrets", "statement": "In a function whose secret values are only used through secret.generic, secret.conceal and the returned values, as the types demand, every returned value whose type is not secret is the same for all values of the secret arguments, whatever the operations compute.", "quantifier": "for all functions accepted by the verifier, all operations, all inputs", "why_tests_cant": "Tests check the types of a few functions; independence is a statement on pairs of executions.", "anchors": ["lib/Dialect/Secret/IR/SecretOps.td", "lib/Dialect/Secret/IR/SecretOps.cpp:100-330"]}
{"id": "C114", "title": "The patterns on secret.generic keep what the function returns", "statement": "Inlining a generic without secret operands, removing unused operands and results, taking cleartext operands from the ambient scope and the reverse, merging adjacent generics, removing duplicate results, looking through secret.conceal, absorbing a constant operand and moving out operations on cleartexts leave what the function returns unchanged, in any order and any number of times.", "quantifier": "for all functions, all operations, all sequences of applications, all inputs", "why_tests_cant": "Tests apply one pass to one function; the patterns run greedily until nothing changes and each rewrites references to values between regions.", "anchors": ["lib/Dialect/Secret/IR/SecretPatterns.cpp:100-486", "lib/Dialect/Secret/IR/SecretPatterns.cpp:518-564", "lib/Dialect/Secret/IR/SecretPatterns.cpp:643-761"]}
{"id": "C115", "title": "Functions stay valid under the patterns on secret.generic", "statement": "Each value keeps one definition, cleartext stays where cleartext is demanded, results of generics stay secret and the types of the returned values do not change, in any sequence of rewritings.", "quantifier": "for all valid functions and all sequences of applications", "why_tests_cant": "Tests run the verifier on a few outputs; the patterns exchange values of secret type for values of clear type.", "anchors": ["lib/Dialect/Secret/IR/SecretPatterns.cpp:100-486", "lib/Dialect/Secret/IR/SecretPatterns.cpp:165-222"]}
{"id": "C116", "title": "Operations are moved before and after a generic only if they can be", "statement": "An operation of the configured kind that HoistOpBeforeGeneric or HoistOpAfterGeneric selects is moved to a generic of its own before or after, with the operands it had, and the function returns the same.", "quantifier": "for all generics, all operations selected, all inputs", "why_tests_cant": "Tests move a few operations with one result; which values have to be yielded, mapped and replaced depends on all uses.", "anchors": ["lib/Dialect/Secret/IR/SecretOps.cpp:481-750", "lib/Dialect/Secret/IR/SecretPatterns.cpp:566-641"]}
{"id": "C117", "title": "Concealed destinations and absorbed constants are replaced only where they are visible", "statement": "Concealing the cleartext destination of an insertion of a secret and copying constants into a generic leave what the function returns unchanged.", "quantifier": "for all functions, all generics, all inputs", "why_tests_cant": "Tests have one generic per constant; the replacement reaches all uses of the value in the function.", "anchors": ["lib/Dialect/Secret/IR/SecretPatterns.cpp:763-857"]}
{"id": "C118", "title": "Generics on which no pattern applies are minimal and isolated", "statement": "When the patterns do not apply any more all operands are secret, used and not merely passed on, all results are used and distinct; when no ambient value is left to capture the results depend on the operands only, and capturing comes to an end.", "quantifier": "for all generics, all operations, all states", "why_tests_cant": "Tests look at a few outputs; that nothing is left for any input is a statement on all generics.", "anchors": ["lib/Dialect/Secret/IR/SecretPatterns.cpp:165-342", "lib/Dialect/Secret/IR/SecretPatterns.cpp:518-564"]}
{"id": "C119", "title": "Every rotation a compiled program performs has a key", "statement": "The rotation indices found for a function contain, up to the number of slots, the amount of every rotation that any run of the function performs, whether the amount is a constant or computed in loops.", "quantifier": "for all functions, all loop nests, all inputs, all results of operations unknown to the analysis", "why_tests_cant": "Tests list the indices of a few loops; a missing key shows only at run time on the input that takes the path.", "anchors": ["lib/Analysis/RotationAnalysis/RotationAnalysis.cpp:20-150", "lib/Analysis/RotationAnalysis/DagBuilder.cpp:41-436", "lib/Analysis/RotationAnalysis/RotationEvalVisitor.cpp:20-125"]}
{"id": "C120", "title": "Sharing nodes and caching results loses no rotation amount", "statement": "The evaluator that records rotation amounts visits each node of the shared graph at most once per loop iteration; it records an amount if and only if the evaluation of the graph without a cache meets it.", "quantifier": "for all graphs, all loop nests, all amounts", "why_tests_cant": "Tests compare a few sets; which entries of the cache are dropped in an iteration depends on the whole graph.", "anchors": ["lib/Analysis/RotationAnalysis/RotationEvalVisitor.cpp:20-125", "lib/Utils/ArithmeticDag.h:511-727"]}
{"id": "C121", "title": "Galois keys match the rotations", "statement": "The Galois element generated for a rotation by r in the ring of degree n is 5 to the power r mod n/2, modulo 2n; elements of sums are products, two rotations have the same element exactly if they are equal modulo n/2, and the element of each rotation performed is generated.", "quantifier": "for all ring degrees that are powers of two, all rotation amounts, all functions", "why_tests_cant": "Tests compare a few elements; that the keys suffice needs the order of 5 in the group of units modulo 2n.", "anchors": ["lib/Dialect/Lattigo/Transforms/ConfigureCryptoContext.cpp:307-346", "lib/Utils/RotationUtils.h:14-16"]}
{"id": "C122", "title": "Forwarding stores to loads does not change what a program computes", "statement": "After a load with constant indices has been replaced by the value stored last at its address, or by a load from the argument it is a view of, the function returns the same values and leaves the same memory; a load from a local memref never remains.", "quantifier": "for all unrolled functions, all views, all inputs and memory contents, all meanings of the other operations, any number of forwarded loads", "why_tests_cant": "Tests match the IR of a few functions; whether two accesses have the same address depends on offsets, strides and chains of views.", "anchors": ["lib/Transforms/MemrefToArith/UnrollAndForward.cpp:141-323", "lib/Transforms/MemrefToArith/Utils.cpp:22-77"]}
{"id": "C123", "title": "Erasing memrefs that are only written has no visible effect", "statement": "A local memref is erased with its views and the stores to them only if nothing reads it; the result is a valid function that returns the same values and leaves all other memory the same.", "quantifier": "for all functions, all allocations, all inputs and memory contents", "why_tests_cant": "Tests match the IR of a few functions; a reader may hide behind any chain of views.", "anchors": ["lib/Transforms/MemrefToArith/UnrollAndForward.cpp:85-139"]}
{"id": "C124", "title": "An expanded copy copies every element and nothing else", "statement": "The loops that replace memref.copy leave in each element of the target the element of the source and change no other memory.", "quantifier": "for all ranks and dimensions, all layouts, all memory contents", "why_tests_cant": "Tests match the loops for a few shapes; none executes them on all shapes.", "anchors": ["lib/Transforms/MemrefToArith/ExpandCopy.cpp:32-58"]}
{"id": "C125", "title": "Extracting the body of a loop into a function preserves the loop", "statement": "An iteration of the loop with the body replaced by a call of the extracted function has the same effect on the memory.", "quantifier": "for all loop bodies, all meanings of the operations, all inputs", "why_tests_cant": "Tests match the IR of a few bodies; which operation is last, and which values are in scope, depends on the body.", "anchors": ["lib/Transforms/MemrefToArith/ExtractLoopBody.cpp:43-197"]}
{"id": "C126", "title": "Loads from constant globals become the right constants", "statement": "The constant that replaces a load with constant indices from a constant global is the element of the global at these indices.", "quantifier": "for all shapes, all layouts, all indices within the shape", "why_tests_cant": "Tests use globals with the identity layout.", "anchors": ["lib/Transforms/MemrefToArith/MemrefGlobalReplace.cpp:41-150", "lib/Transforms/MemrefToArith/Utils.cpp:46-77"]}
{"id": "C127", "title": "The emitted Verilog computes the function", "statement": "In every steady state of the module that the emitter prints for a function without regions, the outputs carry the results of the function on the arguments that the inputs carry; such a state exists.", "quantifier": "for all functions of the supported integer, cast, select, comparison and load operations, of any length and any widths, on all arguments without undefined behaviour", "why_tests_cant": "Tests match the printed text; none simulates it, and widths and signs of Verilog expressions depend on their context.", "anchors": ["lib/Target/Verilog/VerilogEmitter.cpp:60-106", "lib/Target/Verilog/VerilogEmitter.cpp:347-740", "lib/Utils/TargetUtils.cpp:69-91"]}
{"id": "C128", "title": "Constants of shaped types and tensors made of elements have their elements in order", "statement": "Bits w*k to w*k+w-1 of the wire of a constant or of a tensor.from_elements carry element k, and the emitter prints every such constant.", "quantifier": "for all element widths, all numbers of elements, all values", "why_tests_cant": "Tests use elements of 8, 16 and 32 bits and no tensor.from_elements.", "anchors": ["lib/Target/Verilog/VerilogEmitter.cpp:93-106", "lib/Target/Verilog/VerilogEmitter.cpp:887-895"]}
{"id": "C129", "title": "An inserted element replaces one element and keeps the others", "statement": "Every bit of the wire of a tensor.insert carries the bit of the tensor with the one element replaced.", "quantifier": "for all element widths, all sizes, all positions, all contents", "why_tests_cant": "The only test inserts into a tensor of one bit.", "anchors": ["lib/Target/Verilog/VerilogEmitter.cpp:124-154", "lib/Target/Verilog/VerilogEmitter.cpp:897-930"]}
{"id": "C130", "title": "The emitted count of leading zeros is right", "statement": "The wire of math.ctlz carries the number of zeros above the highest one, 32 for zero.", "quantifier": "for all numbers of 32 bits", "why_tests_cant": "Tests match the text of the assignments.", "anchors": ["lib/Target/Verilog/VerilogEmitter.cpp:973-1005"]}
{"id": "C131", "title": "A load at an argument of type index reads the element at that index", "statement": "The wire of an index argument is wide enough for every index into the tensors that it reads, and a load at the argument carries the element at that index.", "quantifier": "for all sizes, all element widths, all indices within the bounds", "why_tests_cant": "Tests match the declaration; none simulates an access in the upper half of the range.", "anchors": ["lib/Target/Verilog/VerilogEmitter.cpp:108-122", "lib/Target/Verilog/VerilogEmitter.cpp:178-208", "lib/Target/Verilog/VerilogEmitter.cpp:1047-1060"]}
{"id": "C132", "title": "The strongly connected components are the classes of mutually reachable vertices", "statement": "getStronglyConnectedComponents ends; its components are not empty, every vertex is in exactly one of them, once, and two vertices are in the same one exactly if each can be reached from the other.", "quantifier": "for all graphs, of any size, built by any sequence of calls", "why_tests_cant": "Tests use a few graphs with at most eight vertices; the low links matter on nested cycles.", "anchors": ["lib/Utils/Graph/Graph.h:164-212"]}
{"id": "C133", "title": "Contracting edges merges the vertices and keeps the other edges", "statement": "After any sequence of contractions the vertices left are those nothing was merged away from, two of them are joined by an edge exactly if an edge joined vertices merged into them, and hasEdge, edgesOutOf and edgesInto agree; contractEdge fails exactly if the edge does not exist.", "quantifier": "for all graphs, all sequences of contractions, all mergeFn", "why_tests_cant": "Tests contract one or two edges of small graphs without loops and with a mergeFn that ignores its arguments.", "anchors": ["lib/Utils/Graph/Graph.h:104-162"]}
{"id": "C134", "title": "condenseGraph leaves one vertex for each strongly connected component and no cycle", "statement": "condenseGraph ends; it leaves exactly one vertex of each strongly connected component, joined by an edge exactly if an edge joins the components, the result is acyclic, and the calls of mergeFn gather each component at the vertex left.", "quantifier": "for all graphs, of any size, built by any sequence of calls", "why_tests_cant": "Tests use graphs without loops; the passes over a component need not end in general.", "anchors": ["lib/Utils/Graph/Graph.h:214-256"]}
{"id": "C135", "title": "The critical path of the estimators is a path", "statement": "On an acyclic graph findApproximateCriticalPath returns the vertices of a path, at least as long as every other.", "quantifier": "for all acyclic graphs, of any size", "why_tests_cant": "Tests match the printed totals of chains.", "anchors": ["lib/Utils/Graph/Graph.h:278-312", "lib/Dialect/SCIFRBool/Transforms/CGGIEstimator.cpp:238-252"]}
{"id": "C136", "title": "The function imported from a netlist computes what the netlist computes", "statement": "importModule succeeds on every netlist of lookup tables or gates in topological order; the function it builds takes the values of the input wires to the values of the output wires, whatever values of the wires agree with all cells and connections; and if no bit is assigned twice, such values exist for all inputs.", "quantifier": "for all netlists of any size, all wires, widths, cells and connections, all inputs", "why_tests_cant": "Tests compare the import of a handful of Yosys outputs as text, with one or two output ports and no copies between outputs.", "anchors": ["lib/Transforms/YosysOptimizer/RTLILImporter.cpp:75-267", "lib/Transforms/YosysOptimizer/LUTImporter.cpp:23-66", "lib/Transforms/YosysOptimizer/BooleanGateImporter.cpp:20-57"]}
{"id": "C137", "title": "Integers converted to CGGI compute the same on ciphertexts", "statement": "arith-to-cggi converts every program of additions, subtractions, multiplications, exclusive ors, unsigned minima and maxima, selections, comparisons, shifts by constants and casts, and the CGGI program, run on encryptions of the arguments, decrypts to the results of the source.", "quantifier": "for all programs of any length, all widths, all mixes of plaintext and ciphertext operands, all arguments", "why_tests_cant": "Tests compare the converted IR as text and never run it; plaintexts on the left of asymmetric operations are not among them.", "anchors": ["lib/Dialect/Arith/Conversions/ArithToCGGI/ArithToCGGI.cpp:54-182", "lib/Dialect/Arith/Conversions/ArithToCGGI/ArithToCGGI.cpp:204-485", "lib/Dialect/Arith/Conversions/ArithToCGGI/ArithToCGGI.cpp:511-728"]}
{"id": "C138", "title": "CGGI programs converted to tfhe-rs compute the same", "statement": "cggi-to-tfhe-rust converts every CGGI program of high-level operations, and the result computes the same messages.", "quantifier": "for all programs of any length, all widths and messages, signed or not", "why_tests_cant": "Tests compare the converted IR as text; the negation is only tested as part of boolean circuits.", "anchors": ["lib/Dialect/CGGI/Conversions/CGGIToTfheRust/CGGIToTfheRust.cpp:253-609"]}
{"id": "C139", "title": "The emitted Rust computes what the tfhe_rust program computes", "statement": "The text printed by the high-level emitter is accepted by the Rust compiler and computes the messages of the program, and so from the integers of the source down to Rust.", "quantifier": "for all programs of any length, all widths that tfhe-rs has, all constants and arguments", "why_tests_cant": "Tests match lines of the printed text with a few small constants; the text is only compiled in examples outside the unit tests.", "anchors": ["lib/Target/TfheRustHL/TfheRustHLEmitter.cpp:51-59", "lib/Target/TfheRustHL/TfheRustHLEmitter.cpp:322-377", "lib/Target/TfheRustHL/TfheRustHLEmitter.cpp:444-516", "lib/Target/TfheRustHL/TfheRustHLEmitter.cpp:815-856"]}
{"id": "C140", "title": "Loop nests generated for a layout run its statement at every point, in order", "statement": "MLIRLoopNestGenerator::generateForLoop returns a loop whose results are those of calling the body once for each point of isl's syntax tree, in the order of the tree (or the opposite order with reverse), with the point's coordinates.", "quantifier": "for all syntax trees of any depth, all expressions, all bodies and initial values", "why_tests_cant": "Tests compare the text of the loops of a few relations; the numbers of iterations, guards, divisions and values carried through nested loops and conditionals are never executed for other trees.", "anchors": ["lib/Utils/Layout/Codegen.cpp:49-68", "lib/Utils/Layout/Codegen.cpp:216-647", "lib/Utils/Utils.cpp:249-280"]}
{"id": "C141", "title": "assign_layout packs what the layout says, whichever way it is implemented", "statement": "implementAssignLayout returns a tensor whose slots hold the elements that the layout (or the list of layouts, one after the other) assigns to them and zero elsewhere, the same for scalars, values, constants and resources, for every code generation strategy and for all of its shortcuts (zero constants, remainders, dense layouts, constant folding, loops).", "quantifier": "for all shapes, element values, layouts with at most one element per slot, strategies and lists of layouts", "why_tests_cant": "Each test lowers one layout along one of the paths and compares text; no test compares the paths with each other or runs them on other shapes.", "anchors": ["lib/Transforms/ConvertToCiphertextSemantics/AssignLayout.cpp:312-668"]}
{"id": "C142", "title": "unpack undoes assign_layout", "statement": "implementUnpackOp returns a tensor whose elements are each taken from one of the element's slots; after implementAssignLayout with the same layout or list of layouts the result is the tensor that was packed, if each of its elements has a slot.", "quantifier": "for all shapes, element values, layouts, ways to pack, and lists of layouts", "why_tests_cant": "End-to-end tests round-trip a few shapes; intermediate shapes, the sample of a single element and the bounds added on either side vary with the layout.", "anchors": ["lib/Transforms/ConvertToCiphertextSemantics/AssignLayout.cpp:61-169", "lib/Transforms/ConvertToCiphertextSemantics/AssignLayout.cpp:670-720"]}
{"id": "C143", "title": "Permutation layouts move each slot to its target", "statement": "For a permutation attribute implementAssignLayout moves the element of each entry's source slot to its target slot and fills the other slots with zero; entries of slots that do not exist are rejected.", "quantifier": "for all tensors of one or two dimensions, all permutations and slot counts", "why_tests_cant": "Tests use a handful of permutations; the order of entries, repeated targets and indices out of range are not tried.", "anchors": ["lib/Transforms/ConvertToCiphertextSemantics/AssignLayout.cpp:171-235"]}
{"id": "C144", "title": "arith-to-mod-arith with the natural modulus computes what the integers compute", "statement": "With no modulus given, --arith-to-mod-arith followed by --mod-arith-to-arith turns a program of integer constants, loads from globals, additions, subtractions, multiplications and extensions into one that computes the same residues for the natural modulus of each integer type, for arguments handed over as residues; a program with any other operation is rejected.", "quantifier": "for all programs of these operations, widths, argument values, constants and memory contents", "why_tests_cant": "Tests compare the emitted text of one operation each; nothing runs the result, and unreduced constants, the size of the default modulus and the range of extended values show only in values.", "anchors": ["lib/Dialect/Arith/Conversions/ArithToModArith/ArithToModArith.cpp:41-224", "lib/Dialect/Arith/Conversions/ArithToModArith/ArithToModArith.td:26-30"]}
{"id": "C145", "title": "arith-to-mod-arith with a given modulus computes the source over the integers, reduced", "statement": "With a given modulus m, the program made by --arith-to-mod-arith and --mod-arith-to-arith returns the value that the source has over the integers, reduced modulo m; so when no operation of the source overflows it returns the source's result reduced modulo m.", "quantifier": "for all programs of constants, loads, additions, subtractions, multiplications and extensions, all moduli, argument values, constants and memory contents", "why_tests_cant": "Tests compare the emitted text for one modulus; negative constants, loads above the modulus and chains of operations are not run.", "anchors": ["lib/Dialect/Arith/Conversions/ArithToModArith/ArithToModArith.cpp:41-224"]}
{"id": "C146", "title": "convert-polynomial-mul-to-ntt keeps what a function computes", "statement": "Whatever solution the solver returns, the pass succeeds on functions of the operations it knows and the rewritten function, called with polynomials in the forms of its new signature, returns the source's results, each polynomial in the form of the new result type; every operation gets its operands in the form it works on. A function with an unknown operation on polynomials is rejected.", "quantifier": "for all functions of known operations, all solutions of the constraints, all rings with a transform, all arguments", "why_tests_cant": "Tests compare the emitted text of a few functions for the one solution found; nothing runs the result, and other optimal solutions, constants in evaluation form and operations that do not commute with the transform are not executed.", "anchors": ["lib/Dialect/Polynomial/Transforms/PolyMulToNTT.cpp:36-712", "lib/Dialect/Polynomial/Transforms/NTTSolver.cpp:46-191"]}
{"id": "C147", "title": "convert-polynomial-mul-to-ntt inserts the least number of transforms", "statement": "The rewritten function has exactly one transform for each value the solution converts, weighted by residues and elements; a solution exists for every function of known operations; and a solution of least objective has no more transforms than any other way to place them.", "quantifier": "for all functions of known operations, all solutions, all placements of transforms", "why_tests_cant": "Tests show the result for single functions; that no other placement is cheaper, and that the objective counts what is emitted, is a statement about all placements.", "anchors": ["lib/Dialect/Polynomial/Transforms/PolyMulToNTT.cpp:139-712", "lib/Dialect/Polynomial/Transforms/NTTSolver.cpp:46-191", "lib/Dialect/Polynomial/Transforms/Passes.td:6-14"]}
{"id": "C148", "title": "The level analysis is sound", "statement": "If the level analysis finds no invalid state within the budget, the program never runs out of levels when it is executed with that many levels, whatever the trip counts of its loops and the outcomes of its conditions, and each ciphertext it returns has at least the level that is written down for it. Without loops and conditions the analysis accepts a program if and only if it runs, and the levels written down are the real ones.", "quantifier": "for all programs with nested loops and conditionals, all inputs, all budgets and bootstrap costs, all solutions of the analysis", "why_tests_cant": "Tests compare annotations of a few functions; that no execution of any accepted program lacks a level is about all programs, trip counts and branches.", "anchors": ["lib/Analysis/LevelAnalysis/LevelAnalysis.cpp:59-182", "lib/Analysis/LevelAnalysis/LevelAnalysis.cpp:275-315", "lib/Analysis/LevelAnalysis/LevelAnalysis.h:59-123"]}
{"id": "C149", "title": "bootstrap-loop-iter-args makes loops run for any number of iterations", "statement": "After the pass a loop runs for any number of iterations if one iteration that starts from freshly bootstrapped arguments is accepted by the level analysis, and it returns the values of the loop as written. Without the pass no loop that lowers its argument is accepted.", "quantifier": "for all loops, bounds, bodies, arguments and levels", "why_tests_cant": "Tests show the inserted operations; that the levels are loop-invariant for every body and every trip count and that values are kept cannot be seen in them.", "anchors": ["lib/Transforms/Halo/Patterns.h:54-110", "lib/Transforms/Halo/BootstrapLoopIterArgs.cpp", "lib/Analysis/LevelAnalysis/LevelAnalysis.cpp:59-182"]}
{"id": "C150", "title": "partial-unroll-for-level-consumption keeps values and levels", "statement": "The unrolled loop runs the iterations of the loop in order and returns its values, with one bootstrap for each unrolled iteration and each remaining one; the chosen factor is such that no copy of the body lacks levels.", "quantifier": "for all loops, bounds, bodies, arguments, levels and trip counts", "why_tests_cant": "Tests show the text for a few trip counts and one argument; several arguments of different consumption, inner bootstraps and remainders are a matter of all loops.", "anchors": ["lib/Transforms/Halo/Patterns.cpp:215-420", "lib/Transforms/Halo/PartialUnrollForLevelConsumption.cpp:30-75"]}
{"id": "C151", "title": "Peeling of loops with public initial values", "statement": "A loop is peeled if and only if it has at least two iterations; the peeled iteration is the first one, and together with the remaining loop it computes what the loop computes.", "quantifier": "for all bounds, steps and bodies", "why_tests_cant": "Tests use a few small constant bounds; the computation in single precision differs only for large ones.", "anchors": ["lib/Transforms/Halo/Patterns.cpp:86-133"]}
{"id": "C152", "title": "Fusing scales into the weights of linear operations keeps the result", "statement": "linalg-fuse-linear-ops replaces a product or quotient of the result of a matrix product, matrix-vector product or convolution and a public operand by the same linear operation with scaled weights. At every index the new result is the product or quotient as written, for scalar constants and for vectors repeated along the output channels, and other users of the linear operation see the value they saw before.", "quantifier": "for all operations with weights that the pass lists, all shapes, strides, dilations, weights, data, initial values and scales", "why_tests_cant": "Tests compare the printed IR for a few shapes with an empty or zero initial tensor; which index of the weights belongs to which output channel, and which operands may be fused at all, is a matter of all inputs.", "anchors": ["lib/Transforms/LinalgFuseLinearOps/LinalgFuseLinearOps.cpp:100-126", "lib/Transforms/LinalgFuseLinearOps/LinalgFuseLinearOps.cpp:142-185", "lib/Transforms/LinalgFuseLinearOps/LinalgFuseLinearOps.cpp:194-308"]}
{"id": "C153", "title": "Fusing addends into what linear operations accumulate into keeps the result", "statement": "linalg-fuse-linear-ops replaces a sum or difference of the result of an operation of linalg and a public operand by the same operation with another initial value. At every index the new result is the sum or difference as written, and other users of the operation see the value they saw before.", "quantifier": "for all operations of linalg that the pass lists, all bodies of generic operations, all operands", "why_tests_cant": "Tests show the IR for convolutions and matrix products; reductions other than sums, the order of a difference and further users are not covered by any.", "anchors": ["lib/Transforms/LinalgFuseLinearOps/LinalgFuseLinearOps.cpp:41-94", "lib/Transforms/LinalgFuseLinearOps/LinalgFuseLinearOps.cpp:313-353"]}
{"id": "C154", "title": "Layouts moved before collapse_shape and pad hold the same ciphertexts", "statement": "When layout-optimization moves a conversion of layouts before a tensor.collapse_shape that drops unit dimensions, or before a tensor.pad by zeros, ciphertexts that hold the operand in the new layout hold the result in the layout that was asked for, in every slot, so the operation itself costs nothing. The new layout stores every element, and no slot twice. Reshapes that merge two real dimensions are declined.", "quantifier": "for all shapes and reassociations, all layouts, all tensors and all contents of slots", "why_tests_cant": "Tests compare one printed layout for one shape each; that the two relations describe the same slots for every layout is a statement on sets of points.", "anchors": ["lib/Transforms/LayoutOptimization/InterfaceImpl.cpp:217-298", "lib/Utils/Layout/Utils.cpp:1215-1252"]}
{"id": "C155", "title": "Collapsed and expanded relations describe the same slots as the original", "statement": "collapseDimensions and expandDimensions, by which layout-propagation finds the layouts of reshaped tensors, relate an index of the reshaped tensor to exactly the slots of the same element of the original tensor, for every reassociation whose groups have at most one dimension that is not a unit.", "quantifier": "for all shapes and reassociations without merged dimensions, all layouts", "why_tests_cant": "The unit tests have one reassociation with one group of two dimensions; positions in relations shift as dimensions are dropped, which only matters with several groups.", "anchors": ["lib/Utils/Layout/Utils.cpp:671-741"]}
{"id": "C156", "title": "Conversions moved past or folded into matrix-vector products keep the product", "statement": "When layout-optimization moves a conversion of the result of linalg.matvec before it, or folds the conversion of its vector into the plaintext matrix, the diagonal kernel on the operands in their new layouts returns the product of the matrix and the vector, in the layout that was asked for.", "quantifier": "for all dimensions and slot counts, all layouts of the vector that pass the checks of the pass, all matrices and vectors", "why_tests_cant": "Tests show that the pass produces some relation for one rotation; whether the kernel still multiplies the right columns depends on the permutation of slots and on every element.", "anchors": ["lib/Utils/Layout/Hoisting.cpp:26-84", "lib/Transforms/LayoutOptimization/InterfaceImpl.cpp:318-360", "lib/Transforms/LayoutOptimization/Patterns.cpp:91-148", "lib/Utils/Layout/Utils.cpp:562-631"]}
{"id": "C157", "title": "The layout of a tensor assembled from slices stores every slice apart", "statement": "pushSliceLayoutThroughInsertSlice turns the layout of a slice into one of the tensor it is inserted into: a relation with the rank of that tensor, which stores every element if the slice's layout does, no two elements in a slot if the slice's layout does not, and each slice in consecutive ciphertexts of its own, in the layout of the slice.", "quantifier": "for all shapes, all sizes of slices, all layouts of slices", "why_tests_cant": "Tests print relations for two shapes; that distinct slices never share a slot is a statement about all pairs of indices.", "anchors": ["lib/Utils/Layout/Hoisting.cpp:86-191"]}
{"id": "C158", "title": "The rotation count of a kernel is the number of rotations it performs", "statement": "The count by which layout-optimization compares kernels is the number of rotations of ciphertexts the kernel performs: a node used many times counts once, a bulk rotation counts its shifts, rotations of plaintexts count nothing, and rotations in a loop count once for each iteration, whether the kernel is rolled or unrolled.", "quantifier": "for all arithmetic DAGs, with any sharing of nodes, all loop bounds", "why_tests_cant": "Tests count a few kernels of fixed sizes, all unrolled; sharing and loops nest without bound.", "anchors": ["lib/Kernel/RotationCountVisitor.cpp:14-284", "lib/Transforms/LayoutOptimization/LayoutOptimization.cpp:411-500"]}
{"id": "C159", "title": "The cost of a layout conversion is the number of rotations of its shift network", "statement": "The cost of converting one layout to another is the largest number of rotations that a group of the shift network for the conversion performs, each rotation counted once however many later rounds and output ciphertexts use it.", "quantifier": "for all shift networks: any number of rounds, groups and ciphertexts", "why_tests_cant": "Tests check the cost of two or three conversions; how the count grows with the number of rounds needs an argument for all of them.", "anchors": ["lib/Transforms/LayoutOptimization/LayoutConversionCost.cpp:48-130", "lib/Kernel/ArithmeticDag.h:505-545", "lib/Dialect/TensorExt/Transforms/RotationGroupKernel.h:242-383"]}
{"id": "C160", "title": "Moving and folding layout conversions keeps programs consistent", "statement": "When layout-optimization moves a conversion before an operation, folds two conversions or a conversion and an assignment into one, or moves a conversion into the layout of an argument, every operation still reads its operands in layouts its kernel accepts, every conversion starts from the layout its operand has, and every value that is left stands for the same tensor.", "quantifier": "for all programs, all layouts, all kernels and all tensors", "why_tests_cant": "Tests run the pass on programs with one user per value; that other users of a rewritten value are still served is a property of all programs.", "anchors": ["lib/Transforms/LayoutOptimization/LayoutOptimization.cpp:205-320", "lib/Transforms/LayoutOptimization/Patterns.cpp:31-90", "lib/Transforms/LayoutOptimization/Patterns.cpp:150-222"]}
{"id": "C161", "title": "A conversion is moved only where conversions do not get more expensive", "statement": "Of all ways to move a conversion before an operation, layout-optimization takes one with the least cost, and only if that cost is not positive; then the conversions of the operands and of the result together cost no more than before. If there is no way, nothing is moved.", "quantifier": "for all costs of conversions, all operands and all numbers of conversions of a result", "why_tests_cant": "Tests fix the layouts and look at one decision; that the sum of costs never grows is a statement about all cost functions.", "anchors": ["lib/Transforms/LayoutOptimization/LayoutOptimization.cpp:240-272", "lib/Transforms/LayoutOptimization/LayoutOptimization.cpp:326-410", "lib/Transforms/LayoutOptimization/LayoutOptimization.cpp:536-625"]}
{"id": "C162", "title": "The slot side of a Rotom layout is the longest suffix of dims that fits the slots", "statement": "The boundary that a rotom.layout derives between ciphertext dims and slot dims is the unique one where the slot dims are the longest suffix whose extents divide the number of slots; in an accepted layout the slot dims fill the slots exactly and their number is a power of two.", "quantifier": "for all lists of dims with positive sizes and all numbers of slots", "why_tests_cant": "Tests derive the boundary of a few layouts; that the greedy loop finds the longest suffix, in particular around dims of size one, concerns all lists.", "anchors": ["lib/Dialect/Rotom/IR/RotomAttributes.cpp:25-42", "lib/Dialect/Rotom/IR/RotomAttributes.cpp:444-485", "lib/Dialect/Rotom/IR/RotomAttributes.td:46-66"]}
{"id": "C163", "title": "A Rotom layout puts one element in each slot", "statement": "In the relation that an accepted rotom.layout lowers to, two copies in the same slot of the same ciphertext are the same copy of the same tensor element, whatever dims are split, replicated or rolled.", "quantifier": "for all accepted layouts with a lowering, all elements, replicas and blocks, all ciphertexts and slots", "why_tests_cant": "Tests enumerate the relation of a few layouts; injectivity over all split axes and all sequences of rolls needs a proof.", "anchors": ["lib/Dialect/Rotom/IR/RotomAttributes.cpp:53-148", "lib/Dialect/Rotom/IR/RotomAttributes.cpp:255-305", "lib/Dialect/Rotom/Utils/RotomTensorExtLayoutLowering.cpp:23-370"]}
{"id": "C164", "title": "A Rotom layout puts every element in some slot", "statement": "In the relation that an accepted rotom.layout lowers to, every copy of every tensor element has a ciphertext and a slot.", "quantifier": "for all accepted layouts with a lowering, all elements, replicas and blocks", "why_tests_cant": "Tests use layouts without padding between ciphertext dims; which layouts lose elements is a question about all of them.", "anchors": ["lib/Dialect/Rotom/Utils/RotomTensorExtLayoutLowering.cpp:237-370", "lib/Dialect/Rotom/IR/RotomAttributes.cpp:255-305"]}
{"id": "C165", "title": "Slots of a Rotom layout are empty only where it says so", "statement": "If an accepted rotom.layout has no padding, every slot of every ciphertext of its relation holds an element, and the number of ciphertexts is the product of the ciphertext dims; padding of two or more blocks on the slot side leaves slots empty in every ciphertext.", "quantifier": "for all accepted layouts with a lowering, all ciphertexts and slots", "why_tests_cant": "Tests count the points of a few relations; surjectivity for every combination of split, replicated and rolled dims needs a proof.", "anchors": ["lib/Dialect/Rotom/Utils/RotomTensorExtLayoutLowering.cpp:87-370"]}
{"id": "C166", "title": "The canonical form of a Rotom layout fills the slots and means the same", "statement": "LayoutAttr::getCanonical adds at most one gap, between the ciphertext dims and the slot dims, so that the slot dims fill the slots; rolls name the same dims as before and the relation the layout lowers to is the same. The result is accepted exactly when the number of slots is a power of two and the layout passes the other checks, and an accepted layout is left as it is.", "quantifier": "for all lists of valid dims, all numbers of slots and all rolls", "why_tests_cant": "Tests compare the result for a few layouts; that ciphertext dims stay ciphertext dims after the insertion and that the relation is kept concerns all layouts.", "anchors": ["lib/Dialect/Rotom/IR/RotomAttributes.cpp:501-540", "lib/Dialect/Rotom/Utils/RotomTensorExtLayoutLowering.cpp:237-370"]}
{"id": "C167", "title": "Rotom layouts survive printing and parsing", "statement": "An accepted rotom.layout that is printed and parsed is the same layout, and so is a rotom.dim; whatever parses is accepted.", "quantifier": "for all accepted layouts and dims, all token sequences", "why_tests_cant": "Tests round-trip a few attributes; whether the written boundary always matches the derived one is a question about all layouts.", "anchors": ["lib/Dialect/Rotom/IR/RotomAttributes.cpp:150-252", "lib/Dialect/Rotom/IR/RotomAttributes.cpp:307-442"]}
{"id": "C168", "title": "Accepted Rotom layouts lower", "statement": "Every rotom.layout that the verifier accepts has a lowering to a relation.", "quantifier": "for all accepted layouts", "why_tests_cant": "Tests lower layouts whose rolls move whole axes; the verifier and the lowering state different conditions, which only agree or differ over all layouts.", "anchors": ["lib/Dialect/Rotom/IR/RotomAttributes.cpp:255-305", "lib/Dialect/Rotom/IR/RotomAttributes.cpp:444-485", "lib/Dialect/Rotom/Utils/RotomTensorExtLayoutLowering.cpp:23-48", "lib/Dialect/Rotom/Utils/RotomTensorExtLayoutLowering.cpp:176-214"]}
{"id": "C169", "title": "Seed layouts are all packings with the given number of slots", "statement": "rotom-seed-layout gives each input tensor layouts for every way to take a power of two of each axis into the slots so that the slots are filled, and for every order of the axes; each of these layouts is accepted and lowers to a relation where every element of the padded tensor is in exactly one slot and every slot holds exactly one element.", "quantifier": "for all tensor shapes, all numbers of slots", "why_tests_cant": "Tests seed two or three shapes; the search and the permutations grow with the rank, and that each result is a packing is a statement about all of them.", "anchors": ["lib/Dialect/Rotom/Transforms/SeedLayout/SeedLayout.cpp:30-54", "lib/Dialect/Rotom/Transforms/SeedLayout/SeedLayout.cpp:118-185", "lib/Dialect/Rotom/Transforms/SeedLayout/SeedLayout.td:6-24"]}
{"id": "C170", "title": "A Rotom layout means what it says", "statement": "A copy of an element is in the ciphertext and in the slot that are the row-major positions of its digits in the ciphertext dims and in the slot dims: the digit of a dim is its replica, its block, or (index / stride) mod size of its tensor dim, after each roll(i, j) has replaced the index of dim i by (index i - index j) mod size of dim i.", "quantifier": "for all accepted layouts with a lowering, all elements, replicas, blocks and sequences of rolls", "why_tests_cant": "Tests read off a few slots of a few layouts; that coefficients, divisions and nested remainders spell the same position for all layouts needs a proof.", "anchors": ["lib/Dialect/Rotom/IR/RotomAttributes.td:46-66", "lib/Dialect/Rotom/IR/RotomAttributes.cpp:53-148", "lib/Dialect/Rotom/Utils/RotomTensorExtLayoutLowering.cpp:35-370"]}
{"id": "C171", "title": "Splitting off the encoding of plaintexts keeps what a function returns", "statement": "After split-preprocessing, the function that encodes and stores all plaintexts followed by the function that loads them returns what the original function returns, including encoders in loops and conditionals; nothing is loaded that was not stored, and the result does not depend on the ciphertexts, which the encoding function is not given.", "quantifier": "for all modules of functions with structured control flow, in which no cleartext is computed from a ciphertext, all meanings of the operations and all arguments", "why_tests_cant": "Tests look at the printed functions of a few programs; that every iteration of every nest loads what the same iteration stored is a claim about all programs and runs.", "anchors": ["lib/Transforms/SplitPreprocessing/SplitPreprocessing.cpp:209-597"]}
{"id": "C172", "title": "The encoding function does what encoding needs and nothing else", "statement": "The operations that split-preprocessing clones into the encoding function are exactly the encoders and, repeatedly, what is around a cloned operation or defines one of its operands; its inputs are the values other than ciphertexts used by these and defined by none of them; the other function keeps all operations but the encoders.", "quantifier": "for all functions", "why_tests_cant": "Tests check a few functions; that the worklist ends with the least closed set is a statement about all graphs of definitions.", "anchors": ["lib/Transforms/SplitPreprocessing/SplitPreprocessing.cpp:57-104", "lib/Transforms/SplitPreprocessing/SplitPreprocessing.cpp:318-350", "lib/Transforms/SplitPreprocessing/SplitPreprocessing.cpp:598-645"]}
{"id": "C173", "title": "Stored plaintexts do not overlap", "statement": "With the layout that the storage analysis computes for a split module, the place of each plaintext, for every site and every iteration of the loops around it, lies within the memory of its type, and two plaintexts of the module have different places.", "quantifier": "for all modules, all nests of loops with constant bounds and steps, all iterations", "why_tests_cant": "Tests show the printed addresses of small nests; that mixed-radix addresses with any bounds and steps never collide needs a proof.", "anchors": ["lib/Analysis/PreprocessingStorageLayoutAnalysis/PreprocessingStorageLayoutAnalysis.cpp:24-119", "lib/Dialect/Preprocessing/Conversions/Util.cpp:232-314", "lib/Dialect/Preprocessing/Conversions/PreprocessingToMemref/PreprocessingToMemref.cpp:113-211"]}
{"id": "C174", "title": "Lowering the storage to flat memory keeps what the split functions return", "statement": "If the storage analysis of a split module succeeds, the split functions with stores and loads at the computed addresses return what the original function returns, and every access is in bounds and to a plaintext stored before.", "quantifier": "for all modules as in the claim on splitting, all meanings of the operations and all arguments", "why_tests_cant": "Tests compare printed memref code; agreement of the two functions over all iterations through the shared memory needs a proof.", "anchors": ["lib/Dialect/Preprocessing/Conversions/PreprocessingToMemref/PreprocessingToMemref.cpp:74-211", "lib/Dialect/Preprocessing/Conversions/Util.cpp:232-314", "lib/Transforms/SplitPreprocessing/SplitPreprocessing.cpp:209-597"]}
{"id": "C175", "title": "The storage analysis fails on a split module only for sizes beyond 64 bits", "statement": "For a split module the analysis of the storage layout succeeds exactly if the number of iterations of every inner part of every nest around an encoder and the number of plaintexts of each type are below 2^63; the memory of a type then has exactly as many places as plaintexts of the type are stored.", "quantifier": "for all modules", "why_tests_cant": "Tests never reach the limits; the exact condition and the absence of unused places concern all modules.", "anchors": ["lib/Analysis/PreprocessingStorageLayoutAnalysis/PreprocessingStorageLayoutAnalysis.cpp:24-137"]}
{"id": "C176", "title": "Split modules pass the validation of stores and loads", "statement": "validate-preprocessing accepts every module that split-preprocessing makes, and whatever it accepts stores and loads the same sites, each once, with the same element type and number of indices.", "quantifier": "for all modules, all lists of stores and loads", "why_tests_cant": "Tests validate a few modules; that the pass never makes a module its own validation rejects concerns all inputs.", "anchors": ["lib/Dialect/Preprocessing/Transforms/ValidatePreprocessing.cpp:52-150", "lib/Transforms/SplitPreprocessing/SplitPreprocessing.cpp:209-597"]}
{"id": "C177", "title": "The operations made from an arithmetic DAG compute its value", "statement": "If every operation that IRMaterializingVisitor makes uses SSA values that are visible where it stands, the operations run, the returned SSA values hold the value of the DAG node for the given leaf values, and the values that existed before keep their contents; for DAGs whose conditionals and loops compute nothing that is used outside of them this holds without the condition.", "quantifier": "for all DAGs with shared nodes, conditionals and nested loops, all leaf values, all meanings of the operations", "why_tests_cant": "Tests print the operations for a few kernels; that the cache never returns a value of another iteration or branch, for any sharing and nesting, needs an induction over the DAG.", "anchors": ["lib/Kernel/IRMaterializingVisitor.cpp:36-421", "lib/Kernel/IRMaterializingVisitor.h:24-99", "lib/Kernel/ArithmeticDag.h:511-545"]}
{"id": "C178", "title": "The operations made from an arithmetic DAG are valid IR", "statement": "Every operation made by IRMaterializingVisitor uses only SSA values that are visible where the operation stands: made before it in its own block or in a block around it.", "quantifier": "for all DAGs with shared nodes, conditionals and nested loops", "why_tests_cant": "Tests only contain DAGs in which a node is not first visited in one region and used in another; whether this can go wrong depends on the order of visits over all DAGs.", "anchors": ["lib/Kernel/IRMaterializingVisitor.cpp:325-421", "lib/Kernel/ArithmeticDag.h:511-545"]}
{"id": "C179", "title": "Each node of an arithmetic DAG becomes one operation", "statement": "The block made by IRMaterializingVisitor has exactly one operation for every node reachable from the root that stands for an operation, however often the node is used.", "quantifier": "for all DAGs", "why_tests_cant": "Tests count operations of single kernels; absence of duplicates under any sharing is a statement about all DAGs.", "anchors": ["lib/Kernel/IRMaterializingVisitor.cpp:36-421", "lib/Kernel/ArithmeticDag.h:511-545"]}
{"id": "C180", "title": "Constants of an arithmetic DAG keep their integer value", "statement": "A scalar, splat, tensor or index constant of a DAG becomes an integer constant of the requested width that is the floor of the given value, for every value of the type.", "quantifier": "for all widths up to 64, all values", "why_tests_cant": "Tests contain small non-negative values; the exact ranges of the conversions and the APInt constructor concern all values.", "anchors": ["lib/Kernel/IRMaterializingVisitor.cpp:40-132"]}
{"id": "C181", "title": "The chosen ring dimension gives 128 bits of security", "statement": "The ring dimension chosen for BGV, BFV or CKKS is a row of the table of the security guidelines, is large enough for the requested slots, is the least such row for the bits of the moduli, and the product of all ciphertext and special moduli is at most the power of two that the row allows.", "quantifier": "for all lists of modulus sizes, plaintext moduli, numbers of slots, levels and scales", "why_tests_cant": "Tests generate parameters for a few sizes; the product of the moduli that are found is never compared with the table, and the cases near the limit of a row are not among them.", "anchors": ["lib/Parameters/RLWESecurityParams.cpp:12-28", "lib/Parameters/RLWEParams.cpp:32-158", "lib/Parameters/CKKS/Params.cpp:160-236"]}
{"id": "C182", "title": "The generated moduli are distinct NTT-friendly primes of the requested sizes", "statement": "All ciphertext and special moduli are different primes congruent to one modulo twice the ring dimension, none equals the plaintext modulus, there are as many as were asked for, and for BGV and BFV each has more bits than its requested size and at least 20.", "quantifier": "for all lists of sizes, plaintext moduli, ring dimensions, levels; both ways of generating CKKS moduli", "why_tests_cant": "Tests look at the printed moduli of single programs; that the searches up and down never meet, for any number of levels, needs an invariant.", "anchors": ["lib/Parameters/RLWEParams.cpp:50-158", "lib/Parameters/CKKS/Params.cpp:20-236"]}
{"id": "C183", "title": "The special moduli exceed every digit of the key switching", "statement": "The digits of ceil(number of moduli / dnum) moduli cover all ciphertext moduli, and the product of the special moduli is larger than the product of the moduli of any digit.", "quantifier": "for all generated parameters", "why_tests_cant": "Tests do not compute the products; too small special moduli only show as noise.", "anchors": ["lib/Parameters/RLWEParams.cpp:22-30", "lib/Parameters/RLWEParams.cpp:86-158", "lib/Parameters/CKKS/Params.cpp:160-206"]}
{"id": "C184", "title": "Scheme parameters survive being written to the program", "statement": "Reading the scheme parameters from the attribute that generate-param annotates gives the parameters that were generated: ring dimension, level, number of digits and moduli.", "quantifier": "for all generated parameters", "why_tests_cant": "Tests check the attribute and the readers separately, on single programs.", "anchors": ["lib/Parameters/BGV/Params.cpp:37-65", "lib/Dialect/CKKS/IR/CKKSAttributes.cpp:15-41", "lib/Transforms/GenerateParam/GenerateParamBGV.cpp:143-155", "lib/Transforms/GenerateParam/GenerateParamCKKS.cpp:178-190"]}
{"id": "C185", "title": "The generated moduli are large enough for the analysed noise", "statement": "For BGV each modulus exceeds twice the factor by which a mod reduction at its level lowers the noise bound, and the first modulus exceeds four times the noise bound at level zero; for BFV the moduli multiply to more than two to the number of bits that the largest noise asks for.", "quantifier": "for all mod reductions with their levels and noise bounds, all modulus sizes", "why_tests_cant": "Tests run a few programs whose levels are all used; the claim is about any set of levels and gaps.", "anchors": ["lib/Transforms/GenerateParam/GenerateParamBGV.cpp:48-138", "lib/Transforms/GenerateParam/GenerateParamBFV.cpp:100-128"]}
{"id": "C186", "title": "Generated parameters are no larger than the assumed ones", "statement": "If the generated moduli have at most 60 bits, the ring dimension is at most the one of the conservative parameters that the noise analysis assumed, with the same numbers of moduli, special moduli and digits.", "quantifier": "for all lists of sizes, plaintext moduli and numbers of slots", "why_tests_cant": "Tests compare none of the two; the noise bounds are only valid for the generated parameters if the assumed ones were at least as large.", "anchors": ["lib/Parameters/RLWEParams.cpp:32-48", "lib/Parameters/RLWEParams.cpp:86-158", "lib/Transforms/GenerateParam/GenerateParamBGV.cpp:160-230"]}
{"id": "C187", "title": "Replacing tensors by scalars keeps their elements", "statement": "After small tensors are replaced by lists of scalars, reading an element gives the element that the tensor had there, whether the tensor came from an argument, a constant, tensor.from_elements or insertions, and a tensor that is put together again is unchanged.", "quantifier": "for all static shapes, element values, indices and sequences of insertions", "why_tests_cant": "Tests use tensors of one dimension or look at the printed order of single operations; that the order of extraction, insertion, constants and from_elements agree for every shape is not compared.", "anchors": ["lib/Transforms/TensorToScalars/TensorToScalars.cpp:40-239"]}
{"id": "C188", "title": "Loops for elementwise operations compute the operation", "statement": "The affine loops that replace an operation on tensors give at every index of the result the operation applied to the elements of the tensors at that index, to the slices of tensors of higher rank, and to the scalars as a whole; the undefined initial tensor is overwritten everywhere.", "quantifier": "for all shapes, operations, numbers of operands, ranks of operands", "why_tests_cant": "Tests compare the printed loops for single shapes; that no element keeps its undefined value and that the slices are those of the index holds for all sizes only by induction.", "anchors": ["lib/Transforms/ElementwiseToAffine/ElementwiseToAffine.cpp:90-246"]}
{"id": "C189", "title": "Loops for linalg.generic on tensors compute the operation", "statement": "The affine loops with carried tensors that replace a linalg.generic operation compute its results: all points are visited in order, the operands are read through their indexing maps, and every point sees what earlier points wrote.", "quantifier": "for all iteration sizes, indexing maps, bodies, numbers of inputs and outputs, including reductions", "why_tests_cant": "Tests compare the printed loops of a few operations; that nested carried tensors are those of the sequential execution, for any depth and any map, is not observable on an example.", "anchors": ["lib/Transforms/TensorLinalgToAffineLoops/TensorLinalgToAffineLoops.cpp:42-281"]}
{"id": "C190", "title": "Forwarding inserted slices to extracted slices keeps their values", "statement": "When an extracted slice is replaced by an inserted one, or by an empty tensor, all its elements are those that the extraction would give after all insertions; an insertion is looked through only if it writes no element of the extracted slice.", "quantifier": "for all chains of insertions, offsets, sizes, strides, shapes", "why_tests_cant": "Tests use slices that are equal or in different rows; overlaps with strides, dropped dimensions and dynamic offsets are not enumerated.", "anchors": ["lib/Transforms/ForwardInsertSliceToExtractSlice/ForwardInsertSliceToExtractSlice.cpp:33-140", "lib/Utils/Layout/Utils.cpp:1144-1196"]}
{"id": "C191", "title": "Looking for operations in a function and its callees is complete and ends", "statement": "The walk over a function and the functions it calls, directly or not, ends for every call graph, also with recursion, and finds an operation if and only if one of the functions that can be reached has it.", "quantifier": "for all modules, call graphs, entry functions and conditions", "why_tests_cant": "Tests have programs with one function or one call; that the queue empties in spite of repeated entries and that no function is missed needs a measure and an invariant.", "anchors": ["lib/Utils/Utils.h:129-153"]}
{"id": "C192", "title": "The generated crypto context has the keys and features that the program needs", "statement": "Every operation that the entry function can execute, in itself or in callees, finds what it needs in the context that the generated functions set up: the key for relinearization, the rotation keys, the bootstrapping keys and the enabled features; no other keys are generated, and the pass fails if it cannot generate them.", "quantifier": "for all modules, entry functions, operations and results of the analysis of rotations", "why_tests_cant": "Tests look at the generated functions of single programs; an operation whose need is missing from a list shows only when the program runs with OpenFHE.", "anchors": ["lib/Dialect/Openfhe/Transforms/ConfigureCryptoContext.cpp:99-432", "lib/Target/OpenFhePke/OpenFhePkeEmitter.cpp:2100-2108"]}
{"id": "C193", "title": "The counts of additions and key switches bound the noise", "statement": "With the attribute that the analysis puts on a function, the noise of every ciphertext in it is at most the number of additions times the noise of a fresh ciphertext or product plus the number of key switches times the noise of one.", "quantifier": "for all programs, noises of inputs, products and key switches, and all noises of the single operations within their bounds", "why_tests_cant": "Tests check the attribute of a few programs; the relation to noise is not tested, and holds along all paths only by induction.", "anchors": ["lib/Analysis/AddAndKeySwitchCountAnalysis/AddAndKeySwitchCountAnalysis.cpp:28-190", "lib/Analysis/AddAndKeySwitchCountAnalysis/AddAndKeySwitchCountAnalysis.h:38-125"]}
{"id": "C194", "title": "The depth of the crypto context is enough for the program", "statement": "The depth given to OpenFHE is the one of the option if there is one, and otherwise at least the number of levels that the operations before any value use up plus those of bootstrapping; for BFV only one of depth, additions and key switches is set.", "quantifier": "for all options, scheme parameters, programs, bootstrapping depths and counts", "why_tests_cant": "Tests have programs of one scheme with multiplications only; which source of the depth wins and which operations are counted is a matter of all combinations.", "anchors": ["lib/Dialect/Openfhe/Transforms/ConfigureCryptoContext.cpp:253-415", "lib/Dialect/Openfhe/IR/OpenfheOps.td:321-366", "lib/Analysis/MulDepthAnalysis/MulDepthAnalysis.cpp:39-57"]}
{"id": "C195", "title": "Folding a product with a monic monomial multiplies the constant modulo the ring", "statement": "When polynomial.monic_monomial_mul of a constant by X^e is folded, the resulting constant is X^e times the operand in the ring of its type, in every limb of an RNS constant and for plain integers up to 64 bits; for a polynomial modulus other than X^N + 1 the operation is not folded.", "quantifier": "for all moduli, degrees, constants and exponents", "why_tests_cant": "Tests fold a few small constants; signs after several wraps, signed 64-bit remainders and large moduli are beyond them.", "anchors": ["lib/Dialect/Polynomial/IR/PolynomialOps.cpp:739-874", "lib/Dialect/Polynomial/IR/PolynomialOps.cpp:948-1001"]}
{"id": "C196", "title": "Folding a product with a scalar multiplies the constant", "statement": "When polynomial.mul_scalar of a constant over a modular ring is folded, the resulting constant is the scalar times the operand in that ring.", "quantifier": "for all moduli, storage widths, polynomial moduli, constants and scalars", "why_tests_cant": "Tests use small coefficients; the truncation to the storage width before the reduction shows only with coefficients that do not fit.", "anchors": ["lib/Dialect/Polynomial/IR/PolynomialOps.cpp:739-786", "lib/Dialect/Polynomial/IR/PolynomialOps.cpp:876-946", "lib/Utils/Polynomial/RNSPolynomial.cpp:81-98"]}
{"id": "C197", "title": "Folding sums, differences and products of constants computes in the ring of their type", "statement": "When polynomial.add, polynomial.sub or polynomial.mul of two constants over a modular ring is folded, the resulting constant is the sum, difference or product in that ring.", "quantifier": "for all moduli, polynomial moduli, forms and constants", "why_tests_cant": "Tests fold constants of small rings modulo X^N + 1; equality in the quotient ring, for all rings, constants and representations, is an algebraic statement.", "anchors": ["lib/Dialect/Polynomial/IR/PolynomialOps.cpp:1003-1121", "lib/Utils/Polynomial/RNSPolynomial.cpp:30-135", "lib/Utils/Polynomial/Polynomial.h:226-246"]}
{"id": "C198", "title": "Arithmetic of logarithms computes the formulas of the noise models", "statement": "Numbers that are kept as logarithms are put in, read, multiplied and compared without error, added with a relative error of at most 2^-512 and exactly if they are not further apart than that; a formula of sums and products of any size is computed up to these errors, and never above its value.", "quantifier": "for all nonnegative numbers including zero and all formulas", "why_tests_cant": "Tests add and multiply a few numbers within a tolerance; how errors grow with the size of a formula, and on which side they are, needs an induction over formulas.", "anchors": ["lib/Utils/LogArithmetic.cpp:9-45", "lib/Utils/LogArithmetic.h:10-64", "lib/Analysis/NoiseAnalysis/Noise.cpp:27-44"]}
{"id": "C199", "title": "The BFV noise analysis bounds the noise, and a positive budget means correct decryption", "statement": "The noise that the worst-case BFV model gives for public-key encryptions and key switches covers the products of errors, keys and digits in the ring; for a program of additions, subtractions, rotations and relinearizations of ciphertexts and plaintexts the analysed value bounds the noise of every execution, and if the budget is positive every coefficient decrypts to the message of the program.", "quantifier": "for all ring dimensions, error widths, moduli, programs and executions (all errors within their bounds)", "why_tests_cant": "Tests compare estimates for a few circuits with recorded numbers; that no choice of errors exceeds the estimate, and that the budget is the threshold of decryption, is a statement about all errors and messages.", "anchors": ["lib/Analysis/NoiseAnalysis/BFV/NoiseByBoundCoeffModel.cpp:21-153", "lib/Analysis/NoiseAnalysis/BFV/NoiseByBoundCoeffModel.cpp:182-232", "lib/Analysis/NoiseAnalysis/BFV/NoiseAnalysis.cpp:62-178"]}
