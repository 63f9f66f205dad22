# Formal model of HEIR's pure cores in Lean 4

The code under study is google/heir at the commit checked out in `/repo`. HEIR is
an MLIR compiler; most of its value-level behaviour lives in (a) ordinary C++
functions (number theory, NTT, polynomials, graphs, kernels as arithmetic DAGs,
shift-network planning) and (b) small loop nests / expression templates that the
compiler *emits*. Both kinds are modelled here as total, computable Lean functions,
function by function, and properties are proved for all inputs.

## Conventions

* `APInt` of width `w` is `BitVec w`; `uint64_t` is `BitVec 64` or a `Nat` reduced
  modulo `2^64` where that is simpler (said in the comment of the definition).
* An emitted tensor is a function `Nat -> R` plus a length, or a `List`/`Array`.
* Undefined behaviour (out-of-bounds read, division by zero, failed `assert`) is a
  distinct outcome (`none` / `Except`), never a default value.
* Loops whose termination depends on data are written with explicit fuel or
  well-founded recursion; theorems state that the fuel suffices, or are partial
  correctness statements and say so.
* Every definition cites the file and lines of `/repo` it models.
* Floating point coefficients are modelled by an arbitrary commutative ring
  (rounding is not modelled); this is said at each such definition.
* When the code violates a property, the negation is proved on a concrete witness
  (theorem name `..._violated` or `..._counterexample`) and the strongest true
  restriction is proved under the name `..._partial`.

## Trusted base

* Lean 4.33.0's kernel; the axioms `propext`, `Classical.choice`, `Quot.sound`
  (checked with `#print axioms`; nothing else is used: no `sorry`, no
  `native_decide`, no `bv_decide`, no added axioms).
* The correspondence between the Lean definitions and the C++ text, which is by
  reading; each definition's comment records simplifications.
* Not modelled: MLIR's pass infrastructure, pattern driver, dialect conversion and
  IR mutation; ISL/Presburger solvers; OR-tools; LLVM code generation; floating
  point rounding; the FHE libraries called by the emitted code.

## Layout of the Lean project

`lean/Verif/<Area>/Model.lean` (model), `Spec.lean` (independent specification, when
not a Mathlib notion), `Lemmas*.lean` (helpers), `Props.lean` (the property theorems
with their concrete `example`s).

## Plan per property

| id | modelled | proof method |
|----|----------|--------------|
| C01 | `multiplicativeInverse` over `BitVec w`, two-slot alternating state | loop invariant relating state to exact integers modulo 2^w; bound on the final cofactor |
| C02 | `modularMultiplication`, `modularExponentiation` over `BitVec w` | loop invariant `res * b^e = base^exponent` in `Z/m` |
| C03 | `isPrime` | Fermat + square roots of 1 in a field; contrapositive |
| C04 | `factorize` (both paths) | loop invariant on trial division |
| C05 | `findPrimitiveRoot` | order criterion `orderOf_eq_of_pow_and_pow_div_prime`; existence by cyclicity of the unit group |
| C06 | `findPrimitive2nthRoot` | order of a power |
| C07 | `nextPowerOfTwo`, `isPowerOfTwo` on 64-bit words | bit-level characterisation of the smear |
| C08, C09 | `nttInPlace`, `inttInPlace` loop nests on arrays | stage invariant by induction on the span; evaluation at odd root powers; inverse by orthogonality or stage-wise inversion |
| C10 | `RNSPolynomial::mul` | from C08/C09, evaluation is a ring homomorphism mod X^n+1 |
| C11 | `fastNTT`, `computeReverseBitOrder` loop nests | same stage invariant technique |
| C12-C15 | emitted arith code of `ModArithToArith` on `BitVec` | `BitVec.toNat`/`toInt` arithmetic |
| C16 | `ConvertModSwitch` int/int | exact characterisation; negative result at the boundary residue if centering disagrees |
| C17 | `ConvertModSwitch` int/RNS and RNS/int | CRT sum; width sufficiency |
| C18-C20 | folders and canonicalization patterns | arithmetic in `ZMod q` |
| C21 | `computeMixedRadixCoeffs`, `buildQInvProds`, `LowerConvertBasisOp` | mixed radix invariant; witness for the third-limb defect |
| C22 | convolution, leading term, long division | loop invariant: remainder congruent modulo divisor, degree decreasing; witness for zero remainder |
| C23 | `ConvertConstant` | integer arithmetic; witness for truncation |
| C24, C25 | `PolynomialBase`, `ChebyshevPolynomial` | refinement to Mathlib `Polynomial` |
| C26-C29 | Horner, Paterson-Stockmeyer, Chebyshev PS builders as DAG builders + evaluator | refinement to polynomial evaluation |
| C46 | `computePowers`, Chebyshev bases, depth visitor | depth invariant with `Nat.clog` |
| C30 | `CachingVisitor` + `EvalVisitor` on DAGs with node identities | cache-coherence invariant |
| C47, C48 | operators of `EvalVisitor` on `LiteralValue` | integer arithmetic; witnesses |
| C31-C35, C49 | kernels as builders of `Dag.Expr` trees, layouts as relations | sum re-indexing, CRT |
| C36 | rotation index functions | the kernel trees evaluated in a semantics where a ciphertext rotation without key is undefined |
| C50 | layout relations (with the float ciphertext bound), CRT assignment loop | CRT, exactness of `float` division up to 2^24 |
| C37, C51 | mapping, shift scheme, rotation groups, kernel | round invariant (values carried at the positions, zero elsewhere); colouring properness; witness for the best order |
| C38-C41 | `Graph` algorithms | loop invariants; witnesses for shortest path |
| C42, C53 | rotation canonicalizations as partial rewrites on expression trees, slices on flat row-major data | arithmetic modulo n on `BitVec`; induction over rewrite positions and sequences; witnesses |
| C43, C52 | `PartialReduction`, the data-flow visitor on straight-line SSA programs, the replacement | invariant: a recorded reduction is the multiset sum of rotations of its tensor; C31 for the kernel; witnesses |
| C44 | insertion chains | induction over the chain walk; witnesses |
| C45, C54 | `OperationBalancer` on blocks of named ops, with erase failures as undefined | multiset invariant of the search; block invariant over the roots; solutions up to a relation (equality for values, `≤` for depth); witness |
| C55-C57 | loops with static bounds and guarded bodies, scans over all positions | relational loop semantics with the C++ conversions of extents; induction over iterations; witnesses |
| C58 | `IfToSelectConversion` on structured programs with regions, rewriting anywhere in any order | simulation between programs; single assignment as a count invariant |
| C59 | `SecretnessAnalysis` as a set of lattice updates in any order | two-run noninterference over the reached stable state; witnesses |
| C60, C61 | `ArithToCGGIQuart` on lists of 16-bit chunks | induction over the chunks with the carry bound; arithmetic modulo 2^w; witnesses |
| C62 | blocks of loads, stores and other ops; the two scans of `ForwardStoreToLoad` | runs as equations over the final environment; rewriting in any order; witnesses |
| C63 | insertion chains with constant and run-time indices, flattening in `int` | induction over the chain; row-major positions are injective; witnesses |
| C64 | folds of transposes, broadcasts and slices of broadcasts of constants | splitting and flattening are inverse; permutations by scatter; witnesses |
| C66 | loops that undilate filters and build pooling kernels | nested loops as folds over index tuples; positions are injective; sums over images; witnesses |
| C67 | six nested loops of the conv/pool fusion, `matchScalingFactor` | elements as indicator sums, sums exchanged; witnesses |
| C65 | `LinalgMapToElementwise`, `LinalgGenericToElementwise` (body as a list of ops) | simulation of the body per index, maps of values as an association list; witnesses |
| C69 | `getReassociationForReshapeAtDim`, `BroadcastToExpandShape`, `MaterializeBroadcasts` | loop invariant of the reassociation, row-major positions under unit dimensions, counting of used dimensions; witnesses |
| C70 | `ConvertRLWEEncrypt`, `ConvertRLWEDecrypt` | centred representatives and congruences in a ring with integer coefficients; witnesses |
| C71 | `ConvertRAdd`, `ConvertRSub`, `ConvertRNegate`, `ConvertMulScalar`, `ConvertRMul`, `ConvertRMulPlain`, `ConvertRMulRingElt` | phase of a list of polynomials by induction; witnesses |
| C72 | `DecomposeModDownPattern`, `DecomposeKeySwitchPattern`, `createPInvModQConstant`, `DecomposeRelinearizePattern` | CRT, gadget identity over the partition, divisibility of the noise by the dropped moduli |
| C73 | `secret-insert-mgmt-bgv/-bfv/-ckks`: `MultRelinearize`, `ModReduceBefore/After`, `MatchCrossLevel`, `MatchCrossMulDepth`, `UseInitOpForPlaintextOperand` | each walk extends the program by ops that return their operand; SSA invariant over the walk |
| C74 | `LevelAnalysis`, `MatchCrossLevel` | analysis of a longer program agrees on old values; loop invariant of the repeated matching |
| C75 | `DimensionAnalysis`, `MultRelinearize` | invariant of the walk: every state of dimension other than 2 belongs to a product; witness `x * x * x` for B/FV |
| C76 | `MulDepthAnalysis`, `getMaxMulDepth` | equation of the analysis at each op; induction over paths; chain of squarings |
| C77 | `MatchCrossMulDepth`, `handleCrossMulDepthOps` | walk invariant: running analysis is the analysis of the emitted prefix |
| C78 | `populate-scale-ckks` (first solver, walk, `MergeAdjustScaleIntoInit`, second solver), `ScaleAnalysis`, `validate-scale` for CKKS | relation between the two solvers kept over the walk; witnesses |
| C79 | the same, with a meaning on held values where encoding multiplies and reduction divides by powers of two | induction over the program: validated scales are exponents; transfer of the assumptions to the populated program; witness |
| C80 | `NoiseAnalysis` for BGV with `NoiseByBoundCoeffModel`, numbers instead of logarithms | runs of the backend as a relation with bounded errors in any ring with a coefficient size (`X^N + 1` is an instance); induction over the program; witnesses |
| C81 | `validate-noise` | uniqueness of the small representative; room of half a unit in the fresh bound; witness |
| C82 | `RangeAnalysis` on straight-line programs, numbers instead of logarithms | elementwise semantics over ℚ; induction over the program; witnesses |
| C83 | `getExtraBitsForLevel0` and the first modulus | C82 with the logarithm rounded up; witnesses |
| C84 | `--optimize-relinearization`: removal, the linear program, insertion | placements and solutions of the linear program correspond in both directions; induction over the program for the degrees; any solver |
| C85 | `lattigo-alloc-to-inplace` on one block: storage info, available storages, load–operation–store pattern | objects of values and their contents against values; a static condition (`Clean`) that makes objects right is kept by the walk, whose storage lists are complete unless stored; witnesses |
| C86 | the same, levels | levels rise along each storage list; invariant of the walk; witness |
| C87 | `openfhe-alloc-to-inplace` on one block | at most one value of each object is still of use, kept over the walk; witnesses |
| C88 | `--ilp-bootstrap-placement`: erasure, the integer program, decoding, insertion | levels and scales of ciphertexts as a relation on runs; the constraints give each operand and result path, a generic simulation of emitted operations glues them; any solution; witness |
| C89 | the same with `LevelAnalysis` | levels counted down and counted up kept in step over a run; witnesses |
| C90 | `addObjective` against the operations placed | counting over the emitted operations; witness |
| C91 | the same without scales | the level of a ciphertext bounds the multiplications behind it; witness |
| C92 | the Toeplitz relations of `Convolution.cpp`, the steps for two dimensions | each row as a sum over the filter elements placed in it; digits of row and column indices |
| C93 | the same with the diagonalization, the Halevi–Shoup kernel (C33) and the result layouts | the packed filter holds the diagonals of the expanded matrix; the kernel theorem; the result layout through the row permutation; witnesses |
| C94 | row interchange, result layouts | permutation by digit arithmetic; composition with the slot layout |
| C68 | insertions into constants | invariant of the collected map over the chain; witnesses |
| C95 | `secretToCggi`, `findLUTSize`, `decompose`, the verifiers, `toTfheRust`, jaxite `lut3` | bits of the message space: sums of shifted bits do not wrap when the message bits hold the inputs |
| C96 | `buildSelectTruthTable` | induction on the inputs left |
| C97 | `encodeElement`, the conceal conversion, `flattenIndex`, `unflattenIndex` | bit by bit; induction on the dimensions |
| C98 | `buildBatchedOperation` of gates and tables, the pmap conversion | lane by lane |
| C99 | `LUTImporter` | the loop keeps the ports read as bits |
| C100 | `buildGraph`, `buildCompatibleOps`, `tryBoolVectorizeBlock`, `tryVectorizeBlock` | state invariant: values satisfy every operation, ranks order the uses; each bucket, key and level keeps it |
| C101 | `selectInt`, `selectFloat` | both values of a bit, then lists |
| C102 | `cmpF`, `cmpI` | three cases of the order |
| C103 | `Rectifier`, `activation`, `quotient` | order cases; bounds before and after; `exp (a - b) = exp a / exp b` |
| C104 | `cgfSoftmax`, `Domain.expLower`, `Domain.expUpper` | Jensen, Hoeffding, Popoviciu; `log n ≥ 2 (1 - 1/√n)` |
| C105 | `MaskPat.before`, `maskAfter`, `intersectInt`, `intersectFloat` | the four pairs of mask elements; overflow of a product by one |
| C106 | `checkOutputMap`, `generic`, `reduce` | induction on the loop over the results |
| C107 | `chebPoints`, `ifftInput`, `ifftReal`, `coefficient`, `interpolate` | the transform is a cosine sum; orthogonality of cosines |
| C108 | `accumulateMaximumReverse`, `normalize`, `plateau`, `cutoff`, `standardChop`, `smart` | envelope decreasing, first plateau, least biased value |
| C109 | `cfUnit`, `cf`, `rescale`, `rescaleKernel`, `evalLowered` | composition with C28, C107 and C108 |
| C110 | `expSteps`, `expAccepted`, `expTaylor` | induction on the squarings; Bernoulli |
| C111 | `powLoop`, `powOp` | the result is the power of the leading bits |
| C112 | `BinOp.cppFunc`, `unaryFunc` | cases |

The table is updated as the model grows; the status of each property and the exact
theorem names are in `MANIFEST.json`. Deviations found in the code are listed at the
end of this file.
| C113 | `Op.run`, `Gen.run`, `Stmt.run`, `runAll`, `Prog.eval` | two executions agree on cleartexts |
| C114 | `collapse`, `removeUnusedArgs`, `removeUnusedYields`, `removeNonSecretArgs`, `captureAmbient`, `merge`, `dedupe`, `concealThen`, `absorbArg`, `extractBefore`, `Step`, `Steps` | simulation up to a renaming of values, at one place, then over the rest of the block; induction on the applications |
| C115 | `Prog.replace`, `retype`, `Applies` | definitions of the replacement are old ones or new numbers |
| C116 | `canHoistBefore`, `extractBefore`, `canHoistAfter`, `operandOf`, `extractAfter` | simulation; new generics with fresh numbers |
| C117 | `plainDest`, `concealInsert`, `constantOf`, `absorbAmbient` | simulation where the replaced value is used only in the generic |
| C118 | `scanArgs`, `dupYield`, `captureAmbient` | the search that fails; number of ambient uses |
| C119 | `Block`, `build`, `rotationIndices`, `exec` | simulation: the node of a value represents it; a shift that is avoided |
| C120 | `process` with a log, `evalRotations` | an evaluator that stops at a shift; caching is sound (C30) |
| C121 | `galoisElement` | order of 5 in the units of `ZMod (2^k)` |
| C122 | `findSource`, `key`, `storeMap`, `lastStore`, `action`, `forward` | the last store with the key determines the cell; simulation of the renaming; `unflattenIndex` inverts `flattenIndex` |
| C123 | `views`, `reads`, `eraseUnused` | simulation up to one buffer |
| C124 | `nest`, `copyLoops` | the nest visits each index; induction on the visits |
| C125 | `toCopy`, `insertCall`, `extract` | equations of the executed operations; two simulations, up to and after the call; for bodies of the intended form the result is computed (`Shape`) |
| C126 | `flattenedIndex`, `globalAffine`, `globalLoad` | induction on the shape |
| C127 | Verilog expressions with the widths and signs of their contexts; `emitOps`, `emitFunc` | simulation: each wire carries the bits of its value; assignments read earlier wires, so a steady state exists |
| C128 | `printRawData`, `concatAll` | digits in base 16; induction on the elements |
| C129 | `insertAssigns`, drivers of a bit | the three ranges evaluated |
| C130 | `emittedCtlz` | the bits that the code looks at |
| C131 | `indexWidth`, `indexArgWire` | sign extension of the index |
| C132 | `getStronglyConnectedComponents` | invariant of the search: order of the stack, low links, finished classes |
| C133 | `contractEdge` | quotient of the graph by the merged vertices, kept by every contraction |
| C134 | `condenseGraph` | quotient invariant through the nested loops; progress of every pass |
| C135 | `findApproximateCriticalPath` | filter of a topological order |
| C136 | `importModule`: `getBit`, `addResultBit`, `createOp`, connections, results | simulation: the table of wires and the bits of the outputs hold the values of the netlist; values exist by induction on the topological order |
| C137 | `ArithToCGGI`: `convComm`, `convSub`, `convCmp`, `convSh`, `convBoth`, materialization | simulation: every value is represented by a ciphertext or a remaining integer |
| C138 | `CGGIToTfheRust`: `lowerBin`, `lowerOp` | simulation over the renumbering of values |
| C139 | `TfheRustHLEmitter`: `printConst`, `printBin`, `printOp` | simulation between ciphertexts and Rust variables; composed with C137 and C138 |
| C140 | `buildIslExpr`, `visitAstNode*`, `generateForLoop` | simulation by mutual induction on trees: values in scope, carried values and results; reversed loops by an exchange of the steps |
| C141–C142 | `implementAssignLayoutStep`, `implementCrtAssignLayoutStep`, `implementAssignLayout`, `implementUnpackOpStep`, `implementUnpackOp` | what a sequence of insertions leaves at an index, by induction; loops by C140; lists by composition of relations |
| C143 | `implementAssignLayoutPermutation` | insertions as for C141 |
| C144–C145 | `ArithToModArith`: `convertArithType`, `ConvertConstant`, `ConvertExtSI`, `ConvertExtUI`, `buildLoadOps`; then `ModArithToArith` | induction on expressions indexed by width: residues agree, and are reduced except for constants and loads |
| C146 | `PolyMulToNTT::runOnOperation`, constraints of `NTTSolver` | live values are needed in some form, by induction from the uses back; simulation: every value is found in the forms in which it is needed |
| C147 | the same, objective of `NTTSolver` | transforms emitted counted operation by operation; every placement is a solution with the same cost; the least objective exists |
| C148 | `LevelState`, `deriveResultLevel`, `LevelAnalysis::visitOperation`, `annotateLevel` | simulation of states by levels over programs with loops, any post-fixpoint; exactness by induction without control flow |
| C149 | `BootstrapIterArgsPattern` | the states int L0 / max are an invariant of the loop; erasure of levels keeps values |
| C150 | `PartialUnrollForLevelConsumption`, `loopUnrollByFactor` | a program accepted within a budget is accepted k levels deeper with k more levels (shift lemma), copies by induction; iteration space by ranges |
| C151 | `PeelPlaintextAffineForInit` | iteration space; float rounding is exact up to 2^24 |
| C152 | `findLinearOpAndOperand`, `findOriginalScalar`, `fuseScaleOrDivIntoLinearOp` | terms of an output element all carry the weight index of its channel, so a factor per channel leaves the sum; index lemmas for broadcast and expand_shape by induction on the shape |
| C153 | `accumulatesIntoOuts`, `fuseAddOrSubIntoLinearOp` | a fold that adds the accumulator commutes with adding to its start |
| C154 | `hoistLayoutThroughCollapseShape`, `createCollapseShapeHoister`, `hoistLayoutThroughPad` | the equalities of a group have one solution, the index with the coordinate at its real dimension; row-major numbers are injective |
| C155 | `collapseDimensions`, `expandDimensions` | dropping variables one after the other is inserting zeros in ascending order; induction over groups with a prefix |
| C156 | `hoistConversionThroughMatvec`, `createPrecomposingMatvecHoister`, `FoldMatvecInputConversionIntoPlaintext` | the kernel of C33 on rotated operands, and on a matrix and a vector with permuted columns; a unit matrix and vector separate every other permutation |
| C157 | `pushSliceLayoutThroughInsertSlice` | mixed-radix numbers of slices are injective, quotient and remainder by the ciphertexts of a slice |
| C158 | `kernel::RotationCountVisitor` | the visited set below the current node is closed under children, statuses there are right; the count is a sum over newly visited nodes |
| C159 | `RotationCountVisitor` of `LayoutConversionCost.cpp`, `CachingVisitor::process` | any property of counts that nodes pass on holds for cached counts; sums over unions of needed nodes |
| C160 | `hoistOp`, `tryFoldLayoutConversionIntoPrevious`, `HoistArgLayouts` | simulation: layouts and tensors agree off the erased conversions and the new ones |
| C161 | `computeHoistingOptions`, `costOfChangedOperand`, `hoistOp` | the table of costs is a sum over distinct operands |
| C162 | `inferCtPrefixLen`, `LayoutAttr::verify` | the greedy quotient is the number of slots over the extent taken; uniqueness from divisibility of longer suffixes |
| C163–C165 | `preprocessLayoutData`, `verifyLayoutRolls`, `emitSegmentAddress`, `emitSplitCtSlotIsl` | addresses are mixed-radix numbers of digits; digits of a split axis determine its index; each roll is invertible on values within the axes |
| C166 | `canonicalizeLayoutDims`, `getCanonical` | renaming of gap variables past the new gap |
| C167 | `LayoutAttr::print`, `LayoutAttr::parse`, `DimAttr::print`, `DimAttr::parse` | the loop over dims with its accumulator; a written boundary is below the number of dims |
| C168 | `varIndexForRotomDim`, `lowerToIslImpl` | a dim is among the axes exactly when it is a whole axis; induction over rolls |
| C169 | `findValidTuples`, `SeedLayout::runOnOperation` | the remaining product divides the slots; the parts of each axis in a seed, then C163–C165 |
| C170 | `emitSegmentAddress`, the rolls of `emitSplitCtSlotIsl` | row-major by Horner's rule; values of axes after each roll agree with the indices |
| C171 | `SplitPreprocessing` | big-step execution with a store; each iteration of each site stores to its own place what the loading run would encode (trace of encoder runs) |
| C172 | `computeDependenciesToClone`, inputs, `recursiveCloneOpWithFilter` | worklist invariant; least closed set |
| C173 | storage analysis, `getLinearIndex` | mixed-radix value below the product of trip counts and injective; entries consecutive |
| C174 | `PreprocessingToMemref` | C171 for any injective place function, with C173 |
| C175 | storage analysis | exact condition by induction over the sites |
| C176 | `ValidatePreprocessing` | sites numbered once; stores and loads of a split module are its encoders |
| C177 | `IRMaterializingVisitor` | invariant: a cached name holds the value of its node unless the node depends on a variable of an open loop; induction over the visit |
| C178 | same | invariant: cached names of nodes that an enclosing region may still use are visible; private regions; witnesses for shared nodes |
| C179 | same | operations made = new cache entries that stand for an operation; cache closed under edges |
| C180 | constants of `IRMaterializingVisitor` | exact ranges of the two conversions and of the `APInt` constructor |
| C181 | `computeRingDim`, `getConservativeRLWESchemeParam`, `getConcrete…SchemeParam` | least row of a table given separately; the last round of the loop is the result |
| C182 | `findPrime`, `moduliQGeneration*` | each search returns the least new prime; invariant of the searches up and down |
| C183 | special moduli | special moduli are found after and above all others; products of lists |
| C184 | `toAttr`, `ofAttr` | arithmetic of the two rounded quotients |
| C185 | `generateParamByGap`, `generateParamByMaxNoise` | invariant of the map of largest gaps; sum of the sizes; composed with C182 |
| C186 | concrete against conservative parameters | minimality of the row (C181) with the product bound |
| C187 | tensors as scalars | induction on the shape: list of indices against offset |
| C188 | elementwise operations as loops | loops are a fold over all indices; injective writes |
| C189 | `linalg.generic` as loops | carried loops are a monadic fold over all points; injective writes |
| C190 | forwarding inserted slices | range of the relation is the set of places; induction on the chain |
| C191 | walk over callees | invariant of queue and done set; lexicographic measure |
| C192 | keys of the OpenFHE context | C191 for each kind of operation |
| C193 | counts of additions and key switches | monotone worst-case noise equals the counts, by induction on the program |
| C194 | depth of the OpenFHE context | maximum over all paths; comparison of the analysis with what operations use up |
| C195 | folding `monic_monomial_mul` | the loop solves a recurrence; window of the shift; permutation of a sum |
| C196 | folding `mul_scalar` | induction on terms and coefficients, in all rings with `q = 0` |
| C197 | folding `add`, `sub`, `mul` | the same; products through C10 and the map of `Z_q` into the ring |
| C198 | `Log2Arithmetic` | laws of powers and logarithms; induction on formulas |
| C199 | BFV noise model and analysis | bound of negacyclic products; induction on executions; logarithms for the budget |

## Deviations found in the code

Each item is a behaviour of the code that contradicts the property as stated in
`properties.jsonl`. The theorem proves it for the model with a concrete witness or a
general statement; the property itself is kept with a `_partial` theorem.

- C02: `modularExponentiation` returns 1 for exponent 0 and modulus 1.
- C05: for moduli above 64 bits the finder only promises what
  `C05_findPrimitiveRoot_large_partial` states.
- C08: `nttInPlace` narrows the length to `uint32_t`; a vector of length `2^32` is
  returned unchanged (`C08_violated_at_two_pow_32`).
- C12 to C16: the type verifier accepts modulus 0, for which the emitted remainder is
  undefined.
- C14: the centred lift overflows for modulus `2^(w-1) - 1`
  (`C14_lift_centered_violated`).
- C15 (remark, property holds): a modulus attribute narrower than three times the modulus
  size trips an assertion (`C15_narrow_attribute_undefined`).
- C16: the modulus switch moves the residue `(q-1)/2` of an odd modulus to the wrong side
  (`C16_violated`).
- C17: the verifier accepts limb storage as wide as the storage of `Q`, but the lowering
  then emits an invalid `arith.trunci` (`C17_equal_width_violated`). The product check
  of the verifier wraps (`C17_verifier_wraps_violated`).
- C18 (remark): on non-canonical constants the folder and the lowered code disagree
  (`C18_noncanonical_disagree`).
- C19: negative constants are stored without reduction (`C19_violated`).
- C21: from three input limbs on, `computeMixedRadixCoeffs` multiplies by `q_i` where its
  formula has `q_j` (`C21_violated_three_limbs`). Tests use two limbs.

- C22: the emitted modular reduction has no exit for a zero remainder: whenever the product
  is a multiple of the ring polynomial (for instance a zero operand), the leading-term scan
  walks to index -1 (`C22_violated_zero_remainder`, `C22_violated_zero_operand`). A negative
  leading coefficient trips an assertion in `multiplicativeInverse`
  (`C22_violated_negative_leading`), and a ring of degree one writes its constant out of
  bounds at compile time (`C22_violated_degree_one`).
- C23: a coefficient wider than the storage type is truncated before it is reduced
  (`C23_violated_truncation`); with a modulus above `2^63` the constant `-1` trips the
  assertion of `getSExtValue` (`C23_violated_large_modulus`).
- C24: `PolynomialBase::add` trips the assertion of `MonomialBase::add` whenever an exponent of
  the left operand lies strictly between two consecutive exponents `b < c` of the right one
  and `b` does not occur on the left, e.g. `x^5 + (x + x^7)` (`C24_violated_add_clash`, an
  equivalence; without assertions two different exponents are merged). Products with the
  zero polynomial read past an empty vector (`C24_violated_naiveMul_zero`), and so do
  compositions with an intermediate zero (`C24_violated_compose_constant`). Scaling by zero
  leaves zero terms (`C24_violated_scale_zero`).
- C25: `toStandardBasis` inherits the defect of `add`: the coefficients `[1,1,1,1,1]` trip the
  assertion (`C25_violated_toStandardBasis`). `ChebyshevPolynomial::compose` never stores
  `d_2` when the degree is two, so every degree-two result is off by `c_2/2`
  (`C25_violated_degree_two`); the empty vector is read out of bounds (`C25_violated_empty`).
- C28 (remark, property holds): a series all of whose coefficients are below the threshold is
  lowered to a null pointer (`C28_zero_series_is_null`), on which `CachingVisitor::process`
  asserts, so lowering a zero Chebyshev polynomial crashes. Over the reals the error due to
  dropped coefficients is bounded by threshold times number of coefficients
  (`C28_error_bound`).
- C29 (remark): `decompose` with degree 0 does not terminate (`C29_zero_diverges`).
- C30 (remark, property holds): the hypothesis is that variables of a loop are used only below
  its body and belong to one loop; otherwise the last cached value leaks out, depending on
  the order of evaluation (`C30_unscoped_use_violated`).
- C31: the unrolled accumulation halves the step count without checking that it is a power of
  two; with three steps it sums two rotations (`C31_accum_violated`).
- C32 (remark): the unrolled kernels treat a zero-diagonal entry with value `false` as present,
  the rolled ones as absent (`C32_false_entries_differ`). Callers only insert `true`.
- C34, C35, C49 (remark): the product is right in a prefix of the slots only. The conversion
  replicates that prefix and asserts that it holds a full period; too small a ciphertext trips
  the assertion (`C34_bicyclic_rejected`, `C35_tricyclic_rejected`). The conversion detects
  the secret side of a mixed product only on block arguments of the `secret.generic`.
- C50: the ciphertext bound of the row-major, bicyclic and tricyclic layouts is `std::ceil` of a
  `float` quotient; for 97 x 172961 elements on 4096 slots the last element is not stored
  (`C50_rowMajor_float_violated`).
- C47: `if (*lScalar)` in the floor-division visitor tests the value instead of the pointer: a
  zero dividend and every vector are undefined behaviour (`C47_floorDiv_zero_violated`,
  `C47_floorDiv_vector_violated`); negative quotients are truncated
  (`C47_floorDiv_negative_violated`).
- C48: arithmetic on a vector and a scalar returns the vector
  (`C48_mixed_operands_violated`).
- C39 (remark, property holds): the level is the longest walk to a sink, counted backwards, not
  the longest walk from an input as the comment says (`C39_level_from_inputs_violated`).
- C41: the links point forwards, from a vertex to its last relaxed successor, so a branch that
  leads elsewhere is followed for ever (`C41_loop_violated`), or completed through `V()`
  (`C41_default_violated`); with weights the result need not be the lightest
  (`C41_weight_violated`).
- C37 (remark, property holds): an empty mapping trips the assertion that there is a group (`C37_empty`).
- C51: `findBestShiftScheme` compares the number of rounds, which is the same for all orders, so it
  takes the first shuffled order (`C51_best_partial`) even when another needs fewer groups
  (`C51_best_violated`).
- C42: merging two rotations adds the shifts in the type of the shift, which wraps
  (`C42_combine_violated`), and makes ill-typed IR when the two shifts have different types
  (`C42_combine_violated_type`). Normalizing uses an unsigned remainder, so a negative shift is
  wrong unless the dimension is a power of two (`C42_normalize_violated`), and the dimension cast to
  the type of the shift may be zero (`C42_normalize_violated_ub`). Folding a rotated constant is
  wrong for shifts below minus the length (`C42_fold_violated`) and for more than one row
  (`C42_fold_violated_rank`). Rotation and extraction adds without reducing
  (`C42_extract_violated`) and without matching types (`C42_extract_violated_type`).
- C43: `PartialReduction::rotate` reduces with the C++ `%`, so negative shifts make distinct
  indices for the same element (`C43_violated`).
- C52: the pass replaces a reduction of n elements by a kernel that sums the largest power of two
  below n (`C52_violated`).
- C53: the lowered shift arithmetic is done in the type of the shift, which may not hold twice the
  dimension (`C53_violated_dynamic`) or the dimension (`C53_violated_const`).
- C44: when two inserts use one value, the walk counts the indices of both branches and replaces
  one of them (`C44_violated`).
- C54: the balancer treats all operands as equally deep, so a deep operand may get deeper
  (`C54_violated`, the TODO about issue 836 in the source).
- C55: a secret lower bound off the grid of the annotated lower bound shifts the visited indices when
  the step is above 1 (`C55_violated`).
- C56: the check that the loop variables are forwarded unchanged compares two null pointers, so
  permuted variables pass (`C56_violated`).
- C57: the trip count is the extent narrowed to `int`: 0 for dynamic tensors
  (`C57_violated_dynamic`) and wrong from 2^31 elements on (`C57_violated_large`).
- C58: `secret.reveal` is declared pure, so it is hoisted out of the branch that guards it and
  reveals the value in runs that did not (`C58_hoists_reveals`; values and effects are preserved).
- C59: the result of an `scf.if` is labelled by its yielded values only, so picking between two
  constants by a secret is public (`C59_violated_branch`); an unknown yield joined with a public one
  is public (`C59_violated_unknown`); memory carries no label (`C59_violated_memory`).
- C61: the chunks of a constant are sign extended from 8 to 16 bits, so a byte above 127 denotes a
  different number (`C61_violated_const`), and widths that are no multiple of 8 assert
  (`C61_violated_const_width`); `arith.extsi` appends zero chunks (`C61_violated_extsi`); extending a
  sum that ran over its width keeps the overflow (`C61_violated_extui`); the product drops the carry
  of the second column (`C61_violated_mul`).
- C62: indices and memrefs are compared by name, so a store through another name of the same element
  is walked past (`C62_violated_index`, `C62_violated_alias`) and a store read through another name is
  erased (`C62_violated_erase`); calls between store and load are walked past (`C62_violated_call`);
  a store of the memref itself counts as a store into it (`C62_violated_memref_stored`).
- C63: an insert at a run-time index is walked past although it may be the extracted one
  (`C63_violated_index`); flattening is done in `int` (`C63_violated_large`).
- C66: `constant / pooling` is treated as `pooling / constant` (`C66_violated_divInto`), and the initial
  value of a divided pooling is not divided (`C66_violated_init`).
- C67: the matcher looks neither at the indexing maps nor at the yield of a `linalg.generic`
  (`C67_violated_map`, `C67_violated_yield`).
- C65: `LinalgMapToElementwise` takes the inputs in order whatever the operands of the body's op are,
  ignores what is yielded and loses the op's attributes (`C65_violated_swapped`, `C65_violated_outer`,
  `C65_violated_yield`, `C65_violated_attrs`). The `linalg.generic` rewrite is sound.
- C69: `MaterializeBroadcasts` does not look at the order of the dimensions in the indexing map, so a
  permuting map reads the transposed element (`C69_violated_order`).
- C70: encryption adds the message to the first polynomial, decryption multiplies the first polynomial
  with the key, so a public-key ciphertext decrypts to `s * m` (`C70_violated_pk`). Secret-key encryption
  adds `u * s` where decryption expects it subtracted, and does not scale its noise (`C70_violated_sk`).
  The constant the public-key noise is scaled with is `T` in `Z/T`, that is 0, so there is no noise at all
  (`C70_violated_noise`). No ciphertext bit of this is checked by tests: they compare emitted ops.
- C71: `lwe.rnegate` multiplies with the word of ones, which is `-1` only for moduli dividing `2^w`
  (`C71_violated_negate`). Sizes that differ, and all plaintext operands, lower to invalid ops
  (`C71_violated_sizes`).
- C70-C72: polynomials modulo the ring's polynomial modulus are a commutative ring `A` with an additive
  isomorphism to integer vectors; that the polynomial ops compute in this ring is C10, C12, C22. The
  conversion of RNS bases follows the documentation of `lwe.convert_basis`; its lowering is C21.
- C64, C68: positions and the loop counter of the transpose are `int`s, so from 2^31 elements on the
  folds are undefined or read elsewhere (`C64_violated_large`, `C68_violated_large`).
- C73-C76: programs are one straight-line `secret.generic` body; loops and regions inside it are left out.
  A rewrite pass is modelled as one forward walk over the ops that were there at its start, ops it inserts
  are not analysed before the next run of the solver; the code relies on this order itself
  (comment in `SecretInsertMgmtPatterns.cpp:40-44`). An `insert` has at most two secret operands in C74.
- C75: the B/FV pass asks the solver whether the operands of a product are secret, and the solver has no state
  for a relinearization made in the same walk, so of two products in a row the second stays unrelinearized
  (`C75_bfv_relinearization_violated`). Default pipelines hide this by running `optimize-relinearization`.
- C76: a depth beyond 40 is an invalid state and `getMaxMulDepth` asserts that there is none
  (`C76_depth_violated_beyond_budget`).
- C78: the first solver of `--populate-scale-ckks` does not know of the adjustment the walk
  inserts before a modulus reduction that would fall below the default scale. Two reduced
  fresh values are multiplied at 45 + 90 where the solver expects 90, and a sum with a
  value at 90 is left unadjusted; validation rejects it (`C78_reduced_operands_violated`).
  With `before-mul-include-first-mul` the result of a bootstrap is annotated with twice the
  default scale, which validation rejects (`C78_bootstrap_violated`).
- C79: neither the population nor the validation looks at operations without a rule that
  combine several secret values, such as `tensor.from_elements`: operands of different
  scales pass and the result holds no multiple of its message (`C79_containers_violated`).
- C80, C81: logarithms in doubles are replaced by the numbers themselves. What the backend does to a ciphertext is
  a relation on phases in `Noise/Spec.lean`: errors and keys within the limits the model of the code assumes, hybrid
  key switching with the digits of `RLWEParams.h`. The average-case variant is no bound and is left out.
- C80: `tensor.insert_slice` takes the noise of the inserted tile and ignores the tensor it is inserted into
  (`C80_insert_violated`, where the program validates and decrypts wrongly). The digits counted for key switching
  are `ceil((level + 1) / dnum) + 1`, which takes `dnum` for the size of a digit; that is enough for the `dnum` HEIR
  computes itself (`C80_generated_digits`), not for the one derived from a scheme attribute
  (`C80_digits_violated`).
- C81: the noise budget leaves no room for the message, so a fresh secret-key ciphertext can validate and decrypt
  wrongly (`C81_fresh_violated`); the roundings in the bounds make up for it in all other cases.
- C82: `arith.subf`/`subi` have no rule, and operations without a rule take the range of their first operand with a
  state, so a difference is not bounded (`C82_sub_violated`), nor are tensors put together from several operands
  (`C82_combination_violated`), and a rotation of a `dense_resource` constant takes the range of the rotation
  amount (`C82_resource_violated`). Clearing the sign bit of an integer element is no absolute value
  (`C82_negative_elements_violated`). Empty integer tensors read an empty optional and the smallest `int64_t` has no
  absolute value (`C82_constants_undefined`). A loop whose body doubles its argument never reaches a stable state
  (`C82_loop_diverges`), so the solver goes on until its doubles overflow.
- C83: arguments at level zero are not inspected (`C83_arguments_violated`); a largest range of zero converts minus
  infinity to an `int` (`C83_zero_undefined`). A given size that is too small is only warned about.
- C84: the values of the solver are doubles that are converted to `bool`; the model takes them as exactly zero or one.
- C85: `isStored` does not know `tensor.from_elements`, nor a `tensor.insert` whose result goes to debug calls only, so a
  ciphertext collected that way is overwritten (`C85_unseen_violated`). The initial value of an `scf.for` counts as dead
  behind the loop though the loop's result may be that object; the result of a `func.call` counts as a new object
  (`C85_fetch_violated`). The load–operation–store pattern overwrites the object in a cell though another value loaded
  from the cell is used later (`C85_memref_violated`). The pattern takes `.value()` of the level of a result that may
  have none (`C85_undefined`).
- C86: the load–operation–store pattern does not look at levels (`C86_memref_violated`).
- C87: a ciphertext inserted into or extracted from a tensor is overwritten in the tensor, ciphertexts being shared
  pointers (`C87_insert_violated`, `C87_extract_violated`); so are the caller's arguments (`C87_arguments_violated`).
  Not modelled: in a loop body a value from outside without a use later in the body counts as dead; the emitter names
  the result of `add_plain_inplace` after the left operand even if that is the plaintext
  (`OpenFhePkeEmitter.cpp:894-899`, unlike `sub_plain_inplace`).
- C85-C87: one block of straight-line code; nested blocks, aliasing between backend operands of one call and the
  liveness of values across blocks are not modelled. What a load reads is given with the program.
  The level carried over for B/FV is looked for at as many operands as the block containing the `secret.generic` has
  arguments; this is not modelled.
- C88-C91: any assignment that satisfies the constraints stands for the solver's; tolerances of the solver, its gap of 1%
  and loops or regions in the body are left out. Canonicalization, CSE and the annotation that follow are C73-C79.
- C88: a plaintext factor adds its scale only if it is the result of `arith.constant`; with a plaintext argument the product
  is taken to keep the ciphertext's scale (`C88_plain_violated`). `mgmt.level_reduce_min` is neither erased nor known to
  the constraints, so programs with it are excluded.
- C89: the level analysis puts a bootstrapped ciphertext at the levels the target's bootstrap consumes, the integer
  program at the waterline (`C89_consumed_violated`); it starts every argument at 0 whatever its annotation
  (`C89_annotated_violated`).
- C90: rescalings before a bootstrap are placed but not charged (`C90_uncharged_violated`). The README says level
  reductions are charged; they are free.
- C91: a product at level 0 is allowed when it is bootstrapped at once, one multiplication more than
  `bootstrap-waterline` promises (`C91_product_violated`).
- C92-C94: Presburger relations stand for the predicates they denote; parsing of isl strings, composition and projection
  are trusted. The bounds `getConstantBound64` finds are any bounds no position exceeds; the number of ciphertexts of the
  filter is any that covers the layout. Only the kernel without loops is used.
- C93: `conv_1d_ncw_fcw` is diagonalized with the bounds found for the relation, the kernel takes the sizes of the expanded
  type; if they round to different powers of two the result is wrong (`C93_columns_violated`). The layouts do not depend
  on dilations (`C93_dilation_violated`). The convolution of the result of a strided one is laid out for the recorded
  shape, which has fewer channels than the filter (`C93_chain_violated`).
- C94: the pass rejects channel counts the gap does not divide; without the check a channel has no row
  (`C94_undivided_violated`).
- C95-C98: programs are trees of single-bit operations; the clear text of a ciphertext with `p` message bits is a number
  below `2^p`, without noise. Sharing, memrefs and loops are left out.
- C95: `findLUTSize` counts a gate as one bit, so a program of gates alone gets one message bit and the decomposition of
  its `and`, `or`, `xor` is rejected by the verifier of the bootstrap (`C95_gates_violated`). The coefficients are only
  checked before combinations are expanded; an expanded one is accepted with too few message bits
  (`C95_expanded_violated`). Tables of other than three or four inputs are not converted.
- C96: `buildSelectTruthTable` takes the last operand for the most significant input and the low half of the table for
  a true input (`C96_select_violated`).
- C97: the conversion of `secret.conceal` on tensors hands the shape to `unflattenIndex` in place of the strides: vectors
  become copies of their first element (`C97_vector_violated`), matrices are read out of bounds (`C97_matrix_violated`).
- C98: `packed_lut3` is built with its operands in the order of `lut3`, which is the reverse (`C98_lut3_violated`).
- C99: the shift that builds the table is on `int`, undefined from six inputs on (`C99_import_violated`).
- C100: `getBackwardSlice` leaves out the uses in regions (`omitUsesFromAbove`), so two candidates are put on one level though
  one depends on the other through a region; no order of the operations left is valid (`C100_captured_violated`). The
  straight-line vectorizer types the `from_elements` of the operands by the result (`C100_types_violated`). In the model a
  `packed` operation stands for its `from_elements` and the batched operation (the order of the operands of `packed_lut3` is
  C98), operations have one result, and `sortTopologically` of MLIR is any order that runs; that one exists is proved.
- C101: selections of `i1` and `index` values become `arith.extui` to a type that is not wider (`C101_i1_violated`); a scalar
  condition on shaped floats is not splat, though the description of the pass promises mixed shapes (`C101_float_violated`).
- C102: the sign is taken of `a - b` for `a < b`: the result is that of the opposite comparison, and one is converted to
  a signed bit, which is poison (`C102_inverted_violated`, `C102_int_violated`); unsigned greater-than dereferences a null
  value (`C102_ugt_violated`); unsigned less-than compares as signed (`C102_ult_violated`).
- C103: with a NaN the selection gives the number and `maximumf` the NaN (`C103_nan_violated`); bounds are stripped from
  a generic as soon as some operation of the body has bounds, also if it had them before (`C103_domain_violated`).
- C104: the upper bound is false for accepted domains of width four (`C104_upper_violated`); the width is not checked if one
  bound is declared (`C104_oneSided_violated`); the clamp at -16 is false for very long rows (`C104_long_violated`).
- C106: the loop stops at the number of results, not of dimensions, so a map is not looked at where reduced dimensions come
  first (`C106_transposed_violated`).
- C107: doubles are reals and the Fourier transform is exact. With an odd number of values that are odd but for the one
  in the middle, the middle value is not looked at and the even coefficients are set to zero (`C107_odd_violated`). The
  choice of the degree only uses even numbers of points.
- C108: the loop that normalizes the envelope divides by its first entry after that has become one, so only the first
  entry changes: the cut is absolute, not relative (`C108_relative_violated`). `envelope[j2] = ...` is an index too far and
  is out of bounds if only the last coefficient is small and the plateau ends there (`C108_outOfBounds_violated`, on a
  polynomial of degree 16, also through the choice of the degree). The exponent 2/3 of the documentation is 1/3
  (`C108_exponent_violated`). As for every choice by samples, a function can hide between the points
  (`C108_alias_violated`).
- C109: the eigenvector is a parameter; how good the approximation is once its degree is reduced is not proved. The zero
  function has no coefficient that is kept and the node to lower is null (`C109_zero_violated`).
- C110: without declared domain nothing is checked (`C110_domain_violated`).
- C112: the functions of `minnumf` and `minimumf` are interchanged (`C112_nan_violated`).
- C100: lookup tables are batched whatever their types (`C100_lut3_violated`).
- C113 to C118: one block with operations without effects; memrefs, dealloc absorption and `YieldStoredMemrefs` are not
  modelled. What operations compute is a parameter, so the value of a secret is its cleartext.
- C115: `RemoveUnusedGenericArgs` replaces a secret result by the operand that is passed on; if that is a cleartext the
  function returns a cleartext where it returned a secret (`C115_signature_violated`).
- C116: `HoistOpBeforeGeneric::canHoist` does not look into regions (`C116_captured_violated`);
  `HoistPlaintextOps::canHoist` does. `extractOpAfterGeneric` keeps one of two results that yield the same value
  (`C116_twice_violated`), reads the end of the list of uses of a result that is not yielded (`C116_unused_violated`,
  `canHoist` holds for it), and does not map values that only regions of the operation use.
- C117: `ConcealPlaintextInsert` replaces the destination in insertions outside of the generic too
  (`C117_insert_violated`), and `genericAbsorbConstants` replaces all uses of an ambient constant, whether in the generic
  or not (`C117_constant_violated`). Both leave uses that their definition does not dominate.
- The exception for `tensor.empty` in `CollapseSecretlessGeneric` never applies.
- C119: values, nodes and blocks are numbered; a shift that is an attribute is kept in the rotation node. Results that the
  semantics does not fix (ciphertexts, unknown operations) and the rounds of unknown regions are arbitrary. No key is found
  for rotations in a loop with a rotation by something not constant whose result only a store uses (`C119_store_violated`);
  in a branch taken at run time (`C119_condition_violated`, `C119_constant_violated`, the condition counts as false); by the
  result of an operation unknown to the builder or by an argument, which count as 0 (`C119_unknown_violated`,
  `C119_argument_violated`); in a region of another operation (`C119_region_violated`); by an element of a slice of a table
  (`C119_slice_violated`); guarded by an unsigned comparison (`C119_unsigned_violated`); computed with narrow integers
  (`C119_narrow_violated`); of tensors of ciphertexts with two dimensions (`C119_rank_violated`). A loop that divides 0
  crashes the analysis (`C119_division_violated`, see C47).
- C121: `int` does not overflow for `logN` up to 27.
- C122 and C123: a function body after unrolling is a list; scalars and memrefs are numbered; operations not modelled, also
  the loops that stay, compute and write anything. Unrolling itself is MLIR's. A dynamic offset or stride is the sentinel
  `kDynamic`, so two views with `offset: ?` have the same keys and a load gets what was stored through the other
  (`C122_dynamic_offset_violated`). Writes that are not `affine.store`s are not seen (`C122_other_write_violated`). A load
  from a local memref without recorded store, and one through a view of a global, a cast or an `alloca`, is undefined
  (`C122_undefined_violated`). A function that begins with a loop dereferences the null `prevNode` (not modelled). Erasing
  a view of a view erases the parent first, whose result has a use (`C123_nested_violated`).
- C124: a dynamic dimension gives a loop without iterations, and the copy vanishes (`C124_dynamic_violated`).
- C125: one iteration; loads and stores have arbitrary meanings. The check that the last operation computes the stored
  value is a conjunction and passes whenever the operation has one result, so another value may be stored
  (`C125_last_violated`); a loaded value stored as it is makes the call its own operand (`C125_direct_violated`); loads
  after the stored value are arguments of the call before them (`C125_late_load_violated`); values from outside that are
  not constants are captured by the function (`C125_outer_violated`); induction variables in computations are undefined
  (`C125_induction_variable_violated`). `iter_args` are not modelled.
- C126: for a `memref.load` the address is taken as the number of the element; wrong for layouts other than the identity
  (`C126_load_violated`).
- C127 to C131: the trusted base gains the meaning of Verilog expressions in IEEE 1364-2005, clauses 4 and 5, as written in
  `Verilog/Model.lean`; the model prints the tree that a parser builds from the text. Unsized numbers have 32 bits.
  Integers that are not unsigned are on signed wires, so unsigned comparisons are signed (`C127_unsigned_violated`, every
  width above 1); single bits are on unsigned wires, so signed comparisons, maxima and minima of `i1` are unsigned
  (`C127_bit_violated`, `C127_bit_max_violated`). Constants beyond 32 bits are printed without a width
  (`C127_constant_violated`). `index_cast` extends with zeros (`C127_index_cast_violated`). Not modelled: `func.call`, which
  is printed with a trailing comma, `affine.parallel`, stores.
- C128: elements are printed with `width / 4` digits, so widths that are not multiples of 4 crash the emitter or put the
  elements in the wrong place (`C128_crash_violated`, `C128_constant_violated`); `tensor.from_elements` reverses the elements
  (`C128_from_elements_violated`).
- C129: the text `i == 0 ? 0 : i * w - 1 < 0 : 0` is always the range `[0:0]`: the bits below the inserted element have no
  driver (`C129_low_violated`), and bit 0 has two when the first element is replaced (`C129_first_violated`).
- C130: the lower four bits of the count look at the lower half of the number even if its upper half is not zero
  (`C130_ctlz_violated`).
- C131: the wire of an index is signed, so an index in the upper half of its range is negative (`C131_load_violated`).
- C133: contracting a loop deletes the vertex (`C133_loop_violated`). `contractEdge` takes `source` by value, so a `mergeFn`
  that assigns to it, as in the documentation, changes a copy: the edges of the target are lost if the new value is not a
  vertex (`C133_merge_violated`). The weights of contracted edges are modelled but nothing is claimed of them.
- C134: loops. One on a vertex alone in its component is kept, so the result is not acyclic (`C134_loop_violated`). One in a
  larger component makes `condenseGraph` delete the vertex and forget its neighbours (`C134_deleted_violated`), or run
  forever (`C134_hang_violated`).
- C135: the vertices returned are all those that are neither sources nor sinks, in a topological order, not a path
  (`C135_path_violated`).
- C136: a right side that is all of a wire of more than one bit is served only if it is an input and the left side is part
  of one wire. A copy of a whole output fails an assertion (`C136_violated_copy`); an input split into two outputs reaches
  `llvm_unreachable` (`C136_violated_split`); a bit of an output assigned as a whole is read as 0, so the function is wrong
  (`C136_violated_default`); outputs numbered before inputs are null pointers (`C136_violated_order`). That Yosys
  preserves the meaning of the module is trusted; so is that `torder` prints a topological order. Undefined constant bits
  are 0.
- C137 to C139: the trusted base gains the meaning of the operations on `FheUint` and of Rust literals in
  `lean/Verif/Tfhe/Spec.lean`. Functions are straight-line, on scalars; memrefs, tensors and lookup tables are left out.
- C137: `arith.cmpi` with an integer on the left exchanges the operands but not the predicate (`C137_violated_compare`).
  Signed and unsigned maxima, minima, right shifts and extensions become one operation each, so that no meaning of it is
  right for both (`C137_violated_max`, `_min`, `_shift`, `_extension`). Amounts are cut to `int8_t`
  (`C137_violated_amount`). A constant that is shifted is taken for the amount (`C137_violated_shifted`). Shifts by
  ciphertexts dereference a null pointer, and `andi`, `ori` have no pattern (`C137_violated_fails`).
- C138: `not` is `1 - x`, which is wrong for every `x` of more than one bit (`C138_violated_not`).
- C139: negative encryptions are rejected by Rust (`C139_violated_negative`), negative constants lose their sign when
  encrypted (`C139_violated_sign`), constants on the right are printed with the width of the source (`C139_violated_width`),
  and some operations have no printer (`C139_violated_fails`).
- C140: the syntax tree is an input, so isl is trusted for the order and the set of its points; so is the meaning of the
  operations of `arith` and `scf` in `lean/Verif/Codegen/Spec.lean`. All numbers must have 32 bits; an upper bound of
  2147483647 that is included wraps around (`C140_violated_overflow`). `reverse` leaves sequences as they are
  (`C140_violated_sequence`). Only the first loop is returned: the results of a second one in sequence are lost
  (`C140_violated_root`), a loop within a conditional is not visible outside (`C140_violated_region`), and for a single point
  `front()` is called on an empty vector (`C140_violated_point`). The header says that a perfect nest is assumed, but
  nothing checks it. Loops nested in loops with variables of the same name use the outer one (`C140_violated_shadow`).
  Operators that stop early are errors (`C140_violated_operator`).
- C141–C142: relations are sets of points, and what isl says about them (`Isl` in `lean/Verif/Assign/Model.lean`: points, syntax
  tree, density, a point of the range) is assumed to be right (`Isl.Right`); the ways to pack are proved to agree for all such
  answers, whatever the order of the points. Where a layout puts two elements in one slot, the strategy decides which one is
  there (`C141_violated_ambiguous`). A slot beyond the ciphertext is one of the next ciphertext when a constant is packed and
  undefined in loops (`C141_violated_outside`). `assign_layout` bounds the domain from below and above, `unpack` only from above,
  so a layout with negative indices packs and does not unpack (`C142_violated_negative`).
- C143: entries are only compared with upper bounds: negative ones are accepted and undefined (`C143_violated_negative`). Nothing
  checks that the targets differ; the last entry counts (`C143_violated_twice`).
- C144: the default modulus is `2^(w-1)`, not the natural `2^w`, so the top bit of every result is lost (`C144_violated_top`); for `i1`
  the modulus is 1 and nothing is left (`C144_violated_i1`). Both extensions become `mod_switch`, which reads the value as centred: it
  is wrong for values outside the middle half of the range (`C144_violated_extui`, `C144_violated_extsi`), for 0 when extended from
  `i1`, and for negative constants and loads, which are not reduced (`C144_violated_load`).
- C145: constants and loads are not reduced, so subtracting one that is not below the modulus is wrong (`C145_violated_unreduced`).
  Scalars are extended by zeros and elements of dense constants by their sign to 64 bits, so a negative constant is neither its
  residue nor the same in the two forms (`C145_violated_negative`). A 64-bit load cannot be converted (`C145_violated_load64`).
- C146–C147: the CP-SAT solver is not modelled, a solution is any assignment that satisfies the constraints (and for C147 one of least
  objective); dead code elimination before the pass is the hypothesis `Live`. `repairConstantValueAttr` (`PolyMulToNTT.cpp:535-562`)
  gives a constant that is used in evaluation form the same numbers with another label, while folders and lowering read them as
  evaluations: products with constants are wrong (`C146_violated_constant`). `mod_switch` is classed as working in either form, but
  switching to an unrelated modulus does not commute with the transform (`C146_violated_modswitch`).
- C147: `setZeroConversionCost` charges one unit for each form of a constant, so a best solution can have a transform where none is
  needed (`C147_violated_constants`), against "minimize the number of NTT and INTT operations" in `Passes.td`.
- C148–C151: programs are trees of operations, loops with constant bounds and conditionals; the solver is any solution above the
  transfer functions (post-fixpoint) without invalid states. A ciphertext is a value and its number of remaining levels; operations on
  ciphertexts bring operands to the lower level; bootstrapping leaves `bootstrapLevelsConsumed` below the top. Flags on loops stand for the
  `level_reduce_min`/`bootstrap` pairs that the pass inserts.
- C150: when several arguments consume different numbers of levels, those whose own factor is at most one are left out of the minimum
  (`C150_violated_ignored`), and points of the body deeper than its end (before an inner bootstrap) are not considered
  (`C150_violated_peak`). In both cases the unrolled loop lacks levels where the loop did not; the validation after the pass reports
  it if `force-max-level` is given.
- C151: `ceil(float(ub - lb) / step)`: two iterations are taken for one when the size is not a single-precision number (`C151_violated_float`).
- C152: `fuseScaleOrDivIntoLinearOp` checks neither the initial tensor (a bias is not scaled, `C152_violated_bias`), nor which operand of the
  quotient is linear (`C152_violated_order`), nor along which dimension the vector is repeated (`C152_violated_axis`), nor whether the
  linear operation, which is changed in place, has other users (`C152_violated_shared`). A scalar behind `tensor.splat`, which
  `findOriginalScalar` announces as its first case, is then cast to `ShapedType` (`C152_violated_scalar`).
- C153: `fuseAddOrSubIntoLinearOp` does not look at the side (`C153_violated_order`) or at other users (`C153_violated_shared`);
  `accumulatesIntoOuts` lists pooling by maxima and minima and `linalg.reduce` with any body (`C153_violated_max`, `_min`, `_reduce`), and
  accepts generic bodies whose other summand reads the accumulator (`C153_violated_generic`).
- C152–C153: `tensor.empty` is read as zero, which is what the pass assumes (its contents are undefined in MLIR).
- C154–C157: an `IntegerRelation` is its set of points; that the simplifications of MLIR's Presburger library and of isl keep it is assumed.
- C155: `collapseDimensions` computes positions in the original tensor but drops dimensions group by group from the front, so the positions
  of later groups are too large (`C155_violated_groups`: `1x4x1x4` to `4x4`), and it drops every dimension of a group of units
  (`C155_violated_units`). `expandDimensions` inserts a variable for every unit, so a group of units only fails the assertion
  (`C155_violated_expand`, `C155_expand_asserts`).
- C156: moving a conversion past `matvec` is right for rotations and wrong for every other permutation (`C156_violated_permutation`); the vector gets
  the layout of the result, whatever its length (`C156_violated_rectangular`). Folding a conversion into the matrix drops columns whose slot
  is beyond the columns (`C156_violated_gap`) and needs a vector that is repeated when columns do not fill the slots
  (`C156_violated_repeat`), though `isOneToOneSingleCiphertextPacking` excludes repetition.
- C157: `product` and the ciphertext numbers do not wrap. A slice with some but not all of its unit dimensions gets a relation of the wrong rank
  (`C157_violated_rank`, `C157_rank`). If the slice's layout has all dimensions, constraints that mention a unit dimension are dropped; that this leaves
  the projection is assumed.
- C158: `RotationCountVisitor` takes variables for plaintexts, so a rolled kernel that rotates its accumulator counts no rotation
  (`C158_violated_variable`), and divides the range of a loop by its step rounding down (`C158_violated_trips`). The cost model builds
  unrolled kernels, for which `C158_count_partial` is the whole claim. Shifts are not modelled: a rotation by zero counts as one.
- C159: the visitor of `LayoutConversionCost.cpp` caches the count of a node but adds it again for each use, and starts anew for each output:
  `k` rounds cost `2 ^ k - 1` instead of `k` (`C159_violated_rounds`), shared rotations count per output (`C159_violated_outputs`), against
  "noting we're caching common subexpressions". It has no case for splats, which `rotateOneGroup` returns for every ciphertext that is no
  target of the group: an assertion fails (`C159_violated_splat`; without assertions it counts 0).
- C160: `hoistOp` changes the layout of the operation in place and updates conversions only; another user reads the result in the new layout
  (`C160_violated_user`). An operand used twice and wanted in two layouts is handed over in the last of them (`C160_violated_twice`).
  The kernel that was chosen is not stored (not modelled: kernels are part of the operation).
- C161: other conversions of the result are not counted for trivial kernels (`C161_violated_others`), operands are priced for the layout of the
  result (`C161_violated_layout`), and the least element of an empty vector is read when all hoisters fail (`C161_violated_empty`).
  Changes of kernels are not modelled (`oldKernel.getName()` is called on a null attribute when an operation without a kernel gets one).
- C162–C170: sizes and the number of slots are natural numbers of any size; products in `int64_t` do not wrap in the model. The relation is the set
  of points that the printed isl string describes.
- C164: `numCt` leaves out padding on the ciphertext side while the address still multiplies by it, so if a ciphertext dim stands before padding,
  the elements whose ciphertext number is too large are in no slot (`C164_violated_padding`); `C164_exact` says for which layouts this happens.
- C167: the printer writes no `|` if all dims are ciphertext dims (one slot, last dim of size two or more), and the parser wants a dim after
  every `|`: no text parses to such a layout (`C167_no_text`, `C167_violated_no_text`).
- C168: the verifier accepts rolls of a part of a split axis and rolls by a dim whose stride is not one; `varIndexForRotomDim` finds neither
  among the axes and the lowering fails (`C168_violated_split`, `C168_violated_stride`).
- C169: tensors with fewer elements than slots get no seed (`C169_violated_small`), against "assigns an initial seed for each input value"; the default
  number of slots is 16384.
- C171–C176 (`Verif/Preproc`): operations are pure, loops have one induction variable and constant bounds, an operation and its terminators are one
  row. `remove-dead-values` and loop normalization are not run. Names that are not defined yet have the same value in both runs. While loops and
  loops with several induction variables are not modelled (in the code all their iterations would share a place, and the lowering refuses them).
- C171: `analyzePreprocessing` leaves out ciphertexts and `createPreprocessingFunction` maps them to placeholders made from nothing, also where a cleartext
  computed from the ciphertext is encoded (`C171_violated_decrypt`); the pass does not fail.
- C172: the terminator of a cloned loop is cloned, so the ciphertext operations that yield its carried ciphertexts are, too
  (`C172_ciphertext_operations`); the comment "whose initializer and other upstream ops we don't want to clone" holds for the initializer only.
- C177–C180 (`Verif/Emit`): DAGs are the heaps of `Verif/Dag`; types and attributes are left out and a node makes one operation. `visibleAfter` is
  the dominance rule of the emitted block; `exec` runs it with any meaning of the operations.
- C178: the cache is shared by all regions. A node (also a constant) first visited in the body of a loop and used again behind the loop
  (`C178_violated_constant`), or used in both branches of a conditional (`C178_violated_branches`), is made inside the region and used outside of it.
  The visitor does not check this. A floor division is emitted as a truncating `arith.divsi`, as in the evaluation (C47).
- C180: elements of integer constant tensors are converted from double to `uint64_t`, undefined for negative values, where scalars and splats use
  `int64_t` and a signed `APInt`; a true `i1` scalar or splat fails the assertion of the signed `APInt` (`C180_violated_negative`).
- C181–C186 (`Verif/Params`): the prime searches of OpenFHE are taken to do what they document, with an exact primality test; logarithms are exact;
  differences of `NativeInteger`s stop at zero. That the loop over ring dimensions ends is not proven: the theorems speak of results.
- C181: `computeRingDim` takes an `int`; the sum of the logarithms is cut, and moduli of up to one bit more than the guidelines allow are accepted
  (`C181_violated_truncation`: 106.27 bits for ring dimension 4096, limit 106).
- C183: the CKKS generator makes special moduli for `logQ / dnum` bits, but a digit holds `ceil((L + 1) / dnum)` moduli
  (`C183_violated_ckks`: 66 bits against 60).
- C184: the CKKS generator passes the number of moduli as level, the reader the number of moduli minus one (`C184_violated_ckks`); the reader takes
  the number of digits from the number of special moduli (`C184_violated_dnum`).
- C185: the number of sizes is the number of different levels with mod reductions; a level above it is written past the end
  (`C185_violated_hole`). A program without a value of level zero gets 20 bits for its first modulus.
- C187–C190 (`Verif/TensorOps`): static shapes; tensors are functions of indices, elements and operations arbitrary.
- C187: scalars are taken, read and inserted with the first index running fastest, but constants and `tensor.from_elements` have the last one running
  fastest: for two dimensions, reading a constant gives the transposed element and a tensor put together again is transposed
  (`C187_violated_constant`, `C187_violated_transposed`). `ConvertFromElementsOp` also hands one range per operand to a replacement of one result;
  this is not modelled. Rank zero is undefined (`C187_violated_empty`).
- C188: an operation on tensors of rank zero is matched, but nothing replaces it (`C188_violated_rank_zero`).
- C189: `linalg.index` is cloned into the loops, where it is invalid (`C189_violated_index`).
- C190: dynamic offsets are read with `getStaticOffsets`, whose sentinel is taken for an offset outside of the tensor (`C190_violated_dynamic`); a
  dimension of size one is taken for dropped even if the slice keeps it, and the following dimensions are bound to the wrong ones
  (`C190_violated_unit`).
- C191–C194 (`Verif/Config`): functions are lists of operations and callees, regions are flattened; the rotation analysis and the bootstrapping
  depth of OpenFHE are arguments. The walk has a number of rounds in the model; `C191_ends` shows that some number is enough.
- C191: a function is queued for every call until it is done, so it is walked more than once; the number of rounds can be exponential in the depth
  of the call graph (example with 15 rounds for four functions).
- C192: `openfhe.square` and `openfhe.square_inplace` become `EvalSquare`, which relinearizes, but are not among the operations that ask for the key
  (`C192_violated_square`); if `getConfig` fails, for example because rotations cannot be determined, the pass reports success and generates
  nothing (`C192_violated_silent`).
- C193: the noise of fresh ciphertexts and of products has one bound, that of a key switch another, as in OpenFHE. Sums of reduced ciphertexts have
  counts zero (`C193_violated_reduced`); operations with several ciphertexts, such as `tensor.insert_slice`, take the counts of the first
  (`C193_violated_insert`). The largest counts are not reset between functions: later functions get those of earlier ones too.
- C194: the depth of bootstrapping is added only if the depth comes from the analysis, not if it comes from the CKKS scheme parameters
  (`C194_violated_scheme`); squares and series do not have the interface that the analysis looks for (`C194_violated_square`); for BFV of depth zero
  both counts stay set, with a warning (`C194_violated_bfv`).
- C195–C197 (`Verif/PolyFold`): typed integer constants over `!mod_arith.int` rings, RNS constants for `monic_monomial_mul`. Two constants are compared
  by their values in all commutative rings where `q = 0` and the polynomial modulus vanishes at the point, which is equality in the quotient ring.
  Exponents are natural numbers. Folds of float constants, of NTT and of slices are left out.
- C195: limb moduli of 64 bits are taken for negative numbers by `normalizeMod` (`C195_violated_wide_modulus`).
- C196: coefficients are truncated to the storage width before they are reduced (`C196_violated_truncated`).
- C197: products of typed constants are negacyclic whatever the polynomial modulus of the ring, which only the RNS attribute verifies
  (`C197_violated_other_modulus`); with an exponent not below the degree the fold multiplies with 64-bit wraparound (`C197_violated_wraparound`) and
  reads the last term of a zero polynomial (`C197_violated_zero`); sums of residues of 64-bit moduli wrap (`C197_violated_wide_add`).
- C198 (`Verif/LogArith`): doubles are reals with negative infinity; a summand that is more than `2^512` times smaller than the other is dropped, so
  that noise estimates can be below the values of their formulas (`C198_violated_lost`).
- C199 (`Verif/BfvNoise`): products are left out; messages are scaled by the rational `Q/t` and rounded. With the whole part of `Q/t` instead, the `+ 1` of
  `evalAdd` is too small when `Q mod t > 1` (`C199_violated_floor`); `evalEncrypt` leaves out the rounding of the message (`C199_violated_rounding`) and,
  for the extended technique, the reduced noise of the encryption; inputs are assumed to be within it.
