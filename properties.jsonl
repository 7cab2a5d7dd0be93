{"id": "C01", "title": "Sparse row lookup is exact", "statement": "For every row of a built BCRSMatrix (column indices strictly ascending), find(j) returns the entry stored for column j if j is in the row and the end iterator otherwise; operator[](j) returns that same entry, and throws when it is absent; exists(i,j) is true exactly when the entry is stored. The search never reads outside the row.", "quantifier": "all rows with ascending column indices of any length, all column indices j", "why_tests_cant": "The lower_bound search has to be right for every row length and every position of j, including absent indices before, between and after the stored ones.", "anchors": ["dune/istl/basearray.hh: Imp::compressed_base_array_unmanaged::operator[], find, lower_bound", "dune/istl/bcrsmatrix.hh: exists"]}
{"id": "C02", "title": "Random build mode stores exactly the requested pattern", "statement": "When setrowsize/incrementrowsize, endrowsizes, addindex (any order, with repetitions) and endindices all succeed, the built matrix has in row i exactly the set of columns passed to addindex(i,.), each once, in ascending order, and nothing else.", "quantifier": "all matrix sizes, all row size specifications, all call sequences of addindex", "why_tests_cant": "The number of insertion orders and of over-estimated row sizes is unbounded; an insertion that shifts a neighbour row's indices shows only for particular interleavings.", "anchors": ["dune/istl/bcrsmatrix.hh: setrowsize, incrementrowsize, endrowsizes, addindex, endindices"]}
{"id": "C03", "title": "Random build mode rejects exactly the impossible insertions", "statement": "addindex(i,j) throws exactly when j is not a valid column, or j is a new column and row i already holds as many different columns as its specified size; inserting an index that is already present is always a no-op; a rejected insertion leaves every row's contents unchanged.", "quantifier": "all rows, columns and prior call histories", "why_tests_cant": "Needs the contents of the row to be related to the whole history of earlier calls.", "anchors": ["dune/istl/bcrsmatrix.hh: addindex"]}
{"id": "C04", "title": "Row-wise build mode stores exactly the inserted pattern", "statement": "Iterating with createbegin()/createend() and inserting any columns in any order and multiplicity in each row gives a built matrix whose row i is exactly the ascending set of the columns inserted while the iterator was at row i; nonzeroes() is the sum of the row sizes; if a number of non-zeroes was announced that is too small the iteration throws.", "quantifier": "all sizes, all insertion sequences, announced or unannounced numbers of non-zeroes", "why_tests_cant": "Ranges over all insertion histories.", "anchors": ["dune/istl/bcrsmatrix.hh: CreateIterator, createbegin, allocateData"]}
{"id": "C05", "title": "Implicit build mode: compress() yields the accumulated matrix", "statement": "After any sequence of entry(i,j) += v / = v accesses in implicit mode, a successful compress() gives a matrix whose row i contains, in ascending order and once each, exactly the columns accessed in row i, with the value resulting from applying the accesses in program order - no matter which entries went to the row buffer and which to the overflow map.", "quantifier": "all sizes, all avg/overflow parameters with avg>0, all access sequences", "why_tests_cant": "The in-place compression overlaps source and destination; whether one entry overwrites an unread one depends on all row sizes together.", "anchors": ["dune/istl/bcrsmatrix.hh: entry, compress, setImplicitBuildModeParameters"]}
{"id": "C06", "title": "Implicit build mode: compress() fails exactly when the buffer is exhausted", "statement": "For avg > 0, building in implicit mode never runs into undefined behaviour; compress() throws ImplicitModeCompressionBufferExhausted exactly when for some row i the number of entries in rows 0..i exceeds the number of slots before the row's own buffer (overflow area + i*avg) plus one; in particular it never fails when avg plus the number of entries beyond avg, over all rows, is at most the size of the overflow area plus one, and never when no row has more than avg entries.", "quantifier": "all sizes, parameters and access sequences", "why_tests_cant": "The failure condition is a global prefix-sum condition over all rows.", "anchors": ["dune/istl/bcrsmatrix.hh: compress, implicit_allocate"]}
{"id": "C07", "title": "Build calls out of order are rejected without effect", "statement": "Every construction call (setBuildMode, setImplicitBuildModeParameters, setrowsize, incrementrowsize, endrowsizes, addindex, endindices, createbegin, ++ of the create iterator, compress, and entry with checking enabled) issued in a build stage or build mode where it is not allowed throws and leaves the matrix as it was; a matrix reaches the built stage only by one of the documented complete call sequences, and once built its sparsity pattern cannot be changed by any construction call other than setSize, assignment and setIndices (which the code never refuses); a matrix under construction can be neither copied nor assigned.", "quantifier": "all sequences of construction calls in all modes", "why_tests_cant": "Ranges over all call histories of a state machine with four stages and four modes.", "anchors": ["dune/istl/bcrsmatrix.hh: BuildStage, BuildMode, setBuildMode, setSize, endrowsizes, endindices, compress"]}
{"id": "C08", "title": "Copies of a built matrix are independent values", "statement": "Copy construction and assignment of a built matrix yield a matrix with the same pattern and values; afterwards writing values through either object never changes the pattern or the values seen through the other, for any history of copies, assignments and value updates.", "quantifier": "all built matrices, all histories of copy/assign/update operations over any number of matrices", "why_tests_cant": "The index array is shared between copies; independence must hold for every later history.", "anchors": ["dune/istl/bcrsmatrix.hh: BCRSMatrix(const BCRSMatrix&), operator=, copyWindowStructure, allocate"]}
{"id": "C09", "title": "Matrix-vector kernels compute the mathematical product", "statement": "For every built matrix A and vectors of matching size, mv, umv, mmv and usmv set y to A x, y+Ax, y-Ax and y+alpha A x; mtv, umtv, mmtv, usmtv do the same with the transpose and umhv, mmhv, usmhv with the conjugate transpose, entries outside the pattern counting as zero.", "quantifier": "all patterns (including empty rows and columns), all entry, vector and scalar values, in exact arithmetic", "why_tests_cant": "Ranges over all sparsity patterns and values.", "anchors": ["dune/istl/bcrsmatrix.hh: mv, umv, mmv, usmv, mtv, umtv, mmtv, usmtv, umhv, mmhv, usmhv"]}
{"id": "C10", "title": "Transposed and Hermitian kernels are adjoint to the plain ones", "statement": "For every matrix A and vectors x, y the bilinear pairing of y with A x equals the pairing of A^T y with x, and the sesquilinear pairing holds for the Hermitian kernels; and mv is linear in x.", "quantifier": "all matrices, vectors and scalars in exact arithmetic", "why_tests_cant": "Algebraic law over all inputs.", "anchors": ["dune/istl/bcrsmatrix.hh: mv, mtv, umhv"]}
{"id": "C11", "title": "Matrix addition and axpy respect the pattern contract", "statement": "A += B, A -= B and A.axpy(alpha,B) succeed exactly when every entry of B is stored in A, and then A represents the entrywise sum/difference/A+alpha B on an unchanged pattern; otherwise an exception is thrown. Scaling by *= and /= changes every stored entry exactly once.", "quantifier": "all pairs of matrices of equal size, all scalars", "why_tests_cant": "Ranges over all pairs of patterns.", "anchors": ["dune/istl/bcrsmatrix.hh: operator+=, operator-=, axpy, operator*=, operator/="]}
{"id": "C12", "title": "Matrix norms have their defining value", "statement": "frobenius_norm2 is the sum of squared absolute values of all stored entries and infinity_norm is the largest row sum of absolute values; infinity_norm bounds the maximum norm of A x by the norm of x for every x.", "quantifier": "all matrices and vectors in exact arithmetic", "why_tests_cant": "Ranges over all matrices and vectors.", "anchors": ["dune/istl/bcrsmatrix.hh: frobenius_norm2, infinity_norm"]}
{"id": "C13", "title": "MatrixIndexSet export reproduces the collected pattern", "statement": "After any sequence of resize, add and import calls, exportIdx produces a built matrix whose row i holds exactly the distinct columns collected for row i that are valid columns, ascending, for both the vector and the set based row storage and independent of when a row switches between them; size() counts the distinct indices.", "quantifier": "all call sequences, all thresholds for switching the row representation", "why_tests_cant": "The representation switch happens at a data dependent point of the history.", "anchors": ["dune/istl/matrixindexset.hh: Impl::MatrixIndexSet row type, add, import, exportIdx, size, rowsize"]}
{"id": "C14", "title": "VariableBlockVector blocks tile the storage", "statement": "Building a VariableBlockVector with its create iterator gives block i exactly the announced size, the blocks are disjoint, contiguous in order and together cover the whole storage of dim() elements; copying keeps all values and block sizes and makes the copy independent.", "quantifier": "all numbers of blocks >= 1 and all block sizes including zero", "why_tests_cant": "Ranges over all size sequences; an off-by-one in the window offsets only shows for some sizes.", "anchors": ["dune/istl/vbvector.hh: CreateIterator, allocate, operator=, resize"]}
{"id": "C15", "title": "Dense Matrix algebra", "statement": "For the dense Matrix container transpose, operator*, mv, mtv, umv, umtv, mmv, usmv and the scalar updates compute the mathematical result for every rows x cols shape with at least one column.", "quantifier": "all shapes and values", "why_tests_cant": "Ranges over all shapes and values.", "anchors": ["dune/istl/matrix.hh: transpose, operator*, mv, mtv, umv, usmv"]}
{"id": "C16", "title": "Sparse matrix products have the structural pattern and the exact values", "statement": "matMultMat(C,A,B), matMultTransposeMat and transposeMatMultMat produce C with entry (i,j) stored exactly when some k has both factors stored, and with value the sum of the products over those k; mismatching dimensions throw before anything is computed.", "quantifier": "all pairs of matrices", "why_tests_cant": "Ranges over all pairs of patterns; the merge walk of the A*B^T variant has data dependent early exits.", "anchors": ["dune/istl/matrixmatrix.hh: MatrixMatrixProduct, NonzeroPatternTraverser, SparsityPatternInitializer, EntryAccumulator, matMultMat"]}
{"id": "C17", "title": "ILU(0) factors reproduce the matrix on its pattern", "statement": "When blockILU0Decomposition succeeds, the unit lower factor times the upper factor equals the original matrix at every stored position (i,j), with non-commuting blocks allowed; if the pattern is closed under elimination the product is the whole matrix.", "quantifier": "all square patterns containing the diagonal, all block values in an arbitrary (non-commutative) ring, exact arithmetic", "why_tests_cant": "Ranges over all patterns and values.", "anchors": ["dune/istl/ilu.hh: ILU::blockILU0Decomposition"]}
{"id": "C18", "title": "ILU(0) fails exactly on missing diagonals and singular pivots", "statement": "On a matrix with all diagonal entries stored, blockILU0Decomposition succeeds exactly when an incomplete factorisation with invertible pivots exists on the pattern, returns that (unique) one, and otherwise throws MatrixBlockError. A matrix with a missing diagonal entry never yields a success; if every row has an entry at or right of the diagonal position the function always returns or throws ISTLError/MatrixBlockError (a row with only entries left of the diagonal position is read past its end).", "quantifier": "all patterns and values", "why_tests_cant": "Ranges over all patterns and values.", "anchors": ["dune/istl/ilu.hh: ILU::blockILU0Decomposition"]}
{"id": "C19", "title": "ILU backsolve inverts the factor product", "statement": "ILU backsolve returns the v with L(U v) = d for the factors stored in the decomposed matrix, for every right hand side.", "quantifier": "all factor matrices and right hand sides", "why_tests_cant": "Ranges over all patterns, values and right hand sides.", "anchors": ["dune/istl/ilu.hh: ILU::blockILUBacksolve"]}
{"id": "C20", "title": "The resorted CRS backsolve equals the matrix backsolve", "statement": "convertToCRS followed by the CRS based blockILUBacksolve gives the same result as blockILUBacksolve on the decomposed matrix, for every matrix and right hand side.", "quantifier": "all decomposed matrices and right hand sides", "why_tests_cant": "Equivalence of two implementations over all inputs.", "anchors": ["dune/istl/ilu.hh: ILU::convertToCRS, ILU::CRS, blockILUBacksolve(CRS)"]}
{"id": "C21", "title": "ILU(n) fill pattern and factors", "statement": "On a matrix with stored diagonal the ILU(n) decomposition stores the entries of A (generation 0) and the fill positions (i,j) for which some row k<i,j has both couplings (i,k),(k,j) in the pattern with generation below n; the first such k decides the generation, gen(k,j)+1. The pattern contains that of A, generations never exceed n, n=0 gives exactly ILU(0), n=1 the classical ILU(1) pattern, and n>=N the complete LU factorisation; the factor product agrees with A on the whole pattern. (The pattern does not always grow with n.)", "quantifier": "all patterns with stored diagonal, all levels n, all block values in an arbitrary ring", "why_tests_cant": "Ranges over all patterns, levels and values.", "anchors": ["dune/istl/ilu.hh: ILU::blockILUDecomposition"]}
{"id": "C22", "title": "LDL^T factorisation of the lower triangle", "statement": "When bildl_decompose succeeds on the lower triangle of a symmetric matrix, L D L^T agrees with A on the stored pattern, and bildl_backsolve returns the v with L D L^T v = d.", "quantifier": "all symmetric matrices and right hand sides", "why_tests_cant": "Ranges over all patterns and values.", "anchors": ["dune/istl/ildl.hh: bildl_decompose, bildl_backsolve"]}
{"id": "C23", "title": "DILU preconditioner solves with its product form", "statement": "blockDILUDecomposition computes the diagonal D with D_ii = A_ii - sum over j<i with both couplings stored of A_ij D_jj^-1 A_ji, so that (D+L) D^-1 (D+U) has the same diagonal as A, and blockDILUBacksolve returns the v with (D+L) D^-1 (D+U) v = d.", "quantifier": "all matrices with stored diagonal and all right hand sides", "why_tests_cant": "Ranges over all patterns and values.", "anchors": ["dune/istl/dilu.hh: DILU::blockDILUDecomposition, blockDILUBacksolve"]}
{"id": "C24", "title": "Triangular block solves", "statement": "bltsolve and butsolve return the v with (D+L)v = d and (D+U)v = d, ubltsolve and ubutsolve the v with (I+L)v=d and (I+U)v=d, bdsolve the v with D v = d, scaled by the relaxation factor where one is given.", "quantifier": "all matrices with invertible stored diagonal blocks, all right hand sides and relaxation factors", "why_tests_cant": "Ranges over all patterns and values.", "anchors": ["dune/istl/gsetc.hh: bltsolve, butsolve, ubltsolve, ubutsolve, bdsolve, bltsolve_relax"]}
{"id": "C25", "title": "Relaxation sweeps satisfy their defining splitting", "statement": "One dbjac, dbgs, bsorf or bsorb sweep maps x to the x' defined by the Jacobi, damped Gauss-Seidel, forward SOR and backward SOR splitting of A; an exact solution of A x = b is a fixed point of every sweep.", "quantifier": "all matrices with invertible diagonal blocks, all x, b, w", "why_tests_cant": "Ranges over all patterns and values.", "anchors": ["dune/istl/gsetc.hh: dbjac, dbgs, bsorf, bsorb"]}
{"id": "C26", "title": "Stationary preconditioners apply a fixed linear operator", "statement": "SeqJac, SeqSOR, SeqGS, SeqSSOR, SeqILU, SeqDILU, SeqILDL and Richardson apply to v=0 a result that is linear in the defect d and independent of earlier apply calls; each is the corresponding number of sweeps.", "quantifier": "all matrices, defects, iteration counts and relaxation factors", "why_tests_cant": "Ranges over all inputs and call histories.", "anchors": ["dune/istl/preconditioners.hh: SeqSSOR, SeqSOR, SeqGS, SeqJac, SeqILU, SeqDILU, SeqILDL, Richardson"]}
{"id": "C27", "title": "Iterative solvers never report convergence that did not happen", "statement": "When apply() returns normally, res.converged is true exactly when the last recorded defect is below reduction times the initial defect or below 1e-30, res.iterations is the number of the last recorded step and res.reduction is their ratio.", "quantifier": "all operators, preconditioners, right hand sides, reductions and iteration limits", "why_tests_cant": "Ranges over all runs of the iteration.", "anchors": ["dune/istl/solver.hh: IterativeSolver::Iteration, InverseOperatorResult"]}
{"id": "C28", "title": "Iterative solvers stop within the iteration limit", "statement": "Each iterative solver performs at most maxit iterations and returns after finitely many steps for every operator, preconditioner and scalar product.", "quantifier": "all operators (arbitrary functions), all limits", "why_tests_cant": "Termination over all inputs.", "anchors": ["dune/istl/solvers.hh: LoopSolver, GradientSolver, CGSolver, BiCGSTABSolver, MINRESSolver, RestartedGMResSolver, GeneralizedPCGSolver, RestartedFCGSolver"]}
{"id": "C29", "title": "The recursively updated defect is the true defect", "statement": "In LoopSolver, GradientSolver, CGSolver, BiCGSTABSolver, GeneralizedPCGSolver and the FCG solvers the vector b always equals b0 - A x for the current iterate x (A linear), so on return b holds the residual of the returned x.", "quantifier": "all linear operators, all preconditioners, all iteration counts", "why_tests_cant": "Loop invariant over all runs.", "anchors": ["dune/istl/solvers.hh: LoopSolver::apply, GradientSolver::apply, CGSolver::apply, BiCGSTABSolver::apply"]}
{"id": "C30", "title": "CG directions are conjugate and CG is exact in n steps", "statement": "For a symmetric operator, preconditioner and scalar product, as long as no breakdown occurs the search directions of CGSolver are mutually A-conjugate and every residual is orthogonal to the earlier preconditioned residuals.", "quantifier": "all symmetric operators and preconditioners in exact arithmetic, all step numbers", "why_tests_cant": "Induction over the iteration number; floating point tests only see approximate orthogonality.", "anchors": ["dune/istl/solvers.hh: CGSolver::apply"]}
{"id": "C31", "title": "Gradient step minimises the error along the preconditioned residual", "statement": "Each GradientSolver step leaves a defect orthogonal to the search direction used.", "quantifier": "all operators with non-zero curvature", "why_tests_cant": "Algebraic law over all inputs.", "anchors": ["dune/istl/solvers.hh: GradientSolver::apply"]}
{"id": "C32", "title": "GMRes small least squares update", "statement": "Givens rotations used by RestartedGMResSolver and MINRESSolver are unitary and annihilate the sub-diagonal entry for all real or complex inputs, and the back substitution solves the upper triangular system.", "quantifier": "all scalar inputs, all subspace sizes", "why_tests_cant": "Ranges over all inputs including zero and complex values.", "anchors": ["dune/istl/solvers.hh: RestartedGMResSolver::generatePlaneRotation, applyPlaneRotation, update; MINRESSolver::generateGivensRotation"]}
{"id": "C33", "title": "The reduction given to one call does not outlive the call", "statement": "In every history of calls apply(x,b,res) and apply(x,b,reduction,res) that return, each call is solved with exactly the tolerance it asked for (its own argument, or the one the solver was constructed with) and the settings are unchanged afterwards. A call that throws leaves its own reduction behind (no other setting changes). The GMRes solvers ignore the argument and never change their settings.", "quantifier": "all call histories including calls that throw, all solvers", "why_tests_cant": "Histories of arbitrary length; exceptions occur at arbitrary points of the iteration.", "anchors": ["dune/istl/solver.hh: IterativeSolver::apply", "dune/istl/solvers.hh: RestartedGMResSolver::apply"]}
{"id": "C34", "title": "Solver construction checks categories", "statement": "Constructing an iterative solver succeeds exactly when operator, preconditioner and scalar product report the same category; a sequential constructor accepts only sequential components.", "quantifier": "all combinations of categories", "why_tests_cant": "Decision logic over all combinations of components.", "anchors": ["dune/istl/solver.hh: IterativeSolver constructors", "dune/istl/solvercategory.hh", "dune/istl/scalarproducts.hh: createScalarProduct"]}
{"id": "C35", "title": "Parallel dot product counts every unknown exactly once", "statement": "For a vector that is consistent over the processes, the masked local dot products summed over all processes equal the sequential dot product over the global index set, given that each global index is owned by exactly one process; the norm is its square root.", "quantifier": "all numbers of processes, all distributions of indices with unique owners, all vectors", "why_tests_cant": "Ranges over all decompositions and process counts.", "anchors": ["dune/istl/owneroverlapcopy.hh: dot, norm", "dune/istl/scalarproducts.hh: ParallelScalarProduct"]}
{"id": "C36", "title": "Owner to all communication makes vectors consistent", "statement": "copyOwnerToAll gives every copy of a global index on every process the value of its unique owner and keeps owner values; addOwnerOverlapToAll style additions give every copy the sum of the contributions; a second copyOwnerToAll changes nothing.", "quantifier": "all decompositions, all vectors, all message orders", "why_tests_cant": "Ranges over decompositions and delivery orders.", "anchors": ["dune/istl/owneroverlapcopy.hh: copyOwnerToAll, addOwnerOverlapToAll, addOwnerCopyToAll, buildOwnerToAllInterface"]}
{"id": "C37", "title": "Block tridiagonal and block diagonal solves are exact", "statement": "BTDMatrix(n), also after any sequence of setSize calls, has exactly the tridiagonal pattern (BDMatrix the diagonal one), and BTDMatrix::solve returns the x with A x = rhs whenever no singular pivot block is met, for non-commuting blocks and every n>=1; BDMatrix::solve and invert do so block by block.", "quantifier": "all n, all block values and right hand sides", "why_tests_cant": "Ranges over all sizes and non-commuting blocks.", "anchors": ["dune/istl/btdmatrix.hh: BTDMatrix(size_type), setSize, solve", "dune/istl/bdmatrix.hh: solve, invert"]}
{"id": "C38", "title": "Conversion to compressed column storage keeps the matrix", "statement": "copyToBCCSMatrix produces column starts, row indices and values describing exactly the same scalar matrix (or the sub-matrix on the selected index set), each column's rows ascending and each scalar entry once, with the number of non-zeroes equal to the last column start.", "quantifier": "all sparse block matrices with dense blocks and all index subsets", "why_tests_cant": "Counting sort over all patterns.", "anchors": ["dune/istl/bccsmatrixinitializer.hh: BCCSMatrixInitializer, copyToBCCSMatrix"]}
{"id": "C39", "title": "Compressed column matrices have value semantics", "statement": "In every program over any number of BCCSMatrix objects (construction, filling, assignment, updates of values, freeing, destruction) every object shows exactly the value an independent variable would have, and no memory access is invalid, provided assignments are between two different objects and the source either has both columns and entries, or is completely empty, or the target never held storage. (Self-assignment empties the matrix, and assigning a matrix without entries to one that held storage leads to a double deletion.)", "quantifier": "all programs over any number of matrices, all array contents", "why_tests_cant": "Memory safety over all histories.", "anchors": ["dune/istl/bccsmatrix.hh: operator=, free, destructor"]}
{"id": "C40", "title": "Flat traversal visits every scalar once with its flat index", "statement": "flatVectorForEach calls the functor exactly once for each scalar entry, with consecutive offsets from 0 in order, and returns their number; flatMatrixForEach calls it once per stored scalar entry with the row and column in the flat matrix and returns the flat dimensions.", "quantifier": "all nested containers of any nesting depth", "why_tests_cant": "Recursion over arbitrary nesting.", "anchors": ["dune/istl/foreach.hh: flatVectorForEach, flatMatrixForEach", "dune/istl/matrixutils.hh: countNonZeros"]}
{"id": "C41", "title": "Aggregation partitions the graph", "statement": "AggregatesMap::buildAggregates assigns every vertex either to exactly one aggregate or marks it isolated; aggregate numbers are exactly 0..k-1 where k is the returned number of aggregates and each is non-empty; the procedure terminates.", "quantifier": "all graphs, matrices and admissible criteria parameters", "why_tests_cant": "Ranges over all graphs; greedy growth order is data dependent.", "anchors": ["dune/istl/paamg/aggregates.hh: Aggregator::build, growAggregate, growIsolatedAggregate, mergeNeighbour, Aggregate::add"]}
{"id": "C42", "title": "Aggregates respect the size bounds", "statement": "With minAggregateSize <= maxAggregateSize, the growth phase gives no aggregate more than max(1, maxAggregateSize) vertices. The only vertices beyond that are left-over single ones merged into the aggregate of a strongly connected non-isolated neighbour (which can exceed the bound); a vertex is merged only if every non-isolated neighbour depending on it was already taken. With maxAggregateSize = 1 all aggregates are single vertices.", "quantifier": "all symmetric graphs, dependency flags and parameters", "why_tests_cant": "Ranges over all graphs.", "anchors": ["dune/istl/paamg/aggregates.hh: Aggregator::build, mergeNeighbour"]}
{"id": "C43", "title": "Renumbering keeps the partition", "statement": "renumberAggregates changes aggregate numbers by a bijection onto 0..k-1 ordered by first vertex, so that two vertices share an aggregate after it exactly when they did before, provided every aggregate is connected in the graph.", "quantifier": "all graphs and aggregate maps with connected aggregates", "why_tests_cant": "Breadth first search over all graphs.", "anchors": ["dune/istl/paamg/renumberer.hh: renumberAggregates", "dune/istl/paamg/aggregates.hh: breadthFirstSearch"]}
{"id": "C44", "title": "The coarse matrix is the Galerkin product", "statement": "GalerkinProduct::build followed by calculate gives the coarse matrix P^T A P for the piecewise constant prolongation P defined by the aggregates map (isolated vertices having no coarse image), and its sparsity pattern contains all and only the couplings between aggregates.", "quantifier": "all matrices and aggregate maps", "why_tests_cant": "Ranges over all matrices and partitions.", "anchors": ["dune/istl/paamg/galerkin.hh: BaseGalerkinProduct::calculate, GalerkinProduct::build, ConnectivityConstructor"]}
{"id": "C45", "title": "Restriction is the transpose of prolongation", "statement": "Transfer::restrictVector computes P^T d and prolongateVector adds damp * P c to the fine vector; for damp=1 the dot product of restrict(d) with c equals that of d with prolongate(c); isolated vertices are untouched.", "quantifier": "all aggregate maps, vectors and damping factors", "why_tests_cant": "Algebraic law over all inputs.", "anchors": ["dune/istl/paamg/transfer.hh: prolongateVector, restrictVector"]}
{"id": "C46", "title": "Multigrid cycle keeps the defect consistent", "statement": "During an AMG cycle of any depth, any number of pre/post smoothing steps and any gamma, on every level the right hand side vector equals the initial one minus A times the accumulated update (up to the pending increment), so that the returned correction is the one of the documented cycle; with exact coarse solve and two levels the error propagation is S_post^nu2 (I - P Ac^-1 P^T A) S_pre^nu1.", "quantifier": "all hierarchies, smoothers, smoothing step numbers and gamma", "why_tests_cant": "Recursion over levels and cycle counts.", "anchors": ["dune/istl/paamg/amg.hh: mgc, moveToCoarseLevel, moveToFineLevel, apply", "dune/istl/paamg/smoother.hh: presmooth, postsmooth", "dune/istl/paamg/twolevelmethod.hh: TwoLevelMethod::apply"]}
{"id": "C47", "title": "MatrixMarket round trip", "statement": "Writing a matrix or vector in MatrixMarket format and reading it back gives the same matrix (same pattern, same values) for scalar and block matrices, for every size, and symmetric/skew/hermitian headers are expanded to the full matrix.", "quantifier": "all matrices", "why_tests_cant": "Round-trip law over all inputs.", "anchors": ["dune/istl/matrixmarket.hh: writeMatrixMarket, readMatrixMarket, readSparseEntries, MatrixValuesSetter"]}
{"id": "C48", "title": "GMRes reports the true residual and minimises it", "statement": "In exact arithmetic the defect reported by RestartedGMResSolver (and its flexible variant) after every step equals the norm of the (preconditioned) residual of the iterate it returns, and after k steps of a cycle no vector of x0 plus the k-dimensional Krylov space has a smaller one; provided the iteration limit is not of the form k*restart+1 and no rotation is degenerate.", "quantifier": "all linear operators and preconditioners on all real or complex inner product spaces, all right hand sides, restart lengths and iteration limits", "why_tests_cant": "Optimality over a subspace and a recursion over an unbounded number of steps.", "anchors": ["dune/istl/solvers.hh: RestartedGMResSolver::apply, update, RestartedFlexibleGMResSolver::apply"]}
{"id": "C49", "title": "UMFPack receives the flat matrix without the ignored degrees of freedom", "statement": "UMFPack::setMatrix hands UMFPack compressed column arrays that describe exactly the flat scalar matrix of any nested block matrix, rows ascending in every column; with a bit vector it is the sub-matrix of the rows and columns whose bit is not set, numbered consecutively in their old order; a matrix without rows or columns is not loaded. No array access is out of bounds.", "quantifier": "all well aligned nested matrices, all bit vectors of matching flat size", "why_tests_cant": "Counting sort and index compression over all nestings, patterns and bit vectors.", "anchors": ["dune/istl/umfpack.hh: UMFPack::setMatrix", "dune/istl/foreach.hh: flatMatrixForEach, flatVectorForEach"]}
{"id": "C50", "title": "The matrix graph numbers its edges consistently", "statement": "The edges of a vertex of a MatrixGraph are exactly the stored off-diagonal entries of its row, visited in ascending column order with consecutive edge descriptors; descriptors of different edges differ; findEdge(source,target) returns the descriptor under which the iteration visits that edge when the row stores its diagonal entry, so that properties attached to an edge are found again from the reverse direction.", "quantifier": "all square sparse matrices, all vertices and edges", "why_tests_cant": "The descriptor arithmetic (row start plus offset, minus one behind the diagonal) must agree with the iterator for every sparsity pattern.", "anchors": ["dune/istl/paamg/graph.hh: MatrixGraph, EdgeIteratorT, findEdge"]}
{"id": "C51", "title": "The multigrid preconditioner of a symmetric problem is symmetric and positive definite", "statement": "Let the matrices of all levels be symmetric, the post-smoother the transpose of the pre-smoother, with equal numbers of steps, restriction the transpose of prolongation and the coarse solver symmetric. Then AMG::apply is symmetric with respect to the scalar product, for every number of levels, smoothing steps, gamma and damping factor. If in addition the matrices are positive definite, the coarse ones Galerkin products, the coarse solver exact, every smoothing step reduces the energy of the error and the damping factor is in [0,1], then AMG::apply is positive definite, and used as an iteration step it strictly reduces the energy norm of the error.", "quantifier": "all hierarchies, all scalar products, all right hand sides, all histories of the object", "why_tests_cant": "CG needs a symmetric positive definite preconditioner for every right hand side; a test checks the iteration counts of single problems", "anchors": ["dune/istl/paamg/amg.hh: AMG::apply, mgc, moveToCoarseLevel, moveToFineLevel", "dune/istl/paamg/smoother.hh: presmooth, postsmooth"]}
{"id": "C52", "title": "Relaxation sweeps respect symmetry and energy", "statement": "For a symmetric block matrix with invertible diagonal blocks, k backward sweeps of SeqSOR (what AMG uses after the coarse correction) are exactly the transpose of k forward sweeps (what it uses before), and SeqSSOR and SeqJac are symmetric operators, for every k and every relaxation factor. If the matrix is also positive definite and 0 < w < 2, every forward and backward sweep strictly lowers the energy of the error unless the vector already solves the system, and SeqSOR and SeqSSOR are positive definite, so that they are valid smoothers for a symmetric multigrid cycle and valid preconditioners for CG.", "quantifier": "all symmetric (positive definite) matrices of any size and sparsity pattern with a stored diagonal, all block types with a scalar product, all right hand sides and start vectors, all numbers of sweeps, all relaxation factors (0<w<2 for the energy)", "why_tests_cant": "tests run a few matrices in floating point; symmetry and strict decrease are claims about all vectors, all patterns and the continuum of relaxation factors", "anchors": ["dune/istl/gsetc.hh: bsorf, bsorb, dbjac", "dune/istl/preconditioners.hh: SeqSOR::apply, SeqSSOR::apply, SeqJac::apply", "dune/istl/paamg/smoother.hh: SmootherApplier"]}
{"id": "C53", "title": "FastAMG: fused smoothing, the V-cycle, symmetry", "statement": "FastAMG::apply computes one multigrid V-cycle: on every level one forward block Gauss-Seidel step started at zero whose fused residual update leaves exactly the defect, the recursive coarse correction, and one backward Gauss-Seidel step - independent of what earlier applications left in the work vectors, without modifying the right hand side, and the operator is symmetric when the matrices are. The fused residual is the defect only if a_ij = a_ji as blocks; gamma has no effect with a direct coarse solver and destroys the coarse correction with an iterative one.", "quantifier": "all hierarchies of any depth, all matrices with sorted rows and invertible diagonal blocks, all vectors, any contents of the work vectors, every gamma", "why_tests_cant": "a test compares one hierarchy; the equality with the V-cycle must hold for every matrix, depth and history of the object", "anchors": ["dune/istl/paamg/fastamg.hh: FastAMG::apply, mgc, presmooth, postsmooth, moveToCoarseLevel, moveToFineLevel", "dune/istl/paamg/fastamgsmoother.hh: GaussSeidelPresmoothDefect, GaussSeidelPostsmoothDefect"]}
{"id": "C54", "title": "Overlapping Schwarz operator and block preconditioners act as operators on global vectors", "statement": "For every decomposition of a matrix into local matrices whose owner and overlap rows are complete rows of the global matrix, OverlappingSchwarzOperator::apply of a consistent vector yields on every process the product with the global matrix at all owner and overlap indices and zero at copy indices; applyscaleadd adds alpha times that product and ignores old values at copy indices. BlockPreconditioner::apply and ParSSOR::apply turn a projected defect into a consistent vector holding the values the owners computed, and their pre makes the start vector consistent; none of this depends on the order in which messages arrive, on values stored in copy rows or on the number of processes.", "quantifier": "any number of processes, any decomposition with unique owners, any local matrices, vectors, scalars, any sequential preconditioner, any message order", "why_tests_cant": "tests run fixed process counts on fixed structured meshes; the claim covers every decomposition, every sparsity pattern and every arrival order of the messages", "anchors": ["dune/istl/schwarz.hh: OverlappingSchwarzOperator::apply, applyscaleadd, ParSSOR::apply, BlockPreconditioner::pre, BlockPreconditioner::apply", "dune/istl/owneroverlapcopy.hh: project, copyOwnerToAll"]}
{"id": "C55", "title": "Nonoverlapping Schwarz operator computes the global product exactly once per entry", "statement": "For every nonoverlapping decomposition in which no two different processes each own one of two indices and both hold both (in particular whenever the lowest rank owns a shared index), NonoverlappingSchwarzOperator::apply and applyscaleadd leave on every process, at all owner and copy indices, the product with the global matrix (respectively y + alpha A x), each matrix entry being added by exactly one process; ghost values of x are never used, and the result is the same on the first and on every later call of the object. NonoverlappingBlockPreconditioner::apply yields at every held index the sum of what the processes holding it computed.", "quantifier": "any number of processes, any decomposition, any sparsity pattern, any history of calls on the operator, any message order", "why_tests_cant": "who adds a border-border entry depends on the owners and ranks of all processes that share the two indices; tests cover two processes on structured meshes", "anchors": ["dune/istl/novlpschwarz.hh: NonoverlappingSchwarzOperator::apply, applyscaleadd, novlp_op_apply, NonoverlappingBlockPreconditioner::apply", "dune/istl/owneroverlapcopy.hh: addOwnerCopyToOwnerCopy"]}
{"id": "C56", "title": "A parallel solver run equals the sequential run on the global problem", "statement": "Every iterative solver (loop, gradient, CG, BiCGSTAB, MINRES, GMRes, flexible GMRes, generalised PCG, restarted and complete flexible CG) run with the overlapping operator, BlockPreconditioner and parallel scalar product - or with the nonoverlapping operator, preconditioner and scalar product - performs on any number of processes exactly the iterations of the sequential solver on the global matrix with the corresponding global preconditioner: same iteration count, same defects, same convergence flag, same exception, and the returned vector is consistent and holds the sequential solution; the initial guess matters only at owners, and the right hand side not at copies.", "quantifier": "any number of processes, decomposition, matrix, right hand side, initial guess, sequential preconditioner, solver parameters and message order", "why_tests_cant": "equivalence over all runs and all decompositions; tests compare residuals of single runs", "anchors": ["dune/istl/solvers.hh: LoopSolver, GradientSolver, CGSolver, BiCGSTABSolver, MINRESSolver, RestartedGMResSolver, RestartedFlexibleGMResSolver, GeneralizedPCGSolver, RestartedFCGSolver, CompleteFCGSolver", "dune/istl/schwarz.hh: OverlappingSchwarzOperator, BlockPreconditioner", "dune/istl/novlpschwarz.hh: NonoverlappingSchwarzOperator, NonoverlappingBlockPreconditioner", "dune/istl/scalarproducts.hh: ParallelScalarProduct"]}
{"id": "C57", "title": "The sequential overlapping Schwarz preconditioner computes the Schwarz method its mode names", "statement": "The row-to-domain constructor makes domain d the ascending list of exactly the rows that mention d, and both constructors give the same object. The matrix of a subdomain is the submatrix of its rows and columns (same pattern and values, set up in memory without error) and the reported offset is its bandwidth. In the multiplicative mode apply visits the subdomains in order, each correction computed by the subdomain solver from the residual of the current iterate in the rows of the subdomain, multiplied by the relaxation factor and added in the rows of the subdomain only; the symmetric mode does this forwards and then backwards; the additive mode solves all subdomains for the residual of the start vector and adds the relaxed sum. Solving on the fly gives the same result as storing the subdomain solvers. With subdomains inside the matrix nothing is accessed out of bounds. The dense subdomain solver is exact, the ILU(0) and ILU(n) ones are exact when the elimination creates no fill-in. The code departs from this in two documented ways: the dense version relaxes the k-th row of a subdomain k+1 times when the factor is not one, and the ILU(n) solver advertised as exact is not exact for every pattern.", "quantifier": "all matrices with sorted rows, all families of subdomains (overlapping or not, empty ones included), all relaxation factors, right hand sides, start vectors, initial contents of the work vectors and subdomain solvers", "why_tests_cant": "The subdomains, the matrix pattern and the values are arbitrary; index mapping mistakes show only for particular overlaps and orders.", "anchors": ["dune/istl/overlappingschwarz.hh: SeqOverlappingSchwarz::SeqOverlappingSchwarz, apply, OverlappingAssigner, AdditiveAdder, MultiplicativeAdder, DynamicMatrixSubdomainSolver, SeqOverlappingSchwarzAssemblerHelper", "dune/istl/ilusubdomainsolver.hh: ILUSubdomainSolver::copyToLocalMatrix, ILU0SubdomainSolver, ILUNSubdomainSolver"]}
{"id": "C58", "title": "The overlapping Schwarz preconditioner converges on symmetric positive definite matrices", "statement": "With exact subdomain solvers, a symmetric positive definite matrix and a relaxation factor between 0 and 2, one apply of the multiplicative or symmetric mode never raises the energy of the error and lowers it strictly when the subdomains cover all rows and the vector is not yet the solution; the additive mode does so when the factor is below 2 divided by the number of subdomains. A vector that satisfies the equations of all subdomains is not changed in any mode. With factor one the equations of the last subdomain hold after the multiplicative mode. The symmetric and the additive mode are symmetric positive definite operators, as the conjugate gradient method requires.", "quantifier": "all symmetric positive definite block matrices, all subdomain families, all right hand sides and start vectors, all admissible relaxation factors", "why_tests_cant": "Convergence for every matrix and decomposition is a theorem; a test sees single matrices.", "anchors": ["dune/istl/overlappingschwarz.hh: SeqOverlappingSchwarz::apply, AdditiveSchwarzMode, MultiplicativeSchwarzMode, SymmetricMultiplicativeSchwarzMode"]}
{"id": "C59", "title": "The AMG matrix hierarchy is a Galerkin hierarchy of bounded size", "statement": "For every structurally symmetric square matrix, every dependency criterion and all coarsening parameters with minAggregateSize \u2264 maxAggregateSize, building the hierarchy ends with at most maxLevel+1 levels: the finest matrix is the given one, each coarser matrix is P^T A P of the one before for the stored aggregates map, has one unknown per aggregate, was made because the finer one had more than coarsenTarget unknowns, and reduces the unknowns by minCoarsenRate; building stops only for lack of levels, a small enough matrix or rate breakdown. Every entry of every level is the sum of the finest entries between two clusters, patterns likewise; symmetry and positive definiteness are inherited; no level stores more entries than the finest; recalculating the Galerkin products after changing the values gives the hierarchy of the new matrix; vectors and smoothers have the matching sizes and matrices; the destructor deletes each map once; the coarsest aggregate numbers are projected to the finest level correctly.", "quantifier": "all matrices (patterns, values, sizes), all dependency criteria, all parameters, all sequences of random numbers", "why_tests_cant": "Number of levels, patterns and aggregates depend on the matrix; a test fixes a matrix and looks at a convergence rate that hides wrong coarse matrices.", "anchors": ["dune/istl/paamg/matrixhierarchy.hh: MatrixHierarchy::build, recalculateGalerkin, coarsenVector, coarsenSmoother, getCoarsestAggregatesOnFinest, ~MatrixHierarchy"]}
{"id": "C60", "title": "Strong connections: what the dependency criteria decide", "statement": "Building the dependency information of a matrix (square, all diagonal blocks stored with nonzero norm) returns normally and marks a vertex isolated exactly when the largest measured coupling of its row is below beta (beta times the diagonal for the unsymmetric criterion), marks as strong exactly the couplings above alpha times the largest one of a row that is not isolated (for the symmetric criterion in both directions and seen from either end, for the unsymmetric one depends/influences follow the direction), and excludes exactly the rows without off-diagonal couplings, on the finest level only. With 0<beta and alpha<1 every vertex that is not isolated has a strong neighbour. The symmetric criterion does not see positive row and column scalings; on symmetric matrices it is the union of both directions of the symmetric-matrix criterion. A zero diagonal makes the symmetric-matrix criterion throw ISTLError. With a sign preserving norm and non-negative off-diagonals everything is isolated. For symmetric positive definite matrices the criteria succeed on every level of the hierarchy. The default parameters satisfy minAggregateSize <= maxAggregateSize.", "quantifier": "all matrices, norms, parameters alpha/beta, levels; all three criteria; all dimensions and diameters for the defaults", "why_tests_cant": "tests run a few model problems; the flags depend on every entry of every row through state kept by the criterion object between two passes", "anchors": ["dune/istl/paamg/aggregates.hh: buildDependency, SymmetricMatrixDependency, SymmetricDependency, Dependency, Diagonal, RowSum, FrobeniusNorm", "dune/istl/paamg/parameters.hh: DependencyParameters, AggregationParameters"]}
{"id": "C61", "title": "AMG as a whole is a symmetric positive definite preconditioner", "statement": "For every symmetric positive definite block matrix with symmetric sparsity pattern, whatever the dependency criterion, aggregation and coarsening parameters: building the AMG hierarchy succeeds; on every level SOR (forward before, backward after the coarse correction) and SSOR sweeps with 0<w<2 never fail; and with an exact coarse solver, at least one smoothing step and damping in [0,1], every apply() succeeds whatever the object's vectors contain from before, for every cycle type gamma, and computes one fixed linear operator that is symmetric, positive definite and reduces the energy of every non-zero error in one step. Hence CG preconditioned with it returns converged, without exception, after at most as many steps as there are unknowns (exact arithmetic).", "quantifier": "all symmetric positive definite block matrices, all parameters of the hierarchy, all numbers of levels, smoothing steps, cycles, all histories of the AMG object", "why_tests_cant": "Whether the pieces (aggregation, Galerkin product, transfer, smoothers, cycle) fit together depends on the matrix; tests run a few model problems and look at iteration counts.", "anchors": ["dune/istl/paamg/amg.hh: AMG::apply, mgc, moveToCoarseLevel, moveToFineLevel", "dune/istl/paamg/matrixhierarchy.hh: MatrixHierarchy::build", "dune/istl/paamg/smoother.hh: SmootherApplier, presmooth, postsmooth", "dune/istl/paamg/transfer.hh: Transfer", "dune/istl/solvers.hh: CGSolver"]}
{"id": "C62", "title": "Matrices and vectors of blocks of different types", "statement": "All products of a MultiTypeBlockMatrix (mv, umv, mmv, usmv and the transposed and Hermitian ones) compute the product with the assembled block matrix when its blocks do, so that tuples can be nested to any depth; transposed products are adjoint with respect to MultiTypeBlockVector's scalar product; arithmetic, dimension, Frobenius, row-sum, one, two and maximum norms are the entrywise ones. A Jacobi or SOR step with an exact solve on the diagonal blocks satisfies its splitting equation and keeps exact solutions; with any other inner step SOR keeps a solution exactly if the inner step, started from x_i, solves the zero problem. The Gauss-Seidel step (dbgs) does not: with exact inner solves and w nonzero the only exact solution it keeps is zero.", "quantifier": "all tuple sizes, all entry types and block maps, all vectors, all relaxation factors, all inner steps", "why_tests_cant": "the container is a template over arbitrary types; tests instantiate a 2x2 tuple once and only run Jacobi", "anchors": ["dune/istl/multitypeblockmatrix.hh: MultiTypeBlockMatrix, MultiTypeBlockMatrix_Solver, MultiTypeBlockMatrix_Solver_Col", "dune/istl/multitypeblockvector.hh: MultiTypeBlockVector", "dune/istl/gsetc.hh: algmeta_itsteps<I,MultiTypeBlockMatrix>"]}
{"id": "C63", "title": "Maximum norms never hide a NaN", "statement": "For field types with NaN, infinity_norm and infinity_norm_real of vectors, matrices and tuples of blocks return NaN whenever an entry is NaN (or infinite), and otherwise NaN or exactly the maximum of the entries' norms (of the computed row sums for matrices), whatever the rounding of additions; they return the maximum exactly if 1 plus the sum of the entries does not overflow, and NaN for a finite vector if it does. one_norm, two_norm2 and Frobenius sums are NaN exactly if a summand is. The results can be fed to an enclosing container, so the statement holds for nested blocks.", "quantifier": "all vectors and matrices of any size with finite, infinite and NaN entries in any position; every monotone rounding", "why_tests_cant": "order of NaN entries matters for max(); tests put one NaN in one place", "anchors": ["dune/istl/bvector.hh: infinity_norm, infinity_norm_real, one_norm, two_norm2", "dune/istl/bcrsmatrix.hh: infinity_norm, infinity_norm_real", "dune/istl/matrix.hh: infinity_norm", "dune/istl/multitypeblockvector.hh: infinity_norm"]}
{"id": "C64", "title": "Nested matrices are measured and written to Matlab files correctly", "statement": "For a nested matrix whose blocks are aligned, MatrixDimension::rowdim and coldim are the numbers of rows and columns of the flat matrix, and writeMatrixToMatlab writes one line per stored number, with its row and column in the flat matrix counted from one, no position twice. This needs every block column of a BCRSMatrix with blocks of unknown size (numbers included) to have a stored block, and for the file also every row; with empty rows or columns the sizes are wrong (an empty column counts as the largest 64-bit number) and entries are written at shifted positions, and a matrix without columns makes the writer run out of its table.", "quantifier": "every nesting depth, every combination of sparse and dense levels, every pattern and every block size", "why_tests_cant": "tests write a few Laplacians whose rows and columns are all non-empty; the claim ranges over all patterns and nestings", "anchors": ["dune/istl/matrixutils.hh: MatrixDimension", "dune/istl/io.hh: writeMatrixToMatlabHelper, writeMatrixToMatlab"]}
{"id": "C65", "title": "A ScaledIdentityMatrix behaves as the dense matrix p times the identity", "statement": "Every operation of ScaledIdentityMatrix<K,n> (the nine products, mv and mtv also with source and target the same vector, +=, -=, *=, /=, products with scalars, ==, solve, invert, determinant, frobenius_norm2, infinity_norm, exists, conversion to a dense matrix) gives what the same operation gives on the n x n matrix with p on its diagonal; solve and invert for p other than zero, frobenius_norm2 without conjugation (real numbers).", "quantifier": "all n, all p and all vectors over every field", "why_tests_cant": "tests instantiate a few sizes and numbers", "anchors": ["dune/istl/scaledidmatrix.hh: ScaledIdentityMatrix"]}
{"id": "C66", "title": "GeneralizedPCGSolver is an optimal method for symmetric positive definite systems with any preconditioner", "statement": "For a symmetric positive definite operator and any preconditioner, nonlinear and changing from call to call included: no run increases the energy of the error; without restart the result after k iterations minimises the energy over the initial guess plus k pairwise conjugate directions and the returned defect is orthogonal to them; with a positive preconditioner no division by zero happens while the defect is not zero, every step lowers the energy, and a run allowed as many iterations as the space has dimensions reports convergence unless it throws. (It does throw when the defect vanishes exactly before the end of a restart cycle: the inner loop does not stop on convergence and computes 0/0.)", "quantifier": "all operators, preconditioners, right hand sides, initial guesses, iteration limits and restart lengths", "why_tests_cant": "optimality and finite termination are statements about all inputs; tests solve a few systems", "anchors": ["dune/istl/solvers.hh: GeneralizedPCGSolver::apply"]}
{"id": "C67", "title": "KAMG: the Krylov cycle is what it should be, and a usable preconditioner for flexible CG", "statement": "KAMG::pre never fails and may be called again and again. Afterwards apply(v,d) returns the Krylov cycle for d: pre-smoothing, on the next level the coarse solver (if it is the coarsest) or GeneralizedPCGSolver preconditioned by the cycle of that level, damped prolongation, post-smoothing; although all levels and all calls share one hierarchy of vectors, neither their old content nor (with more than one level) v matters. For a symmetric positive definite matrix, an energy reducing smoother, at least one smoothing step, an exact coarse solver, at most `restart` Krylov steps per level and any damping factor between 0 and 2 (so also for the default 1.6), z = apply(d) satisfies z^T A z < 2 d^T z for d != 0: it is a descent direction that reduces the energy of the error. GeneralizedPCGSolver with KAMG as preconditioner (nonlinear!) solves the system exactly after at most as many steps as there are unknowns. KAMG, unlike AMG, does not notice when its coarse solver fails.", "quantifier": "all hierarchies (numbers of levels, matrices, smoothers, transfer operators, coarse solvers), all contents of the work vectors, all numbers of Krylov steps and smoothing steps, all right hand sides", "why_tests_cant": "nested Krylov solvers share mutable vectors; a stale vector or wrong level changes the answer only slightly and the outer solver still converges on the test problem; positivity is a statement for all right hand sides", "anchors": ["dune/istl/paamg/kamg.hh: KAmgTwoGrid::apply, KAMG::pre, KAMG::apply", "dune/istl/paamg/amg.hh: moveToCoarseLevel, moveToFineLevel", "dune/istl/solvers.hh: GeneralizedPCGSolver::apply"]}
{"id": "C68", "title": "Eigenvalue algorithms: what a normal return certifies, when they converge, and the iteration matrix", "statement": "Power iteration stops at the first normalised iterate A^n x with residual at most epsilon (count n) or throws ISTLError with count max+1 when none of the first max iterates qualifies. A normal return of inverse iteration, Rayleigh quotient iteration and TLIME gives a unit vector, its Rayleigh quotient and a residual of at most epsilon, for both values of the template flag and every solver that is exact when it returns; for symmetric matrices an eigenvalue lies within epsilon of lambda. Power iteration on symmetric positive semidefinite matrices and inverse iteration with a shift below the spectrum return for every positive epsilon once enough iterations are allowed, and lambda converges to the dominant (closest) eigenvalue. TLIME's assert never fails and extrnl==false implies an eigenvalue in J. getIterationOperator() is m-mu*I; getIterationMatrix(), if requested first, stays equal to m-mu*I over every history of calls, exceptions included. Not guaranteed (proved counterexamples): extrnl==true does not mean J is free of eigenvalues; a matrix requested after a shifted run is stale; a missing diagonal block leaves shift and matrix inconsistent; the flag is ignored by the unshifted inverse iteration; a NaN residual is a normal return.", "quantifier": "all real inner product spaces, matrices, start vectors, shifts, tolerances, iteration limits, solvers and call histories", "why_tests_cant": "convergence and the validity of a returned pair are statements about all matrices and unboundedly many iterations; tests run a few matrices to one tolerance", "anchors": ["dune/istl/eigenvalue/poweriteration.hh: applyPowerIteration, applyInverseIteration, applyRayleighQuotientIteration, applyTLIMEIteration, getIterationOperator, getIterationMatrix, getIterationCount, updateShiftMu"]}
{"id": "C69", "title": "Stationary iterations converge linearly for symmetric positive definite systems", "statement": "In exact real arithmetic, LoopSolver and GradientSolver applied to a symmetric positive definite operator converge whenever one application of the linear preconditioner lowers the energy of every error (GradientSolver: whenever it is positive definite): there are q < 1 and C, independent of right hand side, start vector, reduction and iteration bound, such that every run ends normally, the defect recorded for step k is at most C q^k times the initial one, the error energy shrinks at least by q^(2k), and every reduction > 0 is reached within a number of iterations that does not depend on right hand side or start vector. The condition holds for SeqSOR/SeqGS/SeqSSOR with 0 < w < 2, for SeqJac if 2D - wA is positive definite, for SeqOverlappingSchwarz with exact subdomain solvers covering all rows (multiplicative and symmetric w < 2, additive w times number of subdomains < 2) and for AMG cycles. It fails for undamped SeqJac on some symmetric positive definite matrices, where LoopSolver then reports no convergence for every iteration bound.", "quantifier": "all finite dimensional real SPD problems, block sizes, relaxation factors in range, numbers of sweeps, right hand sides, start vectors, reductions, iteration bounds", "why_tests_cant": "a statement about limits and about all matrices and right hand sides; tests run a few systems with fixed iteration numbers", "anchors": ["dune/istl/solvers.hh: LoopSolver::apply, GradientSolver::apply", "dune/istl/solver.hh: Iteration::step", "dune/istl/preconditioners.hh: SeqSOR, SeqSSOR, SeqJac", "dune/istl/overlappingschwarz.hh: SeqOverlappingSchwarz::apply", "dune/istl/paamg/amg.hh: AMG::apply"]}
{"id": "C70", "title": "Aggregates choose their vertices by the documented preference rules", "statement": "Building aggregates follows these rules and they determine the resulting map completely: an aggregate below the minimal size takes, from the vertices without aggregate it has edges to, the non-isolated ones with the most mutual strong connections to it (one-way dependencies count only if no mutual connection exists), among equals those with the largest share of edges to aggregates already connected, then those with the most front neighbours, as many as the maximal size allows; isolated aggregates take the last best vertex while the connectivity limit is not reached; then vertices coupled more strongly with the aggregate than with free vertices are added up to the maximal size; a remaining single non-isolated vertex joins the aggregate of its first strongly connected neighbour.", "quantifier": "all graphs with symmetric pattern, all vertex and edge flags, all size, distance and connectivity parameters with minSize <= maxSize and maxDistance >= 1", "why_tests_cant": "the choice depends on the whole history of the map, the front and the connected aggregates; tests see a few meshes", "anchors": ["dune/istl/paamg/aggregates.hh: Aggregator::build, growAggregate, growIsolatedAggregate, twoWayConnections, oneWayConnections, connectivity, neighbours, noFrontNeighbours, mergeNeighbour"]}
{"id": "C71", "title": "The Cholmod wrapper solves the system of the degrees of freedom that are not ignored", "statement": "setMatrix of the Cholmod solver hands the library a valid packed sparse matrix: the stored entries of the upper triangle of the flat matrix, in the rows and columns that are not ignored, transposed into the lower triangle and renumbered consecutively, column indices ascending, all accesses inside the arrays. If the library can solve with that matrix, apply leaves in the entries of x that take part a solution of the restricted system with the right hand side restricted alike (for a symmetric matrix: of the user's matrix), changes nothing else in x and nothing in b. If everything is ignored apply does nothing; vectors with different block counts are refused. An object may be reused with the same ignore field any number of times; every earlier factor stays allocated for ever. Reuse without, or with another, ignore field gives wrong results.", "quantifier": "all square nested matrices with ascending patterns, all ignore fields, all vectors and memory contents, all libraries that solve the system they are given, all histories of setMatrix calls with one ignore field", "why_tests_cant": "tests solve a few Laplacians with a new solver object each; the numbering must be right for every nesting, pattern, ignore field and call history", "anchors": ["dune/istl/cholmod.hh: Cholmod, setMatrix, apply, ~Cholmod, copyToFlatVector", "dune/istl/foreach.hh: flatMatrixForEach, flatVectorForEach"]}
{"id": "C72", "title": "Coarsening across processes is consistent", "statement": "For every distribution of the unknowns over any number of processes (each index owned by exactly one process, overlap and copy entries elsewhere) and all aggregates the processes built of their own vertices: building the coarse index sets, the coarse remote indices, synchronising them and publishing the aggregates succeeds without an out-of-range access for every order of message arrival, and all processes agree: there is one map from global fine to global coarse indices (none for isolated vertices) such that the coarse index sets again have unique entries and exactly one owner per index; vertices share a coarse index iff they shared an aggregate; each process knows exactly the coarse indices of the fine indices it knows, as owner iff it owns the fine ones, as copy iff one of them is a copy; and its aggregates map sends every fine index it knows to the local number of its coarse index. The extra round of messages in the nonoverlapping category changes nothing. For periodic boundaries the renumbering keeps the partition and uses fresh numbers unless a vertex is isolated.", "quantifier": "all numbers of processes, index sets, local graphs, aggregate maps, public flags and message orders", "why_tests_cant": "tests run a few processes on one regular grid; the agreement has to hold for every partition, aggregation and arrival order", "anchors": ["dune/istl/paamg/indicescoarsener.hh: ParallelIndicesCoarsener::coarsen, buildCoarseIndexSet, buildCoarseRemoteIndices, ParallelAggregateRenumberer", "dune/istl/paamg/globalaggregates.hh: GlobalAggregatesMap, AggregatesPublisher::publish", "dune/istl/paamg/graphcreator.hh: PropertiesGraphCreator::create", "dune/istl/paamg/graph.hh: SubGraph"]}
{"id": "C73", "title": "The coarse matrices of all processes together are the Galerkin product", "statement": "Let each process hold the rows of a global matrix M for the unknowns it owns. For every distribution of the unknowns, every choice of connected aggregates on the processes, every order of messages and of the sorted overlap vertices, and both solver categories: GalerkinProduct::build and calculate succeed on every process (no access outside the matrix, one row per aggregate, columns = diagonal plus exactly the coupled aggregates); afterwards each process holds in the rows of its own coarse unknowns the rows of P^T M P (all nonzero columns are known to it), every process knowing a coarse unknown holds its global diagonal entry, and the coarse index sets form a decomposition again, so the statement applies to the next level. If the rows of overlap unknowns were complete on the fine level (with symmetric couplings), they are complete on the coarse level.", "quantifier": "all numbers of processes, all decompositions, all matrices, all aggregate maps with connected aggregates, all message orders and tie orders of std::sort, both categories", "why_tests_cant": "A test runs one partition with one matrix on a few ranks; the claim ranges over all partitions, patterns and message orders.", "anchors": ["dune/istl/paamg/galerkin.hh: GalerkinProduct<T>::build, buildOverlapVertices, ConnectivityConstructor<G,T>::examine, constructOverlapConnectivity, BaseGalerkinProduct::calculate", "dune/istl/owneroverlapcopy.hh: copyOwnerToAll", "dune/istl/paamg/graph.hh: visitNeighbours"]}
{"id": "C74", "title": "MINRES minimises the preconditioned residual norm", "statement": "In exact real arithmetic, for a regular self-adjoint (possibly indefinite) operator A and a self-adjoint positive definite preconditioner B, every defect MINRESSolver records after the first is the norm sqrt((r,Br)) of the true residual of the current iterate; the iterate lies in x_0 plus the Krylov space of BA and B r_0 of the step number, and no vector of that space has a smaller residual norm; so the defects never increase, and on a space of dimension n with maxit >= n the solver returns normally, converged, within n iterations. (Plane rotations with arguments below 1e-15 excepted.) The first defect is measured in another norm: ||B r_0||.", "quantifier": "all such operators, preconditioners, scalar products, right hand sides, start vectors, reductions and iteration limits", "why_tests_cant": "the short recurrences have to agree with a global minimisation for every system; tests run a few matrices", "anchors": ["dune/istl/solvers.hh: MINRESSolver::apply, generateGivensRotation"]}
{"id": "C75", "title": "BiCGSTAB is the stabilised biconjugate gradient method and is exact in n steps", "statement": "In exact arithmetic over any field, after k complete iterations the residual of BiCGSTABSolver is the product of the factors (1 - omega_i A B) applied to the residual R_k of the biconjugate gradient method (R_k lies in r_0 + span{AB r_0,...,(AB)^k r_0} and the shadow residual annihilates R_k,...,(AB)^(k-1) R_k); after the first half step the residual is orthogonal to the shadow residual, and the second half step minimises the residual norm along its direction. On a space of dimension n with maxit > n every run that does not throw has converged within n iterations.", "quantifier": "all operators, linear preconditioners, scalar products linear in the second argument, right hand sides, start vectors, reductions, iteration limits", "why_tests_cant": "the recurrences have to agree with an orthogonality condition against all earlier steps, for every system; tests run a few matrices", "anchors": ["dune/istl/solvers.hh: BiCGSTABSolver::apply"]}
{"id": "C76", "title": "Flexible CG: directions conjugate to all stored ones, minimal energy over them, and equal to generalized PCG", "statement": "For a symmetric positive definite operator and any preconditioner (nonlinear, unsymmetric, another one in every call), every direction of RestartedFCGSolver with parameter mmax is the preconditioned defect plus a combination of the previous directions of its cycle and conjugate to all of them, and every iterate minimises the energy of the error over all combinations of the directions of its cycle; for CompleteFCGSolver the same with the last mmax directions, through any number of cycles. With a preconditioner that is positive, no division by zero happens while the defect is not zero, every step lowers the energy, and if mmax+1 and maxit are at least the dimension, a run that does not throw converges. RestartedFCGSolver returns exactly what GeneralizedPCGSolver with restart = mmax+1 returns, unless the first step already converges.", "quantifier": "all vector spaces over an ordered field, scalar products, operators, preconditioners, mmax, maxit, reductions, initial guesses and right hand sides", "why_tests_cant": "Tests solve a few systems with a fixed preconditioner and look at the final defect; a direction dropped or a stale slot after a cycle only slows convergence.", "anchors": ["dune/istl/solvers.hh: RestartedFCGSolver::apply, orthogonalizations, cycle, CompleteFCGSolver, GeneralizedPCGSolver"]}
{"id": "C77", "title": "Direct solver objects never misuse or leak memory, and report according to the last matrix set", "statement": "For every heap, every sequence of calls on an UMFPack, LDL, SPQR or SuperLU object (any constructor, setMatrix, setSubMatrix, apply, saveDecomposition, free, destruction, in any order in which free is only called when there is something to free) and whatever the libraries answer: no array is accessed out of bounds, used after release or released twice; every call reports what follows from the matrix set last (which exception, converged flag); and after destruction exactly the memory blocks from before the construction are allocated, except that SPQR leaves exactly one block. Outside these calls: a second free() is undefined in all four classes, a factorization loaded from a file makes every non-empty UMFPack::apply throw, an ordering failure in LDL makes the destructor undefined, a throwing LDL constructor leaks seven arrays, complex SPQR writes out of bounds, matrices without scalars leak.", "quantifier": "all initial heaps, all finite call histories, all matrix sizes and entry counts, all outcomes of the library calls", "why_tests_cant": "Tests run a few histories with well-behaved libraries; leaks and double releases depend on the order of calls and on failures that tests do not provoke.", "anchors": ["dune/istl/umfpack.hh: UMFPack", "dune/istl/ldl.hh: LDL", "dune/istl/spqr.hh: SPQR", "dune/istl/superlu.hh: SuperLU", "dune/istl/supermatrix.hh: SuperLUMatrix", "dune/istl/bccsmatrix.hh: BCCSMatrix::free"]}
{"id": "C78", "title": "Matrix Market files with defects", "statement": "What readMatrixMarket does with files that are not as the format demands. The first line counts for what precedes its first word that is not understood (matrix, array/coordinate, number type, structure; the last three in any case); the rest, or everything if there is no banner, is the default, and the same file is then read as if that had been announced. A matrix file announced as array is refused with NotImplemented after the matrix has been resized; a size line ending after one or two numbers is a MatrixMarketFormatError; a MatrixMarketFormatError never changes the matrix, whatever the file. A vector file is read unless it has a complete banner for coordinates; one number only in the size line, a number of columns other than one, coordinates, and a number of rows that is no multiple of the block size are format errors. Row indices 0 or beyond the number of rows (for structured matrices also such column indices) access memory out of bounds, column indices beyond the number of columns of a general matrix are stored, and a vector file with too few numbers stores uninitialised numbers.", "quantifier": "All texts of the described shapes (first lines of any words and blanks, comments, any good lines before the bad one, any text behind it), all block sizes, all number formats that survive writing and reading; for the format error: every stream and every state of the matrix.", "why_tests_cant": "Files come from elsewhere; malformed ones are not enumerable by tests.", "anchors": ["dune/istl/matrixmarket.hh: readMatrixMarketBanner, lineFeed, skipComments, readMatrixMarket, readSparseEntries, mm_read_header, mm_read_vector_entries"]}
{"id": "C79", "title": "Breadth first search within an aggregate", "statement": "AggregatesMap::breadthFirstSearch visits exactly the unmarked vertices of the given aggregate that can be reached from the start vertex within it, each once and nearest first; it returns the largest distance from the start vertex; the first visitor is called once for every visited vertex but the start, with an edge coming from a vertex one step nearer; the second one is called exactly for the edges from visited vertices to vertices outside the aggregate; with reset the visited flags are afterwards what they were before, without reset the visited vertices are flagged in addition; with remove the list is empty.", "quantifier": "all graphs, aggregates maps, unmarked start vertices, initial flags, visitors that leave the aggregates map alone, and template arguments", "why_tests_cant": "Reachability and distances over all graphs.", "anchors": ["dune/istl/paamg/aggregates.hh: AggregatesMap::breadthFirstSearch"]}
{"id": "C80", "title": "The subgraph without the excluded vertices is the induced subgraph", "statement": "Building a SubGraph from the graph of a non-empty square matrix and a flag per vertex stays inside its arrays. Iterating over it visits exactly the vertices that are not excluded, ascending, noVertices() of them; the edges of such a vertex go, ascending, exactly to the other vertices of its row that are not excluded, and an excluded vertex has none; the edge indices in iteration order are 0..noEdges()-1, so edge properties never alias or fall outside their vector; findEdge finds an edge exactly if the iterators show it, and then the same one, also for rows without a diagonal entry. With nothing excluded it is the matrix graph. For an empty graph noEdges() reads a member that was never set.", "quantifier": "all well-formed square sparse matrices, all exclusion flags, all vertices and targets", "why_tests_cant": "The arrays are sized by the entries of the matrix, not by the edges, and the iterators skip runs of excluded vertices at the start, in the middle and at the end; tests use a few fixed patterns.", "anchors": ["dune/istl/paamg/graph.hh: SubGraph, SubGraph::VertexIterator, SubGraph::EdgeIterator, SubGraph::EdgeIndexMap, SubGraph::findEdge, SubGraph::noEdges", "dune/istl/paamg/graphcreator.hh: PropertiesGraphCreator::create"]}
{"id": "C81", "title": "Redistributing a matrix and vectors to a new decomposition keeps the operator", "statement": "When redistributeMatrix moves a distributed matrix to a new domain decomposition, on every process the rows owned in the new decomposition hold exactly the entries their old owner stored (at the columns the new process knows), the rows of non-owned indices become identity rows with the mirrored pattern, and the result depends neither on message order nor on previous contents; if every coupling column is known and none has attribute overlap the global operator is unchanged, and gathering everything on one process yields the whole matrix. redistribute moves the owner values of a vector to the new owners and touches nothing else; redistributeBackward inverts it. Couplings of owned rows to columns with attribute overlap are dropped.", "quantifier": "all pairs of decompositions of the same global indices over any number of processes, all local matrices with stored diagonal in owned rows, all arrival orders of the messages of the three communications", "why_tests_cant": "The result is assembled by three rounds of variable-size messages whose items are cut by the receiver using sizes from the first round, with global-to-local translation on both sides; only a few process layouts and schedules can be tested", "anchors": ["dune/istl/matrixredistribute.hh: redistributeMatrix, redistributeSparsityPattern, redistributeMatrixEntries, RedistributeInformation::redistribute, redistributeBackward, CommMatrixSparsityPattern, CommMatrixRow"]}
{"id": "C82", "title": "Building the communication after repartitioning", "statement": "For every decomposition, every graph and every assignment of the global indices to processes that all processes agree on, buildCommunication makes index sets that again decompose the same global indices: a process owns exactly the indices assigned to it and has as copies exactly the neighbours of these that go elsewhere; local indices are consecutive, owners first. A process waits for exactly the messages sent to it; the send and receive lists of the redistribution interface match in content and order; a process takes part in the new communicator if and only if it owns an index; the owners of all copies are among the neighbours, all neighbours exist in the new communicator, and neighbourhood is symmetric for symmetric edges. The order of arrival does not matter. Redistributing the matrix of the graph to the new index sets keeps the operator. (Two processes that only share copies of an index are not made neighbours.)", "quantifier": "every number of processes, decomposition, graph per process, assignment of indices to processes and order of message arrival", "why_tests_cant": "a test runs a few partitions on a few processes with the arrival order of that run; matching interfaces and complete copies are needed for every assignment the partitioner may return", "anchors": ["dune/istl/repartition.hh: buildCommunication, getOwnerOverlapVec, getNeighbor, createSendBuf, saveRecvBuf, mergeVec, RedistributeInterface"]}
{"id": "C83", "title": "The graph handed to the partitioner", "statement": "For every decomposition, fillIndexSetHoles gives every unknown that has no index a new global index, owned, in use nowhere else and used once, keeps all entries there were, and does nothing if there are no holes; graphRepartition then numbers all indices consecutively, process after process in the order of the local indices, the vertex distribution holds the first number of each process and the total, every process knows the number of all of its indices (also the copies) whatever the order of the messages, and the arrays xadj and adjncy of each process hold for each owned index exactly the numbers of the ends of its edges, within the size allocated.", "quantifier": "every number of processes, decomposition with or without holes, graph per process, order of message arrival and initial content of the arrays", "why_tests_cant": "a test partitions a few grids; a wrong offset or a hole numbered twice shows only for the decompositions that have it", "anchors": ["dune/istl/repartition.hh: fillIndexSetHoles, ParmetisDuneIndexMap, graphRepartition (getAdjArrays, EdgeFunctor)"]}
{"id": "C84", "title": "From the partition to the processes", "statement": "For every result of the partitioner with at most as many domains as processes, getDomain maps the domains to different processes, gives the same mapping on every process and gives each domain to a process that holds the most vertices of it among the processes not yet taken; graphRepartition then makes all processes agree on one assignment of the indices, which takes the result of the partitioner in the order of the global indices, and leaves a decomposition of the same indices on at most nparts processes; with nparts=1 everything goes to process 0 without copies and no other process takes part. If the owned indices of each process have the same order by local and by global index, every index goes to the domain chosen for its vertex (otherwise the result can be permuted: it is numbered by local index and read by global index). commGraphRepartition moves all indices of a process together, and the gathered graph of the processes has exactly the neighbour lists of the processes.", "quantifier": "every number of processes and domains, decomposition with or without holes, graph, result of the partitioner and order of message arrival", "why_tests_cant": "the partitioner's result depends on its version, seed and input; a test sees one result, usually one where local and global order coincide", "anchors": ["dune/istl/repartition.hh: getDomain, graphRepartition, commGraphRepartition, isValidGraph"]}
{"id": "C85", "title": "The multigrid cycle on several processes", "statement": "In the overlapping category, with or without redistribution of a level to fewer processes, AMG::apply on several processes computes what the sequential cycle computes for the global problem: if on each level the local matrices hold the rows of a global matrix at the owner and overlap indices, the smoothers are the block-local ones and the aggregates maps are one global map seen locally, then from a defect that has the global values at owner and overlap indices and zero at the copies every process ends with the values of the global cycle at all indices it knows, whatever the iterate and the work vectors held before; restriction and prolongation are the global ones and transposes of each other; if the coarse solver fails, all throw MathError.", "quantifier": "every number of processes and levels, overlapping decomposition, redistribution between levels, order of the messages, matrix, aggregates map, smoother, coarse solver, gamma, numbers of smoothing steps and damping", "why_tests_cant": "a test runs a few process counts on one grid; the cycle mixes local smoothing, communication and transfer, and an inconsistent copy index can spoil the result only for some decompositions", "anchors": ["dune/istl/paamg/amg.hh: AMG::apply, AMG::mgc, AMG::moveToCoarseLevel, AMG::moveToFineLevel", "dune/istl/paamg/transfer.hh: Transfer<V,V1,ParallelInformation>", "dune/istl/paamg/smoother.hh: SmootherApplier"]}
{"id": "C86", "title": "The hierarchy on several processes", "statement": "In the overlapping category without accumulation, MatrixHierarchy::build succeeds on all processes and makes the Galerkin hierarchy of one global matrix: on every level each index has exactly one owner, every process holds the rows of the level's global matrix at its owner and overlap indices, each coarser global matrix is the Galerkin product of the finer one for a map all processes agree on, and each entry is the sum of the entries of the finest matrix between two clusters. A level is coarsened only if it has more than coarsenTarget unknowns and the next level has at most 1/minCoarsenRate of them; coarse levels are counted by their indices, the finest by all unknowns stored anywhere. Building ends with maxLevel levels, a small level or rate breakdown. With this hierarchy AMG::apply on all processes computes the multigrid cycle of the global Galerkin hierarchy.", "quantifier": "every number of processes and levels, decomposition with complete overlap rows and symmetric couplings, matrix, aggregation with connected aggregates, criterion, order of messages and result of sorting the overlap vertices", "why_tests_cant": "tests run a few process counts on regular grids; whether overlap rows stay complete and maps agree has to hold again on each coarser level, for every partition", "anchors": ["dune/istl/paamg/matrixhierarchy.hh: MatrixHierarchy::build", "dune/istl/paamg/indicescoarsener.hh: IndicesCoarsener::coarsen", "dune/istl/paamg/galerkin.hh: GalerkinProduct", "dune/istl/paamg/globalaggregates.hh: AggregatesPublisher"]}
{"id": "C87", "title": "Parallel MatrixMarket files give every process its data back", "statement": "If every process calls storeMatrixMarket(matrix, name, comm), in whatever order the files of the processes get written, then loadMatrixMarket(matrix, name, comm) with an empty communication object gives every process the matrix (or vector) it stored, its part of the parallel index set with local indices, attributes and public flags, and its set of neighbours. The files of different ranks, of different names and of matrix and index set never overwrite each other and no other file is touched. A missing file throws IOError, a communication object that already has indices throws InvalidIndexSetState.", "quantifier": "all numbers of processes, local matrices, block sizes, vectors, index sets, neighbours and file names, all orders in which the files are written", "why_tests_cant": "the files depend on rank, name and contents and are written concurrently; a test runs one distribution on a few processes", "anchors": ["dune/istl/matrixmarket.hh: storeMatrixMarket, loadMatrixMarket, MatrixMarketImpl::splitFilename", "dune/istl/owneroverlapcopy.hh: OwnerOverlapCopyAttributeSet"]}
{"id": "C88", "title": "AMG::pre solves the Dirichlet rows and nothing else", "statement": "AMG::pre(x,b) sets x in every row that has a stored diagonal and otherwise only zero entries to the solution of this row and changes no other entry, so that the residual b - A x vanishes in these rows. It fails exactly if the diagonal block of such a row cannot be solved with. On several processes with an overlapping decomposition x is consistent afterwards, solves the Dirichlet rows of the global system and is unchanged elsewhere, whatever the ghost rows contain. Every smoother is prepared once with the vectors of its level, and post is called once for each (counterexample: a single smoother without coarse solver).", "quantifier": "all matrices, block types, right hand sides, start vectors, decompositions, orders of message arrival and numbers of levels", "why_tests_cant": "holds for every position of Dirichlet rows and every content of ghost rows; tests have Dirichlet rows at the boundary of one grid", "anchors": ["dune/istl/paamg/amg.hh: AMG::pre, AMG::post", "dune/istl/schwarz.hh: ParSSOR::pre, BlockPreconditioner::pre"]}
{"id": "C89", "title": "AMG on several processes aggregates exactly the vertices a process owns", "statement": "On every process with at least one unknown, whose matrix is square with a pattern symmetric among the own vertices, the aggregation ends without undefined behaviour: every own vertex is isolated or in an aggregate with a number below the returned count, every number is used, each aggregate is connected through couplings between own vertices only, vertices of other processes stay undecided, and the result is the one the sequential aggregation gives on the graph of the own vertices. Hence the parallel hierarchy built with it consists of Galerkin products.", "quantifier": "all matrices with that pattern, index sets on their rows, dependency flags, criteria with minAggregateSize <= maxAggregateSize; for the hierarchy all orders of arrival", "why_tests_cant": "Tests aggregate a few Laplacians with a few partitions; which vertices are excluded and in which order the aggregates grow depends on every pattern, flag and numbering.", "anchors": ["dune/istl/paamg/matrixhierarchy.hh: MatrixHierarchy::build", "dune/istl/paamg/graphcreator.hh: PropertiesGraphCreator::create", "dune/istl/paamg/graph.hh: SubGraph", "dune/istl/paamg/aggregates.hh: Aggregator::build, AggregatesMap::buildAggregates"]}
{"id": "C90", "title": "A ParameterTree configures the AMG as its table of keys says", "statement": "When an AMG (or the factory entry 'amg') is built from a ParameterTree, every parameter is the value of its key converted to the type, or the documented default when the key is absent; explicit aggregate sizes and distances win over the size mode, whose sizes are d^dim to 1.5 d^dim; keys outside the table are ignored; a tree with an unreadable value, an unknown name (strength measure, accumulation mode, size mode, smoother) or a missing dimension is refused with an exception before anything is built, and every other tree is accepted. Two keys do not do what the table says: accumulationMode=successive overwrites coarsenTarget with 2, and the diameter of the size mode is read only if a misspelled key (capital M) is also present.", "quantifier": "every ParameterTree, every conversion of texts to numbers, every operator kind", "why_tests_cant": "the tree ranges over all maps from strings to strings; tests configure a handful", "anchors": ["dune/istl/paamg/amg.hh: AMG(matrixptr, configuration, pinfo), createCriterionAndHierarchies, createHierarchies, AMGCreator", "dune/istl/paamg/parameters.hh: Parameters, setDefaultValuesIsotropic, setDefaultValuesAnisotropic"]}
{"id": "C91", "title": "Solvers from the factory are what the tree and the caller asked for", "statement": "getSolverFromFactory(op, tree, prec) returns the registered solver named by 'type' with reduction, maxit, verbose (and restart or mmax) of the tree, working with the passed preconditioner, or else with the registered preconditioner named by preconditioner.type with the parameters of that subtree; a sequential preconditioner is made parallel with the wrapper of the operator's category; operator, scalar product and preconditioner always have one category, and a preconditioner that cannot serve is refused; a direct solver is refused on several processes. The result does not depend on earlier calls, unless the tree names the reserved entry; two threads passing preconditioners at once may get each other's.", "quantifier": "every operator, tree, passed preconditioner, numerical outcome of a construction, every content of the factories and every history of calls", "why_tests_cant": "the factories are global state: the claim is over all histories and all trees", "anchors": ["dune/istl/solverfactory.hh: getSolverFromFactory, getPreconditionerFromFactory, initSolverFactories, OperatorTraits", "dune/istl/solverregistry.hh: defaultIterativeSolverCreator, defaultPreconditionerCreator, defaultPreconditionerBlockLevelCreator", "dune/istl/common/registry.hh: addRegistryToFactory", "dune/istl/solvers.hh, preconditioners.hh, solver.hh: constructors with ParameterTree"]}
{"id": "C92", "title": "Eigenvalues, singular values and condition numbers from ARPACK++", "statement": "For a matrix with as many block rows as block columns the products handed to ARPACK++ are those of the matrix of numbers, with no access outside the arrays and whatever was computed before; given a right answer of ARPACK, computeSymMaxMagnitude/computeSymMinMagnitude return an eigenpair of largest/smallest magnitude, computeNonSymMax/computeNonSymMin the largest/smallest factor by which the matrix stretches a vector, with a vector stretched by it, computeNonSymCond2 the quotient of these factors, computeSymCond2 the spectral condition number if the matrix is positive definite. Matrices that are not square are refused by the symmetric functions. Not as documented: for negative definite matrices computeSymCond2 returns the reciprocal, for indefinite ones the quotient of the two ends of the spectrum; matrices with more block rows than block columns are refused as having fewer rows, and with more block columns the products leave their vectors, because the wrapper exchanges N() and M().", "quantifier": "every matrix, block size, vector, answer of ARPACK and history of products", "why_tests_cant": "the claim is over all matrices and all right answers of ARPACK", "anchors": ["dune/istl/eigenvalue/arpackpp.hh: ArPackPlusPlus_BCRSMatrixWrapper, ArPackPlusPlus_Algorithms"]}
{"id": "C93", "title": "The Hierarchy container keeps its levels consistent", "statement": "After any sequence of the calls on Hierarchy objects and their iterators (construction from an object, empty, copy construction, destruction, addCoarser, addRedistributedOnCoarsest, finest, coarsest, ++, --, addRedistributed, deleteRedistributed, writing to objects) every hierarchy has one definite sequence of levels: the walk with ++ from the finest and with -- from the coarsest level end and are opposite to each other, levels() is their length, no level comes twice or belongs to two hierarchies. A call works exactly if what it names exists. addCoarser appends one new level, addRedistributedOnCoarsest changes the last level only, the iterator calls their level only, everything else leaves the hierarchy alone; the copy constructor makes a deep copy with new, pairwise different objects of equal values. An iterator keeps its level and the finer ones alive whatever happens to the hierarchies, but not the coarser ones: after the hierarchy is destroyed ++ gives the end. Not so: the copy assignment shares the levels, after which levels() and the walk disagree, and an exception from the construction of the object in addCoarser leaves a coarsest level without object.", "quantifier": "every sequence of calls on any number of hierarchies and iterators, every object type and value", "why_tests_cant": "tests build one hierarchy and walk it once; the interaction of several owners, weak pointers, copies and destruction orders cannot be enumerated", "anchors": ["dune/istl/paamg/hierarchy.hh: Hierarchy, Hierarchy::Element, LevelIterator, addCoarser, addRedistributedOnCoarsest, finest, coarsest, levels"]}
{"id": "C94", "title": "The text output functions write every entry of the container, in order, in the documented layout", "statement": "Writing a vector with printvector writes every number of the nested vector exactly once, in iteration order, in lines of the given number of columns; writeVectorToMatlab writes one number per line; printmatrix writes, for a matrix with no empty rows and columns, every row of the assembled matrix, stored entries as values and all others as dots; printSparseMatrix writes every stored block exactly once, in row order, and ends for every positive width.", "quantifier": "for every nested vector and block matrix, every number of columns and every width", "why_tests_cant": "the containers, their nesting, their patterns and the line widths are unbounded; a test compares one output", "anchors": ["dune/istl/io.hh: printvector, recursive_printvector, printmatrix, print_row, fill_row, printSparseMatrix, writeVectorToMatlab"]}
{"id": "C95", "title": "The SVG picture of a matrix shows every stored number once, at its place, without overlap or clipping", "statement": "If the blocks of a (nested) block matrix line up, writeSVGMatrix draws for every stored number exactly one square of the given block size, labelled with its row and column indices, at the place given by the widths and heights of the blocks before it; nothing is clipped, all squares keep the given space from each other and from the border, and the header scales the picture to the given width or height.", "quantifier": "for every nesting and pattern whose blocks line up, every block size and space (sizes below 2^64-1), every width and height", "why_tests_cant": "nesting depth, block sizes and patterns are unbounded and the offsets are computed from the blocks first met", "anchors": ["dune/istl/io.hh: writeSVGMatrix, writeSVGMatrixHeader, DefaultSVGMatrixOptions"]}
{"id": "C96", "title": "The condition estimate of CG is a lower bound of the condition number", "statement": "With a symmetric positive definite operator and preconditioner, the condition_estimate that a CG run reports (HAVE_ARPACKPP, estimation requested) is at least 1 and never exceeds the condition number M/m of the preconditioned operator, for exact arithmetic and a correct eigensolver; it is the quotient of the largest and smallest eigenvalue of the tridiagonal matrix of the run, both of which are Rayleigh quotients on the Krylov space, and if the run ends with defect zero both are eigenvalues of the preconditioned operator. An estimate is attempted exactly by runs that return normally after at least one iteration. A converged run fills the matrix from numbers it kept and does nothing undefined; a run that gives up at maxit without converging reads past the end of the kept numbers (undefined behaviour).", "quantifier": "all operators, preconditioners, start vectors, right hand sides, reductions, maxit and numbers of iterations", "why_tests_cant": "holds for every spectrum and every number of iterations; a test compares one estimate with one matrix; the out of bounds read depends on how the run ends", "anchors": ["dune/istl/solvers.hh: CGSolver::apply, condition_estimate_", "dune/istl/eigenvalue/arpackpp.hh: computeSymMinMagnitude, computeSymMaxMagnitude"]}
{"id": "C97", "title": "Relaxation converges for diagonally dominant matrices, and only with a relaxation factor between 0 and 2", "statement": "For every strictly diagonally dominant block matrix (not necessarily symmetric; off-diagonal blocks of a row together at most q < 1 times as large as the diagonal block) one Jacobi, Gauss-Seidel or SOR sweep, forward or backward, with 0 < w <= 1 shrinks the largest block of the error by the factor 1 - w(1-q); apply of SeqJac, SeqSOR/SeqGS and SeqSSOR with s sweeps approximates the error up to (1 - w(1-q))^s; and LoopSolver with them converges: every run ends normally, error and defects decrease by this factor per iteration, and each reduction is reached within a number of iterations that does not depend on right hand side or start vector. Conversely, for every real matrix with non-zero diagonal, if the SeqSOR or SeqSSOR iteration converges from each start vector, then 0 < w < 2.", "quantifier": "all diagonally dominant block matrices, norms of blocks, right hand sides, start vectors, numbers of sweeps, relaxation factors, reductions and iteration limits; all real matrices for the converse", "why_tests_cant": "convergence for all start vectors and the impossibility outside (0,2) cannot be seen from runs", "anchors": ["dune/istl/gsetc.hh: dbgs, bsorf, bsorb, dbjac", "dune/istl/preconditioners.hh: SeqJac, SeqSOR, SeqSSOR", "dune/istl/solvers.hh: LoopSolver"]}
{"id": "C98", "title": "BlockVector objects are independent values and their windows are views, over every history of calls", "statement": "After every history of constructions, copies, moves, swaps, reserve, resize, assignments, element writes and destructions, in which any allocation or element copy may throw, every BlockVector shows (size() and operator[]) exactly the blocks its own calls gave it: a copy is independent of its origin, a move or swap exchanges values, resize keeps the leading blocks and value-initialises new ones, and a call that throws changes nothing (a failing copy assignment at most overwrites leading blocks of its target). Moves, swaps, access and destruction never throw. Every live block of memory belongs to exactly one object. reserve(c) gives capacity c, and resizing within the capacity needs no allocation. A BlockVectorWindow shows the blocks of the vector it was put on, writes into exactly these, its copy is the same view, its assignment copies blocks, its conversion is a new independent vector; it stays valid during every call that stays within the capacity, and follows the storage through moves and swaps.", "quantifier": "all element types, all numbers of objects and windows, all histories of calls, all points at which allocations or copies fail", "why_tests_cant": "Tests run a few calls in a fixed order and do not let the n-th allocation or copy fail at every point of every history; pointer and size cached in the base class may fall out of step with the storage only on rare paths.", "anchors": ["dune/istl/bvector.hh: BlockVector, BlockVectorWindow, ScopeGuard", "dune/istl/basearray.hh: base_array_unmanaged"]}
{"id": "C99", "title": "Loops with iterators over the rows and entries of a matrix", "statement": "The loop over begin()..end() of a BCRSMatrix and of each of its rows, in either loop also from beforeEnd() down to beforeBegin(), ends without undefined behaviour and executes its body exactly once for each stored entry, in the order of the loop, with i.index(), j.index() and *j being row, column and value; upwards this is the lexicographic order, downwards its reverse; a loop that only reads changes nothing; a loop that assigns *j changes exactly the entries assigned, keeps sizes and pattern and leaves every other matrix alone. find(c) of a row is end() exactly if there is no entry in column c, else an iterator to it, from which ++ visits the columns from c on and -- those from c down. Row iterators behave like integers under ++, --, +=, [], == and difference, with begin, end, beforeEnd, beforeBegin at 0, N, N-1, -1.", "quantifier": "every sequence of statements building, copying, assigning, changing and destroying matrices; every matrix of it; every body (function of indices, value and a state, with or without assignment to *j); both directions of both loops; every width of size_type into which the sizes fit, including matrices without rows and empty rows", "why_tests_cant": "A test runs one loop on one matrix; beforeEnd() and beforeBegin() rely on wrap-around of an unsigned number, which only matters for empty rows and matrices without rows.", "anchors": ["dune/istl/bcrsmatrix.hh: RealRowIterator, begin, end, beforeEnd, beforeBegin", "dune/istl/basearray.hh: compressed_base_array_unmanaged::RealIterator, begin, end, beforeEnd, beforeBegin, find"]}
{"id": "C100", "title": "Loops with iterators over BlockVector and BlockVectorWindow", "statement": "In every state a program can reach, the loop from begin() to end() over a vector or over a window, or from beforeEnd() down to beforeBegin(), ends without undefined behaviour (also for no blocks) and does what the loop over the indices does on plain lists: its body sees each block once, in order, with its index, and an assignment through the iterator changes exactly that block of the vector; no other vector changes and nothing is moved in memory. find(i) is end() exactly for i >= size(), otherwise an iterator to block i. end()-begin() is the size; +=, [], ==, difference, ++ and -- agree with each other.", "quantifier": "every history of calls on vectors and windows, also with failing allocations; every vector and every window on a part of a vector; every body; both directions; every starting point given by find", "why_tests_cant": "A test runs one loop on one vector with one history.", "anchors": ["dune/istl/basearray.hh: base_array_unmanaged::RealIterator, begin, end, beforeEnd, beforeBegin, find", "dune/istl/bvector.hh: BlockVector, BlockVectorWindow"]}
{"id": "C101", "title": "Histories of storing and loading MatrixMarket files by name", "statement": "After any sequence of storeMatrixMarket(object, name, prec) calls, loadMatrixMarket(object, name) returns the matrix or vector that was stored last in the file the name stands for (itself with extension .mm or .mtx, otherwise name.mm), if the precision asked for loses no digits; a name without extension and without .mm file is loaded from name.mtx; all other files stay as they were. A file that cannot be opened is an IOError, a vector loaded as a matrix or a matrix loaded as a vector a MatrixMarketFormatError, and the matrix is not touched. Counterexamples: an older name.mm hides a newer name.mtx; the default precision (6 digits) loses values.", "quantifier": "every sequence of stores of matrices and vectors of any size and block size under any names with any precisions, every initial content of the file system, every printer and parser of numbers that is lossless at the precision used", "why_tests_cant": "Names, extensions and overwriting interact over a history; a test stores one object under one name and loads it back.", "anchors": ["dune/istl/matrixmarket.hh: storeMatrixMarket, loadMatrixMarket, splitFilename, writeMatrixMarket, readMatrixMarket"]}
{"id": "C102", "title": "Statements on rows of matrices", "statement": "After any program over any number of BCRSMatrix variables, A[r] = k, A[r] *= k, A[r] /= k change every stored value of row r of A as written; A[r] += B[s], A[r] -= B[s], A[r].axpy(a, B[s]) change exactly the values of row r in the columns stored in B[s], and throw an ISTLError if one of them is not stored in A[r]; A[r] = B[s] for rows with the same columns makes row r equal to row s. B may be A and s may be r. Patterns, other rows and all other variables (also copies that share the pattern) stay the same, and the program can go on. Counterexample: A[r] = B[s] with other columns writes into the index array that copies of A share and changes their pattern.", "quantifier": "every program over any number of matrices (construction in every mode, copies, assignments, moves, destruction, modification), every two rows, every function of the entries", "why_tests_cant": "Rows are windows into arrays that several matrices may share; a test looks at one matrix that owns its arrays and not at what happens to the others.", "anchors": ["dune/istl/bvector.hh: CompressedBlockVectorWindow, compressed_block_vector_unmanaged", "dune/istl/basearray.hh: compressed_base_array_unmanaged", "dune/istl/bcrsmatrix.hh: BCRSMatrix::operator[]"]}
{"id": "C103", "title": "Programs with statements on rows; norms, scalar products and lookups of rows", "statement": "In every program of statements on whole matrices, on entries and on rows (A[r] = k, *=, /=, +=, -=, axpy, A[r] = B[s] with the same columns, try { A[r] += B[s]; } catch) over any number of BCRSMatrix variables every variable shows at the end what independent variables would have. A[r] += B[s] throws exactly if a column of B[s] is not stored in A[r]; if the exception is caught, exactly the columns before the first missing one have been combined. After any such program A[r][c] is the stored value or an ISTLError, norms and dim() of a row visit every stored value once and in order, and A[r]*B[s] is the sum over the columns of A[r] of the products if all of them are stored in B[s], otherwise an ISTLError.", "quantifier": "every program of any length over any number of matrices, every two rows, every function of the entries, every product with values in an additive monoid", "why_tests_cant": "Aliasing of rows, shared index arrays and partial effects of exceptions combine over a history.", "anchors": ["dune/istl/bvector.hh: CompressedBlockVectorWindow, compressed_block_vector_unmanaged (operator+=, operator*, one_norm, two_norm2, infinity_norm, dim)", "dune/istl/basearray.hh: compressed_base_array_unmanaged::operator[]", "dune/istl/bcrsmatrix.hh: BCRSMatrix"]}
{"id": "C104", "title": "With DUNE_ISTL_WITH_CHECKING statements on rows and entries never run into undefined behaviour", "statement": "With DUNE_ISTL_WITH_CHECKING, in every program over any number of BCRSMatrix variables with statements on whole matrices, on entries (A[r][c] = ..., +=) and on rows (A[r] = k, *=, +=, -=, axpy, A[r] = B[s]) and arbitrary row and column numbers, each statement on rows or entries either has its meaning or throws: BCRSMatrixError for a row that does not exist, ISTLError for an entry that is not in the pattern, for columns of B[s] that are missing in A[r] and for assignment of rows of different size. A statement that throws changes nothing, also not partially. Without the checks a row number out of range is undefined behaviour (counterexample).", "quantifier": "every program of any length, every row and column number (existing or not); variables exist; assigned rows of the same size have the same columns", "why_tests_cant": "All combinations of wrong numbers, aliased rows and shared arrays over a history; the checks are usually compiled out in tests.", "anchors": ["dune/istl/bvector.hh: compressed_block_vector_unmanaged::includesindexset, operator+=, CompressedBlockVectorWindow::operator=", "dune/istl/basearray.hh: compressed_base_array_unmanaged", "dune/istl/bcrsmatrix.hh: BCRSMatrix::operator[]"]}
{"id": "C105", "title": "Loops with iterators over the rows of a dense Matrix", "statement": "For a Matrix with n rows and m > 0 columns a loop from begin() to end() with ++, or from beforeEnd() to beforeBegin() with --, that reads and writes the entries of every row ends, accesses nothing outside, and visits every entry exactly once, row by row in its direction, with the right index(); the matrix afterwards has exactly the written values. find(i) gives row i, or end() if there is no row i. For m = 0 all iterators are equal: the loop ends at once and visits none of the N() rows, and find(i) is end() for existing rows.", "quantifier": "every size (also no rows), every content, every loop body that computes new entries from index, column, old value and a state, both directions", "why_tests_cant": "Addresses before the array and wrap-around of unsigned numbers only show at the ends of backward loops and for degenerate sizes.", "anchors": ["dune/istl/matrix.hh: DenseMatrixBase::Iterator, ConstIterator, begin, end, beforeEnd, beforeBegin, rend, find"]}
{"id": "C106", "title": "Loops with iterators over the blocks of a VariableBlockVector", "statement": "A loop from begin() to end() with ++ over a VariableBlockVector with n blocks visits v[0], ..., v[n-1] once each, with their numbers as index(), and its result is that of the bodies one after the other (also if one throws). A loop from beforeEnd() to beforeBegin() with -- visits the windows once each from the last to the first, but beforeEnd() has index 0: the k-th block visited, v[n-1-k], has index() -k modulo 2^64, which for n >= 2 is never its number. find(i) is an iterator to v[i] with index i, or equal to end() if there is no block i.", "quantifier": "every number and size of blocks (also none), every loop body that gets the index and the window, both directions, every i", "why_tests_cant": "The index of a backward loop is only wrong from the second block on, and only matters for bodies that use it; a test of the values visited does not see it.", "anchors": ["dune/istl/vbvector.hh: VariableBlockVector::begin, end, beforeEnd, beforeBegin, find, Iterator, ConstIterator"]}
{"id": "C107", "title": "The dense Matrix with checks compiled in", "statement": "With DUNE_ISTL_WITH_CHECKING: A[i][j] gives the element or throws ISTLError, for all i, j; +=, -= compute or throw RangeError if the sizes differ; mv, umv, mmv, usmv, mtv, umtv, mmtv, usmtv, umhv, mmhv, usmhv and A*x give the product, or throw ISTLError if the size of a vector does not fit, for vectors of any size; nothing outside is accessed. A*D for an n x l and a k x m matrix does not compare sizes: for l <= k it is the product with the first l rows of D, for l > k it throws (unless n = 0 or m = 0). exists(i,j) does not look at j: it is true if i < N() and i < M(), otherwise it throws; so it throws for existing entries of tall matrices and is true for columns outside.", "quantifier": "every matrix size and content, every size and content of the arguments, every pair of numbers i, j, every block type and block action", "why_tests_cant": "Tests run without the switch or with matching sizes; a wrong variable in a check only shows for non-square matrices.", "anchors": ["dune/istl/matrix.hh: Matrix::operator[], operator+=, operator-=, operator*, mv, mtv, umv, mmv, usmv, umtv, mmtv, usmtv, umhv, mmhv, usmhv, exists", "dune/istl/basearray.hh: base_array_unmanaged::operator[]"]}
