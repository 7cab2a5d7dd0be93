# Formal model of dune-istl in Lean 4 — design

## 1. Approach
* The code in `/repo/dune/istl` is modelled function by function as total, computable Lean functions
  in `lean/Verif/Model/*.lean`. Every definition cites the file and lines it models.
* Small specifications that do not mention the model's helpers are in `lean/Verif/Spec/*.lean`.
* Property theorems are in `lean/Verif/Props/*.lean`, each followed by an `example` that instantiates its
  hypotheses on a concrete, non-trivial case. Helper lemmas are in `lean/Verif/Lemmas/*.lean` or marked as such.
* Exceptions are values: `Res.ok a | Res.throw e | Res.ub`. `ub` marks executions the C++ standard does not define
  (out-of-bounds reads, null dereference), so "no undefined behaviour" is provable and *is* proved where claimed.
* Loops become structural recursion / folds over the index range they run over. `while` loops whose termination is
  itself a property are modelled with an explicit step function plus fuel, and a theorem says how much fuel suffices
  (or that no fuel suffices, for the non-terminating cases found).

## 2. Number model
Arithmetic is exact. Matrix blocks are elements of an arbitrary (non-commutative) ring, or — for the
matrix-vector kernels — of an arbitrary additive group acting additively on vector blocks (this covers
rectangular `FieldMatrix` blocks and nested `BCRSMatrix` blocks). Rounding, overflow of floating point numbers,
NaN and SIMD lanes are not modelled except where said (`Iteration::step` has an explicit non-finite defect).
`size_type` is ℕ; overflow of machine integers is not modelled unless said.
Block inversion (`FieldMatrix::invert`, dune-common) is a parameter `inv : B → Option B` with the single law
"`inv a = some b` iff `b` is a two-sided inverse of `a`".

## 3. Trusted base
* Lean 4.33.0's kernel; Mathlib's definitions used in statements (`Finset.sum`, `Ring`, `Module`, `List.Pairwise`…).
* Axioms: only `propext`, `Classical.choice`, `Quot.sound`. `AXIOMS.txt` is the output of `#print axioms` for every theorem named in
  `MANIFEST.json`; no axiom is added, and nothing is evaluated by compiled code (`decide +kernel` is checked by the kernel).
* The correspondence between the Lean definitions and the C++ text (by inspection; each definition cites its source).
* dune-common (FieldMatrix, iterators, ParallelIndexSet, Communicator), the C++ standard library and MPI are
  represented by their documented contracts.

## 4. Per-property plan
See `MANIFEST.json` for the status. (M = what is modelled, P = how it is proved.)

| id | M | P |
|----|---|---|
| C01 | `lower_bound` as the halving loop over an index array; `find`, `operator[]`, `exists` | loop invariant on the halving search, strong induction on the interval length |
| C02, C03 | index array `j_`, row windows, `setrowsize … endindices` on explicit memory | invariant relating each row window to the set of inserted columns, induction over the call history |
| C04 | `CreateIterator` with per-row set, announced / unannounced nnz | induction over rows |
| C05, C06 | implicit mode memory layout, `entry`, overflow map, in-place `compress` on explicit memory | invariant of the merge/copy pointer versus the unread part; failure as a prefix-sum condition |
| C07 | build stage/mode state machine, all construction calls | case analysis + induction over call sequences |
| C08 | heap of shared index arrays, several matrices | simulation of the heap machine by a pure value machine for packed matrices; counter-example for padded matrices |
| C09–C12 | row iteration kernels | sums over rows, induction over the entry list |
| C13 | `MatrixIndexSet` with both row representations | invariant "row = sorted set of added indices" |
| C14 | `VariableBlockVector` windows | prefix sums |
| C15 | dense `Matrix` | index calculation in row-major storage |
| C16 | three traversers, pattern initialiser, accumulator | structural product = relational composition; merge-walk invariant |
| C17–C20 | ILU(0), back-solve, CRS conversion | elimination invariant over a non-commutative ring |
| C21 | ILU(n) symbolic phase | level-of-fill recursion |
| C22, C23 | ILDL, DILU | same technique as C17 |
| C24, C25 | gsetc kernels | triangular induction over rows |
| C26 | preconditioners as operators | linearity from the kernels |
| C27, C33 | `Iteration` object, `apply` with reduction | decision logic, trace induction |
| C28, C29 | solver main loops over abstract operators | loop invariants, termination measures |
| C30–C32 | CG/gradient/Givens algebra | induction on iterations, field identities |
| C34 | constructors' category checks | case analysis |
| C35, C36 | processes as a finite family of index sets with attributes | sums over owners; delivery-order independence |
| C37 | BTD/BD matrices | elimination invariant |
| C38, C39 | BCCS conversion, assignment/ownership | counting-sort invariant; memory-state model |
| C40 | recursive flat traversal | induction on nested containers |
| C41–C43 | aggregation, BFS, renumbering | graph invariants |
| C44, C45 | Galerkin product, transfer | sums over fibres of the aggregate map |
| C46 | multigrid cycle, two-level method | invariant `rhs = rhs0 - A (update - lhs)`; recursion on levels |
| C47 | MatrixMarket writer/reader (`Model/Stream`, `Model/MatrixMarket`) | round trip over token lists |
| C48 | GMRes as the orthogonalisation of its directions, restarts | invariant of the Arnoldi relation through the Givens rotations; residual minimisation |
| C49 | UMFPack wrapper: conversion, subset solves, ownership of the factor handles | C38's counting invariant; state machine over histories |
| C50 | `MatrixGraph`, vertex/edge iterators, `findEdge` | index arithmetic around the diagonal |
| C51 | multigrid cycle as operator | adjoint calculus; energy of the error per level |
| C52 | Gauss–Seidel/SOR/SSOR/Jacobi on s.p.d. matrices | energy identity per row update; adjoint sweeps |
| C53 | `FastAMG` and its smoothers | fused sweep = sweep followed by defect; cycle invariant |
| C54 | `OverlappingSchwarzOperator`, `ParSSOR`, `BlockPreconditioner` on a family of processes | decomposition of the global vector; owner/overlap/copy case analysis |
| C55 | `NonoverlappingSchwarzOperator` incl. its set-up | counting of border contributions per owner |
| C56 | all ten iterative solvers on distributed vectors | simulation: every vector operation of the parallel run projects to the sequential one |
| C57 | `SeqOverlappingSchwarz`, its constructors, subdomain solvers (dense, ILU(0), ILU(n)) | loop invariant over subdomains, index maps; elimination without fill-in is exact |
| C58 | the same on s.p.d. matrices | energy identity per subdomain, adjoint of the reversed order, Cauchy–Schwarz for the additive mode |
| C59 | the AMG matrix hierarchy (sequential) | level loop invariant on top of C41/C44; composition of maps by exchanging sums; counting argument for nonzeros; loop invariants for recalculation and projection |
| C60 | `buildDependency` and the three criteria with the state of the criterion object, norm functor and parameters arbitrary | each pass is a fold over the off-diagonal entries; flags only ever added, so a level is the union of what its rows add; maxima characterised and unique; SPD diagonals from C59 for the hierarchy |
| C61 | `amgOf`: the cycle of C46 instantiated with the levels, maps, SOR/SSOR sweeps and array transfer operators of the built hierarchy (C59) | every level of the hierarchy meets `SpdHierarchy` (C51): adjoint transfers by C45, Galerkin identity by C44, smoothers by C52, regularity by finite dimension; CG by C30 |
| C62 | tuples as dependent functions on `Fin n`; blocks as records of products (`BlockOps`); row recursion of the steps with an arbitrary inner step | loops over `finRange` with updates; general sweep lemma; closure of `Implements` under nesting; negative result for `dbgs` |
| C63 | floating point values finite/inf/NaN, arbitrary monotone rounding with overflow; running maximum and NaN tracker | loop invariant on (maximum, tracker) |
| C64 | recursive nested matrix with the case of `MatrixDimension` at each level, wrap-around of the sentinel, the column-offset table, list of lines | induction on the nesting (`Layout`), loop invariants; disjointness of blocks |
| C65 | the number stored by `ScaledIdentityMatrix` and its loops | refinement to the dense matrix with Mathlib's `Matrix` |
| C66 | `gpApply` (Model/Krylov.lean) over an ordered field; sequence of states before the first restart | loop invariant: conjugate directions, orthogonal defects; dimension count |
| C67 | `KAMG::pre/apply`, `KAmgTwoGrid::apply` on the shared vectors (Model/KAmg.lean), GeneralizedPCGSolver with a stateful preconditioner | the nested solver run in the state monad equals the pure one, by induction over the levels; energy functional over the levels, C66 for the Krylov method |
| C68 | `PowerIteration_Algorithms` (Model/PowerIt.lean): the four algorithms with both flag values, the shared loop, `updateShiftMu` on the blocks of the iteration matrix, the iteration operator; solver and arithmetic are parameters | loop invariants; moments of a semidefinite map are log-convex, so Rayleigh quotients increase and residuals vanish; spectral theorem for the distance to an eigenvalue; induction over call histories for the matrix |
| C69 | no new code: `loopApply`, `gradApply` (Model/Solver.lean) over ℝ with the preconditioners of C26, C57, C61 | a form that is strictly reduced is contracted (compact unit sphere); defect norm and energy are equivalent; complete record of a run (`frame_full`); uniqueness makes the Schwarz corrections linear |
| C70 | `Spec/Selection` states the preference rules by counts and maxima (`wanted`, `wantedIsolated`, `Surrounded`, `Aggregation`); `Lemmas/Selection…5` prove that the candidate loops compute them, that the whole `buildAggregates` run is an `Aggregation`, and that any two `Aggregation`s agree. |
| C71 | `Model/Cholmod` (object state, `setMatrix`, `apply` on references into a memory, live factors); `Lemmas/Cholmod…3` generalise the array filling of C49 to spare capacity and the upper triangle, fix the index map for clean objects, and re-index the solved system; histories by induction on the list of calls. |
| C72 | `Model/ParCoarsen` (excluded flags, subgraph, loop of `buildCoarseIndexSet` on top of the breadth first search of C43, remote lists, synchronisation, communication of the maps); loop invariant per process, membership invariants for the lists, then one global map read off at the owners; messages by the lemmas of C36. |
| C73 | `Model/ParGalerkin` (overlap vertices, both passes of `examine`, exchange of the diagonal), `Spec/ParGalerkin` (`OwnFirst`, `DistMat`, `coarseMat`, `OverlapPat`); invariants of the two passes give the pattern of every row; values by C44's loop; the sums over local indices become sums over global ones with C54's lemma; ownership of all members of an owned coarse index from uniqueness of owners; rows of overlap indices by walking along the aggregate. |
| C74 | `minState` (loop states of `minAdvance`, split into `minLanczos`, `minColumn`); ghost sequences for the Lanczos vectors, rotations, search directions | induction: three term recurrence and orthonormality; `A p_j` and the residual are the rotated basis; no breakdown while the defect is not zero; minimality by orthogonality; explicit run for the norm mismatch |
| C75 | `BiReach` (complete passes of the loop), `stab` (stabilising polynomial), `IsBicgResidual` | invariant over the passes with ghost residuals and directions of the biconjugate gradient method; the shadow functional sees only the leading coefficient of the polynomial; the ghost residuals are linearly independent |
| C76 | `FlexRun` (directions, conjugacy, minimality through all cycles), `cycleStart`, `lastStored` | the run is a sequence of states in which every slot holds a known direction (`RInv`, `CInv`); orthogonalisation loop over arbitrary slot sets; simulation between the states of the two solvers for the comparison with generalized PCG |
| C77 | blocks of memory held by each wrapper (`Model/Direct`), specification machine remembering the last matrix (`Spec/Direct`) | invariant: live blocks = blocks of the object + blocks of everybody else, as multisets; preserved by every call; the frame gives absence of leaks |
| C78 | same reader as C47 on defective texts; what a first line says (`Spec/MMDefect`) | word-by-word induction over the banner; every preamble reduces to the same run behind the size line; a predicate "never throws a format error" carried through all calls on the matrix |
| C79 | `bfs` of `Model/Graph`; walks and distances (`Spec/Bfs`) | loop invariant: before position i everything nearer than q, behind it everything at distance q |
| C80 | `Model/SubGraph` (constructor with its arrays, both iterators, index map, `findEdge`, the flags); `Spec/SubGraph` (induced subgraph) | invariant of the constructor: concatenated sorted target lists; reading back slices; skipping runs |
| C81 | `redistributeMatrix`, `redistribute`, `redistributeBackward` (matrixredistribute.hh, categories other than nonoverlapping) in `Model/Redistribute`: gather/scatter functors, three communications with flat buffers cut by the receiver's row sizes, pattern storage, Dirichlet rows; communication layer by its contract. `Spec/Redistribute` describes the new matrix entry by entry | messages = list of records (row, global column, value); folds over the records; uniqueness of the old owner |
| C82 | `Model/Repartition`: `buildCommunication` and all it calls, message by message; MPI collectives, `Comm_split` and index-set sorting by contract | each fold characterised by membership (`Lemmas/Repartition{,2,3,4}`); `NewSet` from sortedness and `mergeVec` = set difference; interfaces by extensionality of ascending lists; the operator from C81 with closedness of the new sets |
| C83 | `Model/GraphRepart`: `fillIndexSetHoles`, `ParmetisDuneIndexMap`, `getAdjArrays`; collectives by contract | holes of all processes are disjoint intervals above the largest index; numbers are prefix sums plus rank among owners (`Lemmas/GraphRepart{,2,3}`); arrays by a fold invariant over the vertices |
| C84 | `Model/DomainMap`: `getDomain` with its ring exchange, the vector `setPartition`, `graphRepartition`, `commGraphRepartition`, `isValidGraph`; the partitioner is an arbitrary result | ring = all rows (modular arithmetic); invariants of the two assignment loops (`Lemmas/DomainMap{,2}`); the assignment as a function of the global index by uniqueness of owners; C36 for the communication, C82 for the rest |
| C85 | `Model/ParAmg`: `AMG::apply`, `mgc`, `moveToCoarseLevel`, `moveToFineLevel`, the smoother appliers with their communication, the parallel transfer and the redistribution between levels, on distributed vectors; all processes in lock step, arrival orders arbitrary per level | simulation relation: on each level the iterate and update are consistent with, the right hand side projected from, the global ones; one lemma per step (C36, C54, C81), then C46 for the global cycle |
| C86 | `Model/ParHierarchy`: the level loop of `MatrixHierarchy::build` on all processes as a relation (arrival orders and the unstable sort are not determined), with the models of C72/C73 for the steps; aggregation is an arbitrary function | invariant "the level holds a global matrix with complete overlap rows and a symmetric coupling graph" carried through C73 (determinism of the steps + congruence on the processes), then induction over the run; composition with C85 |
| C87 | `Model/ParMM`: the index file as characters (on the streams of C47), file names with rank and extension, a file system as a map, the reader's loops. Round trip for every permutation of all writes of all processes (names are injective in name, rank, extension; induction over records and neighbours); findings for cut files. |
| C88 | `Model/AmgPre`: the scan of a row, the loop over all rows, the iterators of `pre`/`post` over smoothers and vectors as positions, `pre` on all processes with `copyOwnerToAll`. Induction over the entries of a row and over rows; in parallel with C36 and the decomposition of C54. |
| C89 | `Model/SubAggregate`: the flags, the subgraph, its vertices and edges and the loop of the aggregator over them. A simulation (`Lemmas/SubAggregator`): the aggregator never looks at the map of a vertex no edge leads to, so the run over the own vertices is the run of C41 over all vertices with the others excluded; then C41 and C80. The assumption `AggrOk` of C86 follows. |
| C90 | `Model/AmgConfig`: the constructor of the AMG from a ParameterTree and the factory entry, key by key; conversions of texts are arbitrary functions. `Spec/AmgConfig` states the table of keys; every setter is a lens, so a successful run is read off step by step; acceptance iff `Valid`, by a two-outcome predicate closed under bind. |
| C91 | `Model/SolverFactory`: the two global factories of an operator type as a state, the registered creators, the constructors with a tree, the wrapping, `getSolverFromFactory` as definition followed by creation; numerical constructions are arbitrary. `Spec/SolverFactory` has the tables of parameters. Frame lemma over histories; creation depends only on the named entries. |
| C92 | `Model/Arpack`: the matrix wrapper with checked arrays and vectors, the six functions with ARPACK++ as a parameter. `Spec/Arpack`: matrix of numbers, eigenpairs, stretching factors, `Sound` (ARPACK's answers are right). Loop invariants for the copies, C09 for the products, the spectral theorem of Mathlib for the extremal stretching. |
| C93 | `Model/HierList`: heaps of list elements and objects, hierarchy objects and iterators as owners, `weak_ptr::lock` by ownership. `Spec/HierList`: what the two walks and `levels()` show. Invariant (doubly linked list from coarse to fine, `finer_` older) kept by every call; loop invariant of the copy constructor; ownership by reachability. |
| C94 | `Model/TextOut`: the output functions of io.hh as writes to a stream of characters and numbers (formatting of a number is opaque), recursion over `NVec`/`MMat`, row search of `print_row`/`fill_row`, the double loop of `printSparseMatrix` with fuel-free termination. `Spec/TextOut`: lines and cells of the text. Induction over the nesting and the loops. |
| C95 | `Model/Svg`: `Impl::writeSVGMatrix` as a list of elements (rectangle, begin and end of a nested picture) with wrapping `size_t`, the two passes over the stored blocks, the header with exact numbers. `Spec/Svg`: a viewer (`draw`) with nested coordinates and clipping, and the places the numbers belong to (`Pic`). Induction over the nesting, loop invariants for both passes. |
| C96 | `Model/CondEst`: the lists `lambdas`, `betas` of `CGSolver::apply`, the tridiagonal matrix with its pattern and entries, the two calls of ARPACK++ (contract of C92) and the quotient. Lanczos identities of the run (`Lemmas/CondEst2`): with `V` the preconditioned defects, scaled, `B A V = V T` + a multiple of the last defect, and `V` orthonormal for `g(B^-1 .,.)`; hence an eigenvector of `T` gives a vector whose Rayleigh quotient is the eigenvalue; extremal ones are bounded by `m`, `M`. |
| C97 | Kernels of C25/C26 and `LoopSolver` of C27. `Spec/Dominant`: dominance in a norm of blocks, `ConvergesMax`. Row by row: the equation of a sweep (C25) gives the new error of a row from errors that are already small; LoopSolver through the frame lemma; defect bounds through the two-sided bound of `A`. Kahan: the error propagation of a sweep is `N^-1 M` with triangular matrices, determinant `(1-w)^n`, which is below one if all powers tend to zero. |
| C98 | `Model/BlockVec`: worlds of `BlockVector` objects (storage plus cached pointer and size), windows, and a memory whose blocks hold exactly the constructed elements; `std::vector` operations by their contract, each with the decisions of the environment (allocation fails, k-th copy throws, extra capacity). `Spec/BlockVec`: values as lists, effect of every call, reachable states, windows as views. Invariant: every object is in step with its storage, blocks are owned exactly once; each call is a transition of one storage (`Trans`) or a permutation of names. |
| C99 | `Model/Iter`: row iterators (array of rows, position modulo the range of `size_type`), entry iterators (two pointers, position), `find`, loops as an inductive relation (a loop that does not end has no outcome) with user bodies that may write through `*j`. `Spec/Iter`: list of visits, assignments asked for. Loop rule with an invariant indexed by the number of steps; a write through an iterator is the same write as `A[i][c] = y` of C08 |
| C100 | `Model/VecIter`: iterators of vectors and windows as base pointer and signed distance, over the worlds of C98. `Spec/VecIter`: the same loop over indices on lists. Loop rule of C99; a write through an iterator is the `x[i] = b` of C98 |
| C101 | `Model/SeqMM`: sequential `store/loadMatrixMarket` over the file system and the reader/writer of C47, number of digits from `prec`. `Spec/SeqMM`: relation between names and files, histories, the last store in a file. Invariant by induction over the history; round trips from C47; format errors of the wrong kind from C78. |
| C102 | `Model/RowStmt`: `CompressedBlockVectorWindow` (assignment, scaling, `+=`, `-=`, `axpy`, `[]`, copy) over the worlds of C08, by the addresses of `Model/Iter`. `Spec/RowStmt`: value in a column, combined rows. Induction over the loops: after each step the world represents the state of a program with more entry assignments (`Done`), so C08 gives the frame. |
| C103 | `Model/RowProg`: statements of C08 and C102 in one program, with a caught exception (`tryRangeM`: the body throws before it writes); loops of norms, scalar product, `[]`. `Spec/RowProg`: meaning for independent values. Each statement keeps the invariant of C08 (`exec_inv`), induction over the program. |
| C104 | `Model/RowChk`: the checks under `DUNE_ISTL_WITH_CHECKING` in front of the statements of C102 (`check`, then `effect`); exceptions caught and noted (`runChk`). `Spec/RowChk`: the exception of each statement from the values alone. The check succeeds exactly if the precondition of C103 holds (`includes_eq`, `access_eq`), induction over the program. |
| C105 | `Model/DenseIter`: row number, address modulo W and size; loops as a relation (no result if they do not end). `Spec/DenseIter`: fold over the entries in row order. Position after k steps (`at'`), induction over the rows left; values from `DMat.Is`. |
| C106 | `Model/VbIter`: position (integer) and index modulo W; loops as a relation with an arbitrary body. `visitAll` runs the bodies for a list of pairs (window, index); induction over the windows left. |
| C107 | `Model/DenseChk`: the checks in front of the operations of `Model/Dense`; the product with checked accesses. From C15 if the sizes fit; the product by invariants over the three loops, the first missing row for the exception. |

## 5. Not modelled
Floating point rounding; iterators as C++ objects other than those of C99, C100, C105 and C106; template meta-programming; performance; output formatting other than
MatrixMarket tokens; external solvers (SuperLU, UMFPack, LDL, SPQR, CHOLMOD, ARPACK) beyond the conversion of the matrix and the
management of their handles; MPI transport itself; the partitioner (ParMETIS).

What is modelled, by file of `/repo/dune/istl`:

| file | modelled | left out |
|------|----------|----------|
| `basearray.hh`, `bvector.hh` | search in compressed rows, vector arithmetic, norms with NaN, memory management of `BlockVector`, windows (C98), iterators over compressed rows (C99) and over vectors (C100), statements on rows and functions of rows (C102, C103) | checks under `DUNE_ISTL_WITH_CHECKING` other than those on rows (C104) and on `Matrix` (C107) |
| `bcrsmatrix.hh` | all build modes on explicit memory, copy/assignment/destruction, kernels, norms | custom allocators |
| `matrixindexset.hh`, `matrixmatrix.hh`, `matrixutils.hh` | index sets, products, diagonal checks and counting, `MatrixDimension` | printing |
| `io.hh` | `writeMatrixToMatlab` (positions and values), `printvector`, `printmatrix`, `printSparseMatrix`, `writeVectorToMatlab` (C94), layout of `writeSVGMatrix` (C95) | number formatting, styles of the SVG |
| `matrix.hh`, `vbvector.hh`, `btdmatrix.hh`, `bdmatrix.hh`, `bccsmatrix*.hh`, `foreach.hh` | all operations on explicit storage, checks of `Matrix` (C107), iterators of `Matrix` (C105) and `VariableBlockVector` (C106) | `VariableBlockVector::rend` (does not compile) |
| `ilu.hh`, `ildl.hh`, `dilu.hh`, `gsetc.hh` | all kernels | recursion level > 2 of blocks |
| `preconditioners.hh`, `solver.hh`, `solvers.hh`, `operators.hh`, `scalarproducts.hh`, `solvercategory.hh` | all preconditioner and solver classes, constructors with a ParameterTree (C91), condition estimate of CG (C96) | output |
| `solverfactory.hh`, `solverregistry.hh`, `common/registry.hh` | factories, creators, histories of calls (C91) | template counters, type traits |
| `schwarz.hh`, `novlpschwarz.hh`, `owneroverlapcopy.hh` | operators, communication patterns, projections, scalar products | MPI buffers |
| `overlappingschwarz.hh`, `ilusubdomainsolver.hh` | constructors, three modes, dense/ILU(0)/ILU(n) subdomain solvers | SuperLU/UMFPack variants |
| `matrixmarket.hh` | reader and writer as functions on characters, parallel files with index sets and neighbours, histories of sequential files by name (C101) | failing writes of opened files |
| `umfpack.hh`, `ldl.hh`, `spqr.hh`, `superlu.hh`, `supermatrix.hh` | matrix conversion, all storage and handles, call histories | the libraries themselves, statistics output, copying solver objects |
| `cholmod.hh` | whole wrapper: matrix conversion, index map, solve calls, lifetime of factors | the library itself |
| `multitypeblockmatrix.hh`, `multitypeblockvector.hh` | arithmetic, products, norms, relaxation steps | output, type traits |
| `eigenvalue/poweriteration.hh` | all algorithms, iteration operator and matrix | output; floating point |
| `eigenvalue/arpackpp.hh` | wrapper and all six functions (C92) | ARPACK++ itself (contract), output, tolerances |
| `paamg/hierarchy.hh` | all of `Hierarchy` and `LevelIterator` (C93) | `addFiner` (cannot be instantiated), `originalFinest_`, allocators; smart pointers by contract |
| `paamg/*` | aggregation, renumbering, Galerkin product, transfer, parallel coarsening and distributed Galerkin product, dependency criteria, matrix graph, sequential matrix hierarchy, AMG (sequential and overlapping parallel, with accumulated levels), two-level, FastAMG and KAMG cycles | AMG cycle in the nonoverlapping category, additive parallel cycle |
| `repartition.hh`, `matrixredistribute.hh` | `buildCommunication`, redistribution of matrices and vectors, filling of index holes, arrays for the partitioner, `getDomain`, `graphRepartition`, `commGraphRepartition` | the partitioner itself; category nonoverlapping; weights of `commGraphRepartition` |

## 6. Disagreements between code and documentation found while modelling
Those with a theorem name have a machine-checked witness.

**bcrsmatrix.hh**
* Copying a random-mode matrix with over-estimated row sizes corrupts the source (`C08_gap_counterexample`).
* `nonzeroes()` caches its result also on the source of a copy; afterwards `A *= k` dereferences null (`C08_scale_after_copy_counterexample`).
* `setIndices`/`setIndicesNoSort` do not check the build stage (`C07_setIndices_counterexample`); `setSize` frees the data before it throws in implicit
  mode (`C07_setSize_counterexample`); `entry` is unchecked without `DUNE_ISTL_WITH_CHECKING` (`C07_unchecked_entry_counterexample`).
* Average row size 0 in implicit mode with any entry: `compress` writes through null (`C06_avg_zero_counterexample`).
* `if (notAllocated) return;` in `deallocate` tests an enumerator and never returns. Row-wise mode does not check the column bound. `nonzeroes()` is wrong in
  random mode when the announced number exceeds the sum of the row sizes, and for implicit matrices without rows.

**Kernels (ilu.hh, dilu.hh, gsetc.hh, btdmatrix.hh, matrixmatrix.hh)**
* `blockILU0Decomposition` runs past a row that has only entries left of the diagonal (`C18_missing_diagonal_counterexample`); `convertToCRS` writes out of bounds
  for a matrix without rows (`C20_empty_counterexample`); the ILU(n) fill pattern is not monotone in n (`C21_monotone_counterexample`).
* DILU dereferences the end iterator when a diagonal entry is missing (`C23_missing_diagonal_counterexample`).
* At block recursion level two `dbjac`, `bsorf`, `bsorb` move the exact solution (`C25_level2_*`).
* BTD: `solve` of an empty matrix throws `length_error` (`C37_empty_solve_counterexample`); `setSize` on a default-constructed matrix throws
  (`C37_default_setSize_counterexample`).
* `matMultMat` with a product without rows dereferences a null row (`C16_empty_counterexample`).

**Containers**
* `VariableBlockVector` with 0 blocks accesses `block[0]` (`C14_no_blocks_counterexample`); `Matrix` with 0 columns has `begin() == end()`
  (`C15_no_columns_counterexample`); `flatMatrixForEach` reads an uninitialised variable for 0 columns (`C40_no_columns_counterexample`).
* BCCS `operator=`: self-assignment empties the matrix (`C39_self_assignment_counterexample`); assigning a source without entries to a used target deletes
  twice (`C39_no_entries_counterexample`).

* `dbgs` on a `MultiTypeBlockMatrix` stores the correction as new iterate: zero is the only exact solution it keeps (`C62_dbgs_keeps_only_zero`,
  `C62_dbgs_counterexample`); `bsorf`/`bsorb` start the inner sweep from `x_i` instead of 0, so nested (inexact) sweeps move exact solutions
  (`C62_solutions_kept`).
* The maximum norm of a finite vector is NaN when the sum of the entries overflows, and NaN instead of infinity for infinite entries
  (`C63_overflow_counterexample`). `Matrix::infinity_norm` for types without NaN (matrix.hh:998) uses the undeclared variable `isNaN`: does not compile
  when instantiated.

**KAMG**
* Ignores that its coarse solver did not converge, where `AMG` throws (`C67_failure_ignored`). Each call of `pre` appends to `ksolvers` and nothing is ever removed.
  `KAmgTwoGrid::coarseSolver()` returns a `shared_ptr` as raw pointer: does not compile when instantiated. `apply` without `pre` hands the fine vectors to the coarse solver.

**Solvers**
* A NaN initial defect throws `SolverAbort` but leaves `res.converged == true` (`C27_abort_step0_counterexample`).
* The inner loop of `GeneralizedPCGSolver` ignores the result of `iteration.step`: when the defect becomes exactly zero before the end of a restart cycle the next
  step computes `0/0` and the solver throws `SolverAbort` although it has the solution (`C66_abort_counterexample`: diag(1,1,4), right hand side (1,1,1)).
* GPCG with restart 1, RFCG with mmax 0 and GMRes with restart 0 never return (`C28_*_diverges`); GMRes misses a restart when maxit = k·m+1
  (`C48_missing_restart_counterexample`) and ignores the `reduction` argument (`C33_gmres`); `apply(x,b,reduction,res)` does not restore the reduction when the
  solver throws (`C33_exception_counterexample`). MINRES measures its first defect as `‖Br‖` and all later ones as `sqrt (r,Br)`, so the reported reduction mixes two norms and a run can report convergence without any progress (`C74_norm_counterexample`). MINRES' rotation lacks a conjugation; CG's condition estimate reads out of bounds when not converged.

**Cholmod**
* `subIndices_` is never reset: `setMatrix` without an ignore field after one with a field keeps the old map (`C71_stale_map_counterexample`), and another field
  keeps the old numbers of the degrees of freedom it ignores (`C71_new_field_counterexample`); both give wrong solutions silently.
* `setMatrix` overwrites the factor without freeing it: every call but the last leaks one (`C71_history`).
* `apply` only compares the numbers of blocks of `x` and `b` with each other, not with the matrix.

**Parallel**
* The owner mask of the scalar product is cached by vector size only (`C35_stale_mask_counterexample`); `dot` does not conjugate (`C35_complex_counterexample`);
  `copyOwnerToAll` with different source and destination leaves owner entries untouched (`C36_source_dest_counterexample`).
* novlpschwarz.hh: with fully assembled border entries a pair whose owners differ is added twice; a copy index without a remote owner is undefined behaviour
  (both with counterexamples in C55). The right hand side must be zero at ghosts.

**MatrixMarket**
* Complex entries are written as `(re,im)` but read as two numbers (`C47_complex_counterexample`); skew-symmetric files with blocks under-estimate the number of
  entries (`C47_skew_blocks_counterexample`); a truncated file leads to an uninitialised row index (`C47_truncated_counterexample`).

**AMG**
* `buildCoarseIndexSet` promises the minimal global index of an aggregate for the coarse index; it takes the last one visited (`C72_minimum_counterexample`).
* `AggregatesPublisher::publish` computes the largest aggregate number with the marker `ISOLATED` included: with a periodic boundary and an isolated vertex the
  new numbers overflow (`C72_periodic_isolated_counterexample`).
* A vertex can lose its aggregate: a single vertex with a strong connection to an excluded border vertex is given that vertex' ISOLATED mark and is not counted
  as skipped (`C41_merge_excluded_counterexample`); aggregates of one vertex enter the printed average twice (`C41_statistics`).
* `coarsesolverconverged` is never reset (`C46_failure_is_sticky`); the additive variant does not clear the coarsest update
  (`C46_additive_history_counterexample`).
* FastAMG's pre-smoother updates the defect with A_ij instead of A_ji: wrong for unsymmetric matrices (counterexample in C53); the `symmetric` flag and the numbers
  of smoothing steps are ignored.
* Aggregation: minimum size above maximum size loops forever (`C41_sizes_counterexample`); merging may exceed the maximum size (`C42_merge_counterexample`);
  renumbering splits disconnected aggregates (`C43_disconnected_counterexample`); `findEdge` is off by one if the diagonal is not stored
  (`C50_no_diagonal_counterexample`); `admissible()`/`distance()` have no effect, and
  `nonisoNeighbourAggregate` never finds a neighbour (its loop runs over an empty range), so isolated aggregates are not tied to one
  neighbouring cluster (C70). `Aggregate::seed` puts the vertex number, not the aggregate number, into the connected aggregates, and
  `add(vertex)` leaves the front mark on the added vertex, which later aggregates count as a front neighbour (C70). For mutual
  connections a tie in the number of front neighbours is not needed to be appended after the best vertex, for one-way ones it is.
* SymmetricDependency/SymmetricMatrixDependency with a sign preserving norm isolate every vertex of a matrix whose off-diagonals are not negative,
  e.g. of the negative of an M-matrix (`C60_positive_couplings`); the AMG then does not coarsen. `SymmetricMatrixDependency` sets the flags of an
  edge only as seen from its source, so on a symmetric matrix an edge may be strong in one direction only (`C60_agree`).
* MatrixHierarchy: destroying an object on which `build` was not called dereferences an empty list (`C59_destroy_unbuilt_counterexample`);
  `getCoarsestAggregatesOnFinest` needs two levels (`C59_one_level_counterexample`), gives unknowns without aggregate the number 0 like one of the
  aggregates, and its first draw of each number is always 0 because of a misplaced cast; a second `build` on the same object is not prevented; the graphs of
  the level where the rate breaks down are not deleted.

**Overlapping Schwarz**
* The dense version relaxes the k-th row of a subdomain k+1 times (`C57_dense_relaxation_counterexample`); `ILUNSubdomainSolver`, documented as exact, is not
  (`C57_ilun_counterexample`). Rows in no subdomain are never updated.

**Sizes and output**
* `MatrixDimension<BCRSMatrix<B>>::coldim` for blocks of unknown size (numbers included) marks columns not yet seen with the largest `size_type` and then skips
  them with `(*it) >= 0`, always true for an unsigned type: an empty column makes the sum one too small (`C64_empty_columns`, matrixutils.hh:327-334).
* `rowdim(A,i)`/`coldim(A,c)` are `0` for empty rows and columns, so `writeMatrixToMatlab` of a `BCRSMatrix<double>` with an empty row shifts everything
  after it (`C64_empty_rows_shift`, `C64_hole_counterexample`); a matrix with `M() == 0` makes `M()-1` wrap (`C64_no_columns_counterexample`, io.hh:439).

**Stationary iterations**
* `SeqJac` without damping under `LoopSolver` diverges for symmetric positive definite matrices whose `2D - wA` is indefinite (`C69_jacobi_diverges`); nothing in
  the solver notices: it runs to `maxit` (defect growing by 1.8 per step in the example) and reports `converged = false`.

**Eigenvalue algorithms**
* A NaN residual ends every loop as a normal return (`C68_nan`, poweriteration.hh:278): zero start vector or nilpotent matrix give `lambda = NaN` without an exception.
* `getIterationMatrix()` called after a shifted run copies the unshifted matrix, and `updateShiftMu` returns early for the same shift (`C68_stale_matrix`,
  poweriteration.hh:987, 948); a missing diagonal block throws after `mu_` is stored (`C68_missing_diagonal`).
* The unshifted `applyInverseIteration<Solver,true>` calls the shifted one without its template arguments, so `avoidLinSolverCrime` is lost (`C68_flag_ignored`, line 360).
* TLIME's documented guarantee fails: `extrnl == true` although J contains an eigenvalue (`C68_tlime_external`); `mu_s_old` reads the caller's `lambda` in the first
  pass (harmless for `m >= 2`, `C68_lambda_output`); after an exception `getIterationCount()` is one more than the maximum.

**Direct solver wrappers** (C77)
* `UMFPack(file)`: the loaded factorization cannot be used, `apply` compares `b.dim()` with the size 0 of the absent matrix and throws (`C77_umfpack_file`, umfpack.hh:405);
  so the constructor that "only computes the decomposition once" works in the first run only.
* `free()` says "later calling apply will result in an error": `LDL` and `SPQR` return `converged = true` (`C77_apply_after_free`, ldl.hh:243, spqr.hh:262).
* `free()` twice is a double delete in all four classes (`C77_free_twice`): `BCCSMatrix::free` leaves its pointers (bccsmatrix.hh:139-147).
* `SPQR` never deletes `cc_` (`C77_spqr`); for `std::complex<double>` it allocates real arrays and writes complex entries (`C77_spqr_complex`, spqr.hh:294-305).
* `LDL`: failing `amd_order` leaves `Lx_`, `Li_` invalid, the destructor deletes them (`C77_ldl_ordering_failure`, ldl.hh:324); a throwing constructor leaks
  (`C77_ldl_constructor_leak`). After a zero pivot the object stays usable and `apply` reports convergence (`demoLdl`).
* `UMFPack` and `SuperLU` ignore the status of the factorization and of the solve: `converged = true` for singular matrices (`solved false` in `C77_umfpack`, `C77_superlu`).
* Empty matrices leak (`C77_empty_leaks`): the guards test `N()+M() > 0` but the arrays are always allocated.

**Matrix Market, defective files** (C78)
* The reader says "Using default: ... coordinate real general" for an unusable banner, but keeps what it had understood: `matrix array foo general` is
  refused as an array (`C78_default_counterexample`, matrixmarket.hh:982-989).
* Row index 0 (or too large) writes outside the container of rows (`C78_index_out_of_range_counterexample`, matrixmarket.hh:785-790); column indices of general
  matrices are stored unchecked (`C78_column_counterexample`).
* Vector files with too few numbers store uninitialised values (`C78_vector_truncated_counterexample`, matrixmarket.hh:909-920).

**Subgraphs** (C80)
* For an empty graph the constructor returns before `noEdges_` is set; `PropertiesGraph` then sizes its edge properties by it (`C80_empty_uninitialised`,
  graph.hh:1993-1994, 2370): a process without unknowns has undefined behaviour in the parallel AMG.
- **C81 (`C81_overlap_changes_operator`, `C81_overlap_lost`)**: `redistributeMatrix` tests `attribute() != 2` "only send index if col is no
  ghost" (matrixredistribute.hh:545, 629), but 2 is `OwnerOverlapCopyAttributeSet::overlap` (owneroverlapcopy.hh:60-62). With indices of
  attribute overlap every coupling of an owned row to such an index is dropped, even when the decomposition does not change.
- Also in matrixredistribute.hh (read, not a theorem): `MatrixRowGatherScatter::gather` dereferences the end iterator at the end of a row
  (`Data(numlimits,*col)`, line 620); this is reached in the nonoverlapping category, when the receiver's copy row is longer.
- C82: `buildCommunication` collects as neighbours only the destinations of the end points of edges of owned indices. Two processes that both get a copy of an index owned by a third are not neighbours, so the remote indices rebuilt from that list miss copy–copy pairs (`addOwnerCopyToAll`/`addOwnerCopyToOwnerCopy` on the new communication). A process may appear in its own list of neighbours.
- C84 (`C84_order_matters`): `ParmetisDuneIndexMap` numbers the owned vertices in the order of the local indices, `graphRepartition` reads the result of the partitioner in the order of the global indices (repartition.hh:1421-1427). If the two orders differ on a process, its part of the partition is permuted; the result is a valid distribution, but not the one with the small edge cut that was computed.
- C84 (`C84_valid_graph_accepts_invalid`): `isValidGraph` compares targets with `> gnoVtx` instead of `>=` (repartition.hh:797). `commGraphRepartition` does not free `xdispl`, `noxs`, `vdispl`, `novs` (read, not a theorem). With more domains than processes `getDomain` dereferences the end of `assigned` (example in `Props/C84`).
- C85: on a redistributed coarsest level `update.getRedistributed()` is not set to zero before the solve (amg.hh:1034-1046), so an iterative coarse solver starts from the result of its last call; the theorem for this case therefore asks for a solver whose result does not depend on the start vector.
- C86: `dunknowns` is the sum of the local sizes on the finest level, so indices in the overlap count several times; on coarser levels it is the number of aggregates. The coarsening rate of the first step is therefore overestimated.
- matrixhierarchy.hh:585-594 (read, not a theorem): in the branch for rate breakdown of an already redistributed level, `delete &(mlevel.getRedistributed().getmat())` and `delete &(infoLevel.getRedistributed())` delete objects that are owned by `std::shared_ptr` (lines 453-477), so they are deleted twice.
- C87 (`C87_no_neighbours_counterexample`, `C87_newline_counterexample`): `loadMatrixMarket` tests `eof()` before the read that meets the end of the file (matrixmarket.hh:1320, 1340). An index file without the line `neighbours:` adds an index made of uninitialised variables, one with a line break at its end inserts an uninitialised rank into the neighbours; a malformed line makes the first loop go on forever in practice (`failbit` is set, `eofbit` never). `C87_stale_counterexample`: a name without extension is stored as `.mm`, and loading prefers `.mm`, so an older `.mm` file hides a newer `.mtx`.
- C88 (`C88_post_twice_counterexample`): `AMG::post` calls `post` of a single smoother twice if the hierarchy has fewer levels than allowed (amg.hh:1149-1154). The nonoverlapping smoother's `pre` (novlpschwarz.hh:315-318) does not make `x` consistent, so there the Dirichlet values set by `AMG::pre` are only those of each process (read, not a theorem).
- C89 (`C89_empty_uninitialised`): a process that has no unknowns (it can happen on a coarse level) constructs its property graph with an uninitialised number of edges (graph.hh:1993-1994 returns before `noEdges_` is set, graph.hh:2370 reads it).
- C90 (`C90_successive`): `accumulationMode = successive` calls `setCoarsenTarget(successiveAccu)` (amg.hh:557-558), so the coarsest level may have only 2 unknowns, whatever `coarsenTarget` says.
- C90 (`C90_distance_key`, `C90_capital_only`): amg.hh:572 tests the key `MaxAggregateDistance` (capital M) and then reads `maxAggregateDistance`; the documented key never changes the diameter of the size mode, and the tested one alone makes the constructor throw. Also: `minCoarseningRate` is read as `int` (amg.hh:545), so the default 1.2 cannot be written; `verbosity` defaults to 0, not 2 as documented.
- C91 (`C91_leak_counterexample`, `C91_concurrent_counterexample`): `getSolverFromFactory` stores a passed preconditioner in the global factory under a reserved name and never removes it (solverfactory.hh:156): it stays alive, a tree can name it later, and a second thread's call between definition and creation replaces it.
- C92 (`C92_cond_negative`, `C92_cond_indefinite`): `computeSymCond2` asks for both ends of the spectrum (`BE`, arpackpp.hh:525) and divides them, so for a negative definite matrix it returns the reciprocal of the condition number, for eigenvalues -2, 1, 3 it returns 3/2 instead of 3.
- C92 (`C92_tall_refused`, `C92_rectangular_ub`, `C92_wide_never`): the wrapper takes `M()` for the rows and `N()` for the columns (arpackpp.hh:66, 75-76): matrices with more block rows are refused as having fewer rows than columns, and with more block columns the products read behind the domain vector.
- C93 (`C93_assign_counterexample`): `Hierarchy` has a deep copy constructor (hierarchy.hh:285-323) but no `operator=`: the assignment the compiler generates shares the levels, and after `b = a; b.addCoarser(...)` the walk over `a` sees more levels than `a.levels()`.
- C93 (`C93_throw_counterexample`): `addCoarser` links the new element as coarsest before it constructs the object (hierarchy.hh:349-353); if the construction throws, `*coarsest()` dereferences a null pointer and later levels are not seen from the finest one.
- hierarchy.hh:369, 375 (read, not a theorem): `addFiner` uses `finest_->element`, a member that does not exist: a program that calls it does not compile.
- C94: `printvector` with `columns == 0` evaluates `counter % 0` even for an empty vector (`C94_vector_no_columns`). `printSparseMatrix` with `width <= 0` and a stored
  block never ends (`C94_sparse_never`). `printmatrix` leaves out empty block rows and columns, so the row numbers and the shown width are wrong
  (`C94_empty_rows_counterexample`; a known bug noted in the code). Read only: `writeVectorToMatlab` writes complex numbers as `(re,im)`, whereas the matrix writer
  writes `re im`.
- C95: `writeSVGMatrix` with `width == height == 0` means to choose 500, but the two following conditions test the options again and the size becomes 0
  (`C95_auto_size_counterexample`, io.hh:554-560). The width of a block column is that of the first stored block in it, later wider blocks are clipped
  (`C95_clip_counterexample`). A nested matrix without stored blocks gets sizes from the marker `2^64-1` (`C95_empty_nested_counterexample`).
- C96: with condition estimation, a CG run that reaches `maxit` without converging (and any run with `maxit = 0`) leaves the loop with
  `i = maxit+1`, so that the matrix has one row more than `lambdas` has entries and `lambdas[row]` reads past the end
  (`C96_not_converged`, solvers.hh:305-372).
- `storeMatrixMarket(v, name)` without precision writes 6 digits after the point: loading does not give the same `double`s back if they need more digits (C101, `C101_default_precision_counterexample`). Storing as `name.mtx` does not make `loadMatrixMarket(v, "name")` load the new file if an older `name.mm` exists (`C101_shadow_counterexample`).
- Row assignment `A[0] = C[0]` copies the column indices too, without a check that they are the same and without looking whether the index array is shared: a copy of `A` that shares the pattern has a changed pattern afterwards (`C102_shared_pattern_counterexample`, bvector.hh:1037-1051).
- `compressed_block_vector_unmanaged::operator*` is `const` but calls the non-`const` member `includesindexset` of `*this` and of `y` if `DUNE_ISTL_WITH_CHECKING` is defined (bvector.hh:827-833, 961-970): a scalar product of rows cannot be compiled in that mode. Without it, `A[r]*B[s]` can throw while `B[s]*A[r]` does not (examples in `Props/C103`). `A[r] += B[s]` leaves a partial sum behind if it throws (C103).
- Also with `DUNE_ISTL_WITH_CHECKING` the assignment of rows compares only the sizes, not the columns (bvector.hh:1037-1042); see `C102_shared_pattern_counterexample`.
- Iterators over the rows of `Matrix` compare addresses only: a matrix with rows but without columns is traversed as if it had no rows (`C105_no_columns`, matrix.hh:317-338).
- `VariableBlockVector::beforeEnd()` builds its iterator without an index: `index()` is 0 there and wraps around in the loop; with two or more blocks no block is shown with its number (`C106_backward`, `C106_backward_index`, vbvector.hh:430-433; with the contract of dune-common's `IndexedIterator` as stated in `Model/VbIter`). `rend()` gives a reverse iterator to a type made from a forward one (vbvector.hh:478-481).
- `Matrix::exists(i,j)` with `DUNE_ISTL_WITH_CHECKING` tests `i>=M()` instead of `j>=M()` (matrix.hh:1068): it throws for entries of rows below the `M()`-th of tall matrices and is `true` for columns that do not exist (`C107_exists_counterexample`). `operator*(m1,m2)` never compares `m1.M()` with `m2.N()`: without an exception it ignores the last rows of `m2` (`C107_product`, matrix.hh:751-762).
