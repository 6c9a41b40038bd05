# Formal model of mi-lib/zm in Lean 4

The library is C code over `double`.  This directory contains a Lean 4 model of its algorithmic core and machine-checked
theorems about that model.  (This file is written by `tools/design.py` from `tools/design_head.md`, `tools/plan.py` and
`tools/claims.py`; edit those.)

## Layout

* `lean/Verif/Base/…`  – outcome type (`ok / fail / ub`), loop combinators, checked buffers, functions updated at a place, and their rules.
* `lean/Verif/Model/…` – the model, one file per group of C sources; every definition cites file and lines in `/repo`.
* `lean/Verif/Props/…` – for each property the small specification it is stated against, lemmas, the theorems, and beside each theorem an
  `example` that meets its hypotheses.
* `properties.jsonl`, `MANIFEST.json` – the list of properties and the table of claims (both generated by scripts in `tools/`).
* `seeded/LOG.jsonl` – the experiments with wrong programs.

## Trusted base

* Lean 4.33.0's kernel, and the three standard axioms `propext`, `Classical.choice`, `Quot.sound`.  Every theorem of the manifest depends on a
  subset of these three.  No other axiom, no `sorry`, no `native_decide`/`bv_decide`.  Concrete witnesses use `decide +kernel`, which is
  evaluated by the kernel.
* The reading of the C code recorded in the comments of `Model/`: nothing is compiled or run here.
* ZEDA, the companion library, is not in `/repo`.  What is assumed of it:
  * `zAlloc` and `zArrayAlloc` return zeroed memory, and NULL for sizes that are not positive.
  * `zArrayResize`, `zArray2RowResize` and `zArray2ColResize` set the size unless it exceeds the capacity and leave the elements where they are; `zArray2Resize` does both.
  * `zListForEach` runs from the tail (the oldest cell) to the head; `zListForEachRew` the other way; the root cell follows the head and precedes
    the tail; `zListInsertHead/Tail`, `zListPurge`, `zListDelete…` change one cell; `zListSpliceAndMoveZ(a,b)` moves all of `b` to `a`.
  * `zQueueEnqueue/Dequeue` are first in, first out; `zRingElem(i)` is `buf[(head+i) % size]`.  `zRingAlloc` and `zArrayAlloc` take the array of pointers from `zAlloc`, so that its entries are null, and leave a null array if that fails; `zRingFree` and `zArrayFree` release it.
  * `zIndexCreate/Order` write consecutive numbers; `zIndexMove` moves one element and keeps the order of the others; `zIndexRemove` shifts the later
    ones up; `zIndexHead` is the last position, `zIndexNeck` the one before, `zIndexTail` position 0.
  * `zQuickSort` and the sort of an index deliver a sorted permutation; `zQuickSelect` finds the element at a position of a sorted permutation, NULL without such a position.
  * `zSwap` exchanges; `zLimit` clamps; `zSNumToken`/`zSTokenize` cut off a number or a name.
  * Random generators return some value of the requested range, `zRandF(a,b)` and `zRandMTN` with both ends, `zRandMTNU` without the upper one.
    Theorems quantify over every sequence of such values.
* Arithmetic: unless a theorem says otherwise, `double` is an exact ordered field (`K` with `[Field K] [LinearOrder K] [IsStrictOrderedRing K]`) or
  `ℝ`/`ℂ` where roots or transcendental functions occur.  Rounding, overflow and not-a-number are outside the model.  A zero divisor is the outcome
  `ub`; HUGE_VAL is `none`.  Theorems about memory, indices, permutations, control flow and data movement are proved for an arbitrary element type
  where possible and so do not depend on that idealisation.  The bit-level IEEE classifiers are modelled on 64-bit words exactly.
  `zTOL` (1e-12) and the other tolerances are parameters; where a theorem takes the tolerance to be zero, its name or the note in the manifest says so.
  `sqrt` is a parameter that is a root of every non-negative number (`SqrtOk`), the real square root being one.
* Constants written in the code with finitely many decimals that stand for irrational numbers (golden ratio, square roots of two and three, π) are the
  exact numbers.
* `int` is `Nat` or `Int`; overflow of `int` is outside the model.
* Memory: buffers have an explicit size, and an access outside is the outcome `ub`, where a property is about memory; elsewhere buffers are functions
  of the index and the comment says so.  Failure of allocation is modelled only where the row of the claim says so (lists, clustering methods, solvers and their workspaces).  A loop without a bound takes fuel, and a loop that does not end is `ub`.
* Streams: `zFInt` and `zFDouble` of ZEDA skip spaces, commas, brackets and newlines before a number; whether they skip a slash is a parameter.

## What is not modelled

The tokenising of characters in streams (a file is a list of numbers and words), ZTK parsing, GNUPLOT helpers, `free` (leaks), C++ wrappers, the error printer,
printing and files of zm_opt_lp_megiddodyer (only with DEBUG).

Every definition of the model cites the lines it models.  1192 of the 17116 lines of function bodies in `src/*.c` are not cited; these functions are listed here (`tools/coverage.py`).

* `zm_cmat.c`: zCMatRandUniform, zCMatRand, zCMatIsTol, zCMatFPrint
* `zm_complex.c`: zComplexCreatePolar, zComplexCopy, zComplexCoordFPrint
* `zm_cvec.c`: zCVecRandUniform, zCVecFPrint
* `zm_fourier.c`: zFourierAlloc, zFourierFree, zFourierFPrint
* `zm_gng.c`: _zGNGEdgeDataFPrint, _zGNGUnitFPrint, _zGNGDefaultSampler, zGNGFPrint, zGNGFWrite
* `zm_graph.c`: zGraphNodeInit, zGraphInit, zGraphFPrint
* `zm_ip_akima.c`: zIPCreateAkima, zIPCreateModifiedAkima
* `zm_ip_clothoid.c`: _zClothoidArg, zClothoidCreateSegment
* `zm_ip_pex.c`: zPexIPFPrint
* `zm_ip_spline.c`: zIPSplineCoeff, zIPCreatePCHIP
* `zm_le.c`: zMatVecBalancingDST, zMatMatBalancingDST, zMatMatVecBalancingDST
* `zm_le_gen.c`: _zLEWorkspaceAllocAndCopyB, _zLEWorkspaceAllocMP, _zLEWorkspaceAllocMPAndCopyAB, zLEWorkspaceResizeMP, _zLESolveSRSizeEqual, zLESolveSRAuxDST
* `zm_le_lu.c`: zMatDecompLUAlloc
* `zm_mat.c`: zMatRandUniform, zMatRand, zMatFromZTK
* `zm_mva_cluster.c`: zVecClusterFPrint, zVecClusterValueFPrint, _zVecClusterDistDefault, _zVecClusterCoreDefault, zVecMultiClusterMove, zVecMultiClusterFPrint, zVecMultiClusterValueFPrint, zVecMultiClusterCoreFPrint, zVecMultiClusterValuePrintFile, _zVecMultiClusterKMeansValuePrintFile, _zVecClusterSilhouetteFPrint, zVecMultiClusterSilhouettePrintFile, zVecMultiClusterXMeansDensity, zVecMultiClusterXMeansBIC
* `zm_mva_gmm.c`: zGMMUnitInit, zGMMSetDistFunc, zGMMSetLoadedMeanFunc, _zGMMFPrint
* `zm_nle_dm.c`: _zNLESolveDM
* `zm_nurbs.c`: zNURBSInit, zNURBSDestroy, zNURBSCPFPrint, zNURBSFromZTK, zNURBSFPrintZTK
* `zm_ode2.c`: zODE2AssignFunc
* `zm_ode_erk.c`: zODECreateRKF45, zODEDestroyRKF45, zODECreateCK45, zODEDestroyCK45, zODECreateDP45, zODEDestroyDP45
* `zm_ode_gear.c`: zODEInitHistoryGear
* `zm_opt_direct.c`: _zOptDIRECTRectFree, _zOptDIRECTRectClone, _zOptDIRECTRectFPrint, _zOptDIRECTRectListFPrint, _zOptDIRECTRectListCenterFPrint, _zOptDIRECTRectSetAlloc, _zOptDIRECTRectSetDeleteCell, _zOptDIRECTRectPatternAlloc, _zOptDIRECTRectPatternDestroy, _zOptDIRECTRectSetFPrint, _zOptDIRECTRectSetCenterFPrint, _zOptDIRECTRectPORAlloc, _zOptDIRECTRectPORFree, _zOptDIRECTRectPORSetCell, _zOptDIRECTRectPORFPrint
* `zm_opt_dm.c`: zOptDMAssignSD, zOptDMAssignLM, zOptDMAssignVM, zOptDMAssignCG
* `zm_opt_ga.c`: zOptGAChromosomeInit, zOptGAChromosomeAlloc, zOptGAChromosomeFree, zOptGAChromosomeCopy, _zOptGAChromosomeSwap, zOptGACreateDefault, zOptSolveGADefault, zOptGAFPrint
* `zm_opt_lcp_lemke.c`: _zLemkePrint
* `zm_opt_lp_megiddodyer.c`: _zLPMegiddoDyerConstraintInvVal, _zLPMegiddoDyerConstraintPairCompare, _zLPMegiddoDyerConstraintPairListMedian, _zLPMegiddoDyerOutputBoundaryLine, _zLPMegiddoDyerOutputBoundarySet, _zLPMegiddoDyerOutputBoundaryFunc, _zLPMegiddoDyerOutputBoundary, _zLPMegiddoDyerOutputBoundaryPair, _zLPMegiddoDyerOutputIntersection, _zLPMegiddoDyerOutputPoint, _zLPMegiddoDyerOutputValGrad, _zLPMegiddoDyerFoundOptimum
* `zm_opt_lp_simplex.c`: _zLPTableauFPrint
* `zm_opt_pso.c`: _zOptPSOParticleFree, _zOptPSOSwarmFPrint, zOptSolvePSODefault
* `zm_parse.c`: _zmParseNumAllocName, _zmParseNumAllocVal, _zmParseNumAlloc, _zmParseNumFree, _zmParseCellStr, _zmParseFuncListDestroy, _zmParseParChar, _zmParseTokStr, _zmParseStackInit, _zmParseStackPush
* `zm_pex.c`: zPexFromZTK
* `zm_seq.c`: zSeqScanFile
* `zm_stat_histogram.c`: zHistogramDestroy, zHistogramFPrint
* `zm_vec.c`: zVecLinSpace, zVecRandUniform, zVecSwapNC, zVecInterDivDRC, zVecSqrNorm, zVecInfNorm, zVecFromZTK, zVecValueFScan, zVecValueFPrint
* `zm_vec_list.c`: zVecListSelectRand, _zVecEdgeDistRDP, zVecListFPrint

## Plan per property

Model files are under `lean/Verif/Model/`.  The theorems are listed in `MANIFEST.json`.

| id | property | model | proof | status |
|----|----|----|----|----|
| C01 | Integer powers, factorials, permutations, combinations | Misc: loops of zPowN, zPermutation, zCombination, zCombinationSeries | induction over the loop; `Nat.choose`, `descFactorial` as specification | proved |
| C02 | In-place Pascal row | Misc: loops of zPowN, zPermutation, zCombination, zCombinationSeries | induction over the loop; `Nat.choose`, `descFactorial` as specification | proved |
| C03 | Tolerance comparison | Misc: zIsTol, zEqual over an ordered field with infinities and not-a-number | case analysis | proved |
| C04 | IEEE-754 classification | Ieee: 64-bit words | bit-vector reasoning on arbitrary words | proved |
| C05 | Line through two points | Misc: zLine | negation with witness; the exact set of inputs on which it holds | partial |
| C06 | Raw vector kernels are element-wise and alias-safe | RawVec: checked buffers, loops in the ok/fail/ub monad | loop invariants; witnesses for zVecSwap, zVecGet | proved |
| C07 | Size-checked vector/matrix API | RawVec: checked buffers, loops in the ok/fail/ub monad | loop invariants; witnesses for zVecSwap, zVecGet | proved |
| C08 | Index-checked element access never leaves the buffer | RawVec: checked buffers, loops in the ok/fail/ub monad | loop invariants; witnesses for zVecSwap, zVecGet | partial |
| C09 | In-place transposition | RawMat: cycle-leader loop of zRawMatTDRC | theory of the permutation i ↦ (i % r) c + i / r | proved |
| C10 | Sub-matrix get/put framing | RawMat | loop invariants on strided buffers; witnesses | proved |
| C11 | Matrix product kernels | RawMat | loop invariants on strided buffers; witnesses | proved |
| C12 | Infinity norm | RawMat | loop invariants on strided buffers; witnesses | partial |
| C13 | Failed operations leave operands unchanged | RawMat | loop invariants on strided buffers; witnesses | partial |
| C14 | Gaussian elimination solves the system | LE: pivoting, elimination, substitution, LU, determinant, inverse, tridiagonal | invariant "same solutions", induction on columns; `Matrix.det` as specification | proved |
| C15 | Triangular and LU solves | LE: pivoting, elimination, substitution, LU, determinant, inverse, tridiagonal | invariant "same solutions", induction on columns; `Matrix.det` as specification | partial |
| C16 | LU decomposition | LE: pivoting, elimination, substitution, LU, determinant, inverse, tridiagonal | invariant "same solutions", induction on columns; `Matrix.det` as specification | partial |
| C17 | Determinant | LE: pivoting, elimination, substitution, LU, determinant, inverse, tridiagonal | invariant "same solutions", induction on columns; `Matrix.det` as specification | proved |
| C18 | Matrix inverse | LE: pivoting, elimination, substitution, LU, determinant, inverse, tridiagonal | invariant "same solutions", induction on columns; `Matrix.det` as specification | partial |
| C19 | Tridiagonal solver | LE: pivoting, elimination, substitution, LU, determinant, inverse, tridiagonal | invariant "same solutions", induction on columns; `Matrix.det` as specification | proved |
| C20 | Polynomial evaluation | Pex | `Polynomial` as specification; loop invariants; `ub` for zPexRgl | proved |
| C21 | Polynomial ring operations | Pex | `Polynomial` as specification; loop invariants; `ub` for zPexRgl | partial |
| C22 | Polynomial division | Pex | `Polynomial` as specification; loop invariants; `ub` for zPexRgl | partial |
| C23 | Polynomial from roots | Pex | `Polynomial` as specification; loop invariants; `ub` for zPexRgl | partial |
| C24 | Differentiation and integration of polynomials | Pex | `Polynomial` as specification; loop invariants; `ub` for zPexRgl | proved |
| C25 | Taylor shift | Pex | `Polynomial` as specification; loop invariants; `ub` for zPexRgl | proved |
| C26 | Degree regularisation | Pex | `Polynomial` as specification; loop invariants; `ub` for zPexRgl | partial |
| C27 | FFT computes the DFT | FFT over ℂ | strong induction over the factorisation, sums of roots of unity | proved |
| C28 | FFT round trip | FFT over ℂ | strong induction over the factorisation, sums of roots of unity | proved |
| C29 | Knot segment search | IP | binary-search invariant; polynomial identities; derivatives by `HasDerivAt` | proved |
| C30 | Linear interpolation | IP | binary-search invariant; polynomial identities; derivatives by `HasDerivAt` | proved |
| C31 | Lagrange interpolation | IP | binary-search invariant; polynomial identities; derivatives by `HasDerivAt` | proved |
| C32 | Cubic spline | IP | binary-search invariant; polynomial identities; derivatives by `HasDerivAt` | partial |
| C33 | PCHIP monotonicity | IP | binary-search invariant; polynomial identities; derivatives by `HasDerivAt` | partial |
| C34 | Akima interpolation reproduces straight lines | IP | binary-search invariant; polynomial identities; derivatives by `HasDerivAt` | partial |
| C35 | Polynomial boundary interpolation | IP | binary-search invariant; polynomial identities; derivatives by `HasDerivAt` | proved |
| C36 | Trapezoidal velocity profile | IP | binary-search invariant; polynomial identities; derivatives by `HasDerivAt` | partial |
| C37 | B-spline knots and segment lookup | NURBS | induction on the order | proved |
| C38 | B-spline basis | NURBS | induction on the order | proved |
| C39 | NURBS curve geometry | NURBS | induction on the order | proved |
| C40 | kd-tree nearest neighbour | Container: kd-tree, list, polyline, sequence | induction over the history; box invariant; recursion on splits; refinement to a list | proved |
| C41 | Nearest neighbour in a list | Container: kd-tree, list, polyline, sequence | induction over the history; box invariant; recursion on splits; refinement to a list | proved |
| C42 | Polyline simplification | Container: kd-tree, list, polyline, sequence | induction over the history; box invariant; recursion on splits; refinement to a list | proved |
| C43 | Sequence is a FIFO with cumulative time | Container: kd-tree, list, polyline, sequence | induction over the history; box invariant; recursion on splits; refinement to a list | proved |
| C44 | Extremes of data | Stat: data, statistics, histogram | loop invariants | proved |
| C45 | Sum, mean, variance, covariance | Stat: data, statistics, histogram | loop invariants | proved |
| C46 | Histogram accounting | Stat: data, statistics, histogram | loop invariants | partial |
| C47 | Graph container | Graph | invariants over histories; invariant of Dijkstra's and the A* search | proved |
| C48 | Shortest path | Graph | invariants over histories; invariant of Dijkstra's and the A* search | partial |
| C49 | Expression parser | Parse | induction over expression trees | partial |
| C50 | Bracketing root finders | OneD: bracketing root finders and line searches | bracket invariants | partial |
| C51 | Line search | OneD: bracketing root finders and line searches | bracket invariants | proved |
| C52 | Runge-Kutta tableaux | ODE | order conditions of the tableaux; exactness on polynomials for every number of steps | partial |
| C53 | Adams-Bashforth weights | ODE | order conditions of the tableaux; exactness on polynomials for every number of steps | proved |
| C54 | Gear (BDF) coefficients | ODE | order conditions of the tableaux; exactness on polynomials for every number of steps | proved |
| C55 | Numerical integrators | ODE | order conditions of the tableaux; exactness on polynomials for every number of steps | partial |
| C56 | Simplex method | LP: simplex tableau and standard forms | tableau invariants; reduced costs | partial |
| C57 | LP standardisation | LP: simplex tableau and standard forms | tableau invariants; reduced costs | proved |
| C58 | Lemke's method | LCP: Lemke's method and quadratic programs | tableau invariants; KKT conditions are sufficient | partial |
| C59 | QP to LCP | LCP: Lemke's method and quadratic programs | tableau invariants; KKT conditions are sufficient | proved |
| C60 | Complex arithmetic | Complex over ℝ with a heap of numbers | equality with Mathlib's ℂ; Cardano and Viète; pairing as a permutation | partial |
| C61 | Quadratic equations | Complex over ℝ with a heap of numbers | equality with Mathlib's ℂ; Cardano and Viète; pairing as a permutation | partial |
| C62 | Cubic equations | Complex over ℝ with a heap of numbers | equality with Mathlib's ℂ; Cardano and Viète; pairing as a permutation | proved |
| C63 | Pairing of complex conjugates | Complex over ℝ with a heap of numbers | equality with Mathlib's ℂ; Cardano and Viète; pairing as a permutation | proved |
| C64 | RRT tree invariants | RRT | invariants over arbitrary random streams | partial |
| C65 | Path shortcutting | RRT | invariants over arbitrary random streams | partial |
| C66 | Growing neural gas consistency | GNG | invariant over every history | proved |
| C67 | RANSAC sample conservation | RANSAC | permutation invariant over every stream | proved |
| C68 | K-means partitions the points | Cluster | partition invariant over every stream | partial |
| C69 | GA population | GA | correctness of the quick sort; invariants over every stream | partial |
| C70 | PSO bookkeeping | PSO | invariants over every stream | partial |
| C71 | Nelder-Mead bookkeeping | NM | invariant of the index and the values | proved |
| C72 | Jacobi eigenvalue rotations | Eig: Jacobi | orthogonal similarity of a rotation; sum of squares off the diagonal; invariant of the sweep | partial |
| C73 | Discrete random variates | Rand: binomial, normal | all streams | proved |
| C74 | Ring of vectors | Container: ring | refinement to a list | proved |
| C75 | Clothoid segment | IP: clothoid | negation with witness | partial |
| C76 | Weighted generalised solvers | LEGen: weighted products and the solvers built on Gauss | normal equations; optimality by completing the square | partial |
| C77 | Orthogonal (LQ) decomposition | LEGen: Gram-Schmidt and Householder | invariants: orthonormal rows, L Q = A | partial |
| C78 | Sweep-out | LE: sweep-out | row operations keep the solutions | proved |
| C79 | Chebyshev interpolation | IP: Chebyshev, least squares | recurrences against `Polynomial.Chebyshev`; normal equations | proved |
| C80 | Polynomial least-squares fit | IP: Chebyshev, least squares | recurrences against `Polynomial.Chebyshev`; normal equations | proved |
| C81 | Polynomial fit under boundary conditions | IP: Chebyshev, least squares | recurrences against `Polynomial.Chebyshev`; normal equations | partial |
| C82 | Derivatives of NURBS and B-spline curves | NURBS: derivatives | quotient rule by induction on the order of the derivative | proved |
| C83 | Distance to an edge | Container: edge and projection | inner-product algebra; witnesses | partial |
| C84 | Projection and orthogonalisation | Container: edge and projection | inner-product algebra; witnesses | partial |
| C85 | Peak detection | Stat: peaks, smoothing, distributions | loop invariants; series and derivatives | proved |
| C86 | Smoothing windows | Stat: peaks, smoothing, distributions | loop invariants; series and derivatives | partial |
| C87 | Distributions | Stat: peaks, smoothing, distributions | loop invariants; series and derivatives | proved |
| C88 | Brent's line search | OneD: Brent's line search | invariant of the bracket | proved |
| C89 | Implicit Runge-Kutta methods | ODE: implicit and second-order methods | order conditions; invariants of symplectic steps | proved |
| C90 | Equations of second order | ODE: implicit and second-order methods | order conditions; invariants of symplectic steps | partial |
| C91 | Division of complex vectors | Complex: complex vectors | sums; witness | partial |
| C92 | Feasible base of a linear program | LP: zLPFeasibleBase | tableau invariants; witness | partial |
| C93 | Conjugate gradients | LCP: conjugate gradients | descent; witness | partial |
| C94 | Planner without user functions | RRT: defaults and escape | invariants; witness | partial |
| C95 | Escape from a collision | RRT: defaults and escape | invariants; witness | proved |
| C96 | Genetic algorithm keeps the best | GA: best individual | witness and partial | partial |
| C97 | Ranges of random variates | Rand: ranges | all streams | partial |
| C98 | What growing neural gas adapts and grows | GNG | specification of each step | proved |
| C99 | Clustering never gets worse | Cluster: descent, X-means, silhouettes | sum of errors never grows; partition by recursion | proved |
| C100 | X-means | Cluster: descent, X-means, silhouettes | sum of errors never grows; partition by recursion | partial |
| C101 | Silhouettes | Cluster: descent, X-means, silhouettes | sum of errors never grows; partition by recursion | proved |
| C102 | Moore-Penrose solution | LEGen: zLESolveMP, zLESolveMPNull | minimum norm among least-squares solutions; rank as dimension of the row space | partial |
| C103 | Null-space projector | LEGen: zLESolveMP, zLESolveMPNull | minimum norm among least-squares solutions; rank as dimension of the row space | partial |
| C104 | Rank from the LQ decomposition | LEGen: zLESolveMP, zLESolveMPNull | minimum norm among least-squares solutions; rank as dimension of the row space | proved |
| C105 | Quadratic products | LEGen: zMatQuad and relatives | loops to sums | proved |
| C106 | Singular value decomposition | Eig: SVD | selection invariant; Parseval | partial |
| C107 | Hessenberg form | Eig: Hessenberg | reflection is orthogonal and involutive; induction on columns | partial |
| C108 | Power method | Eig: power method | stopping test; witness | partial |
| C109 | Eigensolvers stay inside of the matrix | Eig: checked accesses of bisection and double QR | negation for every matrix | partial |
| C110 | Cholesky decomposition | LEMore: Cholesky decomposition with diagonal pivoting | invariant: the remaining part is a Schur complement and stays positive semidefinite | partial |
| C111 | Linear equations with residual iteration | LEMore: residual iteration, Gauss-Seidel sweeps | exactness of the LU solution makes every correction zero; equations left by the last sweep | proved |
| C112 | Gauss-Seidel method | LEMore: residual iteration, Gauss-Seidel sweeps | exactness of the LU solution makes every correction zero; equations left by the last sweep | partial |
| C113 | Lyapunov equation | LEMore: the n^2 x n^2 system of the Lyapunov equation | closed form of the accumulated matrix, then exactness of the elimination | proved |
| C114 | Multiplication by an inverse from the right | LEMore: elimination on transposes | exactness of the elimination; witnesses for the size test | partial |
| C115 | Inverse matrix by Hotelling's method | LEMore: Hotelling's iteration | the residual is squared at each turn; diagonalisation for the convergence | partial |
| C116 | Moore-Penrose inverse | LEMore: Moore-Penrose inverse by LQ decomposition | full-rank factorisation; the four equations as matrix identities | partial |
| C117 | Moore-Penrose inverse by Penrose's iteration | LEMore: Penrose's iteration | the iterates commute with the Gram matrix; their eigenvalues are elementary symmetric functions, which vanish beyond the rank | partial |
| C118 | Generalised solution by singular values | LEMore: zLESolveMP_SVD | normal equation in the basis of singular vectors | partial |
| C119 | Principal component analysis | Mva: zVecListPCA, zVecListGenRandND | congruence by the eigenvectors; exactness of the Cholesky decomposition | partial |
| C120 | Normally distributed vectors | Mva: zVecListPCA, zVecListGenRandND | congruence by the eigenvectors; exactness of the Cholesky decomposition | partial |
| C121 | Error function and normal distribution | SF: error function, Fresnel integrals | remainder of the exponential series in the left half plane, integrated; the continued fraction of the complementary error function: growth of the denominators, convergents enclose the limit, limit by the integrals of s^n exp(-s^2-2zs) | partial |
| C122 | Fresnel integrals | SF: error function, Fresnel integrals | remainder of the exponential series in the left half plane, integrated; the continued fraction of the complementary error function: growth of the denominators, convergents enclose the limit, limit by the integrals of s^n exp(-s^2-2zs) | proved |
| C123 | Gamma and beta function | SF: Lanczos's approximation | the second derivative of the change from x to x+1 is rational and dominated (coefficients checked by the kernel); convexity, telescoping, Stirling's formula | proved |
| C124 | Fourier series | SF: Fourier series | derivatives of sums | proved |
| C125 | Van der Pol's oscillator | SF: oscillators | conserved quadratic form; monotone convergence of the lag | partial |
| C126 | Kuramoto's oscillator | SF: oscillators | conserved quadratic form; monotone convergence of the lag | proved |
| C127 | Successive substitution | SF: successive substitution | contraction | proved |
| C128 | Polynomial equations by deflation | PexEq: synthetic division, Newton's correction, deflation | division by the quadratic factor; the recursions are derivatives of one another; induction over the degree | partial |
| C129 | Polynomial equations by simultaneous iteration | PexEq: Aberth's circle, Durand-Kerner iteration | factorisation over the complex numbers; Lagrange's interpolation for the sum; product estimate for the convergence | partial |
| C130 | Descent methods stop at stationary points | OptDM: the solver with every direction, update and line search | the workspace holds a step, the point reached and its value; induction over the iterations; witnesses | partial |
| C131 | Descent methods descend | OptDM: Nocedal's line search | sufficient decrease; the sum of decreases is bounded | partial |
| C132 | Quasi-Newton updates | OptDM: updates of the inverse Hessian matrix | closed form; quadratic form; witness | partial |
| C133 | Numerical derivatives of an objective function | OptDM: numerical derivatives | closed form of the loops | proved |
| C134 | Levenberg-Marquardt method | OptDM: Levenberg-Marquardt | exactness of the elimination; witness | partial |
| C135 | Success of a solver of nonlinear equations | NLE: Newton-Raphson, Broyden, descent | induction over the iterations; witness | partial |
| C136 | Newton-Raphson's method | NLE: Newton-Raphson's direction and loop on affine equations | regularised normal equation; the cost is expanded around its minimum at the solution | proved |
| C137 | Broyden's method | NLE: Broyden's update | orthogonal decomposition of the change; witness | partial |
| C138 | Numerical Jacobian matrix | NLE: numerical Jacobian matrix in its buffer | closed form of the buffer; negations for all sizes and all starting points | partial |
| C139 | Squared error as an objective function | NLE: objective of the descent methods | derivative of the sum of squares | proved |
| C140 | DIRECT returns the best point evaluated | Direct: regions, lists by level, the loop | invariant of the loop; volumes bound the number of regions; negations | partial |
| C141 | DIRECT keeps a tiling of the search box | Direct: division of regions | trisection keeps a tiling; multiset of all regions | proved |
| C142 | DIRECT divides potentially optimal regions | Direct: identification of potentially optimal regions | lower convex hull by induction over the levels | proved |
| C143 | Active set method: answers are optimal | QPASM: first point, equality-constrained problem, adding and deleting constraints | invariant: the point kept is feasible, the active constraints are independent; Karush-Kuhn-Tucker conditions | proved |
| C144 | Active set method: memory | QPASM: sizes of the working space | case distinction on the sizes; negation for all problems with fewer constraints than variables | partial |
| C145 | Active set method: termination | QPASM: the two loops | the inner loop shortens a list; negation by a periodic run evaluated in the kernel and a simulation | partial |
| C146 | Active set method: refusal | QPASM: check of the matrix, first phase of the simplex method | positive definiteness is equivalent to a full rank of the decomposition | proved |
| C147 | Interior-point method: directions | PDIP: decomposition and directions | correctness of the LU solver; the three blocks of Newton's equations | proved |
| C148 | Interior-point method: interior and residuals | PDIP: step, damping, corrector, loop | invariant of the loop: positive, residuals scaled; the normal matrix is regular in the interior | partial |
| C149 | Interior-point method: answers | PDIP: first point, loop, clean-up, cost | weak duality with residuals; negation by concrete problems | partial |
| C150 | Interior-point method for complementarity problems: turns | LCPIP: predictor, corrector, turn | neighbourhood of the central path; the products along the step do not vanish, so that no variable changes its sign | partial |
| C151 | Interior-point method for complementarity problems: step | LCPIP: step | root of the quadratic equation; negation for all points with a negative inner product | partial |
| C152 | Interior-point method for complementarity problems: answers | LCPIP: first point, loop, clean-up | invariant of the loop; negation by a problem with one unknown | partial |
| C153 | Complex matrices: element-wise operations | CMat: element-wise functions on a block of memory | loop rule for cells; refusals by cases | partial |
| C154 | Complex matrices: complex scalars | CMat: complex scalars, both members written one after the other | loop rule; what the code leaves in place is computed and differs | partial |
| C155 | Complex matrices: rows, columns, products | CMat: rows, columns, memcpy, product | loop rules with the frame; negation for negative indices | partial |
| C156 | Two-variable linear programs: stored problem | MegiddoDyer: initialisation and constraints | invariant over the sequence of constraints | proved |
| C157 | Two-variable linear programs: direct method | MegiddoDyer: direct method on lists | an admissible point moves along the lower bounds to a vertex or an end that is no worse | partial |
| C158 | Two-variable linear programs: method of Megiddo and Dyer | MegiddoDyer: loop with pools, pairs, discards; the median is a parameter | what is left of the problem has the same optima: invariant with a witness of improvement; the number of constraints decreases | partial |
| C159 | Two-variable linear programs: refusals | MegiddoDyer: flags | a refused problem has a direction without cost; negation by a witness | partial |
| C160 | Gaussian mixtures: shares | GMM: expectation and weights | sums of responsibilities; invariant over turns | proved |
| C161 | Gaussian mixtures: Gaussians | GMM: loaded mean and covariance, Gaussian of a cluster | sums of dyads are positive semidefinite | proved |
| C162 | Gaussian mixtures: likelihood | GMM: whole iteration | Jensen's and Gibbs' inequalities, and the maximum of the weighted Gaussian likelihood by log det | partial |
| C163 | Gaussian mixtures: one Gaussian | GMM: one Gaussian | the maximum of the Gaussian likelihood | proved |
| C164 | Gaussian mixtures: criteria | GMM: criteria | comparison with the number of free parameters | partial |
| C165 | Bessel functions: no overrun | Bessel: the tables and their rows | ranges of the conversion to an integer | proved |
| C166 | Bessel functions: accuracy of J | Bessel: the tables of J against the power series | kernel computation of re-centred polynomials, bound of the tail of the series | partial |
| C167 | Bessel functions: accuracy of I | Bessel: the tables of I against the power series; Miller's method | as before; determinant of the two solutions of the recurrence | partial |
| C168 | Bessel functions: parity and recurrence | Bessel: recurrence upwards | sequence computed by the loop | proved |
| C169 | Bessel functions: Miller's method | Bessel: recurrence downwards | sequence computed by the loop; rational computation of the violation | partial |
| C170 | Matrices: checked element-wise operations | matrices: copies, element-wise operations, transposes with their checks | frame lemmas of the raw operations | proved |
| C171 | Matrices: identity and diagonal matrices | matrices: identity and diagonal | loop invariant on the diagonal | proved |
| C172 | Matrices: rows and columns | matrices: rows and columns with their checks, integer positions | frame lemmas; undefined for negative positions | partial |
| C173 | Matrices: dyads, trace and products with transposes | matrices: dyads, trace, transposed products with their checks | frame lemmas of the raw operations | proved |
| C174 | Matrices: product with the transpose in place | matrices: transposed product in place | composition; computed counterexample | partial |
| C175 | Matrices: extreme elements | matrices: searches for extreme elements | loop invariant on rows | partial |
| C176 | Matrices and vectors: tests | matrices and vectors: tests | equivalence with the condition on elements | partial |
| C177 | Vectors: reordering | vectors: reordering | loop invariant | partial |
| C178 | Vectors: linear sums | vectors: linear sums | induction on the list | proved |
| C179 | Vectors: functions that do not return NULL | vectors: functions without a check | frame lemmas; overrun in general and by computation | partial |
| C180 | Normal distribution | normal distribution: density and series of the distribution function | remainder of the series as an integral; bounds of the turns after which a term is absorbed | proved |
| C181 | Poisson distribution | Poisson distribution | series of the exponential function | partial |
| C182 | Chi-squared distribution | chi-squared distribution | fundamental theorem of calculus with a substitution; error of the gamma function | proved |
| C183 | Sections of interpolators | IP: velocity and acceleration at sections | derivatives of the curves at the knots; witnesses | partial |
| C184 | Element-wise operations on complex vectors | CVec: element-wise operations in memory | loop invariants over cells | partial |
| C185 | Complex vectors: complex scalars and norms | CVec: complex scalars, inner product, norm | loop invariants over cells; witnesses for in-place use | partial |
| C186 | Counting eigenvalues by the Sturm series | EigBisec: Sturm series against the eigenvalues (roots of the characteristic polynomial) | completing squares and the law of inertia | partial |
| C187 | Eigenvalues by bisection | EigBisec: range, bisection, recursion | Gershgorin by forms; induction over the recursion with counts as invariant; witnesses | partial |
| C188 | Extreme singular values and condition number | SingVal: extreme singular values by the power method | Rayleigh quotients, Cauchy-Schwarz; negation for all singular matrices | partial |
| C189 | Eigenvectors by inverse iteration | EigVec: inverse iteration | exact residual of the inverse, convergence of the power method on the inverse; negation for a singular shift | partial |
| C190 | Eigenvectors of complex eigenvalues and their order | EigVec: complex pairs, order of the columns | real matrix of twice the size, induction over the eigenvalues | partial |
| C191 | A polynomial as text is that polynomial | Text: expression of a polynomial | value of the expression by recursion over the terms; negation for constant terms | partial |
| C192 | Complex numbers as text | Text: complex number as tokens | cases of signs, zero and unit parts | partial |
| C193 | Vectors, matrices, polynomials and sequences in files | Text: files as lists of words | induction over elements, rows and cells | partial |
| C194 | Sorting, selection, median | DataMore: comparisons, selection, median | contracts of the sort; pairs symmetric in the order | proved |
| C195 | Smoothing keeps polynomials | DataMore: window fits | uniqueness of the least-squares polynomial; negation by evaluation | partial |
| C196 | Peaks of smoothed data | DataMore: sign changes of the slope | induction over the samples; parabolas | partial |
| C197 | Cores of clusters of linear sums | ClusterLS: normal equations of linear sums | solutions of the normal equations minimise; negation by evaluation | partial |
| C198 | Memory of clustering methods | ClusterMethod: workspaces as handles on a heap | invariant over all histories; negation by a double free | partial |
| C199 | Complete clustering methods | ClusterMethod: functions that are set | what a successful call implies; negations by histories | partial |
| C200 | Products of three matrices | MatQuad: loops on the memory | simulation of the loops on functions, whose sums are proved in LEGen | partial |
| C201 | Lists of vectors and their memory | VecList: blocks on a heap | invariant and refinement to a list of values over all histories | partial |
| C202 | Text of expressions | ParseText: characters, names, numbers (by contract) | refinement of the loop on characters to the loop on symbols of Parse; negation by a long name | partial |
| C203 | Variables of expressions | ParseText: lists of names | invariant over all texts; negation by a=3 | partial |
| C204 | Evenness of clusters | ClusterMore: sizes of clusters | extremes by induction over the list; negation for every list with an empty cluster | partial |
| C205 | X-means by the Bayesian information criterion | ClusterMore: densities and logarithms over the reals | the two criteria computed from the definition of the normal distribution; negation for every part of variance zero | partial |
| C206 | RANSAC with automatic parameters | ClusterMore: numbers of samples and trials | range of the number, then the theorem on RANSAC; negation for few samples | partial |
| C207 | Solvers of differential equations own their memory | Life: fields, live blocks and their sizes; allocations fail arbitrarily | classes compose: what each part makes and unmakes, by permutations of owned blocks; negations by computation | partial |
| C208 | Optimisers and solvers of equations own their memory | Life: the optimiser inside the solver of equations | composition; negations by computation | partial |
| C209 | Rings and arrays of vectors own their memory | Life: rings and arrays of any length | induction over the vectors still to be allocated | partial |
| C210 | Linear algebra releases its working memory | Work: allocation, computation as a parameter, release; nested calls | calls framed by the blocks held outside compose; negations by computation | partial |
| C211 | Optimisers release their working memory | Work: the same for optimisers, with swarms and populations of any size | composition and induction over particles; negations by computation | partial |
| C212 | Interpolators, curves, networks and mixtures own their memory | Work: the same for interpolators, curves, networks and mixtures | composition and induction over units; negations by computation | partial |
| C213 | Normalised angles, cycloids, the sigmoid function and rounding | Phase: functions of real numbers | arguments of complex numbers, derivatives and floors of Mathlib | proved |
| C214 | Random variates by rejection are defined and transform the accepted draw | Rand: loops of rejection over arbitrary sequences of draws | induction on the number of attempts that are rejected; negation by computation | partial |
| C215 | The generalised solver on the LU decomposition, and resized decompositions | LEMPLU: LU decomposition and the solver on it with null pointers for weights | invariant of the elimination; the remaining block vanishes when the leading columns span; negation by computation | partial |
| C216 | Balancing keeps the solutions of a system | LEMPLU: balancing with the sizes compared | closed form of the loops over rows; negation for every wide and tall shape | partial |
| C217 | The remaining element-wise operations, comparisons and fillings | RawMore: the remaining loops over raw vectors and matrices, argument lists, arrays and random elements | the row and column rules of C10; induction over the arguments | proved |
| C218 | A parser of expressions releases what it allocates | ParseMem: the parser of Model/Parse.lean with a ledger of allocated tokens, cells and numbers | simulation of the parser; invariant on what the ledger exceeds the stack by | partial |
| C219 | The smooth step is a smooth step | Misc: the sums of zSmoothStep and zSmoothStepDif with zCombination | the derivative of the polynomial telescopes for Bernstein polynomials; gluing with constants; induction over the order for smoothness | proved |
| C220 | Conjugate gradient method | OptDM: conjugate gradients | the direction is computed outright; a counterexample of two solutions | partial |
| C221 | Expansion of complex factors | PexCExp: zPexCExp on top of Pex and Complex | the product of a conjugate pair is the real quadratic; induction over pairs; rearrangement of factors | partial |
| C222 | Sets of clusters release their memory | ClusterMem: blocks of zm_mva_cluster.c counted | the difference of live and owned blocks is kept by every function; induction over histories and over the recursion of X-means | partial |
| C223 | Blocks of matrices at any position | RawMore: signed positions of blocks | the signed copy agrees with the copy of RawVec; witnesses at negative positions | partial |
| C224 | Memory of trees of vectors | TreeMem: blocks of a tree of vectors | the live blocks are a permutation of the blocks owned; induction over the tree and the history | partial |
| C225 | Memory of graphs | GraphMem: blocks of graphs and of searches | a count of live blocks is an invariant of every call; the search with the count refines the search of Graph | partial |
| C226 | Memory of random trees | RRTMem: blocks of random trees | a count of live blocks is an invariant of every search, for arbitrary answers of the user functions | partial |
| C227 | Memory of the search by divided rectangles | DirectMem: blocks of the DIRECT method | the search with a count of blocks refines the search of Direct; divisions with named blocks and failing allocations by permutations of the live blocks | partial |
| C228 | Memory of Gaussian mixture models | GMMMem: blocks of Gaussian mixture models | live blocks minus the blocks of the model is an invariant of every call; the sizes in the units as a second invariant | partial |
| C229 | Memory of linear programs in two variables | MDMem: blocks of linear programs in two variables | the live blocks are a permutation of those owned by the lists, an invariant of every call | partial |
| C230 | Cells are moved between lists without being missed or lost | Links: doubly linked lists on the level of pointers | a list is a cycle of pointers; each traversal keeps the part already seen and the part ahead, by induction on the part ahead | proved |
| C231 | Memory of sequences of vectors | SeqMem: blocks of sequences | the live blocks are a permutation of those of the frames and of others, an invariant of every call | partial |
| C232 | Vectors and matrices are values | Obj: heap of headers and buffers with vectors and matrices | refinement: each variable stands for a rectangle of numbers with a margin, each live block belongs to exactly one variable; the specification computes on the rectangles | proved |
| C233 | Explicit solvers keep to the caller's states | ODEUser: explicit solvers with functions of the caller that may be undefined | each call of a function is shown to be within the contract; embedded methods by induction over the halvings, Adams's by induction over the rounds of the corrector | proved |
| C234 | Implicit solvers and deferred correction keep to the caller's functions | ODEUser: equations of the implicit solvers, deferred correction | equations with the default functions at the caller's pointer equal those of the model ODE; concrete violations on a circle and for Gear's pointer | partial |
| C235 | Nearest point of a curve | NURBSNN: search for the nearest point | invariant of the search: the two best parameters with their distances; the second best distance never grows and is at most the worse of any two first samples | partial |
| C236 | Files of linear programs of two variables | MDFile: binary and text files of linear programs of two variables | decoding of an encoded list by induction on the rows; lengths of files; concrete problems for what is lost | partial |
| C237 | Arithmetic on vectors and matrices that are shared | ObjArith: arithmetic on objects of a heap, added to the histories of C232 | a loop that fills an object reads each place before it is written; refinement to values by induction on the history | proved |
| C238 | Products of vectors and matrices in any history | ObjMul: products and transposition on objects of a heap, added to the histories of C237 | the destination has a buffer of its own, hence the operands are unchanged while it is filled; the compensation of the sums is zero in exact arithmetic; induction on the history | proved |
| C239 | Products and transposition in place, in any history | ObjDRC: functions in place on objects of a heap, added to the histories of C238 | the temporary vector is a variable that is used for a while and forgotten; the transposition is that of C09 on the whole buffer; induction on the history | proved |
| C240 | Parts of vectors and matrices, in any history | ObjPart: functions on parts of objects of a heap, added to the histories of C239 | a loop that writes each time to another place scatters what it reads; induction on the history | proved |
| C241 | The picture of a matrix | Img: what zMatImg prints, with the rounding of C213 and the search of C175 | the rounded quotient lies between -4 and 4; cases | partial |
| C242 | Search in arrays of complex numbers | Img: the two searches | induction on the size | proved |
| C243 | Diagonal matrices, shifts, exchanges and arrays of vectors, in any history | ObjMisc: these functions on objects of a heap, added to the histories of C240 | loop invariants on what has been filled; arrays by induction on the array; induction on the history; concrete histories that leave the buffers | partial |
| C244 | Mean with variance and covariance, standard deviation | MeanVar: the wrappers composed from the moments of C45; an empty list has no head | expansion of the sum of squares by induction on the list (Steiner); the quadratic form of a sum of dyads is a sum of squares | partial |
| C245 | Moves of Nelder-Mead and independence of coordinates | NM, as for C71 | each trial vertex is a point of a line; simulation between the runs in the two coordinate systems by induction on the turns | proved |
| C246 | Mean and largest silhouettes | Silh: the loops over clusters and samples with the silhouettes of C101 and the sort of C194 | loop invariant on score, number and arrays; the last element of an ascending list is its maximum | partial |
| C247 | Parameters of B-splines in any history | SplinePrm: parameters with pointers to blocks of a heap, any pattern of failing allocations | refinement to values: each block in use has one owner; induction on the history; concrete histories that lose a block | partial |
| C248 | Conservation by symplectic and leapfrog integration | ODESym: histories of the two methods from their start, with default functions of the caller | induction on the history with bilinear identities; the closed form of the leapfrog method under constant acceleration | partial |

## Disagreements found between the code and the property

Each violation is proved of the model, with a concrete input; what does hold is proved by the theorems named beside it in the manifest.

* **C04 IEEE-754 classification** – all 2^64 bit patterns, little-endian build; the big-endian build is shown wrong  (`Ieee.zIsInf_bigEndian_wrong`)
* **C05 Line through two points** – the property is violated by the code; the violation and the exact set of inputs on which it holds are proved  (`Misc.zLine_not_through`)
* **C06 Raw vector kernels are element-wise and alias-safe** – every size, every aliasing pattern in which the destination does not start strictly inside a source  (`RawVec.zRawVecAdd_overlap_wrong`)
* **C08 Index-checked element access never leaves the buffer** – violated: index = size and negative indices/positions are not rejected; proved for the inputs in range  (`Vec.zVecSwap_undefined`, `Vec.zVecGet_undefined`)
* **C12 Infinity norm** – violated when column capacity exceeds column size; proved when they are equal  (`Mat.zMatInfNorm_wrong`)
* **C13 Failed operations leave operands unchanged** – violated: on a size mismatch zMulMatVecDRC zeroes its operand and reports success; the matching case is proved  (`Mat.zMulMatVecDRC_clobbers`, `Mat.zMatShift_tall_ub`)
* **C15 Triangular and LU solves** – violated by zLESolveU for upper-triangular matrices whose diagonal is not all ones; proved for unit upper-triangular ones, which is what the decomposition produces  (`LE.zLESolveU_nonunit_wrong`)
* **C16 LU decomposition** – violated when a pivot is found right of the diagonal; proved when the pivots are in the leading columns, in particular for every non-singular square matrix  (`LE.zMatDecompLU_rank_deficient_wrong`, `LE.zMatDecompLU_wide_ub`)
* **C18 Matrix inverse** – violated: zMatInv ignores the failure of the solver and returns the identity matrix as inverse of a singular matrix  (`LE.zMatInv_singular_wrong`)
* **C19 Tridiagonal solver** – a zero pivot is refused in every row but the last, where it is divided by  (`LE.zLETridiagSolve_last_pivot_unchecked`)
* **C21 Polynomial ring operations** – violated when the result is the zero polynomial (out-of-bounds read); proved for all other results  (`Pex.zPexAdd_zero_ub`, `Pex.zPexSub_self_ub`, `Pex.zPexMul_zero_ub`, `Pex.zPexAddDRC_mismatch`)
* **C22 Polynomial division** – violated for exact divisions (out-of-bounds read) and for constant divisors or dividends of smaller degree (rejected); proved otherwise  (`Pex.zPexDiv_exact_ub`)
* **C23 Polynomial from roots** – proved for an upward-copying memcpy; the C code calls memcpy on overlapping memory unless the number of factors is a power of two  (`Pex.zPexExp_overlap_ub`, `Pex.zPexExp_three_ub`)
* **C26 Degree regularisation** – violated by the zero polynomial; proved for all others  (`Pex.zPexRgl_zero_ub`)
* **C32 Cubic spline** – violated: a free terminal edge does not have vanishing second derivative, the reported acceleration at the last knot has wrong signs, and two knots with both edges free divide by zero; interpolation, continuity and the interior are proved  (`IP.spl_free_end_violated`, `IP.splSecAcc_last_violated`, `IP.splCreate_two_free`)
* **C33 PCHIP monotonicity** – the edge slope rule is violated; monotonicity is proved  (`IP.pchip_first_violated`, `IP.pchip_last_violated`)
* **C34 Akima interpolation reproduces straight lines** – violated in the first and last segments; proved for the inner segments  (`IP.akima_line_violated`, `IP.akima_edge_violated`, `IP.akCreateMod_edge_violated`)
* **C36 Trapezoidal velocity profile** – violated when the distance is too short for the velocity change and for reverse velocities beyond the limit; proved for feasible distances  (`IP.trvel_short_violated`, `IP.trvel_reverse_violated`)
* **C37 B-spline knots and segment lookup** – knots of which the first and the last differ, as the property says; if all are equal the search leaves the array  (`NURBS.zBSplineParamSeg_degenerate_ub`)
* **C40 kd-tree nearest neighbour** – trees that hold a point; the search in an empty tree follows a null pointer  (`Cont.zVecTreeNN_empty_ub`)
* **C42 Polyline simplification** – every metric and every polyline of at least two points; one point makes the loop read the root cell  (`Cont.zVecListRDP_single_ub`, `Cont.zVecListRDP_negative_ub`)
* **C46 Histogram accounting** – violated: the upper limit of the last bin is reported wrongly, one automatic bin and constant data divide by zero; counting is proved  (`Stat.zHistogramCreateAuto_one_ub`, `Stat.zHistogramCreateAuto_constant_ub`, `Stat.zHistogramBinMax_last_violated`, `Stat.zHistogramBinMid_last_violated`)
* **C48 Shortest path** – violated: an unreachable goal makes the code follow a null pointer, and start = goal is an error; shortest paths are proved when a path exists and start differs from goal  (`Graph.zGraphSearch_unreachable_violated`, `Graph.zGraphSearch_same_violated`, `Graph.zGraphSearch_directed_violated`)
* **C49 Expression parser** – violated: a sign inside brackets makes the parser loop for ever, adjacent operator characters are a syntax error, and a function call that is not at the beginning of the text disturbs the priorities or is applied to less than its bracket; proved for all expressions with a sign or a function call, of any argument without one, at the beginning only  (`Parse.parse_sign_violated`, `Parse.parse_run_violated`, `Parse.parse_func_violated`, `Parse.parse_nested_violated`, `Parse.parse_dropped_violated`)
* **C50 Bracketing root finders** – violated: when the ends do not bracket a root and the random search meets one, an end of the interval is returned instead; proved for every bracket  (`OneD.zNLE_Bisec_random_violated`)
* **C52 Runge-Kutta tableaux** – violated by Cash-Karp, whose rows of weights are exchanged: the accepted estimate is of order four; all the others are proved, with all conditions up to order five and adaptive steps  (`ODE.ck45_order_violated`)
* **C55 Numerical integrators** – violated by the first step of the quadratic integrator, which is a trapezoid; proved from the second step on and for the other integrators  (`ODE.zIntgQuad_first_violated`)
* **C56 Simplex method** – violated by redundant constraints (the wrong right-hand side is kept), by square systems (the first element of an empty index is read) and by coefficients below the tolerance; proved for independent rows and exact comparisons, and the equations and the cost for comparisons with tolerance  (`LP.zLPTableauSimplex_no_ub`, `LP.zLPSolveSimplex_no_ub_partial`, `LP.zLPSolveSimplex_redundant_violated`, `LP.zLPSolveSimplex_square_violated`, `LP.zLPSolveSimplex_negative_violated`)
* **C58 Lemke's method** – violated by coefficients below the tolerance, which do not take part in the choice of the pivot; the equations and complementarity are proved as the code stands, the signs for exact comparisons  (`LCP.zLCPSolveLemke_tol_violated`)
* **C60 Complex arithmetic** – violated: products stored in an argument are wrong, and quotients by small non-zero numbers read an uninitialised variable; everything else is proved  (`Cplx.zComplexCMul_alias_violated`, `Cplx.zComplexCDiv_small_violated`)
* **C61 Quadratic equations** – violated for b = c = 0, where zero is divided by zero; proved for all other coefficients  (`Cplx.zQESolve_zero_violated`)
* **C64 RRT tree invariants** – the tree invariants and the path are proved for the three planners; violated: the path is not stored when the caller asks for no cost, and two trees that meet with a full step are not recognised  (`RRT.zRRTFindPath_nocost_violated`, `RRT.zRRTFindPathDual_meet_violated`)
* **C65 Path shortcutting** – violated: the cost misses the last edge when the last pair was not replaced  (`RRT.zRRTShortcutPath_cost_violated`)
* **C66 Growing neural gas consistency** – for lifetimes that are not negative, as the statement says; the last theorem shows that the restriction is needed; allocation does not fail and ages do not overflow  (`GNG.zGNGUpdate_lifetime_violated`)
* **C68 K-means partitions the points** – proved whenever the seeds are found and the roulette of K-means++ does not draw zero; violated by a zero draw (a point in two clusters) and by coincident points (undefined behaviour)  (`Clus.zKMeans_zero_draw_violated`, `Clus.zKMeans_coincident_violated`, `Clus.zKMeansKKZ_coincident_violated`)
* **C69 GA population** – proved for random numbers below one in the roulette; violated when the generator gives exactly one: the worst individuals are drawn and zero is divided by zero  (`GA.zOptGAReproduce_one_violated`)
* **C70 PSO bookkeeping** – violated: the value reported is one turn older than the answer; the rest is proved  (`PSO.zOptSolvePSO_value_violated`)
* **C72 Jacobi eigenvalue rotations** – proved for two or more rows; when the limit of sweeps is reached the function still reports success, which the bound of the theorem excludes; a matrix of one row is read out of bounds  (`Eig.zMatSymEigJacobi_violated_size1`)
* **C75 Clothoid segment** – violated: the ordinate is offset by x0 instead of y0  (`IP.zClothoidXY_start_violated`)
* **C76 Weighted generalised solvers** – proved without weights; the norm minimised by zLESolveNormMin and zLESolveRefNormMin has the reciprocals of the weights the header describes  (`LE.zLESolveNormMin_weight_violated`)
* **C77 Orthogonal (LQ) decomposition** – proved of zMatDecompLQ and zMatDecompQR; Householder's method only when no row is skipped, violated otherwise; a null pointer for the triangular matrix, which the header allows, is dereferenced  (`LE.zMatDecompLQ_null_violated`, `LE.zMatDecompLQ_Householder_violated`)
* **C81 Polynomial fit under boundary conditions** – violated: terminal velocity and acceleration are not scaled by the term  (`IP.pexBoundaryLSM_violated`)
* **C83 Distance to an edge** – violated: the value is the distance to the straight line, not to the edge; proved when the foot of the perpendicular is on the edge  (`Cont.zVecEdgeDist_violated`)
* **C84 Projection and orthogonalisation** – violated when the result is stored in the argument; proved otherwise  (`Cont.zVecOrthogonalize_alias_violated`, `Cont.zVecProj_zero_ub`)
* **C86 Smoothing windows** – violated for odd window lengths, which read one value behind the data; proved for even lengths  (`Stat.smoothSG_odd_violated`)
* **C90 Equations of second order** – violated by the leapfrog method, which takes the initial velocity for the one half a step before  (`ODE.zODE2UpdateLeapfrog_start_violated`)
* **C91 Division of complex vectors** – violated by small scalars: the failure of the inner division is ignored  (`Cplx.zCVecCDiv_small_violated`)
* **C92 Feasible base of a linear program** – violated: an artificial variable that stays basic at zero is written outside the vector  (`LP.zLPFeasibleBase_violated`)
* **C93 Conjugate gradients** – violated: the sign of the correction is wrong and two turns do not solve two equations; proved that the solver never divides by zero and never gets worse  (`LCP.zCGSolve_violated`)
* **C94 Planner without user functions** – violated: the function used in place of a collision check reports a collision everywhere; the default metric and extension are as claimed  (`RRT.zRRTInit_default_violated`)
* **C96 Genetic algorithm keeps the best** – violated: the best individual may mutate; proved when it survives without mutation  (`GA.zOptGAReproduce_best_violated`)
* **C97 Ranges of random variates** – violated by the geometric variate, which is zero when the generator gives zero  (`Rnd.zRandGeo_violated`)
* **C100 X-means** – the partition is proved; the test of the density and the check for too crisp clusters have the opposite sense of what the caller takes them for  (`Clus.xMeans_density_violated`, `Clus.xMeans_crisp_violated`)
* **C102 Moore-Penrose solution** – proved for matrices that are not zero; the zero matrix leaves the answer as it was; the norm has the reciprocals of the weights  (`LE.zLESolveMP_zero_violated`)
* **C103 Null-space projector** – the matrix is the negative of the projector, and is left as it was by the zero matrix  (`LE.mpNull_sign_violated`, `LE.mpNull_zero_violated`)
* **C106 Singular value decomposition** – proved from exact eigenvectors of m m^T, which Jacobi's method delivers up to its tolerance; a matrix of one row is read out of bounds  (`Eig.zMatSVD_violated_row`)
* **C107 Hessenberg form** – proved without a tolerance; with it, a column whose squares are below the tolerance is reflected by a vector that is not normalised, again and again  (`Eig.hessCol_stuck`, `Eig.zMatToHessenberg_violated`)
* **C108 Power method** – the eigenequation is proved when the iteration stops by its test, and that it stops for a symmetric matrix with one dominant eigenvalue and an initial vector with a part along it; the value need not be dominant, and with eigenvalues of opposite signs the method delivers a number that is no eigenvalue  (`Eig.zMatEigPower_violated_dominant`, `Eig.zMatEigPower_violated_oscillates`)
* **C109 Eigensolvers stay inside of the matrix** – violated for every matrix by the bisection, and by the double QR method for three and more rows  (`Eig.bisecRange_violated`, `Eig.dqrHouseholder_violated`, `Eig.dqrLoop_violated`)
* **C110 Cholesky decomposition** – proved of positive semidefinite matrices; an indefinite matrix with a zero diagonal is accepted with the rank zero  (`LE.zMatDecompCholesky_indefinite_violated`)
* **C112 Gauss-Seidel method** – proved if the iteration stops by its test; it divides by a zero diagonal, and returns the last vector when the limit of iterations is reached  (`LE.zLESolveGaussSeidel_diag_violated`, `LE.zLESolveGaussSeidel_limit_violated`)
* **C113 Lyapunov equation** – the header names singular A as the reason of failure; it is the singularity of the operator  (`LE.zLELyapnovSolve_regular_violated`)
* **C114 Multiplication by an inverse from the right** – proved of square m1; the size test compares the rows of m1 instead of its columns  (`LE.zMulMatInvMat_refuse_violated`, `LE.zMulMatInvMat_accept_violated`)
* **C115 Inverse matrix by Hotelling's method** – the matrix before the one that has passed the test is returned, so that only the square of the residual is within the tolerance; a singular matrix ends at the limit of iterations and is returned as if it were inverted  (`LE.zMatInvHotelling_violated`)
* **C116 Moore-Penrose inverse** – proved of every matrix but zero, whose inverse (zero) is not stored; the projector has the opposite sign  (`LE.zMatMPInv_zero_violated`)
* **C117 Moore-Penrose inverse by Penrose's iteration** – proved of every matrix but zero, for which zero is divided by zero; in exact arithmetic the loop ends after as many turns as the rank  (`LE.zMatMPInvPenrose_zero_violated`)
* **C118 Generalised solution by singular values** – proved from exact eigenvectors; a matrix of one row is read out of bounds  (`LE.zLESolveMP_SVD_row_violated`)
* **C119 Principal component analysis** – proved from an exact eigensystem but for the order of the scores and the number returned, which is an index  (`Mva.zVecListPCA_violated`)
* **C120 Normally distributed vectors** – proved of every covariance matrix but zero; a matrix that is no covariance is not refused  (`Mva.zVecListGenRandND_zero_violated`, `Mva.zVecListGenRandND_indefinite_violated`)
* **C121 Error function and normal distribution** – up to 10^-20 on [-2,2] and 10^-8 on [-3,3]; the 36 terms diverge from the function for large arguments (below -10^28 at 10), and the header states another lower limit of the integral  (`SF.zErf_violated`, `SF.zErf_doc_violated`)
* **C125 Van der Pol's oscillator** – an amplitude of zero is accepted, and then divided by  (`SF.VDP.init_violated`)
* **C128 Polynomial equations by deflation** – proved for calls that end without a warning; x^2 = 0 and singular first steps divide by zero  (`PexEq.zPexBH_square_violated`, `PexEq.zPexBH_singular_violated`)
* **C129 Polynomial equations by simultaneous iteration** – convergence is proved near simple roots; approximations as close as 10^-6 make the code read a variable without a value  (`PexEq.zPexDKA_close_violated`)
* **C130 Descent methods stop at stationary points** – proved with a line search; without one, as created, the solver ascends by one step and reports success; the value reported belongs to the point before  (`OptDM.zOptDMSolve_default_violated`, `OptDM.zOptDMSolve_value_violated`)
* **C131 Descent methods descend** – proved of steepest descent and variable metrics with Nocedal's line search; the default solver ascends (C130), and so does the search of Dennis and Schnabel on steep functions  (`OptDM.zOptDMSolve_DS_violated`)
* **C132 Quasi-Newton updates** – both are the update of Broyden, Fletcher, Goldfarb and Shanno; that of Davidon, Fletcher and Powell differs  (`OptDM.updateDFP_violated`)
* **C134 Levenberg-Marquardt method** – the direction is right but the elimination destroys the gradient that the line search reads  (`OptDM.zOptDMSolve_LM_violated`)
* **C135 Success of a solver of nonlinear equations** – proved of Newton-Raphson's and Broyden's method; the descent methods report success at every stationary point of the squared error (x^2 + 1 = 0 is solved by 0)  (`NLE.solveDM_violated`)
* **C137 Broyden's method** – the secant equation fails after a shortened step  (`NLE.broyden_secant_violated`)
* **C138 Numerical Jacobian matrix** – right for one variable only: square matrices are transposed, and with more variables than equations memory is overrun  (`NLE.jacNG_overflow_violated`, `NLE.solveNR_numeric_violated`)
* **C140 DIRECT returns the best point evaluated** – when the iterations run out the answer is taken from the list of a region that has been divided: in one dimension, after one iteration, the data of the root cell of an empty list are read; in two, the answer is worse than the centre  (`Direct.zOptSolveDIRECT_violated`, `Direct.zOptSolveDIRECT_worse_violated`)
* **C144 Active set method: memory** – proved of at least as many constraints as variables; with fewer, every problem whose first point is found overruns the heap block of one number per constraint  (`QPASM.zQPSolveASM_no_ub_partial`, `QPASM.zQPSolveASM_overflow_violated`, `QPASM.zQPSolveASM_halfplane_violated`)
* **C145 Active set method: termination** – the inner loop ends; the outer loop goes round for ever on a problem of three variables and four constraints through the origin  (`QPASM.zQPSolveASM_endless_violated`)
* **C149 Interior-point method: answers** – proved if the loop ends by the test of the residuals; if both steps are tiny the solver returns true with points that are not optimal, and for problems without feasible points or without a bound  (`PDIP.zLPSolvePDIP_PC_suboptimal_violated`, `PDIP.zLPSolvePDIP_PC_infeasible_violated`, `PDIP.zLPSolvePDIP_PC_unbounded_violated`)
* **C151 Interior-point method for complementarity problems: step** – proved for a positive inner product k2; for every negative k2 the step is refused or greater than one  (`LCPIP.stepLen_neg_violated`, `LCPIP.zLCPSolveIP_leaves_violated`)
* **C152 Interior-point method for complementarity problems: answers** – proved for runs in which k2 is always positive and which end by the test; a problem with one unknown and an obvious solution is refused  (`LCPIP.zLCPSolveIP_refuses_violated`)
* **C153 Complex matrices: element-wise operations** – proved; only zMatToCMat does not compare the sizes and writes beyond the end of a smaller matrix  (`CMat.zMatToCMat_size_violated`)
* **C154 Complex matrices: complex scalars** – violated in place, where the imaginary part is computed from the new real part, and by divisors between the two tolerances, by whose conjugates the elements are multiplied; proved otherwise  (`CMat.zCMatCMul_inplace_violated`, `CMat.zCMatCDiv_small_violated`)
* **C155 Complex matrices: rows, columns, products** – violated by negative indices, which are not refused, and by products in place; proved otherwise  (`CMat.zCMatGetRow_negative_violated`, `CMat.zCMulMatVec_inplace_violated`)
* **C157 Two-variable linear programs: direct method** – proved for a tolerance of zero; with the tolerance of the library a returned point satisfies the kept constraints within it, and a problem without admissible points can be reported as solved  (`MD.zLPMegiddoDyerSolveDirect_tol_violated`)
* **C158 Two-variable linear programs: method of Megiddo and Dyer** – proved, for a tolerance of zero and any median, when no constraint is on the first variable alone or at most four are not; violated otherwise, and when constraints are added after a call  (`MD.zLPMegiddoDyerSolve_vertical_violated`, `MD.zLPMegiddoDyerSolve_extend_violated`)
* **C159 Two-variable linear programs: refusals** – proved when the constraints on the first variable alone come first; violated when they come last, where a problem with exactly one optimum is refused  (`MD.zLPMegiddoDyerSolveDirect_infinite_violated`)
* **C162 Gaussian mixtures: likelihood** – proved while no covariance is singular, which in one dimension and exact arithmetic is always so; violated for an empty cluster and for data so small that determinants are below the tolerance  (`GMM.zGMMCreateEM_empty_violated`, `GMM.zGMMCreateEM_small_violated`)
* **C164 Gaussian mixtures: criteria** – only the means are counted; the criteria are too small and prefer too many Gaussians  (`GMM.zGMMAIC_violated`, `GMM.zGMMBIC_violated`, `GMM.zGMMAIC_choice_violated`)
* **C167 Bessel functions: accuracy of I** – orders 0 and 1 for arguments below 12.5 in magnitude; all higher orders for arguments up to 8 (3e-14), and below 12.5 with an explicit error of Miller's method; violated for large arguments  (`Bessel.zBesselI_large_violated`)
* **C169 Bessel functions: Miller's method** – the method is proved; the order where it begins does not depend on the argument, so that zBesselI grows from order 3 to order 5 at 300  (`Bessel.zBesselI_large_violated`)
* **C172 Matrices: rows and columns** – proved for positions that are not negative; violated: a negative position is not refused  (`Mat.zMatGetRow_violated`, `Mat.zMatGetCol_violated`, `Mat.zMatPutRow_violated`, `Mat.zMatPutCol_violated`, `Mat.zMatSwap_violated`)
* **C174 Matrices: product with the transpose in place** – proved for a square matrix of the size of the vector; violated otherwise: the vector is overwritten  (`Mat.zMulMatTVecDRC_violated`)
* **C176 Matrices and vectors: tests** – violated by zMatIsIdent, which accepts matrices that are not square; the others are proved  (`Mat.zMatIsIdent_violated`)
* **C177 Vectors: reordering** – proved for indices in range; violated: elements of the index out of range are not refused, and zVecReorderDRC reports success for an index of another size  (`Vec.zVecReorder_violated`)
* **C179 Vectors: functions that do not return NULL** – proved for operands of the same size; violated for others: zVecShift writes beyond the end of a shorter destination, and so do the scalings and zVecNormalize; zVecInterDiv and zVecMid read beyond the end of shorter operands  (`Vec.zVecShift_violated`, `Vec.zVecUnchecked_violated`)
* **C181 Poisson distribution** – violated for negative numbers: the division by a factorial of zero gives infinity  (`Distrib.zPoissonDistrib_violated`)
* **C183 Sections of interpolators** – holds for Lagrange, Chebyshev and the acceleration of linear ones; violated: linear velocity at the last knot, every PCHIP acceleration, Akima velocity at the first knot and acceleration at the others; PCHIP and Akima read beyond the knots for the last one. The cubic spline is in C32  (`IP.linSecVel_last_violated`, `IP.pchipSecAcc_violated`, `IP.pchipSecAcc_last_violated`, `IP.akSecVel_first_violated`, `IP.akSecAcc_inner_violated`, `IP.akSecAcc_last_violated`)
* **C184 Element-wise operations on complex vectors** – violated only by v1 + z v2 when z is an element of the result  (`CVec.zCVecCat_alias_violated`)
* **C185 Complex vectors: complex scalars and norms** – violated in place (zCVecCMulNCDRC, zCVecCDivNCDRC): the imaginary part is computed from the new real part; zCVecNormalize does not compare the sizes. The macros zCVecCMulDRC and zCVecCDivDRC pass a pointer for a number and zCVecValIsIncluded omits an argument: they do not compile when used  (`CVec.zCVecCMul_inplace_violated`, `CVec.zCVecCDiv_inplace_violated`, `CVec.zCVecNormalize_size_violated`)
* **C186 Counting eigenvalues by the Sturm series** – violated where e is the first element of the matrix: a vanishing first term is counted as negative but divided by as positive  (`Eig.sturm_first_violated`)
* **C187 Eigenvalues by bisection** – violated: eigenvalues on an end of the range are lost (one and zero on the diagonal), and the recursion never ends for a double eigenvalue (two, two and three on the diagonal). Proved for simple eigenvalues off the lower end. The number of halvings after which rounding stops the loop is a parameter  (`Eig.bisecVals_lost_violated`, `Eig.bisecVals_twin_violated`)
* **C188 Extreme singular values and condition number** – violated for every matrix without full rank: zMatInv hands back the identity for the singular product, so the least singular value comes out as one and the condition number as the greatest singular value  (`Eig.zMatCondNum_singular_violated`)
* **C189 Eigenvectors by inverse iteration** – violated where the estimate plus the shift is an eigenvalue: zMatInv does not report the singular matrix, no other shift is taken and the random vector comes out  (`Eig.eigVecReal_singular_violated`)
* **C190 Eigenvectors of complex eigenvalues and their order** – proved for estimates that, plus the shift, are no eigenvalues; the residual is exact, whether or not the iteration ended by its test; the eigenvalues themselves are inputs; violated where an estimate plus the shift is an eigenvalue: the random vector comes out, as in C189  (`Eig.eigVecComplex_singular_violated`)
* **C191 A polynomial as text is that polynomial** – violated by every polynomial with a constant term: the constant is printed from a variable that holds the coefficient of the term before, and that was never set for a constant polynomial  (`Text.zPexSExpr_constant_violated`, `Text.zPexSExpr_uninit_violated`)
* **C192 Complex numbers as text** – violated by every positive multiple of the imaginary unit: a null character is printed in place of the sign  (`Text.zComplex_roundtrip_violated`)
* **C193 Vectors, matrices, polynomials and sequences in files** – violated by vectors and matrices with another capacity than size: the capacity is printed behind the size but not read; a polynomial without a degree in the file takes a variable that was never set  (`Text.zVec_resized_violated`, `Text.zMat_resized_violated`, `Text.zPex_nodim_violated`)
* **C195 Smoothing keeps polynomials** – violated by windows of odd length, which read behind the data, by a window of one sample, where a pointer that was never set is freed, and by degrees not below the length, where zeros are reported as success  (`Data.zDataSmoothSG_degree_violated`, `Data.zDataSmoothSG_one_violated`, `Data.zDataSmoothSG_odd_violated`)
* **C196 Peaks of smoothed data** – violated where the smoothed slope is zero at the sample of the maximum: nothing is reported; where the smoothing fails a list that was never initialised is destroyed  (`Data.zDataPeakSG_sample_violated`, `Data.zDataPeakSG_fail_violated`)
* **C197 Cores of clusters of linear sums** – violated by clusters whose samples do not determine the coefficients: the failure of the solver is not noticed and the previous core is returned  (`ClusterLS.coreLS_singular_violated`)
* **C198 Memory of clustering methods** – violated by an error size that is not positive: it is refused after the vector of the error was freed, which is freed again later  (`ClusterMethod.method_size_violated`)
* **C199 Complete clustering methods** – violated: the function for the distance is never asked for, and setting another function for the error leaves the workspace with the previous size  (`ClusterMethod.loadedMean_dist_violated`, `ClusterMethod.loadedMean_size_violated`)
* **C200 Products of three matrices** – violated: zMulMatMatMatT and zMulMatTMatMat do not compare the size of the destination with that of the matrix and write behind it  (`Mat.zMulMatMatMatT_size_violated`, `Mat.zMulMatTMatMat_size_violated`)
* **C201 Lists of vectors and their memory** – violated: zVecListDestroy releases the structures of the vectors but not their buffers  (`VecList.listDestroy_leaks_violated`)
* **C202 Text of expressions** – violated by names as long as the buffer of BUFSIZ characters, which are copied beyond its end; the expressions are those of C49  (`Parse.name_overflow_violated`)
* **C203 Variables of expressions** – violated: an assignment evaluates to its right-hand side, but no variable changes, whatever the text  (`Parse.assign_violated`)
* **C204 Evenness of clusters** – violated by a cluster without samples: the quotient is not guarded  (`Cluster.evenness_empty_violated`)
* **C205 X-means by the Bayesian information criterion** – proved for errors of one dimension and positive variances; violated by a part of variance zero, such as one sample, which is always divided off, and by errors of more dimensions, for which the density is that of one dimension  (`Cluster.checkBIC_zero_violated`, `Cluster.checkBIC_dimension_violated`)
* **C206 RANSAC with automatic parameters** – violated by few samples, for which no trial is made and the parameters given decide  (`RANSAC.zRANSACAuto_few_violated`)
* **C207 Solvers of differential equations own their memory** – what was created is released; violated by failed creations, which leak in all methods but Euler's, the symplectic and the leapfrog method, and are undefined in the embedded and the implicit ones; predictors without weights are reported as created  (`Life.ode_leak_violated`, `Life.ode_undefined_violated`, `Life.adams_weights_violated`)
* **C208 Optimisers and solvers of equations own their memory** – proved of optimisers; failed creations of solvers of equations free pointers without a value or free twice  (`Life.nle_uninit_violated`, `Life.nle_double_violated`)
* **C209 Rings and arrays of vectors own their memory** – violated if the array of pointers cannot be allocated: the vectors are written to it all the same  (`Life.ring_null_violated`)
* **C210 Linear algebra releases its working memory** – proved of twelve calls; violated by those that report success without memory (Gauss, tridiagonal, residual iteration, inverse, Hessenberg, power method, eigenvectors, singular values, Penrose), by double releases (pseudo-inverses) and leaks (condition number, copies of workspaces, pseudo-inverse of rank zero)  (`Life.exhausted_report_violated`, `Life.eig_report_violated`, `Life.exhausted_release_violated`, `Life.mpInv_rank_violated`)
* **C211 Optimisers release their working memory** – proved of complementarity problems; the others only while there is memory: null tableaux, double releases and leaks otherwise; a swarm of no particles leaks  (`Life.tableau_null_violated`, `Life.opt_release_violated`, `Life.pso_empty_violated`)
* **C212 Interpolators, curves, networks and mixtures own their memory** – proved of curves; violated by splines with invalid edges, Akima past the last knot, networks (working vectors never released, null units) and by copies and mixtures that run out of memory  (`Life.spline_edge_violated`, `Life.akima_outside_violated`, `Life.gng_destroy_violated`, `Life.gng_null_violated`, `Life.clone_release_violated`)
* **C214 Random variates by rejection are defined and transform the accepted draw** – violated by the Cauchy variate: the draw for its abscissa may be one, and the division is by zero; proved of it for draws below one  (`Rnd.zRandCauchy_zero_violated`)
* **C215 The generalised solver on the LU decomposition, and resized decompositions** – violated when a column before a pivot is skipped: the column of the lower factor is written in the wrong place, outside of it for a wide matrix; proved for all matrices whose leading columns are a basis of their columns  (`LE.zLESolveMP_LU_skipped_violated`, `LE.zLESolveMP_LU_wide_violated`)
* **C216 Balancing keeps the solutions of a system** – violated with factors for the columns of a matrix that is not square: their number is compared with that of the rows; proved for square systems, tall ones with a longer vector of factors, and without factors  (`LE.zMatVecBalancing_wide_violated`, `LE.zMatVecBalancing_tall_violated`)
* **C217 The remaining element-wise operations, comparisons and fillings** – see the theorems  (`RawMat.zRawVecCats_ub`, `RawMat.zVecSetElemVList_ub`)
* **C218 A parser of expressions releases what it allocates** – The full property, nothing left after the destruction, is false of the code: zmParserDestroy_violated shows it for every history; what is proved is that nothing is released twice or while in use.  (`Parse.zmParseEvalM_violated`, `Parse.zmParserDestroy_violated`)
* **C220 Conjugate gradient method** – violated: the directions are started again after the second one and then after every n-th, and a second solution starts in the direction left behind by the first; the directions themselves are proved to be those of Fletcher and Reeves  (`OptDM.updateNone_early_violated`, `OptDM.vecCG_leftover_violated`)
* **C221 Expansion of complex factors** – violated: when the factors cannot be paired the vectors they were sorted into are left behind; correctness is proved for an upward-copying memcpy (see C23) and exact conjugates  (`Pex.zPexCExp_leak_violated`)
* **C222 Sets of clusters release their memory** – violated: a second clustering forgets the clusters of the first, and KKZ and X-means leave vectors behind when an allocation fails; proved for one K-means++ clustering between initialisation and destruction under any allocation failures, and for X-means without failures  (`ClusterMem.clusters_again_violated`, `ClusterMem.clusters_kkz_violated`, `ClusterMem.xMeans_leak_violated`)
* **C223 Blocks of matrices at any position** – violated: negative positions pass the test and memory in front of the block or of the matrix is read or overwritten, and a block to the right of the matrix is clipped to a negative width that reaches memcpy; proved for positions that are not negative  (`RawMat.zRawMatGet_right_violated`, `RawMat.zRawMatPut_right_violated`, `RawMat.zMatGet_negative_violated`, `RawMat.zMatPut_negative_violated`)
* **C224 Memory of trees of vectors** – violated: where the box of a leaf cannot be allocated the leaf is released although its parent points to it, and its vector is lost; where the first vector cannot be copied the next addition reads a null pointer; proved for histories without such failures  (`TreeMem.zVecTreeDestroy_violated`, `TreeMem.zVecTreeAdd_leak_violated`, `TreeMem.zVecTreeAdd_retry_violated`)
* **C225 Memory of graphs** – building and destroying is proved for every history; violated: every search that returns loses at least one cell, and with the functions set by zGraphInit a graph never has more than one node  (`GraphMem.zGraphSearchAStar_leak_violated`, `GraphMem.zGraphInit_equal_violated`)
* **C226 Memory of random trees** – violated: a search that rewires loses the vector of a node when there is no memory for its list of near nodes, and reports success; proved for the other searches, and for this one if no allocation fails  (`RRTMem.zRRTFindPathOpt_leak_violated`)
* **C227 Memory of the search by divided rectangles** – violated: every search that evaluates the objective more than once loses a list cell for each region divided; a division that runs out of memory loses a region or releases one that stays in the set; proved: the exact number of blocks left after a search, and that a division itself releases live blocks only and accounts for all of them when it succeeds  (`DirectMem.zOptSolveDIRECT_leak_violated`, `DirectMem.rectDivide_dangling_violated`, `DirectMem.rectDivide_lost_violated`)
* **C228 Memory of Gaussian mixture models** – proved for every history with positive sizes in which the initialisation succeeds and no estimation fails, and with enough memory all calls succeed; violated: a failed initialisation loses blocks of a unit, a failed estimation loses the copy of the method, and a size of errors that is not positive leaves a pointer to a released vector, which is then released again  (`GMMMem.zGMMInit_leak_violated`, `GMMMem.zGMMCreateEM_leak_violated`, `GMMMem.zGMMSetErrorFunc_size_violated`)
* **C229 Memory of linear programs in two variables** – violated: destroying a program solved by the method of Megiddo and Dyer leaves two blocks for each pair of constraints that is left; proved: no block is used after its release or released twice, the exact number of blocks left, and that none is left if only the direct method is used  (`MDMem.zLPMegiddoDyerDestroy_leak_violated`)
* **C231 Memory of sequences of vectors** – proved for every history without files, and for a file read into an empty sequence in which every frame has an interval; violated: a frame without one loses a cell, and reading into a sequence that is not empty loses all of its frames  (`SeqMem.zSeqFScan_leak_violated`)
* **C234 Implicit solvers and deferred correction keep to the caller's functions** – backward Euler, trapezoidal, Gauss and Radau equations depend on the caller's pointer only; Gear's method passes the solver itself instead, so that a second-order equation on top of it is undefined for every input; deferred correction doubles states without the caller's function, and Gauss's and Radau's methods compare derivatives with the function for states, so that on a circle a rotation of one turn per unit of time is taken for rest  (`ODEUser.zODEGearEq_util_violated`, `ODEUser.zODE2UpdateRegular_gear_violated`, `ODEUser.zODEUpdateDC_violated`, `ODEUser.bk4_sub_violated`)
* **C235 Nearest point of a curve** – parameter and point always belong to the curve; the point is nearest up to a thirtieth of the interval if the distance along the curve has one valley; on a closed curve the two ends are equally near and the middle between them is returned, which may be the farthest point of the curve  (`NURBS.zNURBSVecNN_nearest_violated`)
* **C236 Files of linear programs of two variables** – short and missing files are refused exactly; a problem comes back the same if the cost is the second variable and no constraint is on the first variable alone; otherwise the lines written are those of the cost and the bounds of the first variable are lost; the text file writes the upper bounds twice and no lower bound  (`MDFile.write_cost_violated`, `MDFile.write_bound_violated`, `MDFile.writeASCII_violated`)
* **C241 The picture of a matrix** – violated: negative elements below an eighth of the greatest absolute value are drawn like positive ones; a matrix without columns is read outside  (`Img.zMatImg_sign_violated`)
* **C243 Diagonal matrices, shifts, exchanges and arrays of vectors, in any history** – violated: arrays of vectors of different sizes and empty arrays, shifts into smaller vectors, shifts of the diagonal of matrices with more rows than columns, and the position after the last element are not refused; proved where the client avoids these  (`Obj.misc_violated`)
* **C244 Mean with variance and covariance, standard deviation** – violated: an empty list is not refused, the vector at its head is read; proved for lists that are not empty, with vectors of one size  (`Stat.zVecListMeanVar_empty_violated`)
* **C246 Mean and largest silhouettes** – violated: after samples are removed or added the largest silhouette is read outside of the array; a failing zVecClusterCreate releases a pointer that was never written; proved as long as the samples are those the silhouettes were computed from  (`Clus.maxSilhouette_violated`, `Clus.clusterCreate_violated`)
* **C247 Parameters of B-splines in any history** – violated: a clone or allocation over a parameter that holds knots loses them, and a copy between parameters without knots reads a null pointer; proved where the client avoids these and stays within the knots  (`SplinePrm.param_violated`)
* **C248 Conservation by symplectic and leapfrog integration** – violated: as it is started, the leapfrog method does not integrate constant acceleration exactly; the error is given for any number of steps; the conservation laws are proved in full  (`ODE.leap_constant_violated`)
