# property range -> (model files, proof method)
PLAN = [
("C01-C02", "Misc: loops of zPowN, zPermutation, zCombination, zCombinationSeries", "induction over the loop; `Nat.choose`, `descFactorial` as specification"),
("C03", "Misc: zIsTol, zEqual over an ordered field with infinities and not-a-number", "case analysis"),
("C04", "Ieee: 64-bit words", "bit-vector reasoning on arbitrary words"),
("C05", "Misc: zLine", "negation with witness; the exact set of inputs on which it holds"),
("C06-C08", "RawVec: checked buffers, loops in the ok/fail/ub monad", "loop invariants; witnesses for zVecSwap, zVecGet"),
("C09", "RawMat: cycle-leader loop of zRawMatTDRC", "theory of the permutation i ↦ (i % r) c + i / r"),
("C10-C13", "RawMat", "loop invariants on strided buffers; witnesses"),
("C14-C19", "LE: pivoting, elimination, substitution, LU, determinant, inverse, tridiagonal", "invariant \"same solutions\", induction on columns; `Matrix.det` as specification"),
("C78", "LE: sweep-out", "row operations keep the solutions"),
("C76", "LEGen: weighted products and the solvers built on Gauss", "normal equations; optimality by completing the square"),
("C77", "LEGen: Gram-Schmidt and Householder", "invariants: orthonormal rows, L Q = A"),
("C102-C104", "LEGen: zLESolveMP, zLESolveMPNull", "minimum norm among least-squares solutions; rank as dimension of the row space"),
("C105", "LEGen: zMatQuad and relatives", "loops to sums"),
("C20-C26", "Pex", "`Polynomial` as specification; loop invariants; `ub` for zPexRgl"),
("C27-C28", "FFT over ℂ", "strong induction over the factorisation, sums of roots of unity"),
("C29-C36", "IP", "binary-search invariant; polynomial identities; derivatives by `HasDerivAt`"),
("C75", "IP: clothoid", "negation with witness"),
("C79-C81", "IP: Chebyshev, least squares", "recurrences against `Polynomial.Chebyshev`; normal equations"),
("C37-C39", "NURBS", "induction on the order"),
("C82", "NURBS: derivatives", "quotient rule by induction on the order of the derivative"),
("C40-C43", "Container: kd-tree, list, polyline, sequence", "induction over the history; box invariant; recursion on splits; refinement to a list"),
("C74", "Container: ring", "refinement to a list"),
("C83-C84", "Container: edge and projection", "inner-product algebra; witnesses"),
("C44-C46", "Stat: data, statistics, histogram", "loop invariants"),
("C85-C87", "Stat: peaks, smoothing, distributions", "loop invariants; series and derivatives"),
("C47-C48", "Graph", "invariants over histories; invariant of Dijkstra's and the A* search"),
("C49", "Parse", "induction over expression trees"),
("C50-C51", "OneD: bracketing root finders and line searches", "bracket invariants"),
("C88", "OneD: Brent's line search", "invariant of the bracket"),
("C52-C55", "ODE", "order conditions of the tableaux; exactness on polynomials for every number of steps"),
("C89-C90", "ODE: implicit and second-order methods", "order conditions; invariants of symplectic steps"),
("C56-C57", "LP: simplex tableau and standard forms", "tableau invariants; reduced costs"),
("C92", "LP: zLPFeasibleBase", "tableau invariants; witness"),
("C58-C59", "LCP: Lemke's method and quadratic programs", "tableau invariants; KKT conditions are sufficient"),
("C93", "LCP: conjugate gradients", "descent; witness"),
("C60-C63", "Complex over ℝ with a heap of numbers", "equality with Mathlib's ℂ; Cardano and Viète; pairing as a permutation"),
("C91", "Complex: complex vectors", "sums; witness"),
("C64-C65", "RRT", "invariants over arbitrary random streams"),
("C94-C95", "RRT: defaults and escape", "invariants; witness"),
("C66", "GNG", "invariant over every history"),
("C98", "GNG", "specification of each step"),
("C67", "RANSAC", "permutation invariant over every stream"),
("C68", "Cluster", "partition invariant over every stream"),
("C99-C101", "Cluster: descent, X-means, silhouettes", "sum of errors never grows; partition by recursion"),
("C69", "GA", "correctness of the quick sort; invariants over every stream"),
("C96", "GA: best individual", "witness and partial"),
("C70", "PSO", "invariants over every stream"),
("C71", "NM", "invariant of the index and the values"),
("C72", "Eig: Jacobi", "orthogonal similarity of a rotation; sum of squares off the diagonal; invariant of the sweep"),
("C106", "Eig: SVD", "selection invariant; Parseval"),
("C107", "Eig: Hessenberg", "reflection is orthogonal and involutive; induction on columns"),
("C108", "Eig: power method", "stopping test; witness"),
("C109", "Eig: checked accesses of bisection and double QR", "negation for every matrix"),
("C110", "LEMore: Cholesky decomposition with diagonal pivoting", "invariant: the remaining part is a Schur complement and stays positive semidefinite"),
("C111-C112", "LEMore: residual iteration, Gauss-Seidel sweeps", "exactness of the LU solution makes every correction zero; equations left by the last sweep"),
("C113", "LEMore: the n^2 x n^2 system of the Lyapunov equation", "closed form of the accumulated matrix, then exactness of the elimination"),
("C114", "LEMore: elimination on transposes", "exactness of the elimination; witnesses for the size test"),
("C115", "LEMore: Hotelling's iteration", "the residual is squared at each turn; diagonalisation for the convergence"),
("C116", "LEMore: Moore-Penrose inverse by LQ decomposition", "full-rank factorisation; the four equations as matrix identities"),
("C117", "LEMore: Penrose's iteration", "the iterates commute with the Gram matrix; their eigenvalues are elementary symmetric functions, which vanish beyond the rank"),
("C118", "LEMore: zLESolveMP_SVD", "normal equation in the basis of singular vectors"),
("C119-C120", "Mva: zVecListPCA, zVecListGenRandND", "congruence by the eigenvectors; exactness of the Cholesky decomposition"),
("C121-C122", "SF: error function, Fresnel integrals", "remainder of the exponential series in the left half plane, integrated; the continued fraction of the complementary error function: growth of the denominators, convergents enclose the limit, limit by the integrals of s^n exp(-s^2-2zs)"),
("C123", "SF: Lanczos's approximation", "the second derivative of the change from x to x+1 is rational and dominated (coefficients checked by the kernel); convexity, telescoping, Stirling's formula"),
("C124", "SF: Fourier series", "derivatives of sums"),
("C125-C126", "SF: oscillators", "conserved quadratic form; monotone convergence of the lag"),
("C127", "SF: successive substitution", "contraction"),
("C128", "PexEq: synthetic division, Newton's correction, deflation", "division by the quadratic factor; the recursions are derivatives of one another; induction over the degree"),
("C129", "PexEq: Aberth's circle, Durand-Kerner iteration", "factorisation over the complex numbers; Lagrange's interpolation for the sum; product estimate for the convergence"),
("C130", "OptDM: the solver with every direction, update and line search", "the workspace holds a step, the point reached and its value; induction over the iterations; witnesses"),
("C131", "OptDM: Nocedal's line search", "sufficient decrease; the sum of decreases is bounded"),
("C132", "OptDM: updates of the inverse Hessian matrix", "closed form; quadratic form; witness"),
("C133", "OptDM: numerical derivatives", "closed form of the loops"),
("C134", "OptDM: Levenberg-Marquardt", "exactness of the elimination; witness"),
("C135", "NLE: Newton-Raphson, Broyden, descent", "induction over the iterations; witness"),
("C136", "NLE: Newton-Raphson's direction and loop on affine equations", "regularised normal equation; the cost is expanded around its minimum at the solution"),
("C137", "NLE: Broyden's update", "orthogonal decomposition of the change; witness"),
("C138", "NLE: numerical Jacobian matrix in its buffer", "closed form of the buffer; negations for all sizes and all starting points"),
("C139", "NLE: objective of the descent methods", "derivative of the sum of squares"),
("C140", "Direct: regions, lists by level, the loop", "invariant of the loop; volumes bound the number of regions; negations"),
("C141", "Direct: division of regions", "trisection keeps a tiling; multiset of all regions"),
("C142", "Direct: identification of potentially optimal regions", "lower convex hull by induction over the levels"),
("C143", "QPASM: first point, equality-constrained problem, adding and deleting constraints", "invariant: the point kept is feasible, the active constraints are independent; Karush-Kuhn-Tucker conditions"),
("C144", "QPASM: sizes of the working space", "case distinction on the sizes; negation for all problems with fewer constraints than variables"),
("C145", "QPASM: the two loops", "the inner loop shortens a list; negation by a periodic run evaluated in the kernel and a simulation"),
("C146", "QPASM: check of the matrix, first phase of the simplex method", "positive definiteness is equivalent to a full rank of the decomposition"),
("C147", "PDIP: decomposition and directions", "correctness of the LU solver; the three blocks of Newton's equations"),
("C148", "PDIP: step, damping, corrector, loop", "invariant of the loop: positive, residuals scaled; the normal matrix is regular in the interior"),
("C149", "PDIP: first point, loop, clean-up, cost", "weak duality with residuals; negation by concrete problems"),
("C150", "LCPIP: predictor, corrector, turn", "neighbourhood of the central path; the products along the step do not vanish, so that no variable changes its sign"),
("C151", "LCPIP: step", "root of the quadratic equation; negation for all points with a negative inner product"),
("C152", "LCPIP: first point, loop, clean-up", "invariant of the loop; negation by a problem with one unknown"),
("C153", "CMat: element-wise functions on a block of memory", "loop rule for cells; refusals by cases"),
("C154", "CMat: complex scalars, both members written one after the other", "loop rule; what the code leaves in place is computed and differs"),
("C155", "CMat: rows, columns, memcpy, product", "loop rules with the frame; negation for negative indices"),
("C156", "MegiddoDyer: initialisation and constraints", "invariant over the sequence of constraints"),
("C157", "MegiddoDyer: direct method on lists", "an admissible point moves along the lower bounds to a vertex or an end that is no worse"),
("C158", "MegiddoDyer: loop with pools, pairs, discards; the median is a parameter", "what is left of the problem has the same optima: invariant with a witness of improvement; the number of constraints decreases"),
("C159", "MegiddoDyer: flags", "a refused problem has a direction without cost; negation by a witness"),
("C160", "GMM: expectation and weights", "sums of responsibilities; invariant over turns"),
("C161", "GMM: loaded mean and covariance, Gaussian of a cluster", "sums of dyads are positive semidefinite"),
("C162", "GMM: whole iteration", "Jensen's and Gibbs' inequalities, and the maximum of the weighted Gaussian likelihood by log det"),
("C163", "GMM: one Gaussian", "the maximum of the Gaussian likelihood"),
("C164", "GMM: criteria", "comparison with the number of free parameters"),
("C165", "Bessel: the tables and their rows", "ranges of the conversion to an integer"),
("C166", "Bessel: the tables of J against the power series", "kernel computation of re-centred polynomials, bound of the tail of the series"),
("C167", "Bessel: the tables of I against the power series; Miller's method", "as before; determinant of the two solutions of the recurrence"),
("C168", "Bessel: recurrence upwards", "sequence computed by the loop"),
("C169", "Bessel: recurrence downwards", "sequence computed by the loop; rational computation of the violation"),
("C170", "matrices: copies, element-wise operations, transposes with their checks", "frame lemmas of the raw operations"),
("C171", "matrices: identity and diagonal", "loop invariant on the diagonal"),
("C172", "matrices: rows and columns with their checks, integer positions", "frame lemmas; undefined for negative positions"),
("C173", "matrices: dyads, trace, transposed products with their checks", "frame lemmas of the raw operations"),
("C174", "matrices: transposed product in place", "composition; computed counterexample"),
("C175", "matrices: searches for extreme elements", "loop invariant on rows"),
("C176", "matrices and vectors: tests", "equivalence with the condition on elements"),
("C177", "vectors: reordering", "loop invariant"),
("C178", "vectors: linear sums", "induction on the list"),
("C179", "vectors: functions without a check", "frame lemmas; overrun in general and by computation"),
("C180", "normal distribution: density and series of the distribution function", "remainder of the series as an integral; bounds of the turns after which a term is absorbed"),
("C181", "Poisson distribution", "series of the exponential function"),
("C182", "chi-squared distribution", "fundamental theorem of calculus with a substitution; error of the gamma function"),
("C183", "IP: velocity and acceleration at sections", "derivatives of the curves at the knots; witnesses"),
("C184", "CVec: element-wise operations in memory", "loop invariants over cells"),
("C185", "CVec: complex scalars, inner product, norm", "loop invariants over cells; witnesses for in-place use"),
("C186", "EigBisec: Sturm series against the eigenvalues (roots of the characteristic polynomial)", "completing squares and the law of inertia"),
("C187", "EigBisec: range, bisection, recursion", "Gershgorin by forms; induction over the recursion with counts as invariant; witnesses"),
("C188", "SingVal: extreme singular values by the power method", "Rayleigh quotients, Cauchy-Schwarz; negation for all singular matrices"),
("C189", "EigVec: inverse iteration", "exact residual of the inverse, convergence of the power method on the inverse; negation for a singular shift"),
("C190", "EigVec: complex pairs, order of the columns", "real matrix of twice the size, induction over the eigenvalues"),
("C191", "Text: expression of a polynomial", "value of the expression by recursion over the terms; negation for constant terms"),
("C192", "Text: complex number as tokens", "cases of signs, zero and unit parts"),
("C193", "Text: files as lists of words", "induction over elements, rows and cells"),
("C194", "DataMore: comparisons, selection, median", "contracts of the sort; pairs symmetric in the order"),
("C195", "DataMore: window fits", "uniqueness of the least-squares polynomial; negation by evaluation"),
("C196", "DataMore: sign changes of the slope", "induction over the samples; parabolas"),
("C197", "ClusterLS: normal equations of linear sums", "solutions of the normal equations minimise; negation by evaluation"),
("C198", "ClusterMethod: workspaces as handles on a heap", "invariant over all histories; negation by a double free"),
("C199", "ClusterMethod: functions that are set", "what a successful call implies; negations by histories"),
("C200", "MatQuad: loops on the memory", "simulation of the loops on functions, whose sums are proved in LEGen"),
("C201", "VecList: blocks on a heap", "invariant and refinement to a list of values over all histories"),
("C202", "ParseText: characters, names, numbers (by contract)", "refinement of the loop on characters to the loop on symbols of Parse; negation by a long name"),
("C203", "ParseText: lists of names", "invariant over all texts; negation by a=3"),
("C204", "ClusterMore: sizes of clusters", "extremes by induction over the list; negation for every list with an empty cluster"),
("C205", "ClusterMore: densities and logarithms over the reals", "the two criteria computed from the definition of the normal distribution; negation for every part of variance zero"),
("C206", "ClusterMore: numbers of samples and trials", "range of the number, then the theorem on RANSAC; negation for few samples"),
("C207", "Life: fields, live blocks and their sizes; allocations fail arbitrarily", "classes compose: what each part makes and unmakes, by permutations of owned blocks; negations by computation"),
("C208", "Life: the optimiser inside the solver of equations", "composition; negations by computation"),
("C209", "Life: rings and arrays of any length", "induction over the vectors still to be allocated"),
("C210", "Work: allocation, computation as a parameter, release; nested calls", "calls framed by the blocks held outside compose; negations by computation"),
("C211", "Work: the same for optimisers, with swarms and populations of any size", "composition and induction over particles; negations by computation"),
("C212", "Work: the same for interpolators, curves, networks and mixtures", "composition and induction over units; negations by computation"),
("C213", "Phase: functions of real numbers", "arguments of complex numbers, derivatives and floors of Mathlib"),
("C214", "Rand: loops of rejection over arbitrary sequences of draws", "induction on the number of attempts that are rejected; negation by computation"),
("C215", "LEMPLU: LU decomposition and the solver on it with null pointers for weights", "invariant of the elimination; the remaining block vanishes when the leading columns span; negation by computation"),
("C216", "LEMPLU: balancing with the sizes compared", "closed form of the loops over rows; negation for every wide and tall shape"),
("C217", "RawMore: the remaining loops over raw vectors and matrices, argument lists, arrays and random elements", "the row and column rules of C10; induction over the arguments"),
("C218", "ParseMem: the parser of Model/Parse.lean with a ledger of allocated tokens, cells and numbers", "simulation of the parser; invariant on what the ledger exceeds the stack by"),
("C219", "Misc: the sums of zSmoothStep and zSmoothStepDif with zCombination", "the derivative of the polynomial telescopes for Bernstein polynomials; gluing with constants; induction over the order for smoothness"),
("C220", "OptDM: conjugate gradients", "the direction is computed outright; a counterexample of two solutions"),
("C221", "PexCExp: zPexCExp on top of Pex and Complex", "the product of a conjugate pair is the real quadratic; induction over pairs; rearrangement of factors"),
("C222", "ClusterMem: blocks of zm_mva_cluster.c counted", "the difference of live and owned blocks is kept by every function; induction over histories and over the recursion of X-means"),
("C223", "RawMore: signed positions of blocks", "the signed copy agrees with the copy of RawVec; witnesses at negative positions"),
("C224", "TreeMem: blocks of a tree of vectors", "the live blocks are a permutation of the blocks owned; induction over the tree and the history"),
("C225", "GraphMem: blocks of graphs and of searches", "a count of live blocks is an invariant of every call; the search with the count refines the search of Graph"),
("C226", "RRTMem: blocks of random trees", "a count of live blocks is an invariant of every search, for arbitrary answers of the user functions"),
("C227", "DirectMem: blocks of the DIRECT method", "the search with a count of blocks refines the search of Direct; divisions with named blocks and failing allocations by permutations of the live blocks"),
("C228", "GMMMem: blocks of Gaussian mixture models", "live blocks minus the blocks of the model is an invariant of every call; the sizes in the units as a second invariant"),
("C229", "MDMem: blocks of linear programs in two variables", "the live blocks are a permutation of those owned by the lists, an invariant of every call"),
("C230", "Links: doubly linked lists on the level of pointers", "a list is a cycle of pointers; each traversal keeps the part already seen and the part ahead, by induction on the part ahead"),
("C231", "SeqMem: blocks of sequences", "the live blocks are a permutation of those of the frames and of others, an invariant of every call"),
("C232", "Obj: heap of headers and buffers with vectors and matrices", "refinement: each variable stands for a rectangle of numbers with a margin, each live block belongs to exactly one variable; the specification computes on the rectangles"),
("C233", "ODEUser: explicit solvers with functions of the caller that may be undefined", "each call of a function is shown to be within the contract; embedded methods by induction over the halvings, Adams's by induction over the rounds of the corrector"),
("C234", "ODEUser: equations of the implicit solvers, deferred correction", "equations with the default functions at the caller's pointer equal those of the model ODE; concrete violations on a circle and for Gear's pointer"),
("C235", "NURBSNN: search for the nearest point", "invariant of the search: the two best parameters with their distances; the second best distance never grows and is at most the worse of any two first samples"),
("C236", "MDFile: binary and text files of linear programs of two variables", "decoding of an encoded list by induction on the rows; lengths of files; concrete problems for what is lost"),
("C237", "ObjArith: arithmetic on objects of a heap, added to the histories of C232", "a loop that fills an object reads each place before it is written; refinement to values by induction on the history"),
("C238", "ObjMul: products and transposition on objects of a heap, added to the histories of C237", "the destination has a buffer of its own, hence the operands are unchanged while it is filled; the compensation of the sums is zero in exact arithmetic; induction on the history"),
("C239", "ObjDRC: functions in place on objects of a heap, added to the histories of C238", "the temporary vector is a variable that is used for a while and forgotten; the transposition is that of C09 on the whole buffer; induction on the history"),
("C240", "ObjPart: functions on parts of objects of a heap, added to the histories of C239", "a loop that writes each time to another place scatters what it reads; induction on the history"),
("C241", "Img: what zMatImg prints, with the rounding of C213 and the search of C175", "the rounded quotient lies between -4 and 4; cases"),
("C242", "Img: the two searches", "induction on the size"),
("C243", "ObjMisc: these functions on objects of a heap, added to the histories of C240", "loop invariants on what has been filled; arrays by induction on the array; induction on the history; concrete histories that leave the buffers"),
("C244", "MeanVar: the wrappers composed from the moments of C45; an empty list has no head", "expansion of the sum of squares by induction on the list (Steiner); the quadratic form of a sum of dyads is a sum of squares"),
("C245", "NM, as for C71", "each trial vertex is a point of a line; simulation between the runs in the two coordinate systems by induction on the turns"),
("C246", "Silh: the loops over clusters and samples with the silhouettes of C101 and the sort of C194", "loop invariant on score, number and arrays; the last element of an ascending list is its maximum"),
("C247", "SplinePrm: parameters with pointers to blocks of a heap, any pattern of failing allocations", "refinement to values: each block in use has one owner; induction on the history; concrete histories that lose a block"),
("C248", "ODESym: histories of the two methods from their start, with default functions of the caller", "induction on the history with bilinear identities; the closed form of the leapfrog method under constant acceleration"),
("C73", "Rand: binomial, normal", "all streams"),
("C97", "Rand: ranges", "all streams"),
]
# source files without any model
UNMODELLED = """printing and files of zm_opt_lp_megiddodyer (only with DEBUG)."""
