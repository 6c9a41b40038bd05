#!/usr/bin/env python3
"""Writes ../properties.jsonl from the table below (kept as a script so that entries can be appended)."""
import json, os
P = []
def p(title, statement, quantifier, why, *anchors):
    P.append(dict(id="C%02d" % (len(P)+1), title=title, statement=statement,
                  quantifier=quantifier, why_tests_cant=why, anchors=list(anchors)))

p("Integer powers, factorials, permutations, combinations",
  "zPowN(x,n) equals the product of n factors x; zFactorial(n)=n!; zPermutation(n,i) is the number of ordered selections (0 when i>n or i<0); zCombination(n,i) is the binomial coefficient for 0<=i<=n.",
  "all exponents, all n and i", "An unbounded family of inputs; halving/doubling loops go wrong at particular bit patterns.",
  "src/zm_misc.c:zPowN", "src/zm_misc.c:zFactorial", "src/zm_misc.c:zPermutation", "src/zm_misc.c:zCombination")
p("In-place Pascal row",
  "zCombinationSeries(n,size,c) fills c[0..n] with the binomial coefficients C(n,0..n), touches nothing else, and returns NULL without touching c exactly when n>=size.",
  "all n, all buffer sizes and previous contents", "In-place update order only matters for larger n; sizes are unbounded.",
  "src/zm_misc.c:zCombinationSeries")
p("Tolerance comparison",
  "zEqual(a,b,tol) is symmetric, true for a=b (finite) with tol>=0, monotone in tol, and implies |a-b| <= tol*max(1,|a|,|b|).",
  "all pairs of values and tolerances", "Quantifies over all pairs.",
  "src/zm_misc.c:zEqual", "include/zm/zm_misc.h:zIsTol")
p("IEEE-754 classification",
  "zIsInf / zIsNan / zIsFinite classify every one of the 2^64 bit patterns as IEEE-754 does: exactly one of inf, nan, finite holds; the sign of infinity is reported by +1/-1.",
  "all 64-bit patterns", "2^64 inputs.", "src/zm_ieee.c", "include/zm/zm_ieee.h")
p("Line through two points",
  "zLine(x,x0,y0,x1,y1) returns y0 at x=x0 and y1 at x=x1, i.e. evaluates the straight line through the two points, whenever x0!=x1.",
  "all pairs of distinct abscissae, all x", "All inputs; special inputs (y0=0 or x1=0) hide a sign error.",
  "src/zm_misc.c:zLine")
p("Raw vector kernels are element-wise and alias-safe",
  "Each raw vector kernel (add, sub, reverse, mul, div, amplify, cat, normal/direct forms) writes exactly elements 0..size-1 of the destination with the element-wise result even if the destination is one of the sources; the inner product and element sum equal the exact sum in exact arithmetic despite the compensation term.",
  "all sizes, contents and aliasing patterns", "All sizes and aliasing.", "src/zm_raw_vec.c", "include/zm/zm_raw_vec.h")
p("Size-checked vector/matrix API",
  "A checked vector operation with mismatching sizes returns NULL and leaves the destination untouched; with matching sizes it performs the unchecked operation.",
  "all sizes and contents", "All size combinations.", "src/zm_vec.c", "src/zm_mat.c")
p("Index-checked element access never leaves the buffer",
  "zVecSwap, zVecGet, zVecPut, zVecElem-style checked accessors either fail or access only elements inside the vector, for every index.",
  "all (possibly negative) indices and sizes", "Boundary index equal to size and negative indices.", "src/zm_vec.c:zVecSwap", "src/zm_vec.c:zVecGet", "src/zm_vec.c:zVecPut")
p("In-place transposition",
  "zRawMatTDRC turns a rowcap x colcap row-major buffer into its transpose in place: element (i,j) of the result is element (j,i) of the input, for every shape.",
  "all matrix shapes and contents", "Cycle-leader transposition: cycle structure varies irregularly with the shape.", "src/zm_raw_mat.c:zRawMatTDRC", "src/zm_raw_mat.c:_zRawMatTDRCPrevIndex")
p("Sub-matrix get/put framing",
  "zRawMatGet/Put/TGet/TPut, row/column get/put and row/column swap copy exactly the addressed block and change no other element, including when column capacity exceeds column size; put followed by get is the identity.",
  "all shapes, capacities and positions that are not negative and not to the right of the matrix (for the others see the blocks at any position below)", "All shapes and strides.", "src/zm_raw_mat.c", "src/zm_mat.c")
p("Matrix product kernels",
  "zRawMulMatVec, zRawMulMatTVec, zRawMulMatMat, MatTMat, MatMatT and dyad kernels compute the mathematical products for every shape, reading and writing only inside the operands.",
  "all shapes and contents", "All shapes.", "src/zm_raw_mat.c")
p("Infinity norm",
  "zMatInfNorm returns the maximum over rows of the sum of absolute values.",
  "all matrices, including those whose column capacity exceeds their column size", "Only matrices resized below capacity expose a stride error.", "src/zm_mat.c:zMatInfNorm")
p("Failed operations leave operands unchanged",
  "zMulMatVecDRC / other in-place operations that report a size mismatch leave their vector argument unchanged.",
  "all size mismatches", "All size mismatches.", "src/zm_mat.c:zMulMatVecDRC")
p("Gaussian elimination solves the system",
  "If zLESolveGauss returns an answer x then A x = b exactly in exact arithmetic when no non-zero entry is below the skip tolerance, and it answers for every invertible A; when entries below tolerance are skipped, x solves a system whose matrix differs from the (equilibrated, permuted) one by entries no larger than the tolerance at elimination time.",
  "all sizes, matrices and right-hand sides", "All systems; pivoting orders are data dependent.", "src/zm_le.c:zLESolveGaussDST", "src/zm_le_pivot.c:zMatPivoting", "src/zm_le.c:zLEBalancing")
p("Triangular and LU solves",
  "zLESolveL and zLESolveU solve lower/upper triangular systems with non-zero diagonal exactly, and zLESolveLU composes them to a solution of P^-1 L U x = b.",
  "all sizes and triangular matrices", "All systems.", "src/zm_le_lu.c:zLESolveL", "src/zm_le_lu.c:zLESolveU")
p("LU decomposition",
  "zMatDecompLU returns L, U and a row permutation with L U equal to the row-permuted input, L lower trapezoidal, U unit/upper trapezoidal, and rank equal to the rank of the input.",
  "all shapes and matrices including rank-deficient", "Rank-deficient patterns are a null set for random tests.", "src/zm_le_lu.c:zMatDecompLUDST", "src/zm_le_lu.c:zMatDecompLU")
p("Determinant",
  "zMatDet returns the determinant of a square matrix, 0 for a singular one.",
  "all sizes and square matrices", "All matrices; permutation sign errors depend on pivot order.", "src/zm_le_mat_inv.c:zMatDetDST", "src/zm_le_mat_inv.c:zMatDet")
p("Matrix inverse",
  "zMatInv returns the inverse of an invertible matrix and reports failure (NULL) for a singular one.",
  "all sizes and square matrices", "Singular matrices are a null set.", "src/zm_le_mat_inv.c:zMatInv", "src/zm_le_mat_inv.c:zMulInvMatMat")
p("Tridiagonal solver",
  "zLETridiagSolve returns the solution of the tridiagonal system whenever no pivot of the forward sweep vanishes.",
  "all sizes and tridiagonal systems", "All sizes.", "src/zm_le_tridiag.c")
p("Polynomial evaluation",
  "zPexVal(p,x) equals sum a_k x^k, and zPexDifVal(p,k,x) equals the value at x of the k-th derivative polynomial, including k greater than the degree.",
  "all polynomials, arguments and derivative orders", "All degrees.", "src/zm_pex.c:zPexVal", "src/zm_pex.c:zPexDifVal")
p("Polynomial ring operations",
  "zPexAdd, zPexSub and zPexMul return the sum, difference and product polynomials for any pair of degrees.",
  "all pairs of polynomials", "All degree combinations.", "src/zm_pex.c:zPexAdd", "src/zm_pex.c:zPexSub", "src/zm_pex.c:zPexMul")
p("Polynomial division",
  "zPexDiv(p,f) returns q, r with p = q f + r and deg r < deg f for every divisor with non-zero leading coefficient, and never accesses memory outside its operands.",
  "all polynomials p and divisors f", "All degree combinations including deg p < deg f.", "src/zm_pex.c:zPexDiv")
p("Polynomial from roots",
  "zPexExp(a) returns the monic polynomial whose roots with multiplicity are the factors given, i.e. the product of (x - a_i) (sign convention of the library).",
  "all root lists", "All lengths; recursive halving splits depend on length.", "src/zm_pex.c:zPexExp")
p("Differentiation and integration of polynomials",
  "zPexDif returns the derivative, zPexIntg an antiderivative with zero constant; differentiating an integral gives back the polynomial.",
  "all polynomials", "All degrees.", "src/zm_pex.c:zPexDif", "src/zm_pex.c:zPexIntg")
p("Taylor shift",
  "zPexModulo(p1,a) rewrites p so that the returned coefficients b satisfy p(x) = sum b_k (x+a)^k (sign convention of the library) for all x.",
  "all polynomials and shifts", "All degrees.", "src/zm_pex.c:zPexModulo")
p("Degree regularisation",
  "zPexRgl removes exactly the vanishing leading coefficients of a polynomial and is memory-safe for every polynomial, including the zero polynomial.",
  "all polynomials", "Only the all-zero polynomial goes wrong.", "src/zm_pex.c:zPexRgl")
p("FFT computes the DFT",
  "zFFT(data,n,res) returns, up to the library's documented 2/n scaling, the discrete Fourier transform for every n >= 1 (not only powers of two).",
  "all lengths and data", "Mixed-radix recursion: every factorisation of n is a different execution.", "src/zm_data_fft.c:_zFFTInner", "src/zm_data_fft.c:zFFT")
p("FFT round trip",
  "zFFTInv applied to the result of zFFT returns the original data for every n >= 1.",
  "all lengths and data", "Every length.", "src/zm_data_fft.c:zFFTInv")
p("Knot segment search",
  "For non-decreasing knots and t inside the range the segment index i used by every interpolator satisfies t_i <= t <= t_{i+1} and 0 <= i <= n-2, so no interpolator reads outside its tables.",
  "all knot sequences and arguments", "All knot counts; binary search boundaries.", "src/zm_ip.c:zIPDataSeg")
p("Linear interpolation",
  "The linear interpolator returns the knot values at the knots, is affine in between, and its velocity is the slope.",
  "all knot sequences and arguments", "All data.", "src/zm_ip_lin.c")
p("Lagrange interpolation",
  "The Lagrange interpolator passes through every knot and equals the unique polynomial of degree < n through them; velocity and acceleration are its derivatives.",
  "all numbers of distinct knots and arguments", "All n.", "src/zm_ip_lagrange.c")
p("Cubic spline",
  "The spline interpolator passes through every knot, is continuously differentiable at interior knots for any section velocities, has continuous second derivative when the tridiagonal system is solved, and its velocity/acceleration are the derivatives of its value; reported knot accelerations agree with that second derivative.",
  "all knot sequences", "All n; edge sections.", "src/zm_ip_spline.c")
p("PCHIP monotonicity",
  "PCHIP interpolation of monotone data is monotone: end slopes satisfy the Fritsch-Carlson condition on each segment, and edge slopes are taken from the edge segments.",
  "all data", "All data.", "src/zm_ip_spline.c:zIPCreatePCHIP")
p("Akima interpolation reproduces straight lines",
  "Akima interpolation of data lying on a straight line is that straight line, and the extrapolated edge slopes follow Akima's rule.",
  "all collinear data sets", "Special data.", "src/zm_ip_akima.c")
p("Polynomial boundary interpolation",
  "zPexIPCreateBoundary yields a polynomial meeting the prescribed value, velocity and acceleration at both ends, for any extra coefficients.",
  "all boundary conditions, terms and extra coefficients", "All data.", "src/zm_ip_pex.c")
p("Trapezoidal velocity profile",
  "A successfully created profile starts at distance 0 with velocity v0, ends at the requested distance with velocity vT, is continuous in distance and velocity, and respects the acceleration and velocity limits.",
  "all parameter combinations accepted by zTRVelProfCreate", "All real parameters; infeasible short distances.", "src/zm_ip_trvelprof.c")
p("B-spline knots and segment lookup",
  "zBSplineParamKnotInit produces a clamped non-decreasing knot vector and zBSplineParamSeg returns a non-empty segment containing the (clamped) parameter.",
  "all orders, numbers of control points, knot vectors and parameters", "All orders and sizes.", "src/zm_nurbs.c:zBSplineParamKnotInit", "src/zm_nurbs.c:zBSplineParamSeg")
p("B-spline basis",
  "For a parameter in segment s the basis functions of indices s-order..s are non-negative and sum to 1, and those outside vanish; the derivative routine returns the derivative of the basis.",
  "all orders, knot vectors, parameters", "Recursion over all orders and repeated knots.", "src/zm_nurbs.c:zBSplineParamBasis", "src/zm_nurbs.c:zBSplineParamBasisDiff")
p("NURBS curve geometry",
  "With positive weights a NURBS point lies in the convex hull of the control points and a clamped curve starts and ends at the first and last control points.",
  "all NURBS curves", "All curves.", "src/zm_nurbs.c:zNURBSVec")
p("kd-tree nearest neighbour",
  "After any sequence of insertions zVecTreeNN returns a stored vector whose distance to the query is minimal (up to the pruning tolerance), together with that distance.",
  "all insertion histories and queries", "Pruning is history dependent.", "src/zm_vec_tree.c")
p("Nearest neighbour in a list",
  "zVecListNN returns an element of the list minimising the distance and that distance; on ties the first.",
  "all lists and queries", "All lists.", "src/zm_vec_list.c:zVecListNN")
p("Polyline simplification",
  "Ramer-Douglas-Peucker simplification keeps the end points, returns a sub-sequence of the input, and every dropped point lies within the tolerance of the chord that replaced it.",
  "all polylines and tolerances", "Recursion on data-dependent splits.", "src/zm_vec_list.c:zVecListRDP")
p("Sequence is a FIFO with cumulative time",
  "zSeq behaves as a FIFO queue of (dt, vector) and zSeqJump(step) returns the element at that step.",
  "all operation histories", "All histories.", "src/zm_seq.c")
p("Extremes of data",
  "zDataMax/Min/AbsMax/AbsMin return the extreme value of a non-empty data set and the index where it is attained first.",
  "all data sets", "All data.", "src/zm_data.c")
p("Sum, mean, variance, covariance",
  "zDataSum/Mean/Var and zVecListMean/Var/Cov compute the defining sums; variance is non-negative, zero iff all equal; shifting data shifts the mean and keeps the variance.",
  "all data sets", "All data.", "src/zm_stat.c", "src/zm_mva.c")
p("Histogram accounting",
  "Building a histogram over data counts every datum in exactly one bin, so counts sum to the data size, each datum lies within its bin's limits, and memory outside the bins is never touched.",
  "all data sets and bin numbers", "Boundary data such as the maximum.", "src/zm_stat_histogram.c")
p("Graph container",
  "Any sequence of node additions and connections keeps nodes unique, arcs unique per ordered pair, and each arc's cost equal to the last one set; arcs refer only to existing nodes.",
  "all operation histories", "All histories.", "src/zm_graph.c")
p("Shortest path",
  "For non-negative symmetric costs, graph search returns the minimum total cost over all paths between start and goal and a path attaining it; unreachable goals are reported.",
  "all graphs", "All graphs and frontier orders.", "src/zm_graph_search.c")
p("Expression parser",
  "The parser evaluates arithmetic expressions over + - * / ^ with the usual precedence, parentheses and left associativity.",
  "all expressions", "Unbounded nesting.", "src/zm_parse.c")
p("Bracketing root finders",
  "zNLE_Bisec, given a bracket, keeps a sign change inside an interval that halves every step, and a reported root satisfies |f|<=tol or lies in the bracket; the returned value is the root found.",
  "all functions and brackets", "All functions.", "src/zm_nle_se.c")
p("Line search",
  "Golden-section and trisection search keep the minimiser of a unimodal function inside a nested, geometrically shrinking interval and return a point of it.",
  "all unimodal functions and intervals", "All functions.", "src/zm_opt_line.c")
p("Runge-Kutta tableaux",
  "Each explicit Runge-Kutta integrator (Euler, Heun, RK4, RK-Gill, RKF45, Cash-Karp, Dormand-Prince) satisfies the order conditions for its advertised order and integrates polynomial right-hand sides up to that degree exactly.",
  "all right-hand sides and step sizes", "Coefficient typos show as reduced order only asymptotically.", "src/zm_ode_rk4.c", "src/zm_ode_rkg.c", "src/zm_ode_erk.c", "src/zm_ode_heun.c", "src/zm_ode_euler.c")
p("Adams-Bashforth weights",
  "The k-step Adams-Bashforth weights computed by zODE_Adams integrate every polynomial of degree < k exactly over one step.",
  "all step counts k", "Every k.", "src/zm_ode_adams.c")
p("Gear (BDF) coefficients",
  "The Gear method's coefficients differentiate every polynomial of degree <= k exactly at the new time.",
  "all step counts k", "Every k.", "src/zm_ode_gear.c")
p("Numerical integrators",
  "The rectangle, trapezoid and quadratic integrators accumulate exactly the composite-rule sum over any history of samples; the trapezoid rule is exact for affine and the quadratic for quadratic integrands.",
  "all sample histories and step sizes", "All histories.", "src/zm_intg.c")
p("Simplex method",
  "If zLPSolveSimplex reports success, the answer is non-negative, satisfies A x = b, and no feasible point has smaller cost (within tolerance); each pivot preserves the solution set.",
  "all linear programs", "All programs; degenerate bases.", "src/zm_opt_lp_simplex.c")
p("LP standardisation",
  "Conversion of inequality / unbounded-variable programs to standard form preserves feasibility and cost in both directions.",
  "all linear programs", "All programs.", "src/zm_opt_lp_stdcnv.c")
p("Lemke's method",
  "If zLCPSolveLemke reports success then w - M z = q, z_i w_i = 0 and z, w >= -tol.",
  "all LCPs", "All pivoting sequences.", "src/zm_opt_lcp_lemke.c")
p("QP to LCP",
  "A solution of the complementarity problem built for a convex quadratic program is a global minimiser of the program.",
  "all convex QPs", "All QPs.", "src/zm_opt_qp.c:_zQP2LCP")
p("Complex arithmetic",
  "zComplexAdd/Sub/Mul/Div/CMul/CDiv/Inv/Conj/Pow agree with complex arithmetic wherever they succeed; failures are reported and never leave an uninitialised result.",
  "all complex numbers", "Small divisors.", "src/zm_complex_arith.c")
p("Quadratic equations",
  "zQESolve returns both roots (with multiplicity) of a x^2 + b x + c for every a != 0, without division by zero.",
  "all coefficients", "b = c = 0.", "src/zm_complex_pe.c:zQESolve")
p("Cubic equations",
  "zCESolve returns the three roots of every cubic with a != 0.",
  "all coefficients", "Case split on discriminant sign.", "src/zm_complex_pe.c:zCESolve")
p("Pairing of complex conjugates",
  "zCVecConjPair permutes its input and places complex conjugates adjacent, and it succeeds on every vector made of conjugate pairs; zCVecToReImVec keeps the real elements apart, in order, before pairing the others.",
  "all complex vectors", "All orders.", "src/zm_cvec.c:zCVecConjPair", "src/zm_cvec.c:zCVecToReImVec")
p("RRT tree invariants",
  "Every node of the tree other than the root has a parent in the tree at distance at most the step length, all nodes passed the collision check, and following parents from any node reaches the root; the reported path starts at the start and follows tree edges.",
  "all random sampling sequences", "Random schedule.", "src/zm_rrt.c")
p("Path shortcutting",
  "zRRTShortcutPath keeps the end points, each retained consecutive pair passed the edge check or was consecutive in the input, and the reported cost is the length of the resulting path.",
  "all paths and collision predicates", "All paths.", "src/zm_rrt.c:zRRTShortcutPath")
p("Growing neural gas consistency",
  "After any sequence of updates every edge joins two distinct existing units, no pair is joined twice, and every unit has at least one edge.",
  "all sample sequences and all parameters with a lifetime of edges that is not negative", "All histories.", "src/zm_gng.c")
p("RANSAC sample conservation",
  "zRANSAC leaves the sample list a permutation of what it was, for every random selection; the model kept has the largest inlier count among the trials.",
  "all random schedules", "Random schedule.", "src/zm_mva_ransac.c")
p("K-means partitions the points",
  "K-means / K-medoids cluster lists always form a partition of the input points, and on settled termination each point is in a cluster with a nearest core.",
  "all point sets and random initialisations", "All data.", "src/zm_mva_cluster.c")
p("GA population",
  "The population sort is a permutation sorted by descending fitness, genes always stay inside the box, and the reported value is the objective of the reported answer.",
  "all random schedules and objective functions", "Random schedule.", "src/zm_opt_ga.c")
p("PSO bookkeeping",
  "Particles stay inside the box, each particle's best value equals the objective at its best position and never increases, and the reported value equals the objective of the reported answer.",
  "all random schedules and objective functions", "Random schedule.", "src/zm_opt_pso.c")
p("Nelder-Mead bookkeeping",
  "Every stored vertex value equals the objective at that vertex, the best value never increases, and the reported value is the objective of the reported answer.",
  "all objective functions", "All functions.", "src/zm_opt_nm.c")
p("Jacobi eigenvalue rotations",
  "Each Jacobi rotation is an orthogonal similarity that annihilates the chosen off-diagonal element, so V^T M V = D + shift I is invariant and diagonalisation yields eigenpairs.",
  "all symmetric matrices", "All matrices.", "src/zm_mat_eig.c:_zMatSymEigJacobiRot", "src/zm_mat_eig.c:zMatSymEigJacobi")
p("Discrete random variates",
  "zRandBinom returns an integer in [0,n] for every generator stream; the normal generator returns both members of each generated pair alternately.",
  "all generator streams", "All streams.", "src/zm_rand.c")
p("Ring of vectors",
  "zVecRingFill sets every element of the ring, and zVecRingCat and zVecRingLinearSum compute the linear combination of the elements counted from the head, wherever the head is; a size mismatch is reported.",
  "all rings, head positions, sizes and coefficients", "All head positions.", "src/zm_vec_ring.c")
p("Clothoid segment",
  "A clothoid segment evaluated at s=0 is its initial point.",
  "all segments", "Only initial points with x0 != y0 expose it.", "src/zm_ip_clothoid.c:zClothoidXY")
p("Weighted generalised solvers",
  "zLESolveNormMin returns a solution of A x = b with minimal weighted norm, zLESolveErrorMin a least-squares solution, zLESolveSR the minimiser of the regularised cost.",
  "all systems whose normal matrix is invertible", "All systems.", "src/zm_le_gen.c")
p("Orthogonal (LQ) decomposition",
  "zMatDecompLQ returns L lower triangular and Q with orthonormal rows such that L Q = A.",
  "all matrices", "All shapes.", "src/zm_le_lq.c")
p("Sweep-out",
  "zMatVecSweepOut and zMatMatSweepOut on a non-zero pivot turn the pivot column into a unit vector and keep the solution set of the linear system; a zero pivot leaves the data unchanged and returns 0.",
  "all shapes, matrices, right-hand sides and pivot positions", "All matrices.", "src/zm_le_pivot.c:zMatVecSweepOut", "src/zm_le_pivot.c:zMatMatSweepOut")
p("Chebyshev interpolation",
  "The Chebyshev interpolator passes through every knot in every component, and its velocity and acceleration are the first and second derivative of its value.",
  "all numbers (>= 2) of distinct knots, dimensions and arguments", "All numbers of knots; derivative recurrences.", "src/zm_ip_chebyshev.c:zIPCreateChebyshev")
p("Polynomial least-squares fit",
  "zPexIPCreateLSM either detects a singular normal matrix or returns coefficients whose sum of squared residuals is minimal among all polynomials of that dimension.",
  "all point sets, terms and dimensions", "Optimality over all polynomials.", "src/zm_ip_pex.c:zPexIPCreateLSM")
p("Polynomial fit under boundary conditions",
  "A polynomial returned by zPexIPCreateBounderyLSM meets the prescribed value, velocity and acceleration at both ends.",
  "all point sets, terms, boundary conditions and dimensions >= 5", "Only terms different from one expose the missing scale.", "src/zm_ip_pex.c:zPexIPCreateBounderyLSM")
p("Derivatives of NURBS and B-spline curves",
  "zNURBSVecDiff and zBSplineVecDiff return the derivative of the requested order of the curve returned by zNURBSVec and zBSplineVec; orders beyond the supported one are refused.",
  "all orders, knot vectors, weights, control points, differentiation orders and parameters strictly inside a segment", "Quotient rule of every order.", "src/zm_nurbs.c:zNURBSVecDiff", "src/zm_nurbs.c:zBSplineVecDiff")
p("Distance to an edge",
  "zVecEdgeDist returns the distance from a vector to the edge that connects two ends.",
  "all vectors and edges of every dimension", "Optimality over all points of the edge.", "src/zm_vec.c:zVecEdgeDist")
p("Projection and orthogonalisation",
  "zVecProj returns the multiple of n for which the rest of v is orthogonal to n, and zVecOrthogonalize the rest, which is orthogonal to n, also when the result is stored in v.",
  "all vectors and non-zero directions of every dimension", "All vectors; aliasing.", "src/zm_vec.c:zVecProj", "src/zm_vec.c:zVecOrthogonalize")
p("Peak detection",
  "Every index reported by zDataPeak is a strict interior local maximum, reported peaks are more than the given width apart, and for every peak of the data a reported one is at least as high.",
  "all data sequences and widths", "Greedy selection over arbitrary data.", "src/zm_data.c:zDataPeak")
p("Smoothing windows",
  "zDataSmoothSG reads only the given data and each smoothed value is a least-squares fit over a window of the given length that contains the sample, evaluated at the sample.",
  "all sequences, window lengths and fits", "Memory safety for every window length.", "src/zm_data.c:zDataSmoothSG")
p("Distributions",
  "zBinDistrib is the binomial distribution and sums to one over 0..n; zChi2CumDistrib for an even number of degrees of freedom is zero at zero and has the chi-squared density as its derivative.",
  "all sizes, probabilities, degrees of freedom and arguments", "Infinite families.", "src/zm_stat.c:zBinDistrib", "src/zm_stat.c:zChi2CumDistrib")
p("Brent's line search",
  "For every function zOptLineBrent evaluates only points of the given interval, never divides by zero, and returns a point of the interval that is not worse than its middle.",
  "all functions, intervals and iteration limits", "Arbitrary functions drive the parabolic steps.", "src/zm_opt_line.c:zOptLineBrent")
p("Implicit Runge-Kutta methods",
  "A step of the backward Euler, trapezoidal, Gauss and Radau methods whose equation is solved exactly is a step of an implicit Runge-Kutta method that satisfies the order conditions for order 1, 2, 4 and 3, and polynomial right-hand sides of a degree less than that are integrated exactly.",
  "all right-hand sides, states, times and steps", "All right-hand sides.", "src/zm_ode_beuler.c", "src/zm_ode_bk4.c")
p("Equations of second order",
  "The regular integrator of second-order equations keeps the order of the method it is built on; the symplectic one keeps a quadratic invariant of the oscillator over any number of steps; the leapfrog one integrates constant acceleration exactly from the initial displacement and velocity.",
  "all methods, forces, steps and numbers of steps", "Arbitrarily many steps.", "src/zm_ode2.c:zODE2UpdateRegular", "src/zm_ode2.c:zODE2UpdateSymplectic", "src/zm_ode2.c:zODE2UpdateLeapfrog")
p("Division of complex vectors",
  "zCVecCDiv divides every element by the scalar or reports a failure; zCVecInnerProd is the sesquilinear product and zCVecNorm the Euclidean norm.",
  "all complex vectors and scalars", "All magnitudes of the scalar.", "src/zm_cvec.c:zCVecCDiv", "src/zm_cvec.c:zCVecInnerProd", "src/zm_cvec.c:zCVecSqrNorm")
p("Feasible base of a linear program",
  "zLPFeasibleBase finds a non-negative solution of A x = b when there is one, and writes only to the given vector.",
  "all coefficient matrices and right-hand sides", "Degenerate systems of every size.", "src/zm_opt_lp_simplex.c:zLPFeasibleBase")
p("Conjugate gradients",
  "For a symmetric positive definite matrix of size n, zCGSolve never divides by zero, never ends at a point with a larger value of the quadratic form than its start, and reaches the minimiser after at most n turns.",
  "all positive definite matrices, linear terms, starts and iteration limits", "All matrices of every size.", "src/zm_opt_qp.c:zCGSolve")
p("Planner without user functions",
  "A planner created by zRRTInit without a collision check treats every point as free, and one created without a metric or an extension uses the Euclidean metric and the straight line, for which the distance to the target shrinks by the length of the step.",
  "all dimensions, step lengths, random sequences and iteration limits", "All random sequences.", "src/zm_rrt.c:zRRTInit")
p("Escape from a collision",
  "A point reported as found by zRRTEscape passes the collision check, and a start that already passes it is returned unchanged.",
  "all starts, collision checks, random sequences and iteration limits", "All random sequences and obstacles.", "src/zm_rrt.c:zRRTEscape")
p("Genetic algorithm keeps the best",
  "The value reported by zOptGASolve never gets worse with another generation.",
  "all objective functions, populations and random sequences", "All random sequences.", "src/zm_opt_ga.c:zOptGAReproduce")
p("Ranges of random variates",
  "Exponential, Weibull, gamma, chi-squared and F variates are never negative, power and beta variates lie in [0,1], triangular ones in [-1,1]; the Poisson variate is the first i for which exp(lambda) times the product of i+1 uniform numbers is at most one; the geometric variate is the number of trials up to the first success, hence at least one.",
  "all generator streams and parameters", "All generator streams.", "src/zm_rand.c:zRandGamma", "src/zm_rand.c:zRandBeta", "src/zm_rand.c:zRandPoisson", "src/zm_rand.c:zRandGeo")
p("What growing neural gas adapts and grows",
  "Each sample is attributed to the nearest unit, which is joined to the second nearest by an edge of age zero, while its other edges grow older by one; edges above the lifetime are removed and no others; growth puts one unit in the middle between the unit of the largest error and its neighbour of the largest error in place of their edge; zGNGDestroy frees every unit and edge.",
  "all networks reachable by updates, all samples", "All histories.", "src/zm_gng.c:zGNGUpdate", "src/zm_gng.c:zGNGDestroy")
p("Clustering never gets worse",
  "Reclustering by K-means never ends with a larger sum of errors than that of the clusters it started from, when the core of a cluster minimises the sum of errors; the default core, the mean, does so for squared distances.",
  "all points, initial clusters, methods and iteration limits", "All data.", "src/zm_mva_cluster.c:zVecMultiClusterKMeans", "src/zm_mva.c:zVecListMean")
p("X-means",
  "X-means returns a partition of the points, and divides a cluster exactly when the test says that the two subclusters classify its points better.",
  "all points, divisions and tests", "All data.", "src/zm_mva_cluster.c:zVecMultiClusterXMeans", "src/zm_mva_cluster.c:zVecMultiClusterXMeansDensity")
p("Silhouettes",
  "The silhouette of a point is the normalised difference of the mean distance from the nearest other cluster and that from its own; it lies in [-1,1] and is positive exactly when the point is nearer to its own cluster.",
  "all clusters of two or more, none of them empty, and all distances", "All data.", "src/zm_mva_cluster.c:zVecMultiClusterMeanSilhouette")

p("Moore-Penrose solution", "zLESolveMP returns, for every matrix whether or not of full rank, the vector that minimises the weighted squared error and, among those minimisers, has the least weighted norm; zLESolveMPAux the minimiser nearest to the auxiliary vector.",
  "all matrices, right-hand sides, positive weights (or null pointers) and previous contents of the answer", "All shapes and ranks, and optimality over all vectors.", "src/zm_le_gen.c: zLESolveMP_LQ, zLESolveMPAux")
p("Null-space projector", "zLESolveMPNull also returns the projector onto the null space: every vector is sent into the null space, and the vectors of the null space are kept.",
  "all matrices", "All matrices and vectors.", "src/zm_le_gen.c: zLESolveMPNull")
p("Rank from the LQ decomposition", "zMatDecompLQ returns the rank of the matrix.",
  "all matrices, exact arithmetic", "All matrices.", "src/zm_le_lq.c: zMatDecompLQ_GramSchmidt")
p("Quadratic products", "zMatQuad, zMatTQuad, zMulMatMatMatT and zMulMatTMatMat compute a diag(w) a^T, a^T diag(w) a, a q a^T and a^T q a, the former symmetric.",
  "all matrices and weights, null weights included", "All sizes.", "src/zm_mat.c: zMatQuadNC, zMatTQuadNC, zMulMatMatMatTNC, zMulMatTMatMatNC")
p("Singular value decomposition", "zMatSVD factors every matrix into orthonormal columns, positive singular values in descending order and orthonormal rows, whose product is the matrix, and returns the rank.",
  "all matrices of any shape and rank", "All matrices, and the exactness of the product.", "src/zm_mat_eig.c: zMatSVD, _zMatSVDSort")
p("Hessenberg form", "zMatToHessenberg returns a matrix that is zero below the first subdiagonal and an orthogonal matrix p with m p = p h, and it always ends.",
  "all square matrices", "All matrices, and termination.", "src/zm_mat_eig.c: zMatToHessenberg, _zMatToHessenbergHouseholder")
p("Power method", "zMatEigPower returns the dominant eigenvalue with its eigenvector, the eigenequation holding up to the tolerance.",
  "all matrices and initial vectors", "All random initial vectors.", "src/zm_mat_eig.c: zMatEigPower")
p("Eigensolvers stay inside of the matrix", "zMatSymEigBisec and zMatEigDQR access only elements of the matrices they are given, and the values of zMatEigDQR are the roots of the characteristic polynomial.",
  "all matrices of any size", "All sizes; an access behind a buffer is not seen by a test.", "src/zm_mat_eig.c: _zMatSymEigBisecRange, _zMatEigDQRHouseholder, zMatEigDQR")

p("Cholesky decomposition", "zMatDecompCholesky factors every positive semidefinite symmetric matrix into l l^T with l lower triangular up to the permutation it returns, also when the matrix is singular, with as many nonzero columns as the rank it returns; it refuses matrices that are not positive semidefinite.",
  "all symmetric matrices", "All matrices, singular ones included.", "src/zm_le_lu.c: zMatDecompCholesky, zMatDecompCholeskyDST")
p("Linear equations with residual iteration", "zLESolveLURI solves every linear equation with a regular matrix, ends, and fails for every singular matrix.",
  "all square matrices and right-hand sides", "All matrices, and termination.", "src/zm_le.c: zLESolveLURI")
p("Gauss-Seidel method", "zLESolveGaussSeidel returns a vector that satisfies the equation up to the tolerance, for every regular matrix.",
  "all square matrices, right-hand sides and initial values", "All matrices, and convergence.", "src/zm_le.c: zLESolveGaussSeidel")
p("Lyapunov equation", "zLELyapnovSolve returns X with X A + A^T X = B, and fails exactly if A is such that the solution is not unique.",
  "all square matrices A and B", "All matrices.", "src/zm_le_lyapnov.c: zLELyapnovSolve")
p("Multiplication by an inverse from the right", "zMulMatInvMat returns m with m m2 = m1 for every matrix m1 with as many columns as the regular matrix m2, and refuses other sizes and singular matrices.",
  "all matrices and sizes", "All shapes.", "src/zm_le_mat_inv.c: zMulMatInvMat")

p("Inverse matrix by Hotelling's method", "zMatInvHotelling returns, for every regular matrix and tolerance, a matrix whose product with the matrix is the identity up to the tolerance, and a singular matrix is not taken for a regular one.",
  "all square matrices, tolerances and limits of iterations", "All matrices, and convergence.", "src/zm_le_mat_inv.c: zMatInvHotelling")
p("Moore-Penrose inverse", "zMatMPInv returns the matrix that satisfies the four Penrose equations, with the rank; zMatMPInvNull also the projector onto the null space; zMulMPInvMatMat the product of the inverse and a matrix.",
  "all matrices of any shape and rank", "All matrices, of every rank.", "src/zm_le_mat_mpinv.c: zMatMPInv, zMatMPInvNull, zMulMPInvMatMat")
p("Moore-Penrose inverse by Penrose's iteration", "zMatMPInvPenrose ends and returns the rank and the matrix that satisfies the four Penrose equations.",
  "all matrices of any shape and rank", "All matrices; the loop has no limit, so that its end depends on a theorem about eigenvalues.", "src/zm_le_mat_mpinv.c: zMatMPInvPenrose, _zMatMPInvPenrose")
p("Generalised solution by singular values", "zLESolveMP_SVD returns the vector of least squared error, and of those the one of least norm, for every matrix.",
  "all matrices of any shape and rank, all right-hand sides", "All matrices, also those of low rank.", "src/zm_le_gen.c: zLESolveMP_SVD")

p("Principal component analysis", "zVecListPCA returns orthonormal loading vectors, along which the components of the data are uncorrelated with the scores as variances, in descending order, and the least number of components whose scores exceed the share asked for.",
  "all lists of vectors and shares", "All data.", "src/zm_mva.c: zVecListPCA")
p("Normally distributed vectors", "zVecListGenRandND generates the number of vectors asked for as affine images of standard normal vectors with the given mean and covariance, for every covariance matrix, and fails for a matrix that is none.",
  "all means, covariance matrices, numbers and streams of random numbers", "All covariance matrices, singular ones included, and all streams.", "src/zm_mva.c: zVecListGenRandND")

p("Error function and normal distribution", "zErf(x) is Gauss's error function and zCDF(x) the distribution function of the standard normal distribution, to the precision of the type, for every x; zErfN(x,n) tends to the error function as n grows.",
  "all real arguments and numbers of terms", "All arguments; the reference is an integral.", "src/zm_sf_erf.c: zErfN", "include/zm/zm_sf_erf.h: zErf, zCDF")
p("Fresnel integrals", "zFresnelIntgPI_2, zFresnelIntgScale, zFresnelIntg and zFresnelIntgGen end and return the integrals of sine and cosine of pi/2 t^2, f t^2, t^2 and f0 + f1 t + f2 t^2 from zero to x, with at least ten decimals for pi/2 t^2.",
  "all arguments and coefficients", "All arguments, and termination of the series and of the continued fraction.", "src/zm_sf_fresnel.c: zFresnelIntgPI_2, zFresnelIntgScale, zFresnelIntg, zFresnelIntgGen")
p("Gamma and beta function", "zGamma, zLnGamma and zBeta are the gamma function, its logarithm and the beta function, with a relative error (absolute for the logarithm) below 10^-8, for all positive arguments.",
  "all positive real arguments", "All arguments: a table of values says nothing about those between.", "src/zm_sf_gamma.c: zGamma, zLnGamma, zBeta")
p("Fourier series", "zFourierVal is the finite Fourier series of the coefficients set, zFourierVel and zFourierAcc are its first and second derivative, all of period 2 pi; setting a coefficient changes that one only, and indices out of range change nothing.",
  "all coefficients, numbers of terms, indices and arguments", "Derivatives at every argument.", "src/zm_fourier.c: zFourierVal, zFourierVel, zFourierAcc", "include/zm/zm_fourier.h: zFourierSetSinCoeff, zFourierSetCosCoeff")
p("Van der Pol's oscillator", "zOscInit sets the output and its rate of every oscillator that has been created, each update is a step of van der Pol's equation, and without damping and input the output stays bounded for ever.",
  "all parameters, initial values and numbers of steps", "All histories.", "src/zm_oscil_vdp.c: zOscCreateVDP, _zOscInitVDP, _zOscUpdateVDP, _zOscOutputVDP")
p("Kuramoto's oscillator", "The phase departs from that of the natural frequency by no more than the gain times the time, for every sequence of inputs; an input whose frequency differs from the natural one by less than the gain entrains the oscillator: the lag tends to a constant.",
  "all inputs, step lengths and histories; all initial phases but the unstable one", "All histories, and a limit.", "src/zm_oscil_kura.c: zOscCreateKura, _zOscUpdateKura, _zOscOutputKura")
p("Successive substitution", "zSSSolve returns a vector that solves x = f(x) up to the tolerance or gives a warning after the number of iterations; for contractions it returns a vector close to the fixed point.",
  "all functions, initial vectors and limits", "All functions.", "src/zm_nle_ss.c: zSSSolve")

p("Polynomial equations by deflation", "zPexBH finds the roots of every polynomial of a given degree: when it returns without a warning the polynomial is, up to the tolerance, divided by the quadratic factors whose exact roots are the answers, each correction being Newton's for the remainder; too few places for the answers are refused.",
  "all polynomials, tolerances and numbers of iterations", "All polynomials.", "src/zm_pex_eq.c: _zPexBH, zPexBHDST, zPexBH")
p("Polynomial equations by simultaneous iteration", "zPexDKA finds all roots of every polynomial: the first approximations are different points of a circle that encloses all roots; each turn keeps the sum of the roots; close to simple roots it converges, and when it returns without a warning every answer is close to a root.",
  "all polynomials, tolerances and numbers of iterations", "All polynomials, and convergence.", "src/zm_pex_eq.c: zPexDKA")

p("Descent methods stop at stationary points", "When zOptDMSolve reports success, with any direction and line search, the gradient at the point it left is within the tolerance or the last step was, the number returned is the number of iterations, and the value reported is the value at that point; otherwise it reports failure.",
  "all problems, directions, updates, line searches, tolerances and limits", "All objective functions and histories.", "src/zm_opt_dm.c: zOptDMSolve, zOptDMCreate, _zOptDMStepNoc, _zOptDMStepDS, _zOptDMStepMT, _zOptDMStepBrent")
p("Descent methods descend", "The descent methods never leave a point worse than the one they started from, and steepest descent reports success on every function that is bounded below and smooth.",
  "all objective functions, starting points and numbers of iterations", "All objective functions and histories.", "src/zm_opt_dm.c: zOptDMSolve, _zOptDMStepNoc, _zOptDMVecSD, _zOptDMVecVM")
p("Quasi-Newton updates", "The variable metric updates are those of Davidon-Fletcher-Powell and Broyden-Fletcher-Goldfarb-Shanno: they satisfy the secant equation and keep the matrix symmetric and positive definite.",
  "all matrices, steps and changes of the gradient", "All matrices.", "src/zm_opt_dm.c: _zOptDMUpdateDFP, _zOptDMUpdateBFGS")
p("Numerical derivatives of an objective function", "The numerical gradient is the vector of central differences, restores the point it varies and is exact for quadratic functions; the numerical Hessian matrix is symmetric and exact where the gradient is affine.",
  "all functions and points", "All functions.", "src/zm_opt_dm.c: _zOptDMGradNG, _zOptDMHessNG")
p("Levenberg-Marquardt method", "The direction of the Levenberg-Marquardt method solves the equation of the damped Hessian matrix for the gradient, and the line search is given that gradient.",
  "all matrices, gradients and dampings", "All matrices.", "src/zm_opt_dm.c: _zOptDMVecLM")

p("Success of a solver of nonlinear equations", "When zNLESolve reports success the equations hold within the tolerance at the variable left, the error reported is half the weighted sum of squares there, and the number returned is below the limit; otherwise it reports failure.",
  "all equations, Jacobian matrices, weights, tolerances and limits", "All equations and histories.", "src/zm_nle_dm.c: _zNLESolveNR, _zNLESolveBroyden, _zNLESolveDM")
p("Newton-Raphson's method", "The direction minimises the weighted squared error of the linearised equations plus the weighted squared length; on affine equations the method approaches every solution, never enlarges the error, and succeeds if the equations are regular and the limit exceeds a logarithm of the first distance over the tolerance.",
  "all equations, weights and starting points", "All equations, and convergence.", "src/zm_nle_dm.c: _zNLESolveNR, _zNLEStep", "src/zm_le_gen.c: zLESolveSRDST")
p("Broyden's method", "Broyden's matrix satisfies the secant equation after every step and is the nearest such matrix to the one before; regular affine equations are solved in one step.",
  "all equations and starting points", "All histories.", "src/zm_nle_dm.c: _zNLESolveBroyden")
p("Numerical Jacobian matrix", "Without a Jacobian matrix function the solver uses the matrix of central differences, rows for equations and columns for variables, for every number of equations and variables.",
  "all equations, numbers of equations and variables", "All shapes; memory is overrun for some.", "src/zm_nle_dm.c: _zNLEJacobiNG")
p("Squared error as an objective function", "The descent methods on equations minimise half the weighted sum of squares: the gradient they are given is its gradient.",
  "all differentiable equations, weights and points", "Derivatives in every direction at every point.", "src/zm_nle_dm.c: _zNLEEval, _zNLEGrad, _zNLEHess")

p("DIRECT returns the best point evaluated", "zOptSolveDIRECT returns a point of the search box together with its value, no point at which the objective was evaluated has a smaller value, and the call ends by itself if the number of iterations allows it.",
  "all objective functions, search boxes, tolerances and numbers of iterations", "All objective functions; the defect shows up when the iterations run out.", "src/zm_opt_direct.c: zOptSolveDIRECT, _zOptDIRECTRectSetFindMin")
p("DIRECT keeps a tiling of the search box", "At all times the regions of the DIRECT method cover the search box without overlap, their volumes add up to that of the box, each is in the list of its size, lists are in ascending order of the values, directions are divided in order of the best values, and no point is evaluated twice or outside the box.",
  "all objective functions, dimensions and numbers of iterations", "All histories of divisions.", "src/zm_opt_direct.c: _zOptDIRECTRectSetRectDivide, _zOptDIRECTRectPatternCreate, _zOptDIRECTRectSetInsert")
p("DIRECT divides potentially optimal regions", "Each region divided is potentially optimal in the sense of Jones, Perttunen and Stuckman: for some rate of change no region promises a smaller value; one of the largest regions and one of the least value are divided in each iteration.",
  "all objective functions and numbers of iterations", "All sets of regions.", "src/zm_opt_direct.c: _zOptDIRECTRectPORIdent, _zOptDIRECTRectPORSetDivide")

p("Active set method: answers are optimal", "An answer of zQPSolveASM satisfies A x >= b, the value returned is x'Qx/2 + c'x, no other point that satisfies the constraints has a smaller or the same value.",
  "all symmetric and positive definite Q, all c, A and b, and all orders in which the working index sets are kept", "All problems and all sequences of active sets.", "src/zm_opt_qp_asm.c: zQPSolveASM, _zQPASMInitBase, _zQPASMSolveEq, _zQPASMAddEq, _zQPASMDelEq")
p("Active set method: memory", "zQPSolveASM writes only within its working space and divides by no zero.",
  "all problems, with fewer, as many and more constraints than variables", "All sizes; the defect is a write beyond a heap block of the size of the constraints.", "src/zm_opt_qp_asm.c: _zQPASMAlloc, _zQPASMSolveEq")
p("Active set method: termination", "zQPSolveASM ends for every problem whose constraints can be satisfied.",
  "all problems, including those with more constraints meeting in a point than variables", "An endless loop cannot be told from a slow one by a test.", "src/zm_opt_qp_asm.c: zQPSolveASM, _zQPASMAddEq, _zQPASMDelEq")
p("Active set method: refusal", "zQPSolveASM refuses every matrix that is not symmetric or not positive definite, and all constraints that no point satisfies.",
  "all matrices and constraints", "All problems that must be refused.", "src/zm_opt_qp_asm.c: _zQPASMCheck, _zQPASMInitBase")

p("Interior-point method: directions", "The predictor and corrector directions of zLPSolvePDIP_PC solve Newton's equations for the conditions of optimality whenever the matrix of the equation has the full rank.",
  "all points with dual variables different from zero, all right-hand sides, sizes and tolerances", "All matrices and points.", "src/zm_opt_lp_pdip.c: _zLP_PDIPEqLUDecomp, _zLP_PDIPEqLU")
p("Interior-point method: interior and residuals", "Every step of zLPSolvePDIP_PC keeps the variables and the dual variables positive, and multiplies the residuals of the constraints and of the dual constraints by a number between zero and one; no division by zero occurs.",
  "all problems with independent constraints and all numbers of iterations", "All sequences of steps.", "src/zm_opt_lp_pdip.c: _zLP_PDIP_PCStep, _zLP_PDIP_PCCorrect, zLPSolvePDIP_PC")
p("Interior-point method: answers", "When zLPSolvePDIP_PC returns true, the answer satisfies the constraints and no point that satisfies them costs less, up to the tolerance; for problems without a solution it returns false.",
  "all problems: with a minimum, without feasible points, without a bound", "All problems; the return value is what a user relies on.", "src/zm_opt_lp_pdip.c: zLPSolvePDIP_PC", "include/zm/zm_opt_lp.h: zLPSolvePDIP_PC")

p("Interior-point method for complementarity problems: turns", "From a point near the central path, one turn of zLCPSolveIP leads to a point near the path with a smaller centre, with positive variables, and multiplies the residual of the equation by the same number as the centre.",
  "all positive semidefinite matrices, not only symmetric ones, all points near the path and all sizes", "All points and all sequences of turns.", "src/zm_opt_lcp_ip.c: _zLCPIP_PCPred, _zLCPIP_PCCorr, _zLCPIP_PCStep, zLCPSolveIP")
p("Interior-point method for complementarity problems: step", "The step of the predictor in zLCPSolveIP is between zero and one and is the longest that stays in the neighbourhood.",
  "all points in the neighbourhood and all directions", "All points and directions; the sign of one inner product decides.", "src/zm_opt_lcp_ip.c: _zLCPIP_PCStep")
p("Interior-point method for complementarity problems: answers", "When zLCPSolveIP returns true, w and z are not negative, w = M z + q and w'z = 0 up to the tolerance; a problem with a positive semidefinite matrix that has a solution is not refused.",
  "all positive semidefinite matrices and all q", "All problems.", "src/zm_opt_lcp_ip.c: zLCPSolveIP", "include/zm/zm_opt_lcp.h: zLCPSolveIP")

p("Complex matrices: element-wise operations", "zCMatAdd, zCMatSub, zCMatRev, zCMatMul, zCMatDiv, zCMatCopy, zCMatZero, zCMatTouchup and zMatToCMat put the sum, difference, opposite, product or quotient of corresponding elements in the destination, which may be one of the sources, and change nothing else; matrices of different sizes and tiny divisors are refused.",
  "all sizes, contents and placements in memory", "All sizes, contents and placements.", "src/zm_cmat.c: zCMatAdd, zCMatSub, zCMatRev, zCMatMul, zCMatDiv, zCMatCopy, zCMatZero, zCMatTouchup, zMatToCMat")
p("Complex matrices: complex scalars", "zCMatCMul and zCMatCDiv put the product or quotient of every element by a complex number in the destination, which may be the source, as the macros zCMatCMulNCDRC and zCMatCDivNCDRC have it; a divisor that is not refused is divided by.",
  "all sizes, contents and numbers", "All contents and numbers.", "src/zm_cmat.c: zCMatCMul, zCMatCDiv, zCMatCMulNC, zCMatCDivNC", "include/zm/zm_cmat.h: zCMatCMulNCDRC")
p("Complex matrices: rows, columns, products", "zCMatGetRow, zCMatGetCol, zCMatPutRow and zCMatPutCol move exactly the row or column of the given number, and refuse a number that is not of the matrix; zCMulMatVec puts the product of a matrix and a vector in the destination; nothing else is changed.",
  "all sizes, contents and integer indices", "All sizes, contents and indices.", "src/zm_cmat.c: zCMatGetRow, zCMatGetCol, zCMatPutRow, zCMatPutCol, zCMulMatVec")

p("Two-variable linear programs: stored problem", "After zLPMegiddoDyerInit, zLPMegiddoDyerSetCostCoefficient and any sequence of zLPMegiddoDyerAddConstraint, the problem that is kept has exactly the points that satisfy all the constraints of the user.",
  "all costs whose second coefficient is not zero and all sequences of constraints", "All sequences of constraints.", "src/zm_opt_lp_megiddodyer.c: zLPMegiddoDyerInit, zLPMegiddoDyerSetCostCoefficient, zLPMegiddoDyerAddConstraint")
p("Two-variable linear programs: direct method", "A point that zLPMegiddoDyerSolveDirect returns satisfies every constraint and has the least cost of all that do, with that cost; when it reports that there is none there is none.",
  "all costs and sequences of constraints", "All problems; optimality is a statement on all points.", "src/zm_opt_lp_megiddodyer.c: zLPMegiddoDyerSolveDirect")
p("Two-variable linear programs: method of Megiddo and Dyer", "zLPMegiddoDyerSolve ends, a point it returns satisfies every constraint and has the least cost of all that do, and when it reports that there is none there is none; further constraints may be added and the problem solved again.",
  "all costs and sequences of constraints, all choices of the median", "All problems; optimality is a statement on all points.", "src/zm_opt_lp_megiddodyer.c: zLPMegiddoDyerSolve")
p("Two-variable linear programs: refusals", "A problem that the two-variable solvers refuse as having infinitely many solutions does not have exactly one optimum, and the answer does not depend on the order in which the constraints were added.",
  "all costs and sequences of constraints", "All problems and all orders.", "src/zm_opt_lp_megiddodyer.c: zLPMegiddoDyerAddConstraint, zLPMegiddoDyerSolve, zLPMegiddoDyerSolveDirect")

p("Gaussian mixtures: shares", "Throughout zGMMCreateEM the weights of the Gaussians are not negative and their sum is one, and so are the responsibilities of the Gaussians for a point.",
  "all points, all Gaussians to begin with, all numbers of turns", "All data and all iterations.", "src/zm_mva_gmm.c: zGMMCreateEM")
p("Gaussian mixtures: Gaussians", "Every Gaussian of zGMMCreateEM has the mean and the covariance of the points weighted by its responsibilities (at first, of its cluster); the covariance is positive semidefinite and the determinant is not negative.",
  "all points and clusters", "All data.", "src/zm_mva_gmm.c: zGMMCreateEM")
p("Gaussian mixtures: likelihood", "No turn of zGMMCreateEM decreases the log-likelihood of the points, and the value that is kept at the end is that of the returned mixture within the tolerance; every call with points ends with an answer.",
  "all points, all mixtures", "A statement on all mixtures and all data.", "src/zm_mva_gmm.c: zGMMCreateEM")
p("Gaussian mixtures: one Gaussian", "With one Gaussian zGMMCreateEM returns the mean and the covariance of the points, and no Gaussian is more likely.",
  "all points, all Gaussians in comparison", "Optimality is a statement on all Gaussians.", "src/zm_mva_gmm.c: zGMMCreateEM")
p("Gaussian mixtures: criteria", "zGMMAIC and zGMMBIC are Akaike's and the Bayesian information criterion of the mixture: the penalty counts its free parameters.",
  "all sizes and likelihoods", "All sizes.", "src/zm_mva_gmm.c: zGMMAIC, zGMMBIC")

p("Bessel functions: no overrun", "zBesselJ0, zBesselJ1, zBesselY0, zBesselY1, zBesselI0, zBesselI1, zBesselK0 and zBesselK1 read inside of their tables of coefficients for every number; those of the first kind give a number, those of the second kind a number for positive arguments and NaN for all others.",
  "all real arguments", "The row of a table is chosen by a conversion of the argument to an integer: all boundaries matter.", "src/zm_sf_bessel.c: zBesselJ0, zBesselJ1, zBesselY0, zBesselY1, zBesselI0, zBesselI1, zBesselK0, zBesselK1")
p("Bessel functions: accuracy of J", "zBesselJ0, zBesselJ1 and zBesselJ give the values of the power series of the Bessel functions of the first kind within 1e-14 (more for higher orders).",
  "all real arguments, all orders", "The bound holds for all real arguments between the sampled ones.", "src/zm_sf_bessel.c: zBesselJ0, zBesselJ1, zBesselJ")
p("Bessel functions: accuracy of I", "zBesselI0, zBesselI1 and zBesselI give the values of the power series of the modified Bessel functions of the first kind with a relative error of a few 1e-14.",
  "all real arguments, all orders", "The bound holds for all real arguments between the sampled ones, and all orders.", "src/zm_sf_bessel.c: zBesselI0, zBesselI1, zBesselI")
p("Bessel functions: parity and recurrence", "zBesselJ and zBesselI of even orders are even and of odd orders odd, exactly. Values of three consecutive orders of zBesselJ (below the argument), zBesselY and zBesselK satisfy the three-term recurrence exactly.",
  "all real arguments, all orders", "All arguments and orders.", "src/zm_sf_bessel.c: zBesselJ, zBesselI, zBesselY, zBesselK")
p("Bessel functions: Miller's method", "zBesselJ from the argument on and zBesselI are Miller's method: the recurrence downwards from a higher order, divided by the normalising sum or by the value at order zero; values of zBesselI decrease with the order as the Bessel functions do.",
  "all positive arguments, all orders", "All arguments and orders.", "src/zm_sf_bessel.c: zBesselJ, zBesselI")

p("Matrices: checked element-wise operations", "zMatCopy, zMatRev, zMatMul, zMatCat, zMatT, zMatTGet and zMatTPut compute the named result into the destination and change nothing else; operands whose sizes do not fit are refused and nothing changes. Those that work element by element may be used in place.",
  "all sizes, capacities, positions and contents, all placements of the operands in memory", "All sizes and placements.", "src/zm_mat.c: zMatCopy, zMatRev, zMatMul, zMatCat, zMatT, zMatTGet, zMatTPut")
p("Matrices: identity and diagonal matrices", "zMatIdent and zMatDiag write the identity matrix and the diagonal matrix of a vector; matrices that are not square and vectors of another size are refused.",
  "all sizes and contents", "All sizes.", "src/zm_mat.c: zMatIdent, zMatDiag; src/zm_raw_mat.c: zRawMatIdent, zRawMatDiag")
p("Matrices: rows and columns", "zMatGetRow, zMatGetCol, zMatPutRow, zMatPutCol, zMatSwapRow and zMatSwapCol act on the named rows and columns and on nothing else; positions that are out of range and vectors of another size are refused.",
  "all sizes and contents, all integer positions", "All sizes and positions, including negative ones.", "src/zm_mat.c: zMatGetRow, zMatGetCol, zMatPutRow, zMatPutCol, zMatSwapRow, zMatSwapCol")
p("Matrices: dyads, trace and products with transposes", "zVecDyad, zMatAddDyad, zMatSubDyad, zMatCatDyad, zMatTrace, zMulMatTVec, zMulMatMatT and zMulMatTMat compute the named result and change nothing else; operands whose sizes do not fit are refused.",
  "all sizes and contents", "All sizes.", "src/zm_mat.c: zVecDyad, zMatAddDyad, zMatSubDyad, zMatCatDyad, zMatTrace, zMulMatTVec, zMulMatMatT, zMulMatTMat")
p("Matrices: product with the transpose in place", "zMulMatTVecDRC replaces a vector by its product with the transpose of a matrix, or refuses operands whose sizes do not fit and leaves the vector as it is.",
  "all sizes and contents", "All sizes.", "src/zm_mat.c: zMulMatTVecDRC")
p("Matrices: extreme elements", "zMatElemMax, zMatElemMin, zMatElemAbsMax and zMatElemAbsMin give the greatest or least element (absolute value) and the first position, row by row, at which it occurs.",
  "all matrices", "All sizes and contents, with equal elements.", "src/zm_mat.c: zMatElemMax, zMatElemMin, zMatElemAbsMax, zMatElemAbsMin")
p("Matrices and vectors: tests", "zMatEqual, zMatMatch, zMatIsTol, zMatIsDiag, zMatIsIdent, zMatIsSymmetric, zVecEqual, zVecMatch, zVecIsTol and zVecIsNan are true exactly of those operands that have the named property.",
  "all sizes and contents, all tolerances", "Both directions, for all sizes.", "src/zm_mat.c: zMatEqual, zMatMatch, zMatIsTol, zMatIsDiag, zMatIsIdent, zMatIsSymmetric; src/zm_vec.c: zVecEqual, zVecMatch, zVecIsTol, zVecIsNan")
p("Vectors: reordering", "zVecReorder and zVecReorderDRC put the elements of a vector in the order of an index; an index that does not fit the vector is refused.",
  "all vectors and indices", "All indices, including those that do not fit.", "src/zm_vec.c: zVecReorder, zVecReorderDRC")
p("Vectors: linear sums", "zVecLinearSum gives the sum of the multiples of the given vectors, and zVecCats adds it to a vector; vectors of another size are left out.",
  "all lists of vectors and coefficients", "Lists of any length.", "src/zm_vec.c: zVecLinearSum, zVecCats")
p("Vectors: functions that do not return NULL", "zVecShift, zVecScale, zVecScaleUniform, zVecNormalize, zVecInterDiv and zVecMid compute the named result and write to the destination only, for operands of any sizes; zVecDem and zVecWSqrNorm refuse a mismatch.",
  "all sizes and contents", "All sizes.", "src/zm_vec.c: zVecShift, zVecScale, zVecScaleUniform, zVecNormalize, zVecInterDiv, zVecMid, zVecDem, zVecWSqrNorm")

p("Normal distribution", "zNormalDistrib is the density of the normal distribution with a relative error of 1e-15 and zNormalCumDistrib its distribution function within 1.2e-14, also in the tails, where the series is given up and 0 or 1 returned.",
  "all arguments and means, all positive deviations", "All real arguments; the reference is an integral.", "src/zm_stat.c: zNormalDistrib, zNormalCumDistrib")
p("Poisson distribution", "zPoissonDistrib gives the probabilities of the Poisson distribution: they have the sum one and the mean lambda, and that of a negative number is zero.",
  "all integers and parameters", "Infinite sums.", "src/zm_stat.c: zPoissonDistrib")
p("Chi-squared distribution", "zChi2CumDistrib is the integral of the density of the chi-squared distribution within 2.4e-14 for every number of degrees of freedom, and zChi2Distrib the density with a relative error of 4e-9.",
  "all non-negative arguments and positive numbers of degrees of freedom", "Infinite families; the reference is an integral.", "src/zm_stat.c: zChi2Distrib, zChi2CumDistrib")

p("Sections of interpolators", "zIPSecVel and zIPSecAcc return the velocity and the acceleration of the curve at the i-th knot: for the linear, Lagrange, Chebyshev, PCHIP and Akima interpolators they agree with the derivatives of the value there.",
  "all knots with increasing times, all values, all sections", "All data sets and sections; the reference is a derivative.", "src/zm_ip_lin.c: _zIPSecVelLinear, _zIPSecAccLinear, _zIPAccLinear", "src/zm_ip_lagrange.c: _zIPSecVelLagrange, _zIPSecAccLagrange", "src/zm_ip_chebyshev.c: _zIPSecVelChebyshev, _zIPSecAccChebyshev", "src/zm_ip_spline.c: _zIPSecAccPCHIP", "src/zm_ip_akima.c: _zIPSecVelAkima, _zIPSecAccAkima")

p("Element-wise operations on complex vectors", "The operations on complex vectors that check sizes (sum, difference, opposite, product and quotient with a real number, copy, v1 + z v2, conversions from and to real vectors) refuse vectors of different sizes and otherwise change exactly the elements of the result, as the formula says, also when the result is one of the operands; zCVecEqual and zCVecIsTol examine every element.",
  "all complex vectors in memory, sizes, placements and contents", "All sizes and placements.", "src/zm_cvec.c: zCVecAdd, zCVecSub, zCVecRev, zCVecMul, zCVecDiv, zCVecCat, zCVecCopy, zCVecZero, zCVecTouchup, zVecToCVec, zCVecToReVec, zCVecToImVec, zCVecEqual, zCVecIsTol")
p("Complex vectors: complex scalars and norms", "The product and the quotient of a complex vector with a complex number are those of all elements, also in place; the inner product is sesquilinear, the norm Euclidean, and zCVecNormalize refuses a tiny vector, compares the sizes and yields a vector of norm one.",
  "all complex vectors in memory, sizes, placements and contents", "All sizes and placements.", "src/zm_cvec.c: zCVecCMul, zCVecCDiv, zCVecCDivNC, zCVecInnerProd, zCVecSqrNorm, zCVecNormalize")

p("Counting eigenvalues by the Sturm series", "For a symmetric tridiagonal matrix, the number of negative terms of the Sturm series at e is the number of eigenvalues above e: never more than those above e and never less than those above e + zTOL, also where terms of the series vanish.",
  "all sizes, all symmetric tridiagonal matrices, all points e", "All matrices; vanishing terms occur at isolated points.", "src/zm_mat_eig.c: _zMatSymEigBisecSturm, zMatSymEigBisec")
p("Eigenvalues by bisection", "zMatSymEigBisec starts from a range that holds all eigenvalues, ends, and stores all eigenvalues of a symmetric tridiagonal matrix in descending order, as accurate as the last width of the range and the tolerance.",
  "all sizes, all symmetric tridiagonal matrices, whatever is read behind the matrix", "All matrices, including multiple eigenvalues and eigenvalues on the ends of the range.", "src/zm_mat_eig.c: _zMatSymEigBisecRange, _zMatSymEigBisecOne, _zMatSymEigBisecRec, zMatSymEigBisec")

p("Extreme singular values and condition number", "Whatever the random initial vectors and whether or not the iterations converge, zMatSingularValueMax is a gain of the matrix (it never exceeds the greatest singular value), zMatSingularValueMin never falls below the least singular value, so zMatCondNum never exceeds the condition number; it is infinite only if the least singular value is below the tolerance. For matrices without full rank the least singular value is zero and the condition number infinite.",
  "all sizes, all matrices, all initial vectors", "All matrices and random vectors.", "src/zm_mat_eig.c: zMatEigPowerInv, zMatSingularValueMax, zMatSingularValueMin, zMatCondNum")

p("Eigenvectors by inverse iteration", "The vector that zMatEig and zMatSymEigBisec find for a real eigenvalue by inverse iteration is an eigenvector up to the tolerance, whatever the random initial vector; for a symmetric matrix the iteration ends by its test within the fixed number of turns and the vector belongs to the eigenvalue nearest to the given one. Where the shifted matrix is singular another shift is taken.",
  "all sizes, all matrices, all eigenvalue estimates, all initial vectors", "All matrices and random vectors.", "src/zm_mat_eig.c: _zMatEigVecReal, _zMatSymEigBisecR, zMatEig, zMatSymEigBisec")
p("Eigenvectors of complex eigenvalues and their order", "For a pair of complex eigenvalues zMatEig stores two unit vectors, conjugate to each other, that satisfy the complex eigenequation up to the tolerance; every column of the base belongs to the eigenvalue of the same index.",
  "all sizes, all real matrices, all sequences of real and conjugate eigenvalues, all initial vectors", "All matrices and orders of real and complex eigenvalues.", "src/zm_mat_eig.c: _zMatEigVecComplex, zMatEig")

p("A polynomial as text is that polynomial", "The expression that zPexSExpr writes for a polynomial denotes it: every coefficient stands before its power of the variable, with its sign, coefficients that are zero are left out, and the text fits into the buffer whose size is given.",
  "all polynomials of all degrees, all variable names, all buffer sizes", "All patterns of zero, unit and negative coefficients.", "src/zm_pex.c: zPexSExpr, zPexFExpr")
p("Complex numbers as text", "Reading the text that zComplexFPrint wrote with zComplexFromStr gives the number back, up to the printed digits.",
  "all complex numbers", "All combinations of signs, zero and unit parts.", "src/zm_complex.c: zComplexFPrint, zComplexFromStr")
p("Vectors, matrices, polynomials and sequences in files", "Scanning what was printed gives back an object of the same size with the same elements, up to the printed digits, and leaves the rest of the file; a file that ends early leaves zeros.",
  "all sizes, all elements, all that follows in the file", "All sizes and file contents.", "src/zm_vec.c: zVecFPrint, zVecFScan", "src/zm_mat.c: zMatFPrint, zMatFScan", "src/zm_pex.c: zPexFPrint, zPexFScan", "src/zm_seq.c: zSeqFPrint, zSeqFScan")

p("Sorting, selection, median", "zDataSort, zDataSortIndex, zDataSortAbsIndex and zVecSort deliver a rearrangement in ascending order; zDataSelect gives the value at a position of that order; zDataMedian has at most half of the samples on either side and the least sum of distances to the samples.",
  "all data of all sizes, with equal values", "All data and orders of equal values.", "src/zm_data.c: zDataSort, zDataSortIndex, zDataSortAbsIndex, zDataSelect, zDataMedian", "src/zm_vec.c: zVecSort")
p("Smoothing keeps polynomials", "Samples of a polynomial of at most the degree of the Savitzky-Golay filter come out of zDataSmoothSG unchanged, up to both ends of the data, and zDataSmoothVelSG gives its derivative.",
  "all polynomials, sizes, window lengths and degrees", "All polynomials and window lengths.", "src/zm_data.c: zDataSmoothSG, zDataSmoothVelSG", "src/zm_ip_pex.c: zPexIPCreateLSM")
p("Peaks of smoothed data", "zDataPeakSG reports exactly the samples where the smoothed data have a maximum, the last one first.",
  "all data, sizes, window lengths and degrees", "All data.", "src/zm_data.c: zDataPeakSG")

p("Cores of clusters of linear sums", "With the linear-sum methods the error of a sample is the difference between the linear sum and its last number; the core and the loaded mean minimise the sum of squared errors (with the loads); no sample is changed.",
  "all samples, loads that are not negative, sizes and previous cores", "All samples.", "src/zm_mva_cluster.c: zVecClusterErrorLS, zVecClusterCoreLS, zVecClusterLoadedMeanLS")

p("Memory of clustering methods", "Whatever functions are set on a clustering method in whatever order, and whichever allocations fail, no workspace is used or freed twice, and destroying the method releases all of them.",
  "all histories of calls on a method, all sizes and all failures of allocations", "All histories.", "src/zm_mva_cluster.c: zVecClusterMethodSetCoreFunc, zVecClusterMethodSetErrorFunc, zVecClusterMethodSetDistFunc, zVecClusterMethodSetLoadedMeanFunc, zVecClusterMethodSetLS, zVecClusterMethodCopy, zVecClusterMethodDestroy")
p("Complete clustering methods", "A method that accepts a function for the loaded mean has functions for the core, the error and the distance, and a workspace of the size of the error; the default methods are complete.",
  "all histories of calls on a method", "All histories.", "src/zm_mva_cluster.c: zVecClusterMethodSetLoadedMeanFunc, zVecClusterMethodSetDefault")
p("Products of three matrices", "zMatQuad, zMatTQuad, zMulMatMatMatT and zMulMatTMatMat compute a diag(w) a^T, a^T diag(w) a, a q a^T and a^T q a, refuse matrices and vectors whose sizes do not match, and change nothing but the destination.",
  "all matrices, weights, null pointers for weights and sizes", "All matrices.", "src/zm_mat.c: zMatQuad, zMatTQuad, zMulMatMatMatT, zMulMatTMatMat")
p("Lists of vectors and their memory", "A zVecList holds copies of the vectors as they were when inserted, in the order of insertion; insertions that fail leave nothing behind; destroying a list releases all that was allocated for it, and a list of references leaves the vectors alone.",
  "all histories of insertions at both ends and changes of the inserted vectors, all failures of allocations", "All histories.", "src/zm_vec_list.c: zVecListInsertHead, zVecListInsertTail, zVecListDestroy, zVecAddrListInsertHead, zVecAddrListInsertTail, zVecAddrListDestroy")

p("Text of expressions", "A text in which numbers, names, operators and brackets are written with any spaces between them is read as those symbols, and evaluates to the value of the expression it writes; names of any length are read.",
  "all texts that write an expression, all names and spaces", "All texts.", "src/zm_parse.c: zmParse, _zmParseTokOp, _zmParseTokFunc, _zmParseTokNum, _zmParseTokVar, _zmParseTokPar, _zmParseOpFind")
p("Variables of expressions", "A parser has one variable of each name; pi and e are the constants; a variable that was assigned a value by a text has that value in later texts.",
  "all sequences of texts given to a parser", "All histories.", "src/zm_parse.c: _zmParseVarListReg, _zmParseVarAssoc, _zmParseVarBuiltin, _zmParseVarEval, _zmParseOpEval, zmParserInit")

p("Evenness of clusters", "zVecMultiClusterEvenness is the ratio of the sizes of the greatest and the least cluster, a number of at least one.",
  "all numbers and sizes of clusters", "All clusterings.", "src/zm_mva_cluster.c: zVecMultiClusterEvenness")
p("X-means by the Bayesian information criterion", "The test keeps the samples of a cluster together exactly if the criterion of one normal distribution is less than that of two of the same weight.",
  "all samples, functions of errors and divisions in two", "All samples.", "src/zm_mva_cluster.c: _zVecMultiClusterXMeansCheckBIC, _zVecClusterXMeansPDF, _zVecMultiClusterVar, zVecMultiClusterXMeansBIC")
p("RANSAC with automatic parameters", "For a rate of outliers between zero and one, zRANSACAuto makes trials with at most half of the samples and at most five for each parameter, only rearranges the samples, and refines the model of the trials with the most inliers.",
  "all samples, rates, noise levels and sequences of random numbers", "All samples and random numbers.", "src/zm_mva_ransac.c: zRANSACAuto, zRANSACSaveInlierAuto, _zRANSACAutoSelectionNumber")

p("Solvers of differential equations own their memory", "A solver of ordinary differential equations that was created has working vectors of the sizes its method needs, each in memory of its own, and zODEDestroy (zODE2Destroy) releases exactly what the creation allocated; a creation that fails leaves nothing behind.",
  "all methods, dimensions, numbers of steps and patterns of exhausted memory", "All dimensions and all points at which memory may run out.", "src/zm_ode_euler.c, src/zm_ode_heun.c, src/zm_ode_rk4.c, src/zm_ode_rkg.c, src/zm_ode_erk.c, src/zm_ode_adams.c, src/zm_ode_beuler.c, src/zm_ode_bk4.c, src/zm_ode_gear.c, src/zm_ode_dc.c, src/zm_ode2.c: zODECreate*, zODEDestroy*, zODE2Create*, zODE2Destroy*")
p("Optimisers and solvers of equations own their memory", "zOptDMCreate and zNLECreate allocate every working vector and matrix with the size of the problem; the destructions release exactly them; a creation that fails leaves nothing behind and touches nothing that is not its own.",
  "all dimensions and patterns of exhausted memory", "All points at which memory may run out.", "src/zm_opt_dm.c: zOptDMCreate, zOptDMDestroy; src/zm_nle_dm.c: zNLECreate, zNLEDestroy")
p("Rings and arrays of vectors own their memory", "zVecRingAlloc and zVecArrayAlloc make the number of vectors of the size asked for or nothing, and zVecRingFree and zVecArrayFree release exactly them.",
  "all numbers, sizes and patterns of exhausted memory", "All points at which memory may run out.", "src/zm_vec_ring.c: zVecRingAlloc, zVecRingFree; src/zm_vec_array.c: zVecArrayAlloc, zVecArrayFree")

p("Linear algebra releases its working memory", "A call that solves linear equations, decomposes or inverts a matrix or computes eigenvalues or singular values releases every block it has allocated, each once, whichever allocations fail; where it reports success it has computed the answer, and its computation runs on working memory of the right sizes.",
  "all sizes, ranks, kinds of eigenvalues, numbers of iterations and patterns of exhausted memory", "All points at which memory may run out in nested calls.", "src/zm_le.c, src/zm_le_lu.c, src/zm_le_lq.c, src/zm_le_tridiag.c, src/zm_le_mat_inv.c, src/zm_le_mat_mpinv.c, src/zm_le_gen.c, src/zm_le_lyapnov.c, src/zm_mat_eig.c")
p("Optimisers release their working memory", "A call of an optimiser releases every block it has allocated, each once, whichever allocations fail, and reports an answer only where it has computed one.",
  "all sizes, populations and patterns of exhausted memory", "All points at which memory may run out.", "src/zm_opt_lcp_ip.c, src/zm_opt_lcp_lemke.c, src/zm_opt_lp_simplex.c, src/zm_opt_lp_pdip.c, src/zm_opt_qp_asm.c, src/zm_opt_nm.c, src/zm_opt_pso.c, src/zm_opt_ga.c")
p("Interpolators, curves, networks and mixtures own their memory", "A spline, a NURBS curve, a growing neural gas or a Gaussian mixture that was created consists of blocks of its own of the right sizes, its destruction releases exactly them, and a creation or evaluation that fails leaves nothing behind.",
  "all numbers and sizes of points or units and patterns of exhausted memory", "All points at which memory may run out.", "src/zm_ip.c: zIPDataAlloc, zIPDataFree; src/zm_ip_spline.c: zIPCreateSpline; src/zm_ip_akima.c; src/zm_nurbs.c: zNURBSCreate, zNURBSDestroy, zNURBSClone; src/zm_gng.c: zGNGInit, zGNGDestroy; src/zm_mva_gmm.c: zGMMInit, zGMMDestroy")

p("Normalised angles, cycloids, the sigmoid function and rounding", "A normalised angle is above minus pi, at most pi, and the only such angle that differs by whole turns; its sine and cosine are those of the angle. A cycloid advances without turning back from rest to rest, with the height of half its speed. The sigmoid function increases strictly between zero and one and is symmetric. Rounding gives the nearest whole number, away from zero where two are equally near; remainders and logarithms to a base invert the multiple and the power.",
  "all real numbers (rounding: those whose result is an int)", "All numbers.", "src/zm_misc.c: zSinCos, zPhaseNormalize, zCycloidX, zCycloidY, zSigmoid; include/zm/zm_misc.h: zCeil, zRound, zFruct, zLog")
p("Random variates by rejection are defined and transform the accepted draw", "The logistic, Cauchy, t and related two-variable variates come from the first draws that meet the criterion of the method, carry out no division by zero and no root of a negative number, and are the documented function of those draws.",
  "all sequences of draws, all positions in them and numbers of attempts rejected before", "All sequences of draws.", "src/zm_rand.c: zRandLog, zRandCauchy, zRandT, zRandBinom2")

p("The generalised solver on the LU decomposition, and resized decompositions", "The LU decomposition of a matrix of any shape and rank gives factors of that rank whose product is the matrix, and the generalised solver built on it gives the vector of the least weighted error and, among those, of the least weighted norm. The variants that resize their factors leave as many columns and rows as the rank (LU, LQ, Cholesky).",
  "all matrices of any shape and rank, all right-hand sides and positive weights", "All matrices and ranks.", "src/zm_le_lu.c: zMatDecompLU, zMatDecompLUAndResize, zMatDecompCholeskyAndResize; src/zm_le_lq.c: zMatDecompLQAndResize; src/zm_le_gen.c: zLESolveMP_LU, zLESolveMP_LU_DST, zLEWorkspaceResizeMP")
p("Balancing keeps the solutions of a system", "Balancing a matrix and a vector gives a system that has the same solutions, up to the factors reported for the columns, and every equation of which is zero or has coefficients of magnitude at most one, one of them of magnitude one. Sizes that do not agree are refused.",
  "all matrices of any shape, all vectors on the right, with and without factors for the columns", "All systems.", "src/zm_le.c: zMatVecBalancing, zMatVecBalancingDST, zMatColBalancingDST, zMatVecRowBalancingDST")

p("The remaining element-wise operations, comparisons and fillings", "Touching up, negating and dividing a matrix in place change exactly its elements; adding a vector to a column, subtracting it, scaling the column and adding a multiple change exactly that column. The comparisons tell whether all elements are equal, equal within the tolerance, or tiny. The linear sum is the sum of the multiples of as many vectors as announced. Filling from arguments or an array gives the elements row by row in order and leaves padding and everything else as it was; too few arguments are read past their end. Random elements are the numbers drawn, in order, and lie within their limits.",
  "all memories, sizes, strides, positions, arguments and sequences of random numbers", "All layouts and contents.", "src/zm_raw_mat.c: zRawMatTouchup, zRawMatRevDRC, zRawMatDivDRC, zRawMatColAddDRC, zRawMatColSubDRC, zRawMatColMulDRC, zRawMatColCatDRC, zRawMatEqual, zRawMatMatch, zRawMatIsTol, zRawMatRandUniform, zRawMatRand; src/zm_raw_vec.c: zRawVecCats, zRawVecLinearSum, zRawVecEqual, zRawVecMatch, zRawVecIsTol, zRawVecRandUniform, zRawVecRand; src/zm_vec.c: zVecSetElemList, zVecCopyArray; src/zm_mat.c: zMatSetElemList, zMatCopyArray")

p("A parser of expressions releases what it allocates", "Whatever texts a parser reads and evaluates, no token, cell or number is released while it is in use or twice, and a text that was read and not evaluated leaves no token behind. That nothing at all is left after the parser is destroyed is false: the cells and numbers of the built-in constants remain in every case, each closing bracket and each evaluation loses a cell, and more than one expression side by side loses a token with its cells.",
  "all texts, parser states and sequences of texts and evaluations", "Leaks need every text and history.", "src/zm_parse.c: zmParserInit, zmParserDestroy, zmParse, zmParseEval, _zmParseTokFree, _zmParseCellFree, _zmParseVarListDestroy")

p("The smooth step is a smooth step", "For every order n the smooth step is 0 up to 0, 1 from 1 on and increases strictly in between; it is symmetric about one half, has n continuous derivatives on the whole line, so that the first n vanish at both ends, and is the probability that of 2n+1 trials of probability x more than n succeed. The function for its derivative is its derivative, everywhere for orders from 1 on and inside the ramp for order 0, and is (2n+1)!/(n!)^2 (x(1-x))^n.",
  "all orders and all real arguments", "All orders and a continuum of arguments.", "src/zm_misc.c: zSmoothStep, zSmoothStepDif")

p("Conjugate gradient method", "The conjugate gradient method of the descent solver begins with the gradient, every further direction descends if the line search before was exact, the directions are started again after as many as there are dimensions, and a solution does not depend on what an earlier one with the same solver left behind.",
  "all functions, dimensions, starting points and histories of solutions", "All functions and histories.", "src/zm_opt_dm.c: _zOptDMVecCG, _zOptDMUpdateNone, zOptDMSolve")

p("Expansion of complex factors", "Expanding a vector of complex factors in which those that are not real come in conjugate pairs, in whatever order, gives the real polynomial that has exactly these factors, each as often as it is given. Factors that cannot be paired are an error, and no memory is left behind either way.",
  "all vectors of factors that the tolerance tells apart", "All sizes, orders and multiplicities.", "src/zm_pex.c: zPexCExp, _zPexExpIm; src/zm_cvec.c: zCVecToReImVec, zCVecConjPair")

p("Sets of clusters release their memory", "Whatever allocations fail, after any history of initialisations, clusterings, silhouette analyses and destructions, the destruction of a set of clusters leaves no memory behind.",
  "all histories of calls, numbers of clusters and samples, and patterns of failing allocations", "All histories and allocation failures.", "src/zm_mva_cluster.c: zVecMultiClusterInit, zVecMultiClusterAlloc, zVecMultiClusterDestroy, zVecMultiClusterKMeans, zVecMultiClusterKMeansKKZ, zVecMultiClusterMeanSilhouette, zVecMultiClusterXMeans, _zVecMultiClusterMerge")

p("Blocks of matrices at any position", "Reading or writing a block of a matrix at any position, of whatever sign, either refuses (or clips) a block that is not inside the matrix or copies exactly that block; it never touches memory outside the two matrices.",
  "all positions, shapes and capacities", "All positions, including negative ones.", "src/zm_mat.c: zMatGet, zMatPut; src/zm_raw_mat.c: zRawMatGet, zRawMatPut")

p("Memory of trees of vectors", "A tree of vectors holds every vector whose addition succeeded, an addition that fails leaves the tree as it was, and destroying the tree releases every block exactly once.",
  "all histories of additions, all choices of branches and all patterns of allocation failures", "All histories and all points at which memory runs out.", "src/zm_vec_tree.c: zVecTreeInit, zVecTreeAdd, zVecTreeDestroy")

p("Memory of graphs", "A graph that is built by any calls and destroyed releases every node, its data and every arc, whatever allocations failed in between; a failed call leaves the graph usable; and a search keeps no memory but the path it returns.",
  "all histories of calls, all patterns of allocation failures, all graphs searched", "All histories and all points at which memory runs out.", "src/zm_graph.c: zGraphInit, zGraphAddNode, zGraphConnect, zGraphBiconnect, zGraphDestroy, zGraphNodeListAdd; src/zm_graph_search.c: zGraphSearchAStar")
p("Memory of random trees", "Whatever searches are made with a set of random trees, whatever the functions of the user answer and whatever allocations fail: once the trees are destroyed, the only blocks left are those of the paths handed over to the caller.",
  "all histories of searches, all answers of the functions of the user, all patterns of allocation failures", "All histories and all points at which memory runs out.", "src/zm_rrt.c: zRRTFindPath, zRRTFindPathOpt, zRRTFindPathDual, zRRTEscape, zRRTShortcutPath, zRRTDestroy")

p("Memory of the search by divided rectangles", "A search by divided rectangles gives back every block it allocated, whether it finishes or stops because memory runs out, and never releases a block twice.",
  "all objectives, bounds, numbers of iterations and patterns of allocation failures", "All objectives and all points at which memory runs out.", "src/zm_opt_direct.c: _zOptDIRECTRectSetRectDivide, _zOptDIRECTRectPORSetDivide, _zOptDIRECTRectSetDestroy, zOptSolveDIRECT")

p("Memory of Gaussian mixture models", "A Gaussian mixture model that is initialised, given functions and estimated by any calls can always be destroyed, and then every block allocated since is released, whatever allocations failed in between; a failed initialisation leaves nothing behind.",
  "all histories of calls, all numbers of units and sizes, all patterns of allocation failures", "All histories and all points at which memory runs out.", "src/zm_mva_gmm.c: zGMMInit, zGMMSetErrorFunc, zGMMSetCoreFunc, zGMMSetLoadedMeanFunc, zGMMSetMethodLS, zGMMCreateEM, zGMMDestroy; src/zm_mva_cluster.c: zVecClusterMethodSetErrorFunc, zVecClusterMethodSetLoadedMeanFunc, zVecClusterMethodCopy")

p("Memory of linear programs in two variables", "Whatever constraints are added to a linear program in two variables, whichever way and however often it is solved and whatever allocations fail, no block is used after its release or released twice, and destroying the program releases every block.",
  "all histories of calls, all patterns of allocation failures, all answers of the median", "All histories and all points at which memory runs out.", "src/zm_opt_lp_megiddodyer.c: zLPMegiddoDyerInit, zLPMegiddoDyerAddConstraint, zLPMegiddoDyerSolve, zLPMegiddoDyerSolveDirect, zLPMegiddoDyerDestroy")

p("Cells are moved between lists without being missed or lost", "Where samples, edges or points are taken out of a list while it is run through (inliers of RANSAC, samples reassigned by K-means, aged edges, points of a polyline, shortcuts of a path) every element is looked at, exactly those meant are moved or removed, the others keep their order, and all lists are properly linked afterwards; a cluster divided by X-means is replaced in its place by its parts.",
  "all lists, all decisions which elements are to be moved, all clusters", "All lists and all patterns of neighbouring elements that are removed.", "src/zm_mva_ransac.c: zRANSACSaveInlier; src/zm_mva_cluster.c: zVecMultiClusterKMeans, zVecMultiClusterXMeans; src/zm_gng.c: zGNGUpdate; src/zm_vec_list.c: zVecListRDP; src/zm_rrt.c: zRRTShortcutPath; src/zm_seq.c: zSeqJump")

p("Memory of sequences of vectors", "Whatever is put into a sequence, taken out of it or read into it from files, and whatever allocations fail, no block is released twice or while the sequence holds it, a vector that is refused stays with the caller, and freeing the sequence releases every frame it was given.",
  "all histories of calls, all files, all patterns of allocation failures", "All histories and all points at which memory runs out.", "src/zm_seq.c: zSeqInit, zSeqEnqueue, zSeqDequeue, zSeqFScan, zSeqFree; src/zm_vec.c: zVecAlloc, zVecFree, zVecFScan")

p("Vectors and matrices are values", "Vectors and matrices, real or complex, that are created, filled from lists or arrays, cloned, transposed into clones, copied, written, resized within their capacity and freed behave as independent values: an operation on one never changes another, a clone has the elements in use of its source whatever the capacity of that, resizing loses no element, no sequence of such calls reads or writes outside a live block or releases one twice, a request returns the null pointer only if an allocation failed or there are no elements and then keeps no memory, and after the last object has been freed no block is left.",
  "all histories of calls on any number of objects, all sizes and elements, all patterns of allocation failures", "All histories, sizes, capacities and points at which memory runs out.", "src/zm_vec.c: zVecAlloc, zVecFree, zVecSetElemList, zVecCreateList, zVecCopy, zVecClone, zVecCloneArray, zVecResize; src/zm_mat.c: zMatAlloc, zMatFree, zMatFreeAtOnce, zMatSetElemList, zMatCreateList, zMatCopy, zMatClone, zMatCloneArray, zMatTClone, zMatResize; src/zm_cvec.c: zCVecAlloc, zCVecClone; src/zm_cmat.c: zCMatAlloc, zCMatClone")

p("Explicit solvers keep to the caller's states", "A caller who solves a differential equation on a set of states with functions of their own for moving and comparing states can rely on this: the explicit solvers (Euler, Heun, RK4, RKG, RKF45, CK45, DP45, Adams) and the second-order solvers on top of them (regular, symplectic, leapfrog) call these functions only with the pointer the caller passed to the update, only for states of that set and derivatives of the kind the right-hand side gives, and end in a state of that set; with the default functions they compute what the methods are known for.",
  "all sets of states closed under the caller's function, all right-hand sides, functions and pointers, all states, times and steps", "All state spaces and functions of a caller.", "src/zm_ode.c: zODEAssignFunc; src/zm_ode_euler.c, zm_ode_heun.c, zm_ode_rk4.c, zm_ode_rkg.c, zm_ode_erk.c, zm_ode_adams.c; src/zm_ode2.c: zODE2AssignFunc, _zODE2RegularFunc, _zODE2Cat, zODE2UpdateRegular, zODE2UpdateSymplectic, zODE2UpdateLeapfrog")
p("Implicit solvers and deferred correction keep to the caller's functions", "The implicit solvers (backward Euler, trapezoidal, Gauss, Radau, Gear) and deferred correction call the functions of the caller only with the pointer the caller passed to the update, compare only states with the function for comparing states, and move states only with the function for moving states.",
  "all right-hand sides, functions and pointers, all states, times and steps", "All state spaces and functions of a caller.", "src/zm_ode_beuler.c, zm_ode_bk4.c, zm_ode_gear.c: _zODE_Gear_Func; zm_ode_dc.c: zODEUpdateDC; zm_ode2.c")

p("Nearest point of a curve", "zNURBSVecNN returns a parameter within the interval of the curve, stores the point of the curve at that parameter, and no point of the curve is nearer to the given one.",
  "all orders, knots, weights and control points, all given points", "All curves and points.", "src/zm_nurbs.c: zNURBSVecNN")

p("Files of linear programs of two variables", "A linear program of two variables that is written to a file and read back has the same cost and allows the same points; a file that is missing or too short for the rows it announces is refused.",
  "all problems, all layouts of numbers in bytes, all contents of files", "All problems and all files.", "src/zm_opt_lp_megiddodyer.c: zLPMegiddoDyerReadFile, zLPMegiddoDyerWriteFile, zLPMegiddoDyerWriteFileASCII")

p("Arithmetic on vectors and matrices that are shared", "Adding, subtracting, scaling, concatenating, zeroing and touching up vectors and matrices, in any order with creating, copying, resizing and releasing them, has the result of the same arithmetic on values, even if operands and destination are the same object, and whatever margins the objects have; different sizes and tiny divisors are refused and change nothing.",
  "all histories, all ways in which operands coincide, all sizes and margins, all failures of allocation", "All histories.", "src/zm_vec.c: zVecAdd, zVecSub, zVecRev, zVecMul, zVecDiv, zVecAmp, zVecCat, zVecZero, zVecSetAll, zVecTouchup; src/zm_mat.c: zMatAdd, zMatSub, zMatRev, zMatMul, zMatDiv, zMatCat, zMatZero, zMatTouchup, zMatIdent; include/zm/zm_vec.h: zVecAddDRC; include/zm/zm_mat.h: zMatAddDRC")

p("Products of vectors and matrices in any history", "Multiplying matrices by vectors and by matrices, with either factor transposed, and transposing matrices, in any order with creating, copying, resizing, adding and releasing objects, has the result of the same products of values, whatever margins the objects have, as long as the destination is none of the operands; sizes that do not fit are refused and change nothing. The inner product of two vectors, which may be one, is the sum of the products, and zero for different sizes.",
  "all histories, all sizes and margins, all failures of allocation", "All histories.", "src/zm_mat.c: zMulMatVec, zMulMatTVec, zMulMatMat, zMulMatMatT, zMulMatTMat, zMatT; src/zm_raw_mat.c: zRawMulMatVec, zRawMulMatTVec, zRawMulMatMat, zRawMulMatMatT, zRawMulMatTMat, zRawMatColInnerProd; src/zm_vec.c: zVecInnerProd; src/zm_raw_vec.c: zRawVecInnerProd")

p("Products and transposition in place, in any history", "Multiplying a vector in place by a square matrix of its size, or by the transpose of one, replaces it by the product and leaves no temporary object behind, or, if memory is refused, changes nothing; transposing a matrix in place replaces it by its transpose and exchanges its margins without losing an element in them; in any history with the other functions on objects. A matrix that does not fit is not refused: the vector is zeroed and returned (C13).",
  "all histories, all sizes and margins, all failures of allocation", "All histories and allocation failures.", "src/zm_mat.c: zMulMatVecDRC, zMulMatTVecDRC, zMatTDRC; src/zm_raw_mat.c: zRawMatTDRC")

p("Parts of vectors and matrices, in any history", "Taking a submatrix, a row, a column or a part of a vector gives the destination exactly those elements, transposed where asked; putting one changes exactly those elements of the destination; exchanging two rows or columns exchanges them; a part that does not lie within the object, or a size that does not match, is refused and nothing changes; margins kept for enlargement and all other objects keep their values; in any history with the other functions on objects.",
  "all histories, all sizes, margins and natural positions, all failures of allocation; source and destination are different objects", "All histories and sizes.", "src/zm_mat.c: zMatGet, zMatTGet, zMatPut, zMatTPut, zMatGetRow, zMatGetCol, zMatPutRow, zMatPutCol, zMatSwapRow, zMatSwapCol; src/zm_vec.c: zVecGet, zVecPut; src/zm_raw_mat.c: zRawMatGet, zRawMatPut, zRawMatTGet, zRawMatTPut")

p("The picture of a matrix", "zMatImg prints one line for each row and one character for each element of any matrix; negligible elements are blank, the others show by one of four characters how large they are relative to the greatest absolute value, and by another set of characters that they are negative; it never reads outside its tables or divides by zero.",
  "all matrices and tolerances", "All matrices.", "src/zm_mat.c: zMatImg")
p("Search in arrays of complex numbers", "zComplexValIsIncluded is true exactly if a member of the array agrees with the number in both parts up to the tolerance, and zComplexValConjIsIncluded exactly if one agrees with its conjugate; with tolerance zero this is membership.",
  "all arrays, numbers and tolerances", "All arrays.", "src/zm_complex.c: zComplexValIsIncluded, zComplexValConjIsIncluded")

p("Diagonal matrices, shifts, exchanges and arrays of vectors, in any history", "In any history with the other functions on objects: zMatDiag makes a square matrix diagonal with the elements of a vector of its size and refuses other sizes; zVecShift and zMatShift add a number to all elements of a vector, also in place, and to the diagonal of a matrix; zVecSwap exchanges two elements; zVecArrayFill copies a vector to all vectors of an array; each refuses what it cannot do, changes nothing else and never leaves the buffers.",
  "all histories, all sizes and margins, all failures of allocation", "All histories and sizes.", "src/zm_mat.c: zMatDiag, zMatShift; src/zm_vec.c: zVecShift, zVecSwap; src/zm_vec_array.c: zVecArrayFill; src/zm_raw_mat.c: zRawMatDiag; src/zm_raw_vec.c: zRawVecShift, zRawVecSwap")

p("Mean with variance and covariance, standard deviation", "For a list of vectors that is not empty, zVecListMeanVar gives the mean and the least mean squared distance of the vectors from any vector, attained at the mean only; zVecListMeanCov gives the mean and a symmetric positive semidefinite matrix whose value on a direction is the mean squared deviation along it, zero only where all vectors agree, with the variance as its trace. The standard deviation is not negative, its square is the variance, it does not see added constants and scales with absolute values of factors. An empty list should be refused.",
  "all lists of vectors of one size, all data", "All lists.", "src/zm_mva.c: zVecListMeanVar, zVecListMeanCov; src/zm_stat.c: zDataStandardDeviation")
p("Moves of Nelder-Mead and independence of coordinates", "Each turn of zOptSolveNM moves the worst vertex along the line through it and the centroid of the others (reflection, doubling while it improves, halving) or moves all vertices half of their way to the best one, under the conditions of the method; and the solver commutes with affine changes of coordinates: for the same problem in other coordinates it takes as many turns and finds the corresponding point.",
  "all objective functions, dimensions, simplices and affine maps", "All functions and coordinates.", "src/zm_opt_nm.c: zOptSolveNM, _zOptNMTry, _zOptNMPin, _zOptNMRefl, _zOptNMExp, _zOptNMShrink, _zOptNMCrunch")

p("Mean and largest silhouettes", "For two or more clusters, none of them empty, zVecMultiClusterMeanSilhouette gives the mean of the silhouettes of all points, between -1 and 1, and keeps those of each cluster in ascending order; zVecClusterMaxSilhouette then gives the largest silhouette of the points of a cluster, and -HUGE_VAL where none have been computed, without reading outside of what was computed. zVecClusterCreate gives a cluster or releases what it has.",
  "all clusters, points and distances", "All data.", "src/zm_mva_cluster.c: zVecMultiClusterMeanSilhouette, zVecClusterMaxSilhouette, zVecClusterCreate")

p("Parameters of B-splines in any history", "In any history of zBSplineParamAlloc, Free, Copy, Clone and of reading and writing knots, whichever allocations fail: parameters behave as values on their own, so that writing one never changes another and a copy or a clone equals its source; what cannot be done is refused and changes nothing else; each vector of knots belongs to one parameter, and after all parameters have been released none is left.",
  "all histories, orders, numbers of points and patterns of failing allocations", "All histories and failures.", "src/zm_nurbs.c: zBSplineParamAlloc, zBSplineParamFree, zBSplineParamCopy, zBSplineParamClone; include/zm/zm_nurbs.h: zBSplineParamKnot, zBSplineParamSetKnot")

p("Conservation by symplectic and leapfrog integration", "Over any sequence of times and steps, the symplectic and the leapfrog method conserve momentum under forces that have no component along it and angular momentum under forces that have no moment, exactly; the leapfrog method gives the displacements of the symplectic one for forces that do not depend on the velocity; constant acceleration should be integrated exactly by the leapfrog method.",
  "all forces, moments, states, times, steps and numbers of steps", "Arbitrarily many steps.", "src/zm_ode2.c: zODE2UpdateSymplectic, zODE2InitHistoryLeapfrog, zODE2UpdateLeapfrog")

out = os.path.join(os.path.dirname(os.path.abspath(__file__)), "..", "properties.jsonl")
with open(out, "w") as f:
    for x in P: f.write(json.dumps(x) + "\n")
print(len(P))
