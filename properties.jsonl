{"id": "C01", "title": "Integer powers, factorials, permutations, combinations", "statement": "zPowN(x,n) equals the product of n factors x; zFactorial(n)=n!; zPermutation(n,i) is the number of ordered selections (0 when i>n or i<0); zCombination(n,i) is the binomial coefficient for 0<=i<=n.", "quantifier": "all exponents, all n and i", "why_tests_cant": "An unbounded family of inputs; halving/doubling loops go wrong at particular bit patterns.", "anchors": ["src/zm_misc.c:zPowN", "src/zm_misc.c:zFactorial", "src/zm_misc.c:zPermutation", "src/zm_misc.c:zCombination"]}
{"id": "C02", "title": "In-place Pascal row", "statement": "zCombinationSeries(n,size,c) fills c[0..n] with the binomial coefficients C(n,0..n), touches nothing else, and returns NULL without touching c exactly when n>=size.", "quantifier": "all n, all buffer sizes and previous contents", "why_tests_cant": "In-place update order only matters for larger n; sizes are unbounded.", "anchors": ["src/zm_misc.c:zCombinationSeries"]}
{"id": "C03", "title": "Tolerance comparison", "statement": "zEqual(a,b,tol) is symmetric, true for a=b (finite) with tol>=0, monotone in tol, and implies |a-b| <= tol*max(1,|a|,|b|).", "quantifier": "all pairs of values and tolerances", "why_tests_cant": "Quantifies over all pairs.", "anchors": ["src/zm_misc.c:zEqual", "include/zm/zm_misc.h:zIsTol"]}
{"id": "C04", "title": "IEEE-754 classification", "statement": "zIsInf / zIsNan / zIsFinite classify every one of the 2^64 bit patterns as IEEE-754 does: exactly one of inf, nan, finite holds; the sign of infinity is reported by +1/-1.", "quantifier": "all 64-bit patterns", "why_tests_cant": "2^64 inputs.", "anchors": ["src/zm_ieee.c", "include/zm/zm_ieee.h"]}
{"id": "C05", "title": "Line through two points", "statement": "zLine(x,x0,y0,x1,y1) returns y0 at x=x0 and y1 at x=x1, i.e. evaluates the straight line through the two points, whenever x0!=x1.", "quantifier": "all pairs of distinct abscissae, all x", "why_tests_cant": "All inputs; special inputs (y0=0 or x1=0) hide a sign error.", "anchors": ["src/zm_misc.c:zLine"]}
{"id": "C06", "title": "Raw vector kernels are element-wise and alias-safe", "statement": "Each raw vector kernel (add, sub, reverse, mul, div, amplify, cat, normal/direct forms) writes exactly elements 0..size-1 of the destination with the element-wise result even if the destination is one of the sources; the inner product and element sum equal the exact sum in exact arithmetic despite the compensation term.", "quantifier": "all sizes, contents and aliasing patterns", "why_tests_cant": "All sizes and aliasing.", "anchors": ["src/zm_raw_vec.c", "include/zm/zm_raw_vec.h"]}
{"id": "C07", "title": "Size-checked vector/matrix API", "statement": "A checked vector operation with mismatching sizes returns NULL and leaves the destination untouched; with matching sizes it performs the unchecked operation.", "quantifier": "all sizes and contents", "why_tests_cant": "All size combinations.", "anchors": ["src/zm_vec.c", "src/zm_mat.c"]}
{"id": "C08", "title": "Index-checked element access never leaves the buffer", "statement": "zVecSwap, zVecGet, zVecPut, zVecElem-style checked accessors either fail or access only elements inside the vector, for every index.", "quantifier": "all (possibly negative) indices and sizes", "why_tests_cant": "Boundary index equal to size and negative indices.", "anchors": ["src/zm_vec.c:zVecSwap", "src/zm_vec.c:zVecGet", "src/zm_vec.c:zVecPut"]}
{"id": "C09", "title": "In-place transposition", "statement": "zRawMatTDRC turns a rowcap x colcap row-major buffer into its transpose in place: element (i,j) of the result is element (j,i) of the input, for every shape.", "quantifier": "all matrix shapes and contents", "why_tests_cant": "Cycle-leader transposition: cycle structure varies irregularly with the shape.", "anchors": ["src/zm_raw_mat.c:zRawMatTDRC", "src/zm_raw_mat.c:_zRawMatTDRCPrevIndex"]}
{"id": "C10", "title": "Sub-matrix get/put framing", "statement": "zRawMatGet/Put/TGet/TPut, row/column get/put and row/column swap copy exactly the addressed block and change no other element, including when column capacity exceeds column size; put followed by get is the identity.", "quantifier": "all shapes, capacities and positions that are not negative and not to the right of the matrix (for the others see the blocks at any position below)", "why_tests_cant": "All shapes and strides.", "anchors": ["src/zm_raw_mat.c", "src/zm_mat.c"]}
{"id": "C11", "title": "Matrix product kernels", "statement": "zRawMulMatVec, zRawMulMatTVec, zRawMulMatMat, MatTMat, MatMatT and dyad kernels compute the mathematical products for every shape, reading and writing only inside the operands.", "quantifier": "all shapes and contents", "why_tests_cant": "All shapes.", "anchors": ["src/zm_raw_mat.c"]}
{"id": "C12", "title": "Infinity norm", "statement": "zMatInfNorm returns the maximum over rows of the sum of absolute values.", "quantifier": "all matrices, including those whose column capacity exceeds their column size", "why_tests_cant": "Only matrices resized below capacity expose a stride error.", "anchors": ["src/zm_mat.c:zMatInfNorm"]}
{"id": "C13", "title": "Failed operations leave operands unchanged", "statement": "zMulMatVecDRC / other in-place operations that report a size mismatch leave their vector argument unchanged.", "quantifier": "all size mismatches", "why_tests_cant": "All size mismatches.", "anchors": ["src/zm_mat.c:zMulMatVecDRC"]}
{"id": "C14", "title": "Gaussian elimination solves the system", "statement": "If zLESolveGauss returns an answer x then A x = b exactly in exact arithmetic when no non-zero entry is below the skip tolerance, and it answers for every invertible A; when entries below tolerance are skipped, x solves a system whose matrix differs from the (equilibrated, permuted) one by entries no larger than the tolerance at elimination time.", "quantifier": "all sizes, matrices and right-hand sides", "why_tests_cant": "All systems; pivoting orders are data dependent.", "anchors": ["src/zm_le.c:zLESolveGaussDST", "src/zm_le_pivot.c:zMatPivoting", "src/zm_le.c:zLEBalancing"]}
{"id": "C15", "title": "Triangular and LU solves", "statement": "zLESolveL and zLESolveU solve lower/upper triangular systems with non-zero diagonal exactly, and zLESolveLU composes them to a solution of P^-1 L U x = b.", "quantifier": "all sizes and triangular matrices", "why_tests_cant": "All systems.", "anchors": ["src/zm_le_lu.c:zLESolveL", "src/zm_le_lu.c:zLESolveU"]}
{"id": "C16", "title": "LU decomposition", "statement": "zMatDecompLU returns L, U and a row permutation with L U equal to the row-permuted input, L lower trapezoidal, U unit/upper trapezoidal, and rank equal to the rank of the input.", "quantifier": "all shapes and matrices including rank-deficient", "why_tests_cant": "Rank-deficient patterns are a null set for random tests.", "anchors": ["src/zm_le_lu.c:zMatDecompLUDST", "src/zm_le_lu.c:zMatDecompLU"]}
{"id": "C17", "title": "Determinant", "statement": "zMatDet returns the determinant of a square matrix, 0 for a singular one.", "quantifier": "all sizes and square matrices", "why_tests_cant": "All matrices; permutation sign errors depend on pivot order.", "anchors": ["src/zm_le_mat_inv.c:zMatDetDST", "src/zm_le_mat_inv.c:zMatDet"]}
{"id": "C18", "title": "Matrix inverse", "statement": "zMatInv returns the inverse of an invertible matrix and reports failure (NULL) for a singular one.", "quantifier": "all sizes and square matrices", "why_tests_cant": "Singular matrices are a null set.", "anchors": ["src/zm_le_mat_inv.c:zMatInv", "src/zm_le_mat_inv.c:zMulInvMatMat"]}
{"id": "C19", "title": "Tridiagonal solver", "statement": "zLETridiagSolve returns the solution of the tridiagonal system whenever no pivot of the forward sweep vanishes.", "quantifier": "all sizes and tridiagonal systems", "why_tests_cant": "All sizes.", "anchors": ["src/zm_le_tridiag.c"]}
{"id": "C20", "title": "Polynomial evaluation", "statement": "zPexVal(p,x) equals sum a_k x^k, and zPexDifVal(p,k,x) equals the value at x of the k-th derivative polynomial, including k greater than the degree.", "quantifier": "all polynomials, arguments and derivative orders", "why_tests_cant": "All degrees.", "anchors": ["src/zm_pex.c:zPexVal", "src/zm_pex.c:zPexDifVal"]}
{"id": "C21", "title": "Polynomial ring operations", "statement": "zPexAdd, zPexSub and zPexMul return the sum, difference and product polynomials for any pair of degrees.", "quantifier": "all pairs of polynomials", "why_tests_cant": "All degree combinations.", "anchors": ["src/zm_pex.c:zPexAdd", "src/zm_pex.c:zPexSub", "src/zm_pex.c:zPexMul"]}
{"id": "C22", "title": "Polynomial division", "statement": "zPexDiv(p,f) returns q, r with p = q f + r and deg r < deg f for every divisor with non-zero leading coefficient, and never accesses memory outside its operands.", "quantifier": "all polynomials p and divisors f", "why_tests_cant": "All degree combinations including deg p < deg f.", "anchors": ["src/zm_pex.c:zPexDiv"]}
{"id": "C23", "title": "Polynomial from roots", "statement": "zPexExp(a) returns the monic polynomial whose roots with multiplicity are the factors given, i.e. the product of (x - a_i) (sign convention of the library).", "quantifier": "all root lists", "why_tests_cant": "All lengths; recursive halving splits depend on length.", "anchors": ["src/zm_pex.c:zPexExp"]}
{"id": "C24", "title": "Differentiation and integration of polynomials", "statement": "zPexDif returns the derivative, zPexIntg an antiderivative with zero constant; differentiating an integral gives back the polynomial.", "quantifier": "all polynomials", "why_tests_cant": "All degrees.", "anchors": ["src/zm_pex.c:zPexDif", "src/zm_pex.c:zPexIntg"]}
{"id": "C25", "title": "Taylor shift", "statement": "zPexModulo(p1,a) rewrites p so that the returned coefficients b satisfy p(x) = sum b_k (x+a)^k (sign convention of the library) for all x.", "quantifier": "all polynomials and shifts", "why_tests_cant": "All degrees.", "anchors": ["src/zm_pex.c:zPexModulo"]}
{"id": "C26", "title": "Degree regularisation", "statement": "zPexRgl removes exactly the vanishing leading coefficients of a polynomial and is memory-safe for every polynomial, including the zero polynomial.", "quantifier": "all polynomials", "why_tests_cant": "Only the all-zero polynomial goes wrong.", "anchors": ["src/zm_pex.c:zPexRgl"]}
{"id": "C27", "title": "FFT computes the DFT", "statement": "zFFT(data,n,res) returns, up to the library's documented 2/n scaling, the discrete Fourier transform for every n >= 1 (not only powers of two).", "quantifier": "all lengths and data", "why_tests_cant": "Mixed-radix recursion: every factorisation of n is a different execution.", "anchors": ["src/zm_data_fft.c:_zFFTInner", "src/zm_data_fft.c:zFFT"]}
{"id": "C28", "title": "FFT round trip", "statement": "zFFTInv applied to the result of zFFT returns the original data for every n >= 1.", "quantifier": "all lengths and data", "why_tests_cant": "Every length.", "anchors": ["src/zm_data_fft.c:zFFTInv"]}
{"id": "C29", "title": "Knot segment search", "statement": "For non-decreasing knots and t inside the range the segment index i used by every interpolator satisfies t_i <= t <= t_{i+1} and 0 <= i <= n-2, so no interpolator reads outside its tables.", "quantifier": "all knot sequences and arguments", "why_tests_cant": "All knot counts; binary search boundaries.", "anchors": ["src/zm_ip.c:zIPDataSeg"]}
{"id": "C30", "title": "Linear interpolation", "statement": "The linear interpolator returns the knot values at the knots, is affine in between, and its velocity is the slope.", "quantifier": "all knot sequences and arguments", "why_tests_cant": "All data.", "anchors": ["src/zm_ip_lin.c"]}
{"id": "C31", "title": "Lagrange interpolation", "statement": "The Lagrange interpolator passes through every knot and equals the unique polynomial of degree < n through them; velocity and acceleration are its derivatives.", "quantifier": "all numbers of distinct knots and arguments", "why_tests_cant": "All n.", "anchors": ["src/zm_ip_lagrange.c"]}
{"id": "C32", "title": "Cubic spline", "statement": "The spline interpolator passes through every knot, is continuously differentiable at interior knots for any section velocities, has continuous second derivative when the tridiagonal system is solved, and its velocity/acceleration are the derivatives of its value; reported knot accelerations agree with that second derivative.", "quantifier": "all knot sequences", "why_tests_cant": "All n; edge sections.", "anchors": ["src/zm_ip_spline.c"]}
{"id": "C33", "title": "PCHIP monotonicity", "statement": "PCHIP interpolation of monotone data is monotone: end slopes satisfy the Fritsch-Carlson condition on each segment, and edge slopes are taken from the edge segments.", "quantifier": "all data", "why_tests_cant": "All data.", "anchors": ["src/zm_ip_spline.c:zIPCreatePCHIP"]}
{"id": "C34", "title": "Akima interpolation reproduces straight lines", "statement": "Akima interpolation of data lying on a straight line is that straight line, and the extrapolated edge slopes follow Akima's rule.", "quantifier": "all collinear data sets", "why_tests_cant": "Special data.", "anchors": ["src/zm_ip_akima.c"]}
{"id": "C35", "title": "Polynomial boundary interpolation", "statement": "zPexIPCreateBoundary yields a polynomial meeting the prescribed value, velocity and acceleration at both ends, for any extra coefficients.", "quantifier": "all boundary conditions, terms and extra coefficients", "why_tests_cant": "All data.", "anchors": ["src/zm_ip_pex.c"]}
{"id": "C36", "title": "Trapezoidal velocity profile", "statement": "A successfully created profile starts at distance 0 with velocity v0, ends at the requested distance with velocity vT, is continuous in distance and velocity, and respects the acceleration and velocity limits.", "quantifier": "all parameter combinations accepted by zTRVelProfCreate", "why_tests_cant": "All real parameters; infeasible short distances.", "anchors": ["src/zm_ip_trvelprof.c"]}
{"id": "C37", "title": "B-spline knots and segment lookup", "statement": "zBSplineParamKnotInit produces a clamped non-decreasing knot vector and zBSplineParamSeg returns a non-empty segment containing the (clamped) parameter.", "quantifier": "all orders, numbers of control points, knot vectors and parameters", "why_tests_cant": "All orders and sizes.", "anchors": ["src/zm_nurbs.c:zBSplineParamKnotInit", "src/zm_nurbs.c:zBSplineParamSeg"]}
{"id": "C38", "title": "B-spline basis", "statement": "For a parameter in segment s the basis functions of indices s-order..s are non-negative and sum to 1, and those outside vanish; the derivative routine returns the derivative of the basis.", "quantifier": "all orders, knot vectors, parameters", "why_tests_cant": "Recursion over all orders and repeated knots.", "anchors": ["src/zm_nurbs.c:zBSplineParamBasis", "src/zm_nurbs.c:zBSplineParamBasisDiff"]}
{"id": "C39", "title": "NURBS curve geometry", "statement": "With positive weights a NURBS point lies in the convex hull of the control points and a clamped curve starts and ends at the first and last control points.", "quantifier": "all NURBS curves", "why_tests_cant": "All curves.", "anchors": ["src/zm_nurbs.c:zNURBSVec"]}
{"id": "C40", "title": "kd-tree nearest neighbour", "statement": "After any sequence of insertions zVecTreeNN returns a stored vector whose distance to the query is minimal (up to the pruning tolerance), together with that distance.", "quantifier": "all insertion histories and queries", "why_tests_cant": "Pruning is history dependent.", "anchors": ["src/zm_vec_tree.c"]}
{"id": "C41", "title": "Nearest neighbour in a list", "statement": "zVecListNN returns an element of the list minimising the distance and that distance; on ties the first.", "quantifier": "all lists and queries", "why_tests_cant": "All lists.", "anchors": ["src/zm_vec_list.c:zVecListNN"]}
{"id": "C42", "title": "Polyline simplification", "statement": "Ramer-Douglas-Peucker simplification keeps the end points, returns a sub-sequence of the input, and every dropped point lies within the tolerance of the chord that replaced it.", "quantifier": "all polylines and tolerances", "why_tests_cant": "Recursion on data-dependent splits.", "anchors": ["src/zm_vec_list.c:zVecListRDP"]}
{"id": "C43", "title": "Sequence is a FIFO with cumulative time", "statement": "zSeq behaves as a FIFO queue of (dt, vector) and zSeqJump(step) returns the element at that step.", "quantifier": "all operation histories", "why_tests_cant": "All histories.", "anchors": ["src/zm_seq.c"]}
{"id": "C44", "title": "Extremes of data", "statement": "zDataMax/Min/AbsMax/AbsMin return the extreme value of a non-empty data set and the index where it is attained first.", "quantifier": "all data sets", "why_tests_cant": "All data.", "anchors": ["src/zm_data.c"]}
{"id": "C45", "title": "Sum, mean, variance, covariance", "statement": "zDataSum/Mean/Var and zVecListMean/Var/Cov compute the defining sums; variance is non-negative, zero iff all equal; shifting data shifts the mean and keeps the variance.", "quantifier": "all data sets", "why_tests_cant": "All data.", "anchors": ["src/zm_stat.c", "src/zm_mva.c"]}
{"id": "C46", "title": "Histogram accounting", "statement": "Building a histogram over data counts every datum in exactly one bin, so counts sum to the data size, each datum lies within its bin's limits, and memory outside the bins is never touched.", "quantifier": "all data sets and bin numbers", "why_tests_cant": "Boundary data such as the maximum.", "anchors": ["src/zm_stat_histogram.c"]}
{"id": "C47", "title": "Graph container", "statement": "Any sequence of node additions and connections keeps nodes unique, arcs unique per ordered pair, and each arc's cost equal to the last one set; arcs refer only to existing nodes.", "quantifier": "all operation histories", "why_tests_cant": "All histories.", "anchors": ["src/zm_graph.c"]}
{"id": "C48", "title": "Shortest path", "statement": "For non-negative symmetric costs, graph search returns the minimum total cost over all paths between start and goal and a path attaining it; unreachable goals are reported.", "quantifier": "all graphs", "why_tests_cant": "All graphs and frontier orders.", "anchors": ["src/zm_graph_search.c"]}
{"id": "C49", "title": "Expression parser", "statement": "The parser evaluates arithmetic expressions over + - * / ^ with the usual precedence, parentheses and left associativity.", "quantifier": "all expressions", "why_tests_cant": "Unbounded nesting.", "anchors": ["src/zm_parse.c"]}
{"id": "C50", "title": "Bracketing root finders", "statement": "zNLE_Bisec, given a bracket, keeps a sign change inside an interval that halves every step, and a reported root satisfies |f|<=tol or lies in the bracket; the returned value is the root found.", "quantifier": "all functions and brackets", "why_tests_cant": "All functions.", "anchors": ["src/zm_nle_se.c"]}
{"id": "C51", "title": "Line search", "statement": "Golden-section and trisection search keep the minimiser of a unimodal function inside a nested, geometrically shrinking interval and return a point of it.", "quantifier": "all unimodal functions and intervals", "why_tests_cant": "All functions.", "anchors": ["src/zm_opt_line.c"]}
{"id": "C52", "title": "Runge-Kutta tableaux", "statement": "Each explicit Runge-Kutta integrator (Euler, Heun, RK4, RK-Gill, RKF45, Cash-Karp, Dormand-Prince) satisfies the order conditions for its advertised order and integrates polynomial right-hand sides up to that degree exactly.", "quantifier": "all right-hand sides and step sizes", "why_tests_cant": "Coefficient typos show as reduced order only asymptotically.", "anchors": ["src/zm_ode_rk4.c", "src/zm_ode_rkg.c", "src/zm_ode_erk.c", "src/zm_ode_heun.c", "src/zm_ode_euler.c"]}
{"id": "C53", "title": "Adams-Bashforth weights", "statement": "The k-step Adams-Bashforth weights computed by zODE_Adams integrate every polynomial of degree < k exactly over one step.", "quantifier": "all step counts k", "why_tests_cant": "Every k.", "anchors": ["src/zm_ode_adams.c"]}
{"id": "C54", "title": "Gear (BDF) coefficients", "statement": "The Gear method's coefficients differentiate every polynomial of degree <= k exactly at the new time.", "quantifier": "all step counts k", "why_tests_cant": "Every k.", "anchors": ["src/zm_ode_gear.c"]}
{"id": "C55", "title": "Numerical integrators", "statement": "The rectangle, trapezoid and quadratic integrators accumulate exactly the composite-rule sum over any history of samples; the trapezoid rule is exact for affine and the quadratic for quadratic integrands.", "quantifier": "all sample histories and step sizes", "why_tests_cant": "All histories.", "anchors": ["src/zm_intg.c"]}
{"id": "C56", "title": "Simplex method", "statement": "If zLPSolveSimplex reports success, the answer is non-negative, satisfies A x = b, and no feasible point has smaller cost (within tolerance); each pivot preserves the solution set.", "quantifier": "all linear programs", "why_tests_cant": "All programs; degenerate bases.", "anchors": ["src/zm_opt_lp_simplex.c"]}
{"id": "C57", "title": "LP standardisation", "statement": "Conversion of inequality / unbounded-variable programs to standard form preserves feasibility and cost in both directions.", "quantifier": "all linear programs", "why_tests_cant": "All programs.", "anchors": ["src/zm_opt_lp_stdcnv.c"]}
{"id": "C58", "title": "Lemke's method", "statement": "If zLCPSolveLemke reports success then w - M z = q, z_i w_i = 0 and z, w >= -tol.", "quantifier": "all LCPs", "why_tests_cant": "All pivoting sequences.", "anchors": ["src/zm_opt_lcp_lemke.c"]}
{"id": "C59", "title": "QP to LCP", "statement": "A solution of the complementarity problem built for a convex quadratic program is a global minimiser of the program.", "quantifier": "all convex QPs", "why_tests_cant": "All QPs.", "anchors": ["src/zm_opt_qp.c:_zQP2LCP"]}
{"id": "C60", "title": "Complex arithmetic", "statement": "zComplexAdd/Sub/Mul/Div/CMul/CDiv/Inv/Conj/Pow agree with complex arithmetic wherever they succeed; failures are reported and never leave an uninitialised result.", "quantifier": "all complex numbers", "why_tests_cant": "Small divisors.", "anchors": ["src/zm_complex_arith.c"]}
{"id": "C61", "title": "Quadratic equations", "statement": "zQESolve returns both roots (with multiplicity) of a x^2 + b x + c for every a != 0, without division by zero.", "quantifier": "all coefficients", "why_tests_cant": "b = c = 0.", "anchors": ["src/zm_complex_pe.c:zQESolve"]}
{"id": "C62", "title": "Cubic equations", "statement": "zCESolve returns the three roots of every cubic with a != 0.", "quantifier": "all coefficients", "why_tests_cant": "Case split on discriminant sign.", "anchors": ["src/zm_complex_pe.c:zCESolve"]}
{"id": "C63", "title": "Pairing of complex conjugates", "statement": "zCVecConjPair permutes its input and places complex conjugates adjacent, and it succeeds on every vector made of conjugate pairs; zCVecToReImVec keeps the real elements apart, in order, before pairing the others.", "quantifier": "all complex vectors", "why_tests_cant": "All orders.", "anchors": ["src/zm_cvec.c:zCVecConjPair", "src/zm_cvec.c:zCVecToReImVec"]}
{"id": "C64", "title": "RRT tree invariants", "statement": "Every node of the tree other than the root has a parent in the tree at distance at most the step length, all nodes passed the collision check, and following parents from any node reaches the root; the reported path starts at the start and follows tree edges.", "quantifier": "all random sampling sequences", "why_tests_cant": "Random schedule.", "anchors": ["src/zm_rrt.c"]}
{"id": "C65", "title": "Path shortcutting", "statement": "zRRTShortcutPath keeps the end points, each retained consecutive pair passed the edge check or was consecutive in the input, and the reported cost is the length of the resulting path.", "quantifier": "all paths and collision predicates", "why_tests_cant": "All paths.", "anchors": ["src/zm_rrt.c:zRRTShortcutPath"]}
{"id": "C66", "title": "Growing neural gas consistency", "statement": "After any sequence of updates every edge joins two distinct existing units, no pair is joined twice, and every unit has at least one edge.", "quantifier": "all sample sequences and all parameters with a lifetime of edges that is not negative", "why_tests_cant": "All histories.", "anchors": ["src/zm_gng.c"]}
{"id": "C67", "title": "RANSAC sample conservation", "statement": "zRANSAC leaves the sample list a permutation of what it was, for every random selection; the model kept has the largest inlier count among the trials.", "quantifier": "all random schedules", "why_tests_cant": "Random schedule.", "anchors": ["src/zm_mva_ransac.c"]}
{"id": "C68", "title": "K-means partitions the points", "statement": "K-means / K-medoids cluster lists always form a partition of the input points, and on settled termination each point is in a cluster with a nearest core.", "quantifier": "all point sets and random initialisations", "why_tests_cant": "All data.", "anchors": ["src/zm_mva_cluster.c"]}
{"id": "C69", "title": "GA population", "statement": "The population sort is a permutation sorted by descending fitness, genes always stay inside the box, and the reported value is the objective of the reported answer.", "quantifier": "all random schedules and objective functions", "why_tests_cant": "Random schedule.", "anchors": ["src/zm_opt_ga.c"]}
{"id": "C70", "title": "PSO bookkeeping", "statement": "Particles stay inside the box, each particle's best value equals the objective at its best position and never increases, and the reported value equals the objective of the reported answer.", "quantifier": "all random schedules and objective functions", "why_tests_cant": "Random schedule.", "anchors": ["src/zm_opt_pso.c"]}
{"id": "C71", "title": "Nelder-Mead bookkeeping", "statement": "Every stored vertex value equals the objective at that vertex, the best value never increases, and the reported value is the objective of the reported answer.", "quantifier": "all objective functions", "why_tests_cant": "All functions.", "anchors": ["src/zm_opt_nm.c"]}
{"id": "C72", "title": "Jacobi eigenvalue rotations", "statement": "Each Jacobi rotation is an orthogonal similarity that annihilates the chosen off-diagonal element, so V^T M V = D + shift I is invariant and diagonalisation yields eigenpairs.", "quantifier": "all symmetric matrices", "why_tests_cant": "All matrices.", "anchors": ["src/zm_mat_eig.c:_zMatSymEigJacobiRot", "src/zm_mat_eig.c:zMatSymEigJacobi"]}
{"id": "C73", "title": "Discrete random variates", "statement": "zRandBinom returns an integer in [0,n] for every generator stream; the normal generator returns both members of each generated pair alternately.", "quantifier": "all generator streams", "why_tests_cant": "All streams.", "anchors": ["src/zm_rand.c"]}
{"id": "C74", "title": "Ring of vectors", "statement": "zVecRingFill sets every element of the ring, and zVecRingCat and zVecRingLinearSum compute the linear combination of the elements counted from the head, wherever the head is; a size mismatch is reported.", "quantifier": "all rings, head positions, sizes and coefficients", "why_tests_cant": "All head positions.", "anchors": ["src/zm_vec_ring.c"]}
{"id": "C75", "title": "Clothoid segment", "statement": "A clothoid segment evaluated at s=0 is its initial point.", "quantifier": "all segments", "why_tests_cant": "Only initial points with x0 != y0 expose it.", "anchors": ["src/zm_ip_clothoid.c:zClothoidXY"]}
{"id": "C76", "title": "Weighted generalised solvers", "statement": "zLESolveNormMin returns a solution of A x = b with minimal weighted norm, zLESolveErrorMin a least-squares solution, zLESolveSR the minimiser of the regularised cost.", "quantifier": "all systems whose normal matrix is invertible", "why_tests_cant": "All systems.", "anchors": ["src/zm_le_gen.c"]}
{"id": "C77", "title": "Orthogonal (LQ) decomposition", "statement": "zMatDecompLQ returns L lower triangular and Q with orthonormal rows such that L Q = A.", "quantifier": "all matrices", "why_tests_cant": "All shapes.", "anchors": ["src/zm_le_lq.c"]}
{"id": "C78", "title": "Sweep-out", "statement": "zMatVecSweepOut and zMatMatSweepOut on a non-zero pivot turn the pivot column into a unit vector and keep the solution set of the linear system; a zero pivot leaves the data unchanged and returns 0.", "quantifier": "all shapes, matrices, right-hand sides and pivot positions", "why_tests_cant": "All matrices.", "anchors": ["src/zm_le_pivot.c:zMatVecSweepOut", "src/zm_le_pivot.c:zMatMatSweepOut"]}
{"id": "C79", "title": "Chebyshev interpolation", "statement": "The Chebyshev interpolator passes through every knot in every component, and its velocity and acceleration are the first and second derivative of its value.", "quantifier": "all numbers (>= 2) of distinct knots, dimensions and arguments", "why_tests_cant": "All numbers of knots; derivative recurrences.", "anchors": ["src/zm_ip_chebyshev.c:zIPCreateChebyshev"]}
{"id": "C80", "title": "Polynomial least-squares fit", "statement": "zPexIPCreateLSM either detects a singular normal matrix or returns coefficients whose sum of squared residuals is minimal among all polynomials of that dimension.", "quantifier": "all point sets, terms and dimensions", "why_tests_cant": "Optimality over all polynomials.", "anchors": ["src/zm_ip_pex.c:zPexIPCreateLSM"]}
{"id": "C81", "title": "Polynomial fit under boundary conditions", "statement": "A polynomial returned by zPexIPCreateBounderyLSM meets the prescribed value, velocity and acceleration at both ends.", "quantifier": "all point sets, terms, boundary conditions and dimensions >= 5", "why_tests_cant": "Only terms different from one expose the missing scale.", "anchors": ["src/zm_ip_pex.c:zPexIPCreateBounderyLSM"]}
{"id": "C82", "title": "Derivatives of NURBS and B-spline curves", "statement": "zNURBSVecDiff and zBSplineVecDiff return the derivative of the requested order of the curve returned by zNURBSVec and zBSplineVec; orders beyond the supported one are refused.", "quantifier": "all orders, knot vectors, weights, control points, differentiation orders and parameters strictly inside a segment", "why_tests_cant": "Quotient rule of every order.", "anchors": ["src/zm_nurbs.c:zNURBSVecDiff", "src/zm_nurbs.c:zBSplineVecDiff"]}
{"id": "C83", "title": "Distance to an edge", "statement": "zVecEdgeDist returns the distance from a vector to the edge that connects two ends.", "quantifier": "all vectors and edges of every dimension", "why_tests_cant": "Optimality over all points of the edge.", "anchors": ["src/zm_vec.c:zVecEdgeDist"]}
{"id": "C84", "title": "Projection and orthogonalisation", "statement": "zVecProj returns the multiple of n for which the rest of v is orthogonal to n, and zVecOrthogonalize the rest, which is orthogonal to n, also when the result is stored in v.", "quantifier": "all vectors and non-zero directions of every dimension", "why_tests_cant": "All vectors; aliasing.", "anchors": ["src/zm_vec.c:zVecProj", "src/zm_vec.c:zVecOrthogonalize"]}
{"id": "C85", "title": "Peak detection", "statement": "Every index reported by zDataPeak is a strict interior local maximum, reported peaks are more than the given width apart, and for every peak of the data a reported one is at least as high.", "quantifier": "all data sequences and widths", "why_tests_cant": "Greedy selection over arbitrary data.", "anchors": ["src/zm_data.c:zDataPeak"]}
{"id": "C86", "title": "Smoothing windows", "statement": "zDataSmoothSG reads only the given data and each smoothed value is a least-squares fit over a window of the given length that contains the sample, evaluated at the sample.", "quantifier": "all sequences, window lengths and fits", "why_tests_cant": "Memory safety for every window length.", "anchors": ["src/zm_data.c:zDataSmoothSG"]}
{"id": "C87", "title": "Distributions", "statement": "zBinDistrib is the binomial distribution and sums to one over 0..n; zChi2CumDistrib for an even number of degrees of freedom is zero at zero and has the chi-squared density as its derivative.", "quantifier": "all sizes, probabilities, degrees of freedom and arguments", "why_tests_cant": "Infinite families.", "anchors": ["src/zm_stat.c:zBinDistrib", "src/zm_stat.c:zChi2CumDistrib"]}
{"id": "C88", "title": "Brent's line search", "statement": "For every function zOptLineBrent evaluates only points of the given interval, never divides by zero, and returns a point of the interval that is not worse than its middle.", "quantifier": "all functions, intervals and iteration limits", "why_tests_cant": "Arbitrary functions drive the parabolic steps.", "anchors": ["src/zm_opt_line.c:zOptLineBrent"]}
{"id": "C89", "title": "Implicit Runge-Kutta methods", "statement": "A step of the backward Euler, trapezoidal, Gauss and Radau methods whose equation is solved exactly is a step of an implicit Runge-Kutta method that satisfies the order conditions for order 1, 2, 4 and 3, and polynomial right-hand sides of a degree less than that are integrated exactly.", "quantifier": "all right-hand sides, states, times and steps", "why_tests_cant": "All right-hand sides.", "anchors": ["src/zm_ode_beuler.c", "src/zm_ode_bk4.c"]}
{"id": "C90", "title": "Equations of second order", "statement": "The regular integrator of second-order equations keeps the order of the method it is built on; the symplectic one keeps a quadratic invariant of the oscillator over any number of steps; the leapfrog one integrates constant acceleration exactly from the initial displacement and velocity.", "quantifier": "all methods, forces, steps and numbers of steps", "why_tests_cant": "Arbitrarily many steps.", "anchors": ["src/zm_ode2.c:zODE2UpdateRegular", "src/zm_ode2.c:zODE2UpdateSymplectic", "src/zm_ode2.c:zODE2UpdateLeapfrog"]}
{"id": "C91", "title": "Division of complex vectors", "statement": "zCVecCDiv divides every element by the scalar or reports a failure; zCVecInnerProd is the sesquilinear product and zCVecNorm the Euclidean norm.", "quantifier": "all complex vectors and scalars", "why_tests_cant": "All magnitudes of the scalar.", "anchors": ["src/zm_cvec.c:zCVecCDiv", "src/zm_cvec.c:zCVecInnerProd", "src/zm_cvec.c:zCVecSqrNorm"]}
{"id": "C92", "title": "Feasible base of a linear program", "statement": "zLPFeasibleBase finds a non-negative solution of A x = b when there is one, and writes only to the given vector.", "quantifier": "all coefficient matrices and right-hand sides", "why_tests_cant": "Degenerate systems of every size.", "anchors": ["src/zm_opt_lp_simplex.c:zLPFeasibleBase"]}
{"id": "C93", "title": "Conjugate gradients", "statement": "For a symmetric positive definite matrix of size n, zCGSolve never divides by zero, never ends at a point with a larger value of the quadratic form than its start, and reaches the minimiser after at most n turns.", "quantifier": "all positive definite matrices, linear terms, starts and iteration limits", "why_tests_cant": "All matrices of every size.", "anchors": ["src/zm_opt_qp.c:zCGSolve"]}
{"id": "C94", "title": "Planner without user functions", "statement": "A planner created by zRRTInit without a collision check treats every point as free, and one created without a metric or an extension uses the Euclidean metric and the straight line, for which the distance to the target shrinks by the length of the step.", "quantifier": "all dimensions, step lengths, random sequences and iteration limits", "why_tests_cant": "All random sequences.", "anchors": ["src/zm_rrt.c:zRRTInit"]}
{"id": "C95", "title": "Escape from a collision", "statement": "A point reported as found by zRRTEscape passes the collision check, and a start that already passes it is returned unchanged.", "quantifier": "all starts, collision checks, random sequences and iteration limits", "why_tests_cant": "All random sequences and obstacles.", "anchors": ["src/zm_rrt.c:zRRTEscape"]}
{"id": "C96", "title": "Genetic algorithm keeps the best", "statement": "The value reported by zOptGASolve never gets worse with another generation.", "quantifier": "all objective functions, populations and random sequences", "why_tests_cant": "All random sequences.", "anchors": ["src/zm_opt_ga.c:zOptGAReproduce"]}
{"id": "C97", "title": "Ranges of random variates", "statement": "Exponential, Weibull, gamma, chi-squared and F variates are never negative, power and beta variates lie in [0,1], triangular ones in [-1,1]; the Poisson variate is the first i for which exp(lambda) times the product of i+1 uniform numbers is at most one; the geometric variate is the number of trials up to the first success, hence at least one.", "quantifier": "all generator streams and parameters", "why_tests_cant": "All generator streams.", "anchors": ["src/zm_rand.c:zRandGamma", "src/zm_rand.c:zRandBeta", "src/zm_rand.c:zRandPoisson", "src/zm_rand.c:zRandGeo"]}
{"id": "C98", "title": "What growing neural gas adapts and grows", "statement": "Each sample is attributed to the nearest unit, which is joined to the second nearest by an edge of age zero, while its other edges grow older by one; edges above the lifetime are removed and no others; growth puts one unit in the middle between the unit of the largest error and its neighbour of the largest error in place of their edge; zGNGDestroy frees every unit and edge.", "quantifier": "all networks reachable by updates, all samples", "why_tests_cant": "All histories.", "anchors": ["src/zm_gng.c:zGNGUpdate", "src/zm_gng.c:zGNGDestroy"]}
{"id": "C99", "title": "Clustering never gets worse", "statement": "Reclustering by K-means never ends with a larger sum of errors than that of the clusters it started from, when the core of a cluster minimises the sum of errors; the default core, the mean, does so for squared distances.", "quantifier": "all points, initial clusters, methods and iteration limits", "why_tests_cant": "All data.", "anchors": ["src/zm_mva_cluster.c:zVecMultiClusterKMeans", "src/zm_mva.c:zVecListMean"]}
{"id": "C100", "title": "X-means", "statement": "X-means returns a partition of the points, and divides a cluster exactly when the test says that the two subclusters classify its points better.", "quantifier": "all points, divisions and tests", "why_tests_cant": "All data.", "anchors": ["src/zm_mva_cluster.c:zVecMultiClusterXMeans", "src/zm_mva_cluster.c:zVecMultiClusterXMeansDensity"]}
{"id": "C101", "title": "Silhouettes", "statement": "The silhouette of a point is the normalised difference of the mean distance from the nearest other cluster and that from its own; it lies in [-1,1] and is positive exactly when the point is nearer to its own cluster.", "quantifier": "all clusters of two or more, none of them empty, and all distances", "why_tests_cant": "All data.", "anchors": ["src/zm_mva_cluster.c:zVecMultiClusterMeanSilhouette"]}
{"id": "C102", "title": "Moore-Penrose solution", "statement": "zLESolveMP returns, for every matrix whether or not of full rank, the vector that minimises the weighted squared error and, among those minimisers, has the least weighted norm; zLESolveMPAux the minimiser nearest to the auxiliary vector.", "quantifier": "all matrices, right-hand sides, positive weights (or null pointers) and previous contents of the answer", "why_tests_cant": "All shapes and ranks, and optimality over all vectors.", "anchors": ["src/zm_le_gen.c: zLESolveMP_LQ, zLESolveMPAux"]}
{"id": "C103", "title": "Null-space projector", "statement": "zLESolveMPNull also returns the projector onto the null space: every vector is sent into the null space, and the vectors of the null space are kept.", "quantifier": "all matrices", "why_tests_cant": "All matrices and vectors.", "anchors": ["src/zm_le_gen.c: zLESolveMPNull"]}
{"id": "C104", "title": "Rank from the LQ decomposition", "statement": "zMatDecompLQ returns the rank of the matrix.", "quantifier": "all matrices, exact arithmetic", "why_tests_cant": "All matrices.", "anchors": ["src/zm_le_lq.c: zMatDecompLQ_GramSchmidt"]}
{"id": "C105", "title": "Quadratic products", "statement": "zMatQuad, zMatTQuad, zMulMatMatMatT and zMulMatTMatMat compute a diag(w) a^T, a^T diag(w) a, a q a^T and a^T q a, the former symmetric.", "quantifier": "all matrices and weights, null weights included", "why_tests_cant": "All sizes.", "anchors": ["src/zm_mat.c: zMatQuadNC, zMatTQuadNC, zMulMatMatMatTNC, zMulMatTMatMatNC"]}
{"id": "C106", "title": "Singular value decomposition", "statement": "zMatSVD factors every matrix into orthonormal columns, positive singular values in descending order and orthonormal rows, whose product is the matrix, and returns the rank.", "quantifier": "all matrices of any shape and rank", "why_tests_cant": "All matrices, and the exactness of the product.", "anchors": ["src/zm_mat_eig.c: zMatSVD, _zMatSVDSort"]}
{"id": "C107", "title": "Hessenberg form", "statement": "zMatToHessenberg returns a matrix that is zero below the first subdiagonal and an orthogonal matrix p with m p = p h, and it always ends.", "quantifier": "all square matrices", "why_tests_cant": "All matrices, and termination.", "anchors": ["src/zm_mat_eig.c: zMatToHessenberg, _zMatToHessenbergHouseholder"]}
{"id": "C108", "title": "Power method", "statement": "zMatEigPower returns the dominant eigenvalue with its eigenvector, the eigenequation holding up to the tolerance.", "quantifier": "all matrices and initial vectors", "why_tests_cant": "All random initial vectors.", "anchors": ["src/zm_mat_eig.c: zMatEigPower"]}
{"id": "C109", "title": "Eigensolvers stay inside of the matrix", "statement": "zMatSymEigBisec and zMatEigDQR access only elements of the matrices they are given, and the values of zMatEigDQR are the roots of the characteristic polynomial.", "quantifier": "all matrices of any size", "why_tests_cant": "All sizes; an access behind a buffer is not seen by a test.", "anchors": ["src/zm_mat_eig.c: _zMatSymEigBisecRange, _zMatEigDQRHouseholder, zMatEigDQR"]}
{"id": "C110", "title": "Cholesky decomposition", "statement": "zMatDecompCholesky factors every positive semidefinite symmetric matrix into l l^T with l lower triangular up to the permutation it returns, also when the matrix is singular, with as many nonzero columns as the rank it returns; it refuses matrices that are not positive semidefinite.", "quantifier": "all symmetric matrices", "why_tests_cant": "All matrices, singular ones included.", "anchors": ["src/zm_le_lu.c: zMatDecompCholesky, zMatDecompCholeskyDST"]}
{"id": "C111", "title": "Linear equations with residual iteration", "statement": "zLESolveLURI solves every linear equation with a regular matrix, ends, and fails for every singular matrix.", "quantifier": "all square matrices and right-hand sides", "why_tests_cant": "All matrices, and termination.", "anchors": ["src/zm_le.c: zLESolveLURI"]}
{"id": "C112", "title": "Gauss-Seidel method", "statement": "zLESolveGaussSeidel returns a vector that satisfies the equation up to the tolerance, for every regular matrix.", "quantifier": "all square matrices, right-hand sides and initial values", "why_tests_cant": "All matrices, and convergence.", "anchors": ["src/zm_le.c: zLESolveGaussSeidel"]}
{"id": "C113", "title": "Lyapunov equation", "statement": "zLELyapnovSolve returns X with X A + A^T X = B, and fails exactly if A is such that the solution is not unique.", "quantifier": "all square matrices A and B", "why_tests_cant": "All matrices.", "anchors": ["src/zm_le_lyapnov.c: zLELyapnovSolve"]}
{"id": "C114", "title": "Multiplication by an inverse from the right", "statement": "zMulMatInvMat returns m with m m2 = m1 for every matrix m1 with as many columns as the regular matrix m2, and refuses other sizes and singular matrices.", "quantifier": "all matrices and sizes", "why_tests_cant": "All shapes.", "anchors": ["src/zm_le_mat_inv.c: zMulMatInvMat"]}
{"id": "C115", "title": "Inverse matrix by Hotelling's method", "statement": "zMatInvHotelling returns, for every regular matrix and tolerance, a matrix whose product with the matrix is the identity up to the tolerance, and a singular matrix is not taken for a regular one.", "quantifier": "all square matrices, tolerances and limits of iterations", "why_tests_cant": "All matrices, and convergence.", "anchors": ["src/zm_le_mat_inv.c: zMatInvHotelling"]}
{"id": "C116", "title": "Moore-Penrose inverse", "statement": "zMatMPInv returns the matrix that satisfies the four Penrose equations, with the rank; zMatMPInvNull also the projector onto the null space; zMulMPInvMatMat the product of the inverse and a matrix.", "quantifier": "all matrices of any shape and rank", "why_tests_cant": "All matrices, of every rank.", "anchors": ["src/zm_le_mat_mpinv.c: zMatMPInv, zMatMPInvNull, zMulMPInvMatMat"]}
{"id": "C117", "title": "Moore-Penrose inverse by Penrose's iteration", "statement": "zMatMPInvPenrose ends and returns the rank and the matrix that satisfies the four Penrose equations.", "quantifier": "all matrices of any shape and rank", "why_tests_cant": "All matrices; the loop has no limit, so that its end depends on a theorem about eigenvalues.", "anchors": ["src/zm_le_mat_mpinv.c: zMatMPInvPenrose, _zMatMPInvPenrose"]}
{"id": "C118", "title": "Generalised solution by singular values", "statement": "zLESolveMP_SVD returns the vector of least squared error, and of those the one of least norm, for every matrix.", "quantifier": "all matrices of any shape and rank, all right-hand sides", "why_tests_cant": "All matrices, also those of low rank.", "anchors": ["src/zm_le_gen.c: zLESolveMP_SVD"]}
{"id": "C119", "title": "Principal component analysis", "statement": "zVecListPCA returns orthonormal loading vectors, along which the components of the data are uncorrelated with the scores as variances, in descending order, and the least number of components whose scores exceed the share asked for.", "quantifier": "all lists of vectors and shares", "why_tests_cant": "All data.", "anchors": ["src/zm_mva.c: zVecListPCA"]}
{"id": "C120", "title": "Normally distributed vectors", "statement": "zVecListGenRandND generates the number of vectors asked for as affine images of standard normal vectors with the given mean and covariance, for every covariance matrix, and fails for a matrix that is none.", "quantifier": "all means, covariance matrices, numbers and streams of random numbers", "why_tests_cant": "All covariance matrices, singular ones included, and all streams.", "anchors": ["src/zm_mva.c: zVecListGenRandND"]}
{"id": "C121", "title": "Error function and normal distribution", "statement": "zErf(x) is Gauss's error function and zCDF(x) the distribution function of the standard normal distribution, to the precision of the type, for every x; zErfN(x,n) tends to the error function as n grows.", "quantifier": "all real arguments and numbers of terms", "why_tests_cant": "All arguments; the reference is an integral.", "anchors": ["src/zm_sf_erf.c: zErfN", "include/zm/zm_sf_erf.h: zErf, zCDF"]}
{"id": "C122", "title": "Fresnel integrals", "statement": "zFresnelIntgPI_2, zFresnelIntgScale, zFresnelIntg and zFresnelIntgGen end and return the integrals of sine and cosine of pi/2 t^2, f t^2, t^2 and f0 + f1 t + f2 t^2 from zero to x, with at least ten decimals for pi/2 t^2.", "quantifier": "all arguments and coefficients", "why_tests_cant": "All arguments, and termination of the series and of the continued fraction.", "anchors": ["src/zm_sf_fresnel.c: zFresnelIntgPI_2, zFresnelIntgScale, zFresnelIntg, zFresnelIntgGen"]}
{"id": "C123", "title": "Gamma and beta function", "statement": "zGamma, zLnGamma and zBeta are the gamma function, its logarithm and the beta function, with a relative error (absolute for the logarithm) below 10^-8, for all positive arguments.", "quantifier": "all positive real arguments", "why_tests_cant": "All arguments: a table of values says nothing about those between.", "anchors": ["src/zm_sf_gamma.c: zGamma, zLnGamma, zBeta"]}
{"id": "C124", "title": "Fourier series", "statement": "zFourierVal is the finite Fourier series of the coefficients set, zFourierVel and zFourierAcc are its first and second derivative, all of period 2 pi; setting a coefficient changes that one only, and indices out of range change nothing.", "quantifier": "all coefficients, numbers of terms, indices and arguments", "why_tests_cant": "Derivatives at every argument.", "anchors": ["src/zm_fourier.c: zFourierVal, zFourierVel, zFourierAcc", "include/zm/zm_fourier.h: zFourierSetSinCoeff, zFourierSetCosCoeff"]}
{"id": "C125", "title": "Van der Pol's oscillator", "statement": "zOscInit sets the output and its rate of every oscillator that has been created, each update is a step of van der Pol's equation, and without damping and input the output stays bounded for ever.", "quantifier": "all parameters, initial values and numbers of steps", "why_tests_cant": "All histories.", "anchors": ["src/zm_oscil_vdp.c: zOscCreateVDP, _zOscInitVDP, _zOscUpdateVDP, _zOscOutputVDP"]}
{"id": "C126", "title": "Kuramoto's oscillator", "statement": "The phase departs from that of the natural frequency by no more than the gain times the time, for every sequence of inputs; an input whose frequency differs from the natural one by less than the gain entrains the oscillator: the lag tends to a constant.", "quantifier": "all inputs, step lengths and histories; all initial phases but the unstable one", "why_tests_cant": "All histories, and a limit.", "anchors": ["src/zm_oscil_kura.c: zOscCreateKura, _zOscUpdateKura, _zOscOutputKura"]}
{"id": "C127", "title": "Successive substitution", "statement": "zSSSolve returns a vector that solves x = f(x) up to the tolerance or gives a warning after the number of iterations; for contractions it returns a vector close to the fixed point.", "quantifier": "all functions, initial vectors and limits", "why_tests_cant": "All functions.", "anchors": ["src/zm_nle_ss.c: zSSSolve"]}
{"id": "C128", "title": "Polynomial equations by deflation", "statement": "zPexBH finds the roots of every polynomial of a given degree: when it returns without a warning the polynomial is, up to the tolerance, divided by the quadratic factors whose exact roots are the answers, each correction being Newton's for the remainder; too few places for the answers are refused.", "quantifier": "all polynomials, tolerances and numbers of iterations", "why_tests_cant": "All polynomials.", "anchors": ["src/zm_pex_eq.c: _zPexBH, zPexBHDST, zPexBH"]}
{"id": "C129", "title": "Polynomial equations by simultaneous iteration", "statement": "zPexDKA finds all roots of every polynomial: the first approximations are different points of a circle that encloses all roots; each turn keeps the sum of the roots; close to simple roots it converges, and when it returns without a warning every answer is close to a root.", "quantifier": "all polynomials, tolerances and numbers of iterations", "why_tests_cant": "All polynomials, and convergence.", "anchors": ["src/zm_pex_eq.c: zPexDKA"]}
{"id": "C130", "title": "Descent methods stop at stationary points", "statement": "When zOptDMSolve reports success, with any direction and line search, the gradient at the point it left is within the tolerance or the last step was, the number returned is the number of iterations, and the value reported is the value at that point; otherwise it reports failure.", "quantifier": "all problems, directions, updates, line searches, tolerances and limits", "why_tests_cant": "All objective functions and histories.", "anchors": ["src/zm_opt_dm.c: zOptDMSolve, zOptDMCreate, _zOptDMStepNoc, _zOptDMStepDS, _zOptDMStepMT, _zOptDMStepBrent"]}
{"id": "C131", "title": "Descent methods descend", "statement": "The descent methods never leave a point worse than the one they started from, and steepest descent reports success on every function that is bounded below and smooth.", "quantifier": "all objective functions, starting points and numbers of iterations", "why_tests_cant": "All objective functions and histories.", "anchors": ["src/zm_opt_dm.c: zOptDMSolve, _zOptDMStepNoc, _zOptDMVecSD, _zOptDMVecVM"]}
{"id": "C132", "title": "Quasi-Newton updates", "statement": "The variable metric updates are those of Davidon-Fletcher-Powell and Broyden-Fletcher-Goldfarb-Shanno: they satisfy the secant equation and keep the matrix symmetric and positive definite.", "quantifier": "all matrices, steps and changes of the gradient", "why_tests_cant": "All matrices.", "anchors": ["src/zm_opt_dm.c: _zOptDMUpdateDFP, _zOptDMUpdateBFGS"]}
{"id": "C133", "title": "Numerical derivatives of an objective function", "statement": "The numerical gradient is the vector of central differences, restores the point it varies and is exact for quadratic functions; the numerical Hessian matrix is symmetric and exact where the gradient is affine.", "quantifier": "all functions and points", "why_tests_cant": "All functions.", "anchors": ["src/zm_opt_dm.c: _zOptDMGradNG, _zOptDMHessNG"]}
{"id": "C134", "title": "Levenberg-Marquardt method", "statement": "The direction of the Levenberg-Marquardt method solves the equation of the damped Hessian matrix for the gradient, and the line search is given that gradient.", "quantifier": "all matrices, gradients and dampings", "why_tests_cant": "All matrices.", "anchors": ["src/zm_opt_dm.c: _zOptDMVecLM"]}
{"id": "C135", "title": "Success of a solver of nonlinear equations", "statement": "When zNLESolve reports success the equations hold within the tolerance at the variable left, the error reported is half the weighted sum of squares there, and the number returned is below the limit; otherwise it reports failure.", "quantifier": "all equations, Jacobian matrices, weights, tolerances and limits", "why_tests_cant": "All equations and histories.", "anchors": ["src/zm_nle_dm.c: _zNLESolveNR, _zNLESolveBroyden, _zNLESolveDM"]}
{"id": "C136", "title": "Newton-Raphson's method", "statement": "The direction minimises the weighted squared error of the linearised equations plus the weighted squared length; on affine equations the method approaches every solution, never enlarges the error, and succeeds if the equations are regular and the limit exceeds a logarithm of the first distance over the tolerance.", "quantifier": "all equations, weights and starting points", "why_tests_cant": "All equations, and convergence.", "anchors": ["src/zm_nle_dm.c: _zNLESolveNR, _zNLEStep", "src/zm_le_gen.c: zLESolveSRDST"]}
{"id": "C137", "title": "Broyden's method", "statement": "Broyden's matrix satisfies the secant equation after every step and is the nearest such matrix to the one before; regular affine equations are solved in one step.", "quantifier": "all equations and starting points", "why_tests_cant": "All histories.", "anchors": ["src/zm_nle_dm.c: _zNLESolveBroyden"]}
{"id": "C138", "title": "Numerical Jacobian matrix", "statement": "Without a Jacobian matrix function the solver uses the matrix of central differences, rows for equations and columns for variables, for every number of equations and variables.", "quantifier": "all equations, numbers of equations and variables", "why_tests_cant": "All shapes; memory is overrun for some.", "anchors": ["src/zm_nle_dm.c: _zNLEJacobiNG"]}
{"id": "C139", "title": "Squared error as an objective function", "statement": "The descent methods on equations minimise half the weighted sum of squares: the gradient they are given is its gradient.", "quantifier": "all differentiable equations, weights and points", "why_tests_cant": "Derivatives in every direction at every point.", "anchors": ["src/zm_nle_dm.c: _zNLEEval, _zNLEGrad, _zNLEHess"]}
{"id": "C140", "title": "DIRECT returns the best point evaluated", "statement": "zOptSolveDIRECT returns a point of the search box together with its value, no point at which the objective was evaluated has a smaller value, and the call ends by itself if the number of iterations allows it.", "quantifier": "all objective functions, search boxes, tolerances and numbers of iterations", "why_tests_cant": "All objective functions; the defect shows up when the iterations run out.", "anchors": ["src/zm_opt_direct.c: zOptSolveDIRECT, _zOptDIRECTRectSetFindMin"]}
{"id": "C141", "title": "DIRECT keeps a tiling of the search box", "statement": "At all times the regions of the DIRECT method cover the search box without overlap, their volumes add up to that of the box, each is in the list of its size, lists are in ascending order of the values, directions are divided in order of the best values, and no point is evaluated twice or outside the box.", "quantifier": "all objective functions, dimensions and numbers of iterations", "why_tests_cant": "All histories of divisions.", "anchors": ["src/zm_opt_direct.c: _zOptDIRECTRectSetRectDivide, _zOptDIRECTRectPatternCreate, _zOptDIRECTRectSetInsert"]}
{"id": "C142", "title": "DIRECT divides potentially optimal regions", "statement": "Each region divided is potentially optimal in the sense of Jones, Perttunen and Stuckman: for some rate of change no region promises a smaller value; one of the largest regions and one of the least value are divided in each iteration.", "quantifier": "all objective functions and numbers of iterations", "why_tests_cant": "All sets of regions.", "anchors": ["src/zm_opt_direct.c: _zOptDIRECTRectPORIdent, _zOptDIRECTRectPORSetDivide"]}
{"id": "C143", "title": "Active set method: answers are optimal", "statement": "An answer of zQPSolveASM satisfies A x >= b, the value returned is x'Qx/2 + c'x, no other point that satisfies the constraints has a smaller or the same value.", "quantifier": "all symmetric and positive definite Q, all c, A and b, and all orders in which the working index sets are kept", "why_tests_cant": "All problems and all sequences of active sets.", "anchors": ["src/zm_opt_qp_asm.c: zQPSolveASM, _zQPASMInitBase, _zQPASMSolveEq, _zQPASMAddEq, _zQPASMDelEq"]}
{"id": "C144", "title": "Active set method: memory", "statement": "zQPSolveASM writes only within its working space and divides by no zero.", "quantifier": "all problems, with fewer, as many and more constraints than variables", "why_tests_cant": "All sizes; the defect is a write beyond a heap block of the size of the constraints.", "anchors": ["src/zm_opt_qp_asm.c: _zQPASMAlloc, _zQPASMSolveEq"]}
{"id": "C145", "title": "Active set method: termination", "statement": "zQPSolveASM ends for every problem whose constraints can be satisfied.", "quantifier": "all problems, including those with more constraints meeting in a point than variables", "why_tests_cant": "An endless loop cannot be told from a slow one by a test.", "anchors": ["src/zm_opt_qp_asm.c: zQPSolveASM, _zQPASMAddEq, _zQPASMDelEq"]}
{"id": "C146", "title": "Active set method: refusal", "statement": "zQPSolveASM refuses every matrix that is not symmetric or not positive definite, and all constraints that no point satisfies.", "quantifier": "all matrices and constraints", "why_tests_cant": "All problems that must be refused.", "anchors": ["src/zm_opt_qp_asm.c: _zQPASMCheck, _zQPASMInitBase"]}
{"id": "C147", "title": "Interior-point method: directions", "statement": "The predictor and corrector directions of zLPSolvePDIP_PC solve Newton's equations for the conditions of optimality whenever the matrix of the equation has the full rank.", "quantifier": "all points with dual variables different from zero, all right-hand sides, sizes and tolerances", "why_tests_cant": "All matrices and points.", "anchors": ["src/zm_opt_lp_pdip.c: _zLP_PDIPEqLUDecomp, _zLP_PDIPEqLU"]}
{"id": "C148", "title": "Interior-point method: interior and residuals", "statement": "Every step of zLPSolvePDIP_PC keeps the variables and the dual variables positive, and multiplies the residuals of the constraints and of the dual constraints by a number between zero and one; no division by zero occurs.", "quantifier": "all problems with independent constraints and all numbers of iterations", "why_tests_cant": "All sequences of steps.", "anchors": ["src/zm_opt_lp_pdip.c: _zLP_PDIP_PCStep, _zLP_PDIP_PCCorrect, zLPSolvePDIP_PC"]}
{"id": "C149", "title": "Interior-point method: answers", "statement": "When zLPSolvePDIP_PC returns true, the answer satisfies the constraints and no point that satisfies them costs less, up to the tolerance; for problems without a solution it returns false.", "quantifier": "all problems: with a minimum, without feasible points, without a bound", "why_tests_cant": "All problems; the return value is what a user relies on.", "anchors": ["src/zm_opt_lp_pdip.c: zLPSolvePDIP_PC", "include/zm/zm_opt_lp.h: zLPSolvePDIP_PC"]}
{"id": "C150", "title": "Interior-point method for complementarity problems: turns", "statement": "From a point near the central path, one turn of zLCPSolveIP leads to a point near the path with a smaller centre, with positive variables, and multiplies the residual of the equation by the same number as the centre.", "quantifier": "all positive semidefinite matrices, not only symmetric ones, all points near the path and all sizes", "why_tests_cant": "All points and all sequences of turns.", "anchors": ["src/zm_opt_lcp_ip.c: _zLCPIP_PCPred, _zLCPIP_PCCorr, _zLCPIP_PCStep, zLCPSolveIP"]}
{"id": "C151", "title": "Interior-point method for complementarity problems: step", "statement": "The step of the predictor in zLCPSolveIP is between zero and one and is the longest that stays in the neighbourhood.", "quantifier": "all points in the neighbourhood and all directions", "why_tests_cant": "All points and directions; the sign of one inner product decides.", "anchors": ["src/zm_opt_lcp_ip.c: _zLCPIP_PCStep"]}
{"id": "C152", "title": "Interior-point method for complementarity problems: answers", "statement": "When zLCPSolveIP returns true, w and z are not negative, w = M z + q and w'z = 0 up to the tolerance; a problem with a positive semidefinite matrix that has a solution is not refused.", "quantifier": "all positive semidefinite matrices and all q", "why_tests_cant": "All problems.", "anchors": ["src/zm_opt_lcp_ip.c: zLCPSolveIP", "include/zm/zm_opt_lcp.h: zLCPSolveIP"]}
{"id": "C153", "title": "Complex matrices: element-wise operations", "statement": "zCMatAdd, zCMatSub, zCMatRev, zCMatMul, zCMatDiv, zCMatCopy, zCMatZero, zCMatTouchup and zMatToCMat put the sum, difference, opposite, product or quotient of corresponding elements in the destination, which may be one of the sources, and change nothing else; matrices of different sizes and tiny divisors are refused.", "quantifier": "all sizes, contents and placements in memory", "why_tests_cant": "All sizes, contents and placements.", "anchors": ["src/zm_cmat.c: zCMatAdd, zCMatSub, zCMatRev, zCMatMul, zCMatDiv, zCMatCopy, zCMatZero, zCMatTouchup, zMatToCMat"]}
{"id": "C154", "title": "Complex matrices: complex scalars", "statement": "zCMatCMul and zCMatCDiv put the product or quotient of every element by a complex number in the destination, which may be the source, as the macros zCMatCMulNCDRC and zCMatCDivNCDRC have it; a divisor that is not refused is divided by.", "quantifier": "all sizes, contents and numbers", "why_tests_cant": "All contents and numbers.", "anchors": ["src/zm_cmat.c: zCMatCMul, zCMatCDiv, zCMatCMulNC, zCMatCDivNC", "include/zm/zm_cmat.h: zCMatCMulNCDRC"]}
{"id": "C155", "title": "Complex matrices: rows, columns, products", "statement": "zCMatGetRow, zCMatGetCol, zCMatPutRow and zCMatPutCol move exactly the row or column of the given number, and refuse a number that is not of the matrix; zCMulMatVec puts the product of a matrix and a vector in the destination; nothing else is changed.", "quantifier": "all sizes, contents and integer indices", "why_tests_cant": "All sizes, contents and indices.", "anchors": ["src/zm_cmat.c: zCMatGetRow, zCMatGetCol, zCMatPutRow, zCMatPutCol, zCMulMatVec"]}
{"id": "C156", "title": "Two-variable linear programs: stored problem", "statement": "After zLPMegiddoDyerInit, zLPMegiddoDyerSetCostCoefficient and any sequence of zLPMegiddoDyerAddConstraint, the problem that is kept has exactly the points that satisfy all the constraints of the user.", "quantifier": "all costs whose second coefficient is not zero and all sequences of constraints", "why_tests_cant": "All sequences of constraints.", "anchors": ["src/zm_opt_lp_megiddodyer.c: zLPMegiddoDyerInit, zLPMegiddoDyerSetCostCoefficient, zLPMegiddoDyerAddConstraint"]}
{"id": "C157", "title": "Two-variable linear programs: direct method", "statement": "A point that zLPMegiddoDyerSolveDirect returns satisfies every constraint and has the least cost of all that do, with that cost; when it reports that there is none there is none.", "quantifier": "all costs and sequences of constraints", "why_tests_cant": "All problems; optimality is a statement on all points.", "anchors": ["src/zm_opt_lp_megiddodyer.c: zLPMegiddoDyerSolveDirect"]}
{"id": "C158", "title": "Two-variable linear programs: method of Megiddo and Dyer", "statement": "zLPMegiddoDyerSolve ends, a point it returns satisfies every constraint and has the least cost of all that do, and when it reports that there is none there is none; further constraints may be added and the problem solved again.", "quantifier": "all costs and sequences of constraints, all choices of the median", "why_tests_cant": "All problems; optimality is a statement on all points.", "anchors": ["src/zm_opt_lp_megiddodyer.c: zLPMegiddoDyerSolve"]}
{"id": "C159", "title": "Two-variable linear programs: refusals", "statement": "A problem that the two-variable solvers refuse as having infinitely many solutions does not have exactly one optimum, and the answer does not depend on the order in which the constraints were added.", "quantifier": "all costs and sequences of constraints", "why_tests_cant": "All problems and all orders.", "anchors": ["src/zm_opt_lp_megiddodyer.c: zLPMegiddoDyerAddConstraint, zLPMegiddoDyerSolve, zLPMegiddoDyerSolveDirect"]}
{"id": "C160", "title": "Gaussian mixtures: shares", "statement": "Throughout zGMMCreateEM the weights of the Gaussians are not negative and their sum is one, and so are the responsibilities of the Gaussians for a point.", "quantifier": "all points, all Gaussians to begin with, all numbers of turns", "why_tests_cant": "All data and all iterations.", "anchors": ["src/zm_mva_gmm.c: zGMMCreateEM"]}
{"id": "C161", "title": "Gaussian mixtures: Gaussians", "statement": "Every Gaussian of zGMMCreateEM has the mean and the covariance of the points weighted by its responsibilities (at first, of its cluster); the covariance is positive semidefinite and the determinant is not negative.", "quantifier": "all points and clusters", "why_tests_cant": "All data.", "anchors": ["src/zm_mva_gmm.c: zGMMCreateEM"]}
{"id": "C162", "title": "Gaussian mixtures: likelihood", "statement": "No turn of zGMMCreateEM decreases the log-likelihood of the points, and the value that is kept at the end is that of the returned mixture within the tolerance; every call with points ends with an answer.", "quantifier": "all points, all mixtures", "why_tests_cant": "A statement on all mixtures and all data.", "anchors": ["src/zm_mva_gmm.c: zGMMCreateEM"]}
{"id": "C163", "title": "Gaussian mixtures: one Gaussian", "statement": "With one Gaussian zGMMCreateEM returns the mean and the covariance of the points, and no Gaussian is more likely.", "quantifier": "all points, all Gaussians in comparison", "why_tests_cant": "Optimality is a statement on all Gaussians.", "anchors": ["src/zm_mva_gmm.c: zGMMCreateEM"]}
{"id": "C164", "title": "Gaussian mixtures: criteria", "statement": "zGMMAIC and zGMMBIC are Akaike's and the Bayesian information criterion of the mixture: the penalty counts its free parameters.", "quantifier": "all sizes and likelihoods", "why_tests_cant": "All sizes.", "anchors": ["src/zm_mva_gmm.c: zGMMAIC, zGMMBIC"]}
{"id": "C165", "title": "Bessel functions: no overrun", "statement": "zBesselJ0, zBesselJ1, zBesselY0, zBesselY1, zBesselI0, zBesselI1, zBesselK0 and zBesselK1 read inside of their tables of coefficients for every number; those of the first kind give a number, those of the second kind a number for positive arguments and NaN for all others.", "quantifier": "all real arguments", "why_tests_cant": "The row of a table is chosen by a conversion of the argument to an integer: all boundaries matter.", "anchors": ["src/zm_sf_bessel.c: zBesselJ0, zBesselJ1, zBesselY0, zBesselY1, zBesselI0, zBesselI1, zBesselK0, zBesselK1"]}
{"id": "C166", "title": "Bessel functions: accuracy of J", "statement": "zBesselJ0, zBesselJ1 and zBesselJ give the values of the power series of the Bessel functions of the first kind within 1e-14 (more for higher orders).", "quantifier": "all real arguments, all orders", "why_tests_cant": "The bound holds for all real arguments between the sampled ones.", "anchors": ["src/zm_sf_bessel.c: zBesselJ0, zBesselJ1, zBesselJ"]}
{"id": "C167", "title": "Bessel functions: accuracy of I", "statement": "zBesselI0, zBesselI1 and zBesselI give the values of the power series of the modified Bessel functions of the first kind with a relative error of a few 1e-14.", "quantifier": "all real arguments, all orders", "why_tests_cant": "The bound holds for all real arguments between the sampled ones, and all orders.", "anchors": ["src/zm_sf_bessel.c: zBesselI0, zBesselI1, zBesselI"]}
{"id": "C168", "title": "Bessel functions: parity and recurrence", "statement": "zBesselJ and zBesselI of even orders are even and of odd orders odd, exactly. Values of three consecutive orders of zBesselJ (below the argument), zBesselY and zBesselK satisfy the three-term recurrence exactly.", "quantifier": "all real arguments, all orders", "why_tests_cant": "All arguments and orders.", "anchors": ["src/zm_sf_bessel.c: zBesselJ, zBesselI, zBesselY, zBesselK"]}
{"id": "C169", "title": "Bessel functions: Miller's method", "statement": "zBesselJ from the argument on and zBesselI are Miller's method: the recurrence downwards from a higher order, divided by the normalising sum or by the value at order zero; values of zBesselI decrease with the order as the Bessel functions do.", "quantifier": "all positive arguments, all orders", "why_tests_cant": "All arguments and orders.", "anchors": ["src/zm_sf_bessel.c: zBesselJ, zBesselI"]}
{"id": "C170", "title": "Matrices: checked element-wise operations", "statement": "zMatCopy, zMatRev, zMatMul, zMatCat, zMatT, zMatTGet and zMatTPut compute the named result into the destination and change nothing else; operands whose sizes do not fit are refused and nothing changes. Those that work element by element may be used in place.", "quantifier": "all sizes, capacities, positions and contents, all placements of the operands in memory", "why_tests_cant": "All sizes and placements.", "anchors": ["src/zm_mat.c: zMatCopy, zMatRev, zMatMul, zMatCat, zMatT, zMatTGet, zMatTPut"]}
{"id": "C171", "title": "Matrices: identity and diagonal matrices", "statement": "zMatIdent and zMatDiag write the identity matrix and the diagonal matrix of a vector; matrices that are not square and vectors of another size are refused.", "quantifier": "all sizes and contents", "why_tests_cant": "All sizes.", "anchors": ["src/zm_mat.c: zMatIdent, zMatDiag; src/zm_raw_mat.c: zRawMatIdent, zRawMatDiag"]}
{"id": "C172", "title": "Matrices: rows and columns", "statement": "zMatGetRow, zMatGetCol, zMatPutRow, zMatPutCol, zMatSwapRow and zMatSwapCol act on the named rows and columns and on nothing else; positions that are out of range and vectors of another size are refused.", "quantifier": "all sizes and contents, all integer positions", "why_tests_cant": "All sizes and positions, including negative ones.", "anchors": ["src/zm_mat.c: zMatGetRow, zMatGetCol, zMatPutRow, zMatPutCol, zMatSwapRow, zMatSwapCol"]}
{"id": "C173", "title": "Matrices: dyads, trace and products with transposes", "statement": "zVecDyad, zMatAddDyad, zMatSubDyad, zMatCatDyad, zMatTrace, zMulMatTVec, zMulMatMatT and zMulMatTMat compute the named result and change nothing else; operands whose sizes do not fit are refused.", "quantifier": "all sizes and contents", "why_tests_cant": "All sizes.", "anchors": ["src/zm_mat.c: zVecDyad, zMatAddDyad, zMatSubDyad, zMatCatDyad, zMatTrace, zMulMatTVec, zMulMatMatT, zMulMatTMat"]}
{"id": "C174", "title": "Matrices: product with the transpose in place", "statement": "zMulMatTVecDRC replaces a vector by its product with the transpose of a matrix, or refuses operands whose sizes do not fit and leaves the vector as it is.", "quantifier": "all sizes and contents", "why_tests_cant": "All sizes.", "anchors": ["src/zm_mat.c: zMulMatTVecDRC"]}
{"id": "C175", "title": "Matrices: extreme elements", "statement": "zMatElemMax, zMatElemMin, zMatElemAbsMax and zMatElemAbsMin give the greatest or least element (absolute value) and the first position, row by row, at which it occurs.", "quantifier": "all matrices", "why_tests_cant": "All sizes and contents, with equal elements.", "anchors": ["src/zm_mat.c: zMatElemMax, zMatElemMin, zMatElemAbsMax, zMatElemAbsMin"]}
{"id": "C176", "title": "Matrices and vectors: tests", "statement": "zMatEqual, zMatMatch, zMatIsTol, zMatIsDiag, zMatIsIdent, zMatIsSymmetric, zVecEqual, zVecMatch, zVecIsTol and zVecIsNan are true exactly of those operands that have the named property.", "quantifier": "all sizes and contents, all tolerances", "why_tests_cant": "Both directions, for all sizes.", "anchors": ["src/zm_mat.c: zMatEqual, zMatMatch, zMatIsTol, zMatIsDiag, zMatIsIdent, zMatIsSymmetric; src/zm_vec.c: zVecEqual, zVecMatch, zVecIsTol, zVecIsNan"]}
{"id": "C177", "title": "Vectors: reordering", "statement": "zVecReorder and zVecReorderDRC put the elements of a vector in the order of an index; an index that does not fit the vector is refused.", "quantifier": "all vectors and indices", "why_tests_cant": "All indices, including those that do not fit.", "anchors": ["src/zm_vec.c: zVecReorder, zVecReorderDRC"]}
{"id": "C178", "title": "Vectors: linear sums", "statement": "zVecLinearSum gives the sum of the multiples of the given vectors, and zVecCats adds it to a vector; vectors of another size are left out.", "quantifier": "all lists of vectors and coefficients", "why_tests_cant": "Lists of any length.", "anchors": ["src/zm_vec.c: zVecLinearSum, zVecCats"]}
{"id": "C179", "title": "Vectors: functions that do not return NULL", "statement": "zVecShift, zVecScale, zVecScaleUniform, zVecNormalize, zVecInterDiv and zVecMid compute the named result and write to the destination only, for operands of any sizes; zVecDem and zVecWSqrNorm refuse a mismatch.", "quantifier": "all sizes and contents", "why_tests_cant": "All sizes.", "anchors": ["src/zm_vec.c: zVecShift, zVecScale, zVecScaleUniform, zVecNormalize, zVecInterDiv, zVecMid, zVecDem, zVecWSqrNorm"]}
{"id": "C180", "title": "Normal distribution", "statement": "zNormalDistrib is the density of the normal distribution with a relative error of 1e-15 and zNormalCumDistrib its distribution function within 1.2e-14, also in the tails, where the series is given up and 0 or 1 returned.", "quantifier": "all arguments and means, all positive deviations", "why_tests_cant": "All real arguments; the reference is an integral.", "anchors": ["src/zm_stat.c: zNormalDistrib, zNormalCumDistrib"]}
{"id": "C181", "title": "Poisson distribution", "statement": "zPoissonDistrib gives the probabilities of the Poisson distribution: they have the sum one and the mean lambda, and that of a negative number is zero.", "quantifier": "all integers and parameters", "why_tests_cant": "Infinite sums.", "anchors": ["src/zm_stat.c: zPoissonDistrib"]}
{"id": "C182", "title": "Chi-squared distribution", "statement": "zChi2CumDistrib is the integral of the density of the chi-squared distribution within 2.4e-14 for every number of degrees of freedom, and zChi2Distrib the density with a relative error of 4e-9.", "quantifier": "all non-negative arguments and positive numbers of degrees of freedom", "why_tests_cant": "Infinite families; the reference is an integral.", "anchors": ["src/zm_stat.c: zChi2Distrib, zChi2CumDistrib"]}
{"id": "C183", "title": "Sections of interpolators", "statement": "zIPSecVel and zIPSecAcc return the velocity and the acceleration of the curve at the i-th knot: for the linear, Lagrange, Chebyshev, PCHIP and Akima interpolators they agree with the derivatives of the value there.", "quantifier": "all knots with increasing times, all values, all sections", "why_tests_cant": "All data sets and sections; the reference is a derivative.", "anchors": ["src/zm_ip_lin.c: _zIPSecVelLinear, _zIPSecAccLinear, _zIPAccLinear", "src/zm_ip_lagrange.c: _zIPSecVelLagrange, _zIPSecAccLagrange", "src/zm_ip_chebyshev.c: _zIPSecVelChebyshev, _zIPSecAccChebyshev", "src/zm_ip_spline.c: _zIPSecAccPCHIP", "src/zm_ip_akima.c: _zIPSecVelAkima, _zIPSecAccAkima"]}
{"id": "C184", "title": "Element-wise operations on complex vectors", "statement": "The operations on complex vectors that check sizes (sum, difference, opposite, product and quotient with a real number, copy, v1 + z v2, conversions from and to real vectors) refuse vectors of different sizes and otherwise change exactly the elements of the result, as the formula says, also when the result is one of the operands; zCVecEqual and zCVecIsTol examine every element.", "quantifier": "all complex vectors in memory, sizes, placements and contents", "why_tests_cant": "All sizes and placements.", "anchors": ["src/zm_cvec.c: zCVecAdd, zCVecSub, zCVecRev, zCVecMul, zCVecDiv, zCVecCat, zCVecCopy, zCVecZero, zCVecTouchup, zVecToCVec, zCVecToReVec, zCVecToImVec, zCVecEqual, zCVecIsTol"]}
{"id": "C185", "title": "Complex vectors: complex scalars and norms", "statement": "The product and the quotient of a complex vector with a complex number are those of all elements, also in place; the inner product is sesquilinear, the norm Euclidean, and zCVecNormalize refuses a tiny vector, compares the sizes and yields a vector of norm one.", "quantifier": "all complex vectors in memory, sizes, placements and contents", "why_tests_cant": "All sizes and placements.", "anchors": ["src/zm_cvec.c: zCVecCMul, zCVecCDiv, zCVecCDivNC, zCVecInnerProd, zCVecSqrNorm, zCVecNormalize"]}
{"id": "C186", "title": "Counting eigenvalues by the Sturm series", "statement": "For a symmetric tridiagonal matrix, the number of negative terms of the Sturm series at e is the number of eigenvalues above e: never more than those above e and never less than those above e + zTOL, also where terms of the series vanish.", "quantifier": "all sizes, all symmetric tridiagonal matrices, all points e", "why_tests_cant": "All matrices; vanishing terms occur at isolated points.", "anchors": ["src/zm_mat_eig.c: _zMatSymEigBisecSturm, zMatSymEigBisec"]}
{"id": "C187", "title": "Eigenvalues by bisection", "statement": "zMatSymEigBisec starts from a range that holds all eigenvalues, ends, and stores all eigenvalues of a symmetric tridiagonal matrix in descending order, as accurate as the last width of the range and the tolerance.", "quantifier": "all sizes, all symmetric tridiagonal matrices, whatever is read behind the matrix", "why_tests_cant": "All matrices, including multiple eigenvalues and eigenvalues on the ends of the range.", "anchors": ["src/zm_mat_eig.c: _zMatSymEigBisecRange, _zMatSymEigBisecOne, _zMatSymEigBisecRec, zMatSymEigBisec"]}
{"id": "C188", "title": "Extreme singular values and condition number", "statement": "Whatever the random initial vectors and whether or not the iterations converge, zMatSingularValueMax is a gain of the matrix (it never exceeds the greatest singular value), zMatSingularValueMin never falls below the least singular value, so zMatCondNum never exceeds the condition number; it is infinite only if the least singular value is below the tolerance. For matrices without full rank the least singular value is zero and the condition number infinite.", "quantifier": "all sizes, all matrices, all initial vectors", "why_tests_cant": "All matrices and random vectors.", "anchors": ["src/zm_mat_eig.c: zMatEigPowerInv, zMatSingularValueMax, zMatSingularValueMin, zMatCondNum"]}
{"id": "C189", "title": "Eigenvectors by inverse iteration", "statement": "The vector that zMatEig and zMatSymEigBisec find for a real eigenvalue by inverse iteration is an eigenvector up to the tolerance, whatever the random initial vector; for a symmetric matrix the iteration ends by its test within the fixed number of turns and the vector belongs to the eigenvalue nearest to the given one. Where the shifted matrix is singular another shift is taken.", "quantifier": "all sizes, all matrices, all eigenvalue estimates, all initial vectors", "why_tests_cant": "All matrices and random vectors.", "anchors": ["src/zm_mat_eig.c: _zMatEigVecReal, _zMatSymEigBisecR, zMatEig, zMatSymEigBisec"]}
{"id": "C190", "title": "Eigenvectors of complex eigenvalues and their order", "statement": "For a pair of complex eigenvalues zMatEig stores two unit vectors, conjugate to each other, that satisfy the complex eigenequation up to the tolerance; every column of the base belongs to the eigenvalue of the same index.", "quantifier": "all sizes, all real matrices, all sequences of real and conjugate eigenvalues, all initial vectors", "why_tests_cant": "All matrices and orders of real and complex eigenvalues.", "anchors": ["src/zm_mat_eig.c: _zMatEigVecComplex, zMatEig"]}
{"id": "C191", "title": "A polynomial as text is that polynomial", "statement": "The expression that zPexSExpr writes for a polynomial denotes it: every coefficient stands before its power of the variable, with its sign, coefficients that are zero are left out, and the text fits into the buffer whose size is given.", "quantifier": "all polynomials of all degrees, all variable names, all buffer sizes", "why_tests_cant": "All patterns of zero, unit and negative coefficients.", "anchors": ["src/zm_pex.c: zPexSExpr, zPexFExpr"]}
{"id": "C192", "title": "Complex numbers as text", "statement": "Reading the text that zComplexFPrint wrote with zComplexFromStr gives the number back, up to the printed digits.", "quantifier": "all complex numbers", "why_tests_cant": "All combinations of signs, zero and unit parts.", "anchors": ["src/zm_complex.c: zComplexFPrint, zComplexFromStr"]}
{"id": "C193", "title": "Vectors, matrices, polynomials and sequences in files", "statement": "Scanning what was printed gives back an object of the same size with the same elements, up to the printed digits, and leaves the rest of the file; a file that ends early leaves zeros.", "quantifier": "all sizes, all elements, all that follows in the file", "why_tests_cant": "All sizes and file contents.", "anchors": ["src/zm_vec.c: zVecFPrint, zVecFScan", "src/zm_mat.c: zMatFPrint, zMatFScan", "src/zm_pex.c: zPexFPrint, zPexFScan", "src/zm_seq.c: zSeqFPrint, zSeqFScan"]}
{"id": "C194", "title": "Sorting, selection, median", "statement": "zDataSort, zDataSortIndex, zDataSortAbsIndex and zVecSort deliver a rearrangement in ascending order; zDataSelect gives the value at a position of that order; zDataMedian has at most half of the samples on either side and the least sum of distances to the samples.", "quantifier": "all data of all sizes, with equal values", "why_tests_cant": "All data and orders of equal values.", "anchors": ["src/zm_data.c: zDataSort, zDataSortIndex, zDataSortAbsIndex, zDataSelect, zDataMedian", "src/zm_vec.c: zVecSort"]}
{"id": "C195", "title": "Smoothing keeps polynomials", "statement": "Samples of a polynomial of at most the degree of the Savitzky-Golay filter come out of zDataSmoothSG unchanged, up to both ends of the data, and zDataSmoothVelSG gives its derivative.", "quantifier": "all polynomials, sizes, window lengths and degrees", "why_tests_cant": "All polynomials and window lengths.", "anchors": ["src/zm_data.c: zDataSmoothSG, zDataSmoothVelSG", "src/zm_ip_pex.c: zPexIPCreateLSM"]}
{"id": "C196", "title": "Peaks of smoothed data", "statement": "zDataPeakSG reports exactly the samples where the smoothed data have a maximum, the last one first.", "quantifier": "all data, sizes, window lengths and degrees", "why_tests_cant": "All data.", "anchors": ["src/zm_data.c: zDataPeakSG"]}
{"id": "C197", "title": "Cores of clusters of linear sums", "statement": "With the linear-sum methods the error of a sample is the difference between the linear sum and its last number; the core and the loaded mean minimise the sum of squared errors (with the loads); no sample is changed.", "quantifier": "all samples, loads that are not negative, sizes and previous cores", "why_tests_cant": "All samples.", "anchors": ["src/zm_mva_cluster.c: zVecClusterErrorLS, zVecClusterCoreLS, zVecClusterLoadedMeanLS"]}
{"id": "C198", "title": "Memory of clustering methods", "statement": "Whatever functions are set on a clustering method in whatever order, and whichever allocations fail, no workspace is used or freed twice, and destroying the method releases all of them.", "quantifier": "all histories of calls on a method, all sizes and all failures of allocations", "why_tests_cant": "All histories.", "anchors": ["src/zm_mva_cluster.c: zVecClusterMethodSetCoreFunc, zVecClusterMethodSetErrorFunc, zVecClusterMethodSetDistFunc, zVecClusterMethodSetLoadedMeanFunc, zVecClusterMethodSetLS, zVecClusterMethodCopy, zVecClusterMethodDestroy"]}
{"id": "C199", "title": "Complete clustering methods", "statement": "A method that accepts a function for the loaded mean has functions for the core, the error and the distance, and a workspace of the size of the error; the default methods are complete.", "quantifier": "all histories of calls on a method", "why_tests_cant": "All histories.", "anchors": ["src/zm_mva_cluster.c: zVecClusterMethodSetLoadedMeanFunc, zVecClusterMethodSetDefault"]}
{"id": "C200", "title": "Products of three matrices", "statement": "zMatQuad, zMatTQuad, zMulMatMatMatT and zMulMatTMatMat compute a diag(w) a^T, a^T diag(w) a, a q a^T and a^T q a, refuse matrices and vectors whose sizes do not match, and change nothing but the destination.", "quantifier": "all matrices, weights, null pointers for weights and sizes", "why_tests_cant": "All matrices.", "anchors": ["src/zm_mat.c: zMatQuad, zMatTQuad, zMulMatMatMatT, zMulMatTMatMat"]}
{"id": "C201", "title": "Lists of vectors and their memory", "statement": "A zVecList holds copies of the vectors as they were when inserted, in the order of insertion; insertions that fail leave nothing behind; destroying a list releases all that was allocated for it, and a list of references leaves the vectors alone.", "quantifier": "all histories of insertions at both ends and changes of the inserted vectors, all failures of allocations", "why_tests_cant": "All histories.", "anchors": ["src/zm_vec_list.c: zVecListInsertHead, zVecListInsertTail, zVecListDestroy, zVecAddrListInsertHead, zVecAddrListInsertTail, zVecAddrListDestroy"]}
{"id": "C202", "title": "Text of expressions", "statement": "A text in which numbers, names, operators and brackets are written with any spaces between them is read as those symbols, and evaluates to the value of the expression it writes; names of any length are read.", "quantifier": "all texts that write an expression, all names and spaces", "why_tests_cant": "All texts.", "anchors": ["src/zm_parse.c: zmParse, _zmParseTokOp, _zmParseTokFunc, _zmParseTokNum, _zmParseTokVar, _zmParseTokPar, _zmParseOpFind"]}
{"id": "C203", "title": "Variables of expressions", "statement": "A parser has one variable of each name; pi and e are the constants; a variable that was assigned a value by a text has that value in later texts.", "quantifier": "all sequences of texts given to a parser", "why_tests_cant": "All histories.", "anchors": ["src/zm_parse.c: _zmParseVarListReg, _zmParseVarAssoc, _zmParseVarBuiltin, _zmParseVarEval, _zmParseOpEval, zmParserInit"]}
{"id": "C204", "title": "Evenness of clusters", "statement": "zVecMultiClusterEvenness is the ratio of the sizes of the greatest and the least cluster, a number of at least one.", "quantifier": "all numbers and sizes of clusters", "why_tests_cant": "All clusterings.", "anchors": ["src/zm_mva_cluster.c: zVecMultiClusterEvenness"]}
{"id": "C205", "title": "X-means by the Bayesian information criterion", "statement": "The test keeps the samples of a cluster together exactly if the criterion of one normal distribution is less than that of two of the same weight.", "quantifier": "all samples, functions of errors and divisions in two", "why_tests_cant": "All samples.", "anchors": ["src/zm_mva_cluster.c: _zVecMultiClusterXMeansCheckBIC, _zVecClusterXMeansPDF, _zVecMultiClusterVar, zVecMultiClusterXMeansBIC"]}
{"id": "C206", "title": "RANSAC with automatic parameters", "statement": "For a rate of outliers between zero and one, zRANSACAuto makes trials with at most half of the samples and at most five for each parameter, only rearranges the samples, and refines the model of the trials with the most inliers.", "quantifier": "all samples, rates, noise levels and sequences of random numbers", "why_tests_cant": "All samples and random numbers.", "anchors": ["src/zm_mva_ransac.c: zRANSACAuto, zRANSACSaveInlierAuto, _zRANSACAutoSelectionNumber"]}
{"id": "C207", "title": "Solvers of differential equations own their memory", "statement": "A solver of ordinary differential equations that was created has working vectors of the sizes its method needs, each in memory of its own, and zODEDestroy (zODE2Destroy) releases exactly what the creation allocated; a creation that fails leaves nothing behind.", "quantifier": "all methods, dimensions, numbers of steps and patterns of exhausted memory", "why_tests_cant": "All dimensions and all points at which memory may run out.", "anchors": ["src/zm_ode_euler.c, src/zm_ode_heun.c, src/zm_ode_rk4.c, src/zm_ode_rkg.c, src/zm_ode_erk.c, src/zm_ode_adams.c, src/zm_ode_beuler.c, src/zm_ode_bk4.c, src/zm_ode_gear.c, src/zm_ode_dc.c, src/zm_ode2.c: zODECreate*, zODEDestroy*, zODE2Create*, zODE2Destroy*"]}
{"id": "C208", "title": "Optimisers and solvers of equations own their memory", "statement": "zOptDMCreate and zNLECreate allocate every working vector and matrix with the size of the problem; the destructions release exactly them; a creation that fails leaves nothing behind and touches nothing that is not its own.", "quantifier": "all dimensions and patterns of exhausted memory", "why_tests_cant": "All points at which memory may run out.", "anchors": ["src/zm_opt_dm.c: zOptDMCreate, zOptDMDestroy; src/zm_nle_dm.c: zNLECreate, zNLEDestroy"]}
{"id": "C209", "title": "Rings and arrays of vectors own their memory", "statement": "zVecRingAlloc and zVecArrayAlloc make the number of vectors of the size asked for or nothing, and zVecRingFree and zVecArrayFree release exactly them.", "quantifier": "all numbers, sizes and patterns of exhausted memory", "why_tests_cant": "All points at which memory may run out.", "anchors": ["src/zm_vec_ring.c: zVecRingAlloc, zVecRingFree; src/zm_vec_array.c: zVecArrayAlloc, zVecArrayFree"]}
{"id": "C210", "title": "Linear algebra releases its working memory", "statement": "A call that solves linear equations, decomposes or inverts a matrix or computes eigenvalues or singular values releases every block it has allocated, each once, whichever allocations fail; where it reports success it has computed the answer, and its computation runs on working memory of the right sizes.", "quantifier": "all sizes, ranks, kinds of eigenvalues, numbers of iterations and patterns of exhausted memory", "why_tests_cant": "All points at which memory may run out in nested calls.", "anchors": ["src/zm_le.c, src/zm_le_lu.c, src/zm_le_lq.c, src/zm_le_tridiag.c, src/zm_le_mat_inv.c, src/zm_le_mat_mpinv.c, src/zm_le_gen.c, src/zm_le_lyapnov.c, src/zm_mat_eig.c"]}
{"id": "C211", "title": "Optimisers release their working memory", "statement": "A call of an optimiser releases every block it has allocated, each once, whichever allocations fail, and reports an answer only where it has computed one.", "quantifier": "all sizes, populations and patterns of exhausted memory", "why_tests_cant": "All points at which memory may run out.", "anchors": ["src/zm_opt_lcp_ip.c, src/zm_opt_lcp_lemke.c, src/zm_opt_lp_simplex.c, src/zm_opt_lp_pdip.c, src/zm_opt_qp_asm.c, src/zm_opt_nm.c, src/zm_opt_pso.c, src/zm_opt_ga.c"]}
{"id": "C212", "title": "Interpolators, curves, networks and mixtures own their memory", "statement": "A spline, a NURBS curve, a growing neural gas or a Gaussian mixture that was created consists of blocks of its own of the right sizes, its destruction releases exactly them, and a creation or evaluation that fails leaves nothing behind.", "quantifier": "all numbers and sizes of points or units and patterns of exhausted memory", "why_tests_cant": "All points at which memory may run out.", "anchors": ["src/zm_ip.c: zIPDataAlloc, zIPDataFree; src/zm_ip_spline.c: zIPCreateSpline; src/zm_ip_akima.c; src/zm_nurbs.c: zNURBSCreate, zNURBSDestroy, zNURBSClone; src/zm_gng.c: zGNGInit, zGNGDestroy; src/zm_mva_gmm.c: zGMMInit, zGMMDestroy"]}
{"id": "C213", "title": "Normalised angles, cycloids, the sigmoid function and rounding", "statement": "A normalised angle is above minus pi, at most pi, and the only such angle that differs by whole turns; its sine and cosine are those of the angle. A cycloid advances without turning back from rest to rest, with the height of half its speed. The sigmoid function increases strictly between zero and one and is symmetric. Rounding gives the nearest whole number, away from zero where two are equally near; remainders and logarithms to a base invert the multiple and the power.", "quantifier": "all real numbers (rounding: those whose result is an int)", "why_tests_cant": "All numbers.", "anchors": ["src/zm_misc.c: zSinCos, zPhaseNormalize, zCycloidX, zCycloidY, zSigmoid; include/zm/zm_misc.h: zCeil, zRound, zFruct, zLog"]}
{"id": "C214", "title": "Random variates by rejection are defined and transform the accepted draw", "statement": "The logistic, Cauchy, t and related two-variable variates come from the first draws that meet the criterion of the method, carry out no division by zero and no root of a negative number, and are the documented function of those draws.", "quantifier": "all sequences of draws, all positions in them and numbers of attempts rejected before", "why_tests_cant": "All sequences of draws.", "anchors": ["src/zm_rand.c: zRandLog, zRandCauchy, zRandT, zRandBinom2"]}
{"id": "C215", "title": "The generalised solver on the LU decomposition, and resized decompositions", "statement": "The LU decomposition of a matrix of any shape and rank gives factors of that rank whose product is the matrix, and the generalised solver built on it gives the vector of the least weighted error and, among those, of the least weighted norm. The variants that resize their factors leave as many columns and rows as the rank (LU, LQ, Cholesky).", "quantifier": "all matrices of any shape and rank, all right-hand sides and positive weights", "why_tests_cant": "All matrices and ranks.", "anchors": ["src/zm_le_lu.c: zMatDecompLU, zMatDecompLUAndResize, zMatDecompCholeskyAndResize; src/zm_le_lq.c: zMatDecompLQAndResize; src/zm_le_gen.c: zLESolveMP_LU, zLESolveMP_LU_DST, zLEWorkspaceResizeMP"]}
{"id": "C216", "title": "Balancing keeps the solutions of a system", "statement": "Balancing a matrix and a vector gives a system that has the same solutions, up to the factors reported for the columns, and every equation of which is zero or has coefficients of magnitude at most one, one of them of magnitude one. Sizes that do not agree are refused.", "quantifier": "all matrices of any shape, all vectors on the right, with and without factors for the columns", "why_tests_cant": "All systems.", "anchors": ["src/zm_le.c: zMatVecBalancing, zMatVecBalancingDST, zMatColBalancingDST, zMatVecRowBalancingDST"]}
{"id": "C217", "title": "The remaining element-wise operations, comparisons and fillings", "statement": "Touching up, negating and dividing a matrix in place change exactly its elements; adding a vector to a column, subtracting it, scaling the column and adding a multiple change exactly that column. The comparisons tell whether all elements are equal, equal within the tolerance, or tiny. The linear sum is the sum of the multiples of as many vectors as announced. Filling from arguments or an array gives the elements row by row in order and leaves padding and everything else as it was; too few arguments are read past their end. Random elements are the numbers drawn, in order, and lie within their limits.", "quantifier": "all memories, sizes, strides, positions, arguments and sequences of random numbers", "why_tests_cant": "All layouts and contents.", "anchors": ["src/zm_raw_mat.c: zRawMatTouchup, zRawMatRevDRC, zRawMatDivDRC, zRawMatColAddDRC, zRawMatColSubDRC, zRawMatColMulDRC, zRawMatColCatDRC, zRawMatEqual, zRawMatMatch, zRawMatIsTol, zRawMatRandUniform, zRawMatRand; src/zm_raw_vec.c: zRawVecCats, zRawVecLinearSum, zRawVecEqual, zRawVecMatch, zRawVecIsTol, zRawVecRandUniform, zRawVecRand; src/zm_vec.c: zVecSetElemList, zVecCopyArray; src/zm_mat.c: zMatSetElemList, zMatCopyArray"]}
{"id": "C218", "title": "A parser of expressions releases what it allocates", "statement": "Whatever texts a parser reads and evaluates, no token, cell or number is released while it is in use or twice, and a text that was read and not evaluated leaves no token behind. That nothing at all is left after the parser is destroyed is false: the cells and numbers of the built-in constants remain in every case, each closing bracket and each evaluation loses a cell, and more than one expression side by side loses a token with its cells.", "quantifier": "all texts, parser states and sequences of texts and evaluations", "why_tests_cant": "Leaks need every text and history.", "anchors": ["src/zm_parse.c: zmParserInit, zmParserDestroy, zmParse, zmParseEval, _zmParseTokFree, _zmParseCellFree, _zmParseVarListDestroy"]}
{"id": "C219", "title": "The smooth step is a smooth step", "statement": "For every order n the smooth step is 0 up to 0, 1 from 1 on and increases strictly in between; it is symmetric about one half, has n continuous derivatives on the whole line, so that the first n vanish at both ends, and is the probability that of 2n+1 trials of probability x more than n succeed. The function for its derivative is its derivative, everywhere for orders from 1 on and inside the ramp for order 0, and is (2n+1)!/(n!)^2 (x(1-x))^n.", "quantifier": "all orders and all real arguments", "why_tests_cant": "All orders and a continuum of arguments.", "anchors": ["src/zm_misc.c: zSmoothStep, zSmoothStepDif"]}
{"id": "C220", "title": "Conjugate gradient method", "statement": "The conjugate gradient method of the descent solver begins with the gradient, every further direction descends if the line search before was exact, the directions are started again after as many as there are dimensions, and a solution does not depend on what an earlier one with the same solver left behind.", "quantifier": "all functions, dimensions, starting points and histories of solutions", "why_tests_cant": "All functions and histories.", "anchors": ["src/zm_opt_dm.c: _zOptDMVecCG, _zOptDMUpdateNone, zOptDMSolve"]}
{"id": "C221", "title": "Expansion of complex factors", "statement": "Expanding a vector of complex factors in which those that are not real come in conjugate pairs, in whatever order, gives the real polynomial that has exactly these factors, each as often as it is given. Factors that cannot be paired are an error, and no memory is left behind either way.", "quantifier": "all vectors of factors that the tolerance tells apart", "why_tests_cant": "All sizes, orders and multiplicities.", "anchors": ["src/zm_pex.c: zPexCExp, _zPexExpIm; src/zm_cvec.c: zCVecToReImVec, zCVecConjPair"]}
{"id": "C222", "title": "Sets of clusters release their memory", "statement": "Whatever allocations fail, after any history of initialisations, clusterings, silhouette analyses and destructions, the destruction of a set of clusters leaves no memory behind.", "quantifier": "all histories of calls, numbers of clusters and samples, and patterns of failing allocations", "why_tests_cant": "All histories and allocation failures.", "anchors": ["src/zm_mva_cluster.c: zVecMultiClusterInit, zVecMultiClusterAlloc, zVecMultiClusterDestroy, zVecMultiClusterKMeans, zVecMultiClusterKMeansKKZ, zVecMultiClusterMeanSilhouette, zVecMultiClusterXMeans, _zVecMultiClusterMerge"]}
{"id": "C223", "title": "Blocks of matrices at any position", "statement": "Reading or writing a block of a matrix at any position, of whatever sign, either refuses (or clips) a block that is not inside the matrix or copies exactly that block; it never touches memory outside the two matrices.", "quantifier": "all positions, shapes and capacities", "why_tests_cant": "All positions, including negative ones.", "anchors": ["src/zm_mat.c: zMatGet, zMatPut; src/zm_raw_mat.c: zRawMatGet, zRawMatPut"]}
{"id": "C224", "title": "Memory of trees of vectors", "statement": "A tree of vectors holds every vector whose addition succeeded, an addition that fails leaves the tree as it was, and destroying the tree releases every block exactly once.", "quantifier": "all histories of additions, all choices of branches and all patterns of allocation failures", "why_tests_cant": "All histories and all points at which memory runs out.", "anchors": ["src/zm_vec_tree.c: zVecTreeInit, zVecTreeAdd, zVecTreeDestroy"]}
{"id": "C225", "title": "Memory of graphs", "statement": "A graph that is built by any calls and destroyed releases every node, its data and every arc, whatever allocations failed in between; a failed call leaves the graph usable; and a search keeps no memory but the path it returns.", "quantifier": "all histories of calls, all patterns of allocation failures, all graphs searched", "why_tests_cant": "All histories and all points at which memory runs out.", "anchors": ["src/zm_graph.c: zGraphInit, zGraphAddNode, zGraphConnect, zGraphBiconnect, zGraphDestroy, zGraphNodeListAdd; src/zm_graph_search.c: zGraphSearchAStar"]}
{"id": "C226", "title": "Memory of random trees", "statement": "Whatever searches are made with a set of random trees, whatever the functions of the user answer and whatever allocations fail: once the trees are destroyed, the only blocks left are those of the paths handed over to the caller.", "quantifier": "all histories of searches, all answers of the functions of the user, all patterns of allocation failures", "why_tests_cant": "All histories and all points at which memory runs out.", "anchors": ["src/zm_rrt.c: zRRTFindPath, zRRTFindPathOpt, zRRTFindPathDual, zRRTEscape, zRRTShortcutPath, zRRTDestroy"]}
{"id": "C227", "title": "Memory of the search by divided rectangles", "statement": "A search by divided rectangles gives back every block it allocated, whether it finishes or stops because memory runs out, and never releases a block twice.", "quantifier": "all objectives, bounds, numbers of iterations and patterns of allocation failures", "why_tests_cant": "All objectives and all points at which memory runs out.", "anchors": ["src/zm_opt_direct.c: _zOptDIRECTRectSetRectDivide, _zOptDIRECTRectPORSetDivide, _zOptDIRECTRectSetDestroy, zOptSolveDIRECT"]}
{"id": "C228", "title": "Memory of Gaussian mixture models", "statement": "A Gaussian mixture model that is initialised, given functions and estimated by any calls can always be destroyed, and then every block allocated since is released, whatever allocations failed in between; a failed initialisation leaves nothing behind.", "quantifier": "all histories of calls, all numbers of units and sizes, all patterns of allocation failures", "why_tests_cant": "All histories and all points at which memory runs out.", "anchors": ["src/zm_mva_gmm.c: zGMMInit, zGMMSetErrorFunc, zGMMSetCoreFunc, zGMMSetLoadedMeanFunc, zGMMSetMethodLS, zGMMCreateEM, zGMMDestroy; src/zm_mva_cluster.c: zVecClusterMethodSetErrorFunc, zVecClusterMethodSetLoadedMeanFunc, zVecClusterMethodCopy"]}
{"id": "C229", "title": "Memory of linear programs in two variables", "statement": "Whatever constraints are added to a linear program in two variables, whichever way and however often it is solved and whatever allocations fail, no block is used after its release or released twice, and destroying the program releases every block.", "quantifier": "all histories of calls, all patterns of allocation failures, all answers of the median", "why_tests_cant": "All histories and all points at which memory runs out.", "anchors": ["src/zm_opt_lp_megiddodyer.c: zLPMegiddoDyerInit, zLPMegiddoDyerAddConstraint, zLPMegiddoDyerSolve, zLPMegiddoDyerSolveDirect, zLPMegiddoDyerDestroy"]}
{"id": "C230", "title": "Cells are moved between lists without being missed or lost", "statement": "Where samples, edges or points are taken out of a list while it is run through (inliers of RANSAC, samples reassigned by K-means, aged edges, points of a polyline, shortcuts of a path) every element is looked at, exactly those meant are moved or removed, the others keep their order, and all lists are properly linked afterwards; a cluster divided by X-means is replaced in its place by its parts.", "quantifier": "all lists, all decisions which elements are to be moved, all clusters", "why_tests_cant": "All lists and all patterns of neighbouring elements that are removed.", "anchors": ["src/zm_mva_ransac.c: zRANSACSaveInlier; src/zm_mva_cluster.c: zVecMultiClusterKMeans, zVecMultiClusterXMeans; src/zm_gng.c: zGNGUpdate; src/zm_vec_list.c: zVecListRDP; src/zm_rrt.c: zRRTShortcutPath; src/zm_seq.c: zSeqJump"]}
{"id": "C231", "title": "Memory of sequences of vectors", "statement": "Whatever is put into a sequence, taken out of it or read into it from files, and whatever allocations fail, no block is released twice or while the sequence holds it, a vector that is refused stays with the caller, and freeing the sequence releases every frame it was given.", "quantifier": "all histories of calls, all files, all patterns of allocation failures", "why_tests_cant": "All histories and all points at which memory runs out.", "anchors": ["src/zm_seq.c: zSeqInit, zSeqEnqueue, zSeqDequeue, zSeqFScan, zSeqFree; src/zm_vec.c: zVecAlloc, zVecFree, zVecFScan"]}
{"id": "C232", "title": "Vectors and matrices are values", "statement": "Vectors and matrices, real or complex, that are created, filled from lists or arrays, cloned, transposed into clones, copied, written, resized within their capacity and freed behave as independent values: an operation on one never changes another, a clone has the elements in use of its source whatever the capacity of that, resizing loses no element, no sequence of such calls reads or writes outside a live block or releases one twice, a request returns the null pointer only if an allocation failed or there are no elements and then keeps no memory, and after the last object has been freed no block is left.", "quantifier": "all histories of calls on any number of objects, all sizes and elements, all patterns of allocation failures", "why_tests_cant": "All histories, sizes, capacities and points at which memory runs out.", "anchors": ["src/zm_vec.c: zVecAlloc, zVecFree, zVecSetElemList, zVecCreateList, zVecCopy, zVecClone, zVecCloneArray, zVecResize; src/zm_mat.c: zMatAlloc, zMatFree, zMatFreeAtOnce, zMatSetElemList, zMatCreateList, zMatCopy, zMatClone, zMatCloneArray, zMatTClone, zMatResize; src/zm_cvec.c: zCVecAlloc, zCVecClone; src/zm_cmat.c: zCMatAlloc, zCMatClone"]}
{"id": "C233", "title": "Explicit solvers keep to the caller's states", "statement": "A caller who solves a differential equation on a set of states with functions of their own for moving and comparing states can rely on this: the explicit solvers (Euler, Heun, RK4, RKG, RKF45, CK45, DP45, Adams) and the second-order solvers on top of them (regular, symplectic, leapfrog) call these functions only with the pointer the caller passed to the update, only for states of that set and derivatives of the kind the right-hand side gives, and end in a state of that set; with the default functions they compute what the methods are known for.", "quantifier": "all sets of states closed under the caller's function, all right-hand sides, functions and pointers, all states, times and steps", "why_tests_cant": "All state spaces and functions of a caller.", "anchors": ["src/zm_ode.c: zODEAssignFunc; src/zm_ode_euler.c, zm_ode_heun.c, zm_ode_rk4.c, zm_ode_rkg.c, zm_ode_erk.c, zm_ode_adams.c; src/zm_ode2.c: zODE2AssignFunc, _zODE2RegularFunc, _zODE2Cat, zODE2UpdateRegular, zODE2UpdateSymplectic, zODE2UpdateLeapfrog"]}
{"id": "C234", "title": "Implicit solvers and deferred correction keep to the caller's functions", "statement": "The implicit solvers (backward Euler, trapezoidal, Gauss, Radau, Gear) and deferred correction call the functions of the caller only with the pointer the caller passed to the update, compare only states with the function for comparing states, and move states only with the function for moving states.", "quantifier": "all right-hand sides, functions and pointers, all states, times and steps", "why_tests_cant": "All state spaces and functions of a caller.", "anchors": ["src/zm_ode_beuler.c, zm_ode_bk4.c, zm_ode_gear.c: _zODE_Gear_Func; zm_ode_dc.c: zODEUpdateDC; zm_ode2.c"]}
{"id": "C235", "title": "Nearest point of a curve", "statement": "zNURBSVecNN returns a parameter within the interval of the curve, stores the point of the curve at that parameter, and no point of the curve is nearer to the given one.", "quantifier": "all orders, knots, weights and control points, all given points", "why_tests_cant": "All curves and points.", "anchors": ["src/zm_nurbs.c: zNURBSVecNN"]}
{"id": "C236", "title": "Files of linear programs of two variables", "statement": "A linear program of two variables that is written to a file and read back has the same cost and allows the same points; a file that is missing or too short for the rows it announces is refused.", "quantifier": "all problems, all layouts of numbers in bytes, all contents of files", "why_tests_cant": "All problems and all files.", "anchors": ["src/zm_opt_lp_megiddodyer.c: zLPMegiddoDyerReadFile, zLPMegiddoDyerWriteFile, zLPMegiddoDyerWriteFileASCII"]}
{"id": "C237", "title": "Arithmetic on vectors and matrices that are shared", "statement": "Adding, subtracting, scaling, concatenating, zeroing and touching up vectors and matrices, in any order with creating, copying, resizing and releasing them, has the result of the same arithmetic on values, even if operands and destination are the same object, and whatever margins the objects have; different sizes and tiny divisors are refused and change nothing.", "quantifier": "all histories, all ways in which operands coincide, all sizes and margins, all failures of allocation", "why_tests_cant": "All histories.", "anchors": ["src/zm_vec.c: zVecAdd, zVecSub, zVecRev, zVecMul, zVecDiv, zVecAmp, zVecCat, zVecZero, zVecSetAll, zVecTouchup; src/zm_mat.c: zMatAdd, zMatSub, zMatRev, zMatMul, zMatDiv, zMatCat, zMatZero, zMatTouchup, zMatIdent; include/zm/zm_vec.h: zVecAddDRC; include/zm/zm_mat.h: zMatAddDRC"]}
{"id": "C238", "title": "Products of vectors and matrices in any history", "statement": "Multiplying matrices by vectors and by matrices, with either factor transposed, and transposing matrices, in any order with creating, copying, resizing, adding and releasing objects, has the result of the same products of values, whatever margins the objects have, as long as the destination is none of the operands; sizes that do not fit are refused and change nothing. The inner product of two vectors, which may be one, is the sum of the products, and zero for different sizes.", "quantifier": "all histories, all sizes and margins, all failures of allocation", "why_tests_cant": "All histories.", "anchors": ["src/zm_mat.c: zMulMatVec, zMulMatTVec, zMulMatMat, zMulMatMatT, zMulMatTMat, zMatT; src/zm_raw_mat.c: zRawMulMatVec, zRawMulMatTVec, zRawMulMatMat, zRawMulMatMatT, zRawMulMatTMat, zRawMatColInnerProd; src/zm_vec.c: zVecInnerProd; src/zm_raw_vec.c: zRawVecInnerProd"]}
{"id": "C239", "title": "Products and transposition in place, in any history", "statement": "Multiplying a vector in place by a square matrix of its size, or by the transpose of one, replaces it by the product and leaves no temporary object behind, or, if memory is refused, changes nothing; transposing a matrix in place replaces it by its transpose and exchanges its margins without losing an element in them; in any history with the other functions on objects. A matrix that does not fit is not refused: the vector is zeroed and returned (C13).", "quantifier": "all histories, all sizes and margins, all failures of allocation", "why_tests_cant": "All histories and allocation failures.", "anchors": ["src/zm_mat.c: zMulMatVecDRC, zMulMatTVecDRC, zMatTDRC; src/zm_raw_mat.c: zRawMatTDRC"]}
{"id": "C240", "title": "Parts of vectors and matrices, in any history", "statement": "Taking a submatrix, a row, a column or a part of a vector gives the destination exactly those elements, transposed where asked; putting one changes exactly those elements of the destination; exchanging two rows or columns exchanges them; a part that does not lie within the object, or a size that does not match, is refused and nothing changes; margins kept for enlargement and all other objects keep their values; in any history with the other functions on objects.", "quantifier": "all histories, all sizes, margins and natural positions, all failures of allocation; source and destination are different objects", "why_tests_cant": "All histories and sizes.", "anchors": ["src/zm_mat.c: zMatGet, zMatTGet, zMatPut, zMatTPut, zMatGetRow, zMatGetCol, zMatPutRow, zMatPutCol, zMatSwapRow, zMatSwapCol; src/zm_vec.c: zVecGet, zVecPut; src/zm_raw_mat.c: zRawMatGet, zRawMatPut, zRawMatTGet, zRawMatTPut"]}
{"id": "C241", "title": "The picture of a matrix", "statement": "zMatImg prints one line for each row and one character for each element of any matrix; negligible elements are blank, the others show by one of four characters how large they are relative to the greatest absolute value, and by another set of characters that they are negative; it never reads outside its tables or divides by zero.", "quantifier": "all matrices and tolerances", "why_tests_cant": "All matrices.", "anchors": ["src/zm_mat.c: zMatImg"]}
{"id": "C242", "title": "Search in arrays of complex numbers", "statement": "zComplexValIsIncluded is true exactly if a member of the array agrees with the number in both parts up to the tolerance, and zComplexValConjIsIncluded exactly if one agrees with its conjugate; with tolerance zero this is membership.", "quantifier": "all arrays, numbers and tolerances", "why_tests_cant": "All arrays.", "anchors": ["src/zm_complex.c: zComplexValIsIncluded, zComplexValConjIsIncluded"]}
{"id": "C243", "title": "Diagonal matrices, shifts, exchanges and arrays of vectors, in any history", "statement": "In any history with the other functions on objects: zMatDiag makes a square matrix diagonal with the elements of a vector of its size and refuses other sizes; zVecShift and zMatShift add a number to all elements of a vector, also in place, and to the diagonal of a matrix; zVecSwap exchanges two elements; zVecArrayFill copies a vector to all vectors of an array; each refuses what it cannot do, changes nothing else and never leaves the buffers.", "quantifier": "all histories, all sizes and margins, all failures of allocation", "why_tests_cant": "All histories and sizes.", "anchors": ["src/zm_mat.c: zMatDiag, zMatShift; src/zm_vec.c: zVecShift, zVecSwap; src/zm_vec_array.c: zVecArrayFill; src/zm_raw_mat.c: zRawMatDiag; src/zm_raw_vec.c: zRawVecShift, zRawVecSwap"]}
{"id": "C244", "title": "Mean with variance and covariance, standard deviation", "statement": "For a list of vectors that is not empty, zVecListMeanVar gives the mean and the least mean squared distance of the vectors from any vector, attained at the mean only; zVecListMeanCov gives the mean and a symmetric positive semidefinite matrix whose value on a direction is the mean squared deviation along it, zero only where all vectors agree, with the variance as its trace. The standard deviation is not negative, its square is the variance, it does not see added constants and scales with absolute values of factors. An empty list should be refused.", "quantifier": "all lists of vectors of one size, all data", "why_tests_cant": "All lists.", "anchors": ["src/zm_mva.c: zVecListMeanVar, zVecListMeanCov; src/zm_stat.c: zDataStandardDeviation"]}
{"id": "C245", "title": "Moves of Nelder-Mead and independence of coordinates", "statement": "Each turn of zOptSolveNM moves the worst vertex along the line through it and the centroid of the others (reflection, doubling while it improves, halving) or moves all vertices half of their way to the best one, under the conditions of the method; and the solver commutes with affine changes of coordinates: for the same problem in other coordinates it takes as many turns and finds the corresponding point.", "quantifier": "all objective functions, dimensions, simplices and affine maps", "why_tests_cant": "All functions and coordinates.", "anchors": ["src/zm_opt_nm.c: zOptSolveNM, _zOptNMTry, _zOptNMPin, _zOptNMRefl, _zOptNMExp, _zOptNMShrink, _zOptNMCrunch"]}
{"id": "C246", "title": "Mean and largest silhouettes", "statement": "For two or more clusters, none of them empty, zVecMultiClusterMeanSilhouette gives the mean of the silhouettes of all points, between -1 and 1, and keeps those of each cluster in ascending order; zVecClusterMaxSilhouette then gives the largest silhouette of the points of a cluster, and -HUGE_VAL where none have been computed, without reading outside of what was computed. zVecClusterCreate gives a cluster or releases what it has.", "quantifier": "all clusters, points and distances", "why_tests_cant": "All data.", "anchors": ["src/zm_mva_cluster.c: zVecMultiClusterMeanSilhouette, zVecClusterMaxSilhouette, zVecClusterCreate"]}
{"id": "C247", "title": "Parameters of B-splines in any history", "statement": "In any history of zBSplineParamAlloc, Free, Copy, Clone and of reading and writing knots, whichever allocations fail: parameters behave as values on their own, so that writing one never changes another and a copy or a clone equals its source; what cannot be done is refused and changes nothing else; each vector of knots belongs to one parameter, and after all parameters have been released none is left.", "quantifier": "all histories, orders, numbers of points and patterns of failing allocations", "why_tests_cant": "All histories and failures.", "anchors": ["src/zm_nurbs.c: zBSplineParamAlloc, zBSplineParamFree, zBSplineParamCopy, zBSplineParamClone; include/zm/zm_nurbs.h: zBSplineParamKnot, zBSplineParamSetKnot"]}
{"id": "C248", "title": "Conservation by symplectic and leapfrog integration", "statement": "Over any sequence of times and steps, the symplectic and the leapfrog method conserve momentum under forces that have no component along it and angular momentum under forces that have no moment, exactly; the leapfrog method gives the displacements of the symplectic one for forces that do not depend on the velocity; constant acceleration should be integrated exactly by the leapfrog method.", "quantifier": "all forces, moments, states, times, steps and numbers of steps", "why_tests_cant": "Arbitrarily many steps.", "anchors": ["src/zm_ode2.c: zODE2UpdateSymplectic, zODE2InitHistoryLeapfrog, zODE2UpdateLeapfrog"]}
