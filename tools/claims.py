M = "Zm.Misc."
def ns(prefix, s): return " ".join(prefix + x for x in s.split())
c("C01", "proved", ns(M, "zPowN_eq zPermutation_eq zFactorial_eq zCombination_eq zCombination_out_of_range zCombinationRecursive_eq zCombinationRecursive_nan"),
  "exact arithmetic over an arbitrary field")
c("C02", "proved", ns(M, "zCombinationSeries_correct"))
c("C03", "proved", ns(M, "zEqual_iff zEqual_symm zEqual_refl zEqual_mono zEqual_not_transitive"))
c("C04", "proved", ns("Zm.Ieee.", "zIsInf_correct zIsNan_correct zIsFinite_correct classification_exclusive zIsInf_bigEndian_wrong"),
  "all 2^64 bit patterns, little-endian build; the big-endian build is shown wrong")
c("C05", "partial", ns(M, "zLine_not_through zLine_through_iff_partial"),
  "the property is violated by the code; the violation and the exact set of inputs on which it holds are proved")
c("C06", "proved", ns("Zm.RawVec.", "zRawVecAdd_correct zRawVecSub_correct zRawVecRev_correct zRawVecMul_correct zRawVecDiv_correct zRawVecAmp_correct zRawVecDem_correct zRawVecCat_correct zRawVecInterDiv_correct zRawVecMid_correct zRawVecScale_correct zRawVecScaleUniform_correct zRawVecShift_correct zRawVecAddDRC_correct zRawVecSubDRC_correct zRawVecRevDRC_correct zRawVecMulDRC_correct zRawVecDivDRC_correct zRawVecAmpDRC_correct zRawVecDemDRC_correct zRawVecCatDRC_correct zRawVecInterDivDRC_correct zRawVecTouchup_correct zRawVecSetAll_correct zRawVecLinSpace_correct zRawVecCopy_correct zRawVecInnerProd_correct zRawVecWSqrNorm_correct zRawVecSqrDist_correct zRawVecAdd_overlap_wrong map2_nonpos"),
  "every size, every aliasing pattern in which the destination does not start strictly inside a source")
c("C07", "proved", ns("Zm.Vec.", "zVecAdd_checked zVecSub_checked zVecRev_checked zVecMul_checked zVecDiv_checked zVecAmp_checked zVecCat_checked zVecCopy_checked zVecInnerProd_checked") + " " + ns("Zm.Mat.", "zMatAdd_checked zMatSub_checked zMatDiv_checked zMulMatVec_checked zMulMatMat_checked"))
c("C08", "partial", ns("Zm.Vec.", "zVecSwap_undefined zVecGet_undefined zVecSwap_correct_partial zVecGet_correct_partial zVecPut_correct_partial"),
  "violated: index = size and negative indices/positions are not rejected; proved for the inputs in range")

R = "Zm.RawMat."
c("C09", "proved", ns(R, "zRawMatTDRC_correct zRawMatTDRC_involutive") + " Zm.Mat.zMatTDRC_correct", "termination of both inner loops is part of the theorem (fuel above the element count suffices)")
c("C10", "proved", ns(R, "zRawMatGet_correct zRawMatPut_correct zRawMatGetCol_correct zRawMatPutCol_correct zRawMatGetRow_correct zRawMatPutRow_correct zRawMatSwapRow_correct zRawMatSwapCol_correct zRawMatT_correct zRawMatTGet_correct zRawMatTPut_correct zRawMatCopy_correct zRawMat_put_get") + " Zm.Mat.zMatGet_checked Zm.Mat.zMatPut_checked", "non-negative positions")
c("C11", "proved", ns(R, "zRawMulMatVec_correct zRawMulMatTVec_correct zRawMulMatMat_correct zRawMulMatMatT_correct zRawMulMatTMat_correct zRawVecDyad_correct zRawMatAddDyad_correct zRawMatSubDyad_correct zRawMatCatDyad_correct zRawMatTrace_correct zRawMatSqrNorm_correct zRawMatColInnerProd_correct zRawMatRev_correct zRawMatMul_correct zRawMatDiv_correct zRawMatAdd_correct zRawMatSub_correct zRawMatCat_correct zRawMatMulDRC_correct zRawMatAddDRC_correct zRawMatSubDRC_correct zRawMatCatDRC_correct"))
c("C12", "partial", ns("Zm.Mat.", "zMatInfNorm_wrong zMatInfNorm_partial"), "violated when column capacity exceeds column size; proved when they are equal")
c("C13", "partial", ns("Zm.Mat.", "zMulMatVecDRC_clobbers zMulMatVecDRC_partial zMatShift_partial zMatShift_tall_ub"), "violated: on a size mismatch zMulMatVecDRC zeroes its operand and reports success; the matching case is proved")

L = "Zm.LE."
c("C14", "proved", ns(L, "zLESolveGauss_correct zLESolveGauss_backward_error gaussSolve_exact gaussSolve_backward_error gaussSolve_singular_fail gaussSolve_singular zLESolveGauss_iff zMatPivoting_props"), "exact solution for a vanishing tolerance, backward error bounded by the tolerance otherwise")
c("C15", "partial", ns(L, "zLESolveL_correct zLESolveU_correct_partial zLESolveU_nonunit_wrong zLESolveLU_correct zMatDecompLU_zLESolveLU"), "violated by zLESolveU for upper-triangular matrices whose diagonal is not all ones; proved for unit upper-triangular ones, which is what the decomposition produces")
c("C16", "partial", ns(L, "zMatDecompLU_correct_partial zMatDecompLU_nonsingular zMatDecompLU_ok zMatDecompLU_rank_deficient_wrong zMatDecompLU_wide_ub"), "violated when a pivot is found right of the diagonal; proved when the pivots are in the leading columns, in particular for every non-singular square matrix")
c("C17", "proved", ns(L, "zMatDet_correct zMatDet_nonzero zMatDet_cases zMatAdj_correct zMatAdj_mul"))
c("C18", "partial", ns(L, "zMatInv_correct_partial zMatInv_singular_wrong zMulInvMatMat_correct zMulInvMatMat_iff zMulInvMatMatAndVec_correct"), "violated: zMatInv ignores the failure of the solver and returns the identity matrix as inverse of a singular matrix")
c("C19", "proved", ns(L, "zLETridiagSolve_correct zLETridiagSolve_fail zLETridiagSolve_last_pivot_unchecked zLETridiagSolve_dominant"), "a zero pivot is refused in every row but the last, where it is divided by")
c("C78", "proved", ns(L, "sweepOut_correct sweepOut_zero sweepOut_rows"))

P = "Zm.Pex."
c("C20", "proved", ns(P, "zPexVal_correct zPexCVal_correct zPexDifVal_correct"))
c("C21", "partial", ns(P, "zPexAdd_correct_partial zPexAdd_zero_ub zPexSub_correct_partial zPexSub_self_ub zPexMul_correct_partial zPexMul_zero_ub zPexAddDRC_mismatch"), "violated when the result is the zero polynomial (out-of-bounds read); proved for all other results")
c("C22", "partial", ns(P, "zPexDiv_correct_partial zPexDiv_exact_ub zPexDiv_rejects"), "violated for exact divisions (out-of-bounds read) and for constant divisors or dividends of smaller degree (rejected); proved otherwise")
c("C23", "partial", ns(P, "zPexExp_correct_partial zPexExp_pow2_partial zPexExp_overlap_ub zPexExp_three_ub zPexExpIm_correct_partial"), "proved for an upward-copying memcpy; the C code calls memcpy on overlapping memory unless the number of factors is a power of two")
c("C24", "proved", ns(P, "zPexDif_correct zPexDif_constant zPexIntg_correct zPexDif_zPexIntg"))
c("C25", "proved", ns(P, "zPexModulo_correct zPexModulo_mismatch"))
c("C26", "partial", ns(P, "zPexRgl_correct_partial zPexRgl_zero_ub"), "violated by the zero polynomial; proved for all others")

F = "Zm.FFT."
c("C27", "proved", ns(F, "zFFT_correct zFFT2_correct zFFT_mismatch zFFT2_mismatch inner_spec radix_spec"), "one and two dimensions, every length; exact arithmetic with exact sine and cosine")
c("C28", "proved", ns(F, "zFFT_roundtrip zFFT2_roundtrip zFFTInv_correct"))

I = "Zm.IP."
c("C29", "proved", ns(I, "zIPDataSeg_spec zIPDataSeg_bracket zIPDataSeg_eq zIPDataSeg_knot"))
c("C30", "proved", ns(I, "linCreate_spec linVec_knot linVec_between linVec_mem linVel_hasDerivAt"))
c("C31", "proved", ns(I, "lagVec_correct lagVel_correct lagAcc_correct lagVec_knot lagVec_unique"))
c("C32", "partial", ns(I, "spline_partial splCreate_ok splVec_knot splVec_hasDerivAt splVel_hasDerivAt splCoeff_spec zFergusonVal_spec spl_free_end_acc spl_free_end_violated splSecAcc_interior splSecAcc_last_violated splCreate_two_free splSecVel_knot"), "violated: a free terminal edge does not have vanishing second derivative, the reported acceleration at the last knot has wrong signs, and two knots with both edges free divide by zero; interpolation, continuity and the interior are proved")
c("C33", "partial", ns(I, "pchipModify_spec hermite_vel_nonneg pchipInit_spec pchip_monotone_partial pchip_antitone_partial pchip_first_violated pchip_last_violated"), "the edge slope rule is violated; monotonicity is proved")
c("C34", "partial", ns(I, "akima_partial akCreate_interior akima_line_violated akima_edge_violated akCreateMod_line_partial akCreateMod_edge_violated"), "violated in the first and last segments; proved for the inner segments")
c("C35", "proved", ns(I, "pexBoundary_correct pexBoundary_zero_term"))
c("C36", "partial", ns(I, "trvel_partial trvel_hasDerivAt trvel_short_violated trvel_reverse_violated"), "violated when the distance is too short for the velocity change and for reverse velocities beyond the limit; proved for feasible distances")
c("C75", "partial", ns(I, "zClothoidXY_start_partial zClothoidXY_start_violated"), "violated: the ordinate is offset by x0 instead of y0")
c("C79", "proved", ns(I, "chebCreate_knot chebVec_correct chebVel_correct chebAcc_correct"))
c("C80", "proved", ns(I, "pexLSM_spec pexLSM_optimal"))
c("C81", "partial", ns(I, "pexBoundaryLSM_partial pexBoundaryLSM_violated"), "violated: terminal velocity and acceleration are not scaled by the term")

B = "Zm.NURBS."
c("C37", "proved", ns(B, "zBSplineParamKnotInit_spec zBSplineParamKnotInit_knots zBSplineParamKnotNormalize_spec zBSplineParamKnotScale_spec zBSplineParamSeg_spec zBSplineParamSeg_degenerate_ub"), "knots of which the first and the last differ, as the property says; if all are equal the search leaves the array")
c("C38", "proved", ns(B, "basis_correct basis_reads basis_outside basis_nonneg basis_sum basisDiff_hasDerivAt"))
c("C39", "proved", ns(B, "zNURBSVec_hull zNURBSVec_convex zNURBSVec_unit zBSplineVec_hull zNURBSVec_start zNURBSVec_end zNURBSVec_init_ends"))
c("C82", "proved", ns(B, "zNURBSVecDiff_correct zNURBSVecDiff_refused zBSplineVecDiff_correct"))

T = "Zm.Cont."
c("C40", "proved", ns(T, "zVecTreeNN_correct zVecTree_stores zVecTreeNN_empty_ub"), "trees that hold a point; the search in an empty tree follows a null pointer")
c("C41", "proved", ns(T, "zVecListNN_correct zVecListNN_empty"))
c("C42", "proved", ns(T, "zVecListRDP_correct zVecListRDP_single_ub zVecListRDP_negative_ub"), "every metric and every polyline of at least two points; one point makes the loop read the root cell")
c("C43", "proved", ns(T, "zSeq_fifo zSeqDequeue_none zSeqJump_spec"))
c("C74", "proved", ns(T, "zVecRingLinearSum_spec zVecRingCat_spec zVecRingCat_mismatch zVecRingFill_spec"))
c("C83", "partial", ns(T, "zVecEdgeDist_line zVecEdgeDist_degenerate zVecEdgeDist_partial zVecEdgeDist_violated"), "violated: the value is the distance to the straight line, not to the edge; proved when the foot of the perpendicular is on the edge")
c("C84", "partial", ns(T, "zVecProj_spec zVecOrthogonalize_spec zVecOrthogonalize_alias_violated zVecProj_zero_ub"), "violated when the result is stored in the argument; proved otherwise")

S = "Zm.Stat."
c("C44", "proved", ns(S, "zDataMax_spec zDataMin_spec zDataAbsMax_spec zDataAbsMin_spec zDataMinMax_spec"))
c("C45", "proved", ns(S, "zDataSum_spec zDataMean_spec zDataVar_spec zDataVar_nonneg zData_shift zData_scale zVecListSum_spec zVecListMean_spec zVecListMean_empty zVecListVar_spec zVecListCov_spec zVecListCov_symm_trace zVecListMinMax_spec zDataIsIncluded_spec"))
c("C46", "partial", ns(S, "zHistogramVote_spec zHistogramCreate_spec zHistogramCreateAuto_spec zHistogramCreateAuto_one_ub zHistogramCreateAuto_constant_ub zHistogramBin_limits zHistogramBinMax_last_violated zHistogramBinMid_spec zHistogramBinMid_last_violated"), "violated: the upper limit of the last bin is reported wrongly, one automatic bin and constant data divide by zero; counting is proved")
c("C85", "proved", ns(S, "zDataPeak_spec"))
c("C86", "partial", ns(S, "smoothSG_even_partial smoothSG_odd_violated"), "violated for odd window lengths, which read one value behind the data; proved for even lengths")
c("C87", "proved", ns(S, "zBinDistrib_spec chi2CumEven_eq chi2CumEven_hasDerivAt"))

G = "Zm.Graph."
c("C47", "proved", ns(G, "run_wf run_spec"), "every history; with an equality test that decides equality, the nodes and the arc costs are those of the specification")
c("C48", "partial", ns(G, "zGraphSearchAStar_directed_partial zGraphSearchDijkstra_shortest_partial zGraphSearchAStar_shortest_partial run_undirected zGraphSearch_unreachable_violated zGraphSearch_same_violated zGraphSearch_directed_violated"), "violated: an unreachable goal makes the code follow a null pointer, and start = goal is an error; shortest paths are proved when a path exists and start differs from goal")

A = "Zm.Parse."
c("C49", "partial", ns(A, "parse_correct_partial parse_print parse_sign_violated parse_run_violated parse_func_violated parse_nested_violated parse_dropped_violated"), "violated: a sign inside brackets makes the parser loop for ever, adjacent operator characters are a syntax error, and a function call that is not at the beginning of the text disturbs the priorities or is applied to less than its bracket; proved for all expressions with a sign or a function call, of any argument without one, at the beginning only")

O = "Zm.OneD."
c("C50", "partial", ns(O, "zNLE_Bisec_bracketed zNLE_Bisec_continuous zNLE_Bisec_unbracketed_partial zNLE_Bisec_random_violated zNLE_RF_bracketed zNLE_Secant_root zNLE_VDB_bracketed"), "violated: when the ends do not bracket a root and the random search meets one, an end of the interval is returned instead; proved for every bracket")
c("C51", "proved", ns(O, "zOptLineGoldenSection_min zOptLineTrisection_min"), "golden section with the exact ratio instead of its 15 decimals")
c("C88", "proved", ns(O, "zOptLineBrent_safe"))

D = "Zm.ODE."
c("C52", "partial", ns(D, "zODEUpdateEuler_order zODEUpdateHeun_order zODEUpdateRK4_order zODEUpdateRKG_order rkf45_order dp45_order ck45_order_partial ck45_order_violated HasOrder.exact HasOrder.linear zODEUpdateERK_accepted zODEUpdateERK_total zODEUpdateERK_exact zODEUpdateDC_exact"), "violated by Cash-Karp, whose rows of weights are exchanged: the accepted estimate is of order four; all the others are proved, with all conditions up to order five and adaptive steps")
c("C53", "proved", ns(D, "adamsBashforth_exact adamsMoulton_exact zODEUpdateAdams_exact"), "every number of steps")
c("C54", "proved", ns(D, "gear_formula zODEUpdateGear_exact zODEUpdateGear_hist"), "the six formulae the code has; the equation is solved by the nonlinear solver, which is not part of this claim")
c("C55", "partial", ns(D, "zIntgRect_spec zIntgTR_spec trSum_affine zIntgQuad_exact_partial zIntgQuad_affine zIntgQuad_first_violated"), "violated by the first step of the quadratic integrator, which is a trapezoid; proved from the second step on and for the other integrators")
c("C89", "proved", ns(D, "zODEUpdateBEuler_order zODEUpdateTR_order zODEUpdateGauss_order zODEUpdateRadau_order HasIOrder.exact"), "square root of three exact")
c("C90", "partial", ns(D, "zODE2UpdateRegular_order zODE2UpdateSymplectic_invariant zODE2UpdateLeapfrog_constant_partial zODE2UpdateLeapfrog_start_violated"), "violated by the leapfrog method, which takes the initial velocity for the one half a step before")

X = "Zm.Cplx."
c("C60", "partial", ns(X, "zComplexAdd_spec zComplexSub_spec zComplexRev_spec zComplexConj_spec zComplexMul_spec zComplexDiv_spec zComplexCMul_spec_partial zComplexCMul_alias_violated zComplexCMulDRC_spec zComplexInv_spec zComplexCDiv_spec_partial zComplexCDivDRC_spec_partial zComplexCDiv_small_violated zComplex_polar zComplexCPow_spec zComplexPow_spec zComplexPowRef_spec zComplexLog_spec zComplexCLog_spec zComplexNormalize_spec zComplexTouchup_spec"), "violated: products stored in an argument are wrong, and quotients by small non-zero numbers read an uninitialised variable; everything else is proved")
c("C61", "partial", ns(X, "zQESolve_spec_partial zQESolve_refused zQESolve_zero_violated"), "violated for b = c = 0, where zero is divided by zero; proved for all other coefficients")
c("C62", "proved", ns(X, "zCbrt_spec zCESolve_spec zCESolve_refused"))
c("C63", "proved", ns(X, "zCVecConjPair_ok zCVecConjPair_complete zCVecToReImVec_spec"))
c("C91", "partial", ns(X, "zCVecInnerProd_spec zCVecSqrNorm_spec zCVecCDiv_spec_partial zCVecCDiv_small_violated"), "violated by small scalars: the failure of the inner division is ignored")

P = "Zm.LP."
c("C56", "partial", ns(P, "pivot_spec sweepC1_cost zLPSolveSimplex_optimal_partial zLPSolveSimplex_tol_partial phase1_infeasible zLPTableauSimplex_no_ub zLPSolveSimplex_no_ub_partial zLPSolveSimplex_redundant_violated zLPSolveSimplex_square_violated zLPSolveSimplex_negative_violated"), "violated by redundant constraints (the wrong right-hand side is kept), by square systems (the first element of an empty index is read) and by coefficients below the tolerance; proved for independent rows and exact comparisons, and the equations and the cost for comparisons with tolerance")
c("C57", "proved", ns(P, "zLPIneq2Std_correct zLPUnb2Std_correct"))
Q = "Zm.LCP."
c("C58", "partial", ns(Q, "zLCPSolveLemke_spec_partial zLCPSolveLemke_tol_partial zLCPSolveLemke_tol_violated"), "violated by coefficients below the tolerance, which do not take part in the choice of the pivot; the equations and complementarity are proved as the code stands, the signs for exact comparisons")
c("C59", "proved", ns(Q, "qp2lcp_optimal qp2lcp_spec zQPSolveLemke_spec_partial zQuadraticValue_spec"), "the claim is the first theorem, for every solution of the complementarity problem; the others add the solver")
c("C92", "partial", ns(P, "zLPFeasibleBase_partial phase1_infeasible zLPFeasibleBase_violated"), "violated: an artificial variable that stays basic at zero is written outside the vector")
c("C93", "partial", ns(Q, "zCGSolve_descent_partial zCGSolve_violated"), "violated: the sign of the correction is wrong and two turns do not solve two equations; proved that the solver never divides by zero and never gets worse")
P = "Zm.RRT."
c("C64", "partial", ns(P, "extend_history zRRTFindPath_spec zRRTFindPathOpt_spec zRRTFindPathDual_spec zRRTFindPath_nocost_violated zRRTFindPathDual_meet_violated"), "the tree invariants and the path are proved for the three planners; violated: the path is not stored when the caller asks for no cost, and two trees that meet with a full step are not recognised")
c("C65", "partial", ns(P, "zRRTShortcutPath_spec_partial zRRTShortcutPath_total shortcutCheck_free zRRTShortcutPath_cost_violated"), "violated: the cost misses the last edge when the last pair was not replaced")
c("C94", "partial", ns(P, "zRRTInit_default_violated metric_default"), "violated: the function used in place of a collision check reports a collision everywhere; the default metric and extension are as claimed")
c("C95", "proved", ns(P, "zRRTEscape_spec"))
P = "Zm.GA."
c("C69", "partial", ns(P, "quickSort_spec sort_spec zOptGAReproduce_spec zOptSolveGA_spec_partial zOptGAReproduce_one_violated"), "proved for random numbers below one in the roulette; violated when the generator gives exactly one: the worst individuals are drawn and zero is divided by zero")
c("C96", "partial", ns(P, "zOptGAReproduce_spec zOptGAReproduce_best_violated"), "violated: the best individual may mutate; proved when it survives without mutation")
P = "Zm.PSO."
c("C70", "partial", ns(P, "update_spec swarmUpdate_spec zOptSolvePSO_spec_partial zOptSolvePSO_value_violated"), "violated: the value reported is one turn older than the answer; the rest is proved")
P = "Zm.NM."
c("C71", "proved", ns(P, "turn_spec zOptSolveNM_spec zOptSolveNM_total pin_spec srtEx_ok"), "the sort of ZEDA is assumed to sort; termination for objectives with finitely many values, as those of double are")
P = "Zm.Rnd."
c("C73", "proved", ns(P, "zRandBinom_spec zRandBinom_certain zRandND0_pairs zRandND0_radius"), "the generator of ZEDA is an arbitrary sequence")
c("C97", "partial", ns(P, "ranges zRandTri_range zRandExp_inverse zRandWeibull_inverse zRandPower_inverse zRandGamma_accept zRandBeta_spec zRandFD_spec zRandGamma_range zRandChiSqr_range zRandBeta_range zRandFD_range zRandPoisson_spec zRandGeo_spec_partial zRandGeo_violated zRandND_spec"), "violated by the geometric variate, which is zero when the generator gives zero")
P = "Zm.RANSAC."
c("C67", "proved", ns(P, "zRANSAC_spec zRANSACSaveInlier_spec zRANSAC_few Kept.best"), "allocation does not fail; when no trial has an inlier the given model is kept")
P = "Zm.GNG."
c("C66", "proved", ns(P, "zGNG_history zGNGUpdate_lifetime_violated"), "for lifetimes that are not negative, as the statement says; the last theorem shows that the restriction is needed; allocation does not fail and ages do not overflow")
c("C98", "proved", ns(P, "findProximity2_spec findPivot_spec findSeed_spec adapt_spec removeAged_spec grow_spec zGNGDestroy_spec"))
P = "Zm.Clus."
c("C68", "partial", ns(P, "recluster_spec initCluster_spec initPP_total zKMeans_spec_partial zKMeansKKZ_spec_partial zKMedoids_spec recluster_total zKMeans_zero_draw_violated zKMeans_coincident_violated zKMeansKKZ_coincident_violated"), "proved whenever the seeds are found and the roulette of K-means++ does not draw zero; violated by a zero draw (a point in two clusters) and by coincident points (undefined behaviour)")
c("C99", "proved", ns(P, "recluster_descent mean_minimises"), "medoids minimise over the points of the cluster only: see medoid_spec")
c("C100", "partial", ns(P, "xMeans_partition xMeans_total xMeans_density_violated xMeans_crisp_violated"), "the partition is proved; the test of the density and the check for too crisp clusters have the opposite sense of what the caller takes them for")
c("C101", "proved", ns(P, "silhouette_spec"))
P = "Zm.LE."
c("C76", "partial", ns(P, "zLESolveNormMin_correct zLESolveNormMin_unweighted zLESolveErrorMin_correct zLESolveRefNormMin_correct zLESolveSRBias_correct zLESolveSRRef_correct zLESolveSRAux_correct zLESolveNormMin_weight_violated"), "proved without weights; the norm minimised by zLESolveNormMin and zLESolveRefNormMin has the reciprocals of the weights the header describes")
c("C77", "partial", ns(P, "zMatDecompLQ_spec zMatDecompLQ_exact zMatDecompQR_spec householder_full zMatDecompLQNull_spec_partial zMatDecompLQ_null_violated zMatDecompLQ_Householder_violated"), "proved of zMatDecompLQ and zMatDecompQR; Householder's method only when no row is skipped, violated otherwise; a null pointer for the triangular matrix, which the header allows, is dereferenced")
c("C102", "partial", ns(P, "zLESolveMP_spec_partial zLESolveMPAux_spec_partial zLESolveMP_zero_violated"), "proved for matrices that are not zero; the zero matrix leaves the answer as it was; the norm has the reciprocals of the weights")
c("C103", "partial", ns(P, "mpNull_spec_partial mpNull_sign_violated mpNull_zero_violated"), "the matrix is the negative of the projector, and is left as it was by the zero matrix")
c("C104", "proved", ns(P, "zMatDecompLQ_rank"))
c("C105", "proved", ns(P, "zMatQuadNC_spec zMatTQuadNC_spec zMulMatMatMatTNC_spec zMulMatTMatMatNC_spec"))
P = "Zm.Eig."
c("C72", "partial", ns(P, "jacobiRot_spec zMatSymEigJacobi_correct zMatSymEigJacobi_exact zMatSymEigJacobi_violated_size1"), "proved for two or more rows; when the limit of sweeps is reached the function still reports success, which the bound of the theorem excludes; a matrix of one row is read out of bounds")
c("C106", "partial", ns(P, "zMatSVD_correct_partial zMatSVD_exact zMatSVDSort_spec zMatSVD_violated_row"), "proved from exact eigenvectors of m m^T, which Jacobi's method delivers up to its tolerance; a matrix of one row is read out of bounds")
c("C107", "partial", ns(P, "zMatToHessenberg_correct_partial hessCol_spec hessCol_stuck zMatToHessenberg_violated"), "proved without a tolerance; with it, a column whose squares are below the tolerance is reflected by a vector that is not normalised, again and again")
c("C108", "partial", ns(P, "zMatEigPower_correct_partial zMatEigPower_violated_dominant zMatEigPower_rayleigh zMatEigPower_near zMatEigPower_stops zMatEigPower_violated_oscillates"), "the eigenequation is proved when the iteration stops by its test, and that it stops for a symmetric matrix with one dominant eigenvalue and an initial vector with a part along it; the value need not be dominant, and with eigenvalues of opposite signs the method delivers a number that is no eigenvalue")
c("C109", "partial", ns(P, "bisecRange_violated dqrHouseholder_violated dqrLoop_violated dqrLoop_two_partial"), "violated for every matrix by the bisection, and by the double QR method for three and more rows")
P = "Zm.LE."
c("C110", "partial", ns(P, "zMatDecompCholesky_correct zMatDecompCholesky_refuses zMatDecompCholesky_definite zMatDecompCholesky_full_rank zMatDecompCholesky_definite_iff zMatDecompCholesky_indefinite_violated"), "proved of positive semidefinite matrices; an indefinite matrix with a zero diagonal is accepted with the rank zero")
c("C111", "proved", ns(P, "zLESolveLURI_correct zLESolveLURI_residuals"))
c("C112", "partial", ns(P, "zLESolveGaussSeidel_residual zLESolveGaussSeidel_exact zLESolveGaussSeidel_diag_violated zLESolveGaussSeidel_limit_violated"), "proved if the iteration stops by its test; it divides by a zero diagonal, and returns the last vector when the limit of iterations is reached")
c("C113", "proved", ns(P, "zLELyapnovSolve_correct zLELyapnovSolve_regular_violated"), "the header names singular A as the reason of failure; it is the singularity of the operator")
c("C114", "partial", ns(P, "zMulMatInvMat_partial zMulMatInvMat_refuse_violated zMulMatInvMat_accept_violated"), "proved of square m1; the size test compares the rows of m1 instead of its columns")
c("C115", "partial", ns(P, "zMatInvHotelling_partial zMatInvHotelling_exact zMatInvHotelling_singular zMatInvHotelling_converges zMatInvHotelling_violated"), "the matrix before the one that has passed the test is returned, so that only the square of the residual is within the tolerance; a singular matrix ends at the limit of iterations and is returned as if it were inverted")
c("C116", "partial", ns(P, "zMatMPInv_partial zMatMPInvNull_partial zMulMPInvMatMat_partial zMatMPInv_zero_violated"), "proved of every matrix but zero, whose inverse (zero) is not stored; the projector has the opposite sign")
c("C117", "partial", ns(P, "zMatMPInvPenrose_pinv zMatMPInvPenrose_partial zMatMPInvPenrose_zero_violated"), "proved of every matrix but zero, for which zero is divided by zero; in exact arithmetic the loop ends after as many turns as the rank")
c("C118", "partial", ns(P, "zLESolveMP_SVD_eig zLESolveMP_SVD_partial zLESolveMP_SVD_row_violated"), "proved from exact eigenvectors; a matrix of one row is read out of bounds")
P = "Zm.Mva."
c("C119", "partial", ns(P, "zVecListPCA_partial zVecListPCA_jacobi_partial zVecListPCA_violated"), "proved from an exact eigensystem but for the order of the scores and the number returned, which is an index")
c("C120", "partial", ns(P, "zVecListGenRandND_partial zVecListGenRandND_zero_violated zVecListGenRandND_indefinite_violated"), "proved of every covariance matrix but zero; a matrix that is no covariance is not refused")
P = "Zm.SF."
c("C121", "partial", ns(P, "zErfN_error zErfN_tendsto erf_abs_le_one normalCDF_eq zErf_partial zCDF_partial zErf_violated zErf_doc_violated"), "up to 10^-20 on [-2,2] and 10^-8 on [-3,3]; the 36 terms diverge from the function for large arguments (below -10^28 at 10), and the header states another lower limit of the integral")
c("C122", "proved", ns(P, "zFresnelIntgPI_2_accurate zFresnelIntgScale_accurate zFresnelIntg_accurate zFresnelIntgGen_accurate zFresnelIntgGen_linear zFresnelIntgLentz_accurate zFresnelIntgPI_2_series zFresnelIntgScale_series zFresnelIntg_series zFresnelIntgScale_error zFresnelIntgGen_error"), "5 10^-11 for the integrals of pi/2 t^2, scaled for the others; 10^-12 |x| where the series is used; the continued fraction ends in at most 161 turns")
c("C123", "proved", ns(P, "zLnGamma_error zGamma_error zBeta_error"), "relative error below 3 10^-9 (10^-8 for the beta function) for all positive arguments")
c("C124", "proved", ns(P, "zFourierVal_spec zFourierVel_deriv zFourierAcc_deriv zFourier_periodic zFourierSet_spec"), "")
c("C125", "partial", ns(P, "zOscCreateVDP_spec VDP.init_partial VDP.init_violated VDP.update_spec VDP.energy_run VDP.bounded"), "an amplitude of zero is accepted, and then divided by")
c("C126", "proved", ns(P, "Kura.init_spec Kura.run_bound Kura.entrained"), "")
c("C127", "proved", ns(P, "zSSSolve_spec zSSSolve_contraction"), "")
P = "Zm.PexEq."
c("C128", "partial", ns(P, "bhDelta_newton Deflated.exact zPexBH_partial zPexBH_refused zPexBH_square_violated zPexBH_singular_violated"), "proved for calls that end without a warning; x^2 = 0 and singular first steps divide by zero")
c("C129", "partial", ns(P, "zPexDKA_partial dkaInit_spec dkaStep_spec dkaStep_vieta dkaStep_converges dkaLoop_converges zPexDKA_close_violated"), "convergence is proved near simple roots; approximations as close as 10^-6 make the code read a variable without a value")
P = "Zm.OptDM."
c("C130", "partial", ns(P, "zOptDMSolve_partial stepNoc_ok stepDS_ok stepMT_ok stepBrent_ok zOptDMSolve_plain zOptDMSolve_default_violated zOptDMSolve_value_violated"), "proved with a line search; without one, as created, the solver ascends by one step and reports success; the value reported belongs to the point before")
c("C131", "partial", ns(P, "stepNoc_descends zOptDMSolve_SD_descends zOptDMSolve_VM_descends zOptDMSolve_SD_succeeds zOptDMSolve_DS_violated"), "proved of steepest descent and variable metrics with Nocedal's line search; the default solver ascends (C130), and so does the search of Dennis and Schnabel on steep functions")
c("C132", "partial", ns(P, "updateBFGS_spec updateDFP_spec bfgs_secant bfgs_posDef updateDFP_violated"), "both are the update of Broyden, Fletcher, Goldfarb and Shanno; that of Davidon, Fletcher and Powell differs")
c("C133", "proved", ns(P, "gradNG_spec hessNG_spec gradNG_quadratic hessNG_affine"), "")
c("C134", "partial", ns(P, "vecLM_direction zOptDMSolve_LM_violated stepNoc_LM_intact"), "the direction is right but the elimination destroys the gradient that the line search reads")
P = "Zm.NLE."
c("C135", "partial", ns(P, "solveNR_success solveBroyden_success solveDM_violated") + " Zm.OptDM.zOptDMSolve_partial", "proved of Newton-Raphson's and Broyden's method; the descent methods report success at every stationary point of the squared error (x^2 + 1 = 0 is solved by 0)")
c("C136", "proved", ns(P, "nrDirection_spec solveNR_affine solveNR_affine_succeeds"), "with the Jacobian matrix given")
c("C137", "partial", ns(P, "broydenDirection_spec broydenUpdate_spec broyden_secant_partial solveBroyden_affine broyden_secant_violated"), "the secant equation fails after a shortened step")
c("C138", "partial", ns(P, "jacNG_partial jacNG_square jacNG_overflow_violated solveNR_numeric_violated"), "right for one variable only: square matrices are transposed, and with more variables than equations memory is overrun")
c("C139", "proved", ns(P, "descent_grad_deriv descent_hess descent_taylor"), "")
P = "Zm.Direct."
c("C140", "partial", ns(P, "zOptSolveDIRECT_best_partial zOptSolveDIRECT_ends zOptSolveDIRECT_violated zOptSolveDIRECT_worse_violated"), "when the iterations run out the answer is taken from the list of a region that has been divided: in one dimension, after one iteration, the data of the root cell of an empty list are read; in two, the answer is worse than the centre")
c("C141", "proved", ns(P, "zOptSolveDIRECT_tiling zOptSolveDIRECT_evaluations patterns_sorted"), "")
c("C142", "proved", ns(P, "zOptSolveDIRECT_potentially_optimal"), "")
P = "Zm.QPASM."
c("C143", "proved", ns(P, "zQPSolveASM_optimal zQPSolveASM_optimal_posDef kkt initBase_inv"), "")
c("C144", "partial", ns(P, "zQPSolveASM_no_ub_partial zQPSolveASM_overflow_violated zQPSolveASM_halfplane_violated"), "proved of at least as many constraints as variables; with fewer, every problem whose first point is found overruns the heap block of one number per constraint")
c("C145", "partial", ns(P, "innerLoop_spec zQPSolveASM_endless_violated"), "the inner loop ends; the outer loop goes round for ever on a problem of three variables and four constraints through the origin")
c("C146", "proved", ns(P, "zQPSolveASM_refuses"), "")
P = "Zm.PDIP."
c("C147", "proved", ns(P, "eqLU_newton luDecomp_full"), "")
c("C148", "partial", ns(P, "step_spec damped_pos turn_spec loop_spec zLPSolvePDIP_PC_residuals_partial"), "proved with exact comparisons inside of the iteration and independent constraints; the tolerance in the comparisons of the code can make an element negative by as much as the tolerance")
c("C149", "partial", ns(P, "zLPSolvePDIP_PC_optimal_partial NearOptimal.cost zLPSolvePDIP_PC_suboptimal_violated zLPSolvePDIP_PC_infeasible_violated zLPSolvePDIP_PC_unbounded_violated"), "proved if the loop ends by the test of the residuals; if both steps are tiny the solver returns true with points that are not optimal, and for problems without feasible points or without a bound")
P = "Zm.LCPIP."
c("C150", "partial", ns(P, "turn_spec turn_ok pred_spec corr_spec pred_near corr_near ini_near loop_spec"), "proved with exact elimination for the turns in which the inner product k2 is positive")
c("C151", "partial", ns(P, "stepLen_pos stepLen_neg_violated zLCPSolveIP_leaves_violated"), "proved for a positive inner product k2; for every negative k2 the step is refused or greater than one")
c("C152", "partial", ns(P, "zLCPSolveIP_solution_partial zLCPSolveIP_refuses_violated"), "proved for runs in which k2 is always positive and which end by the test; a problem with one unknown and an obvious solution is refused")
P = "Zm.CMat."
c("C153", "partial", ns(P, "zCMatAdd_checked zCMatSub_checked zCMatRev_checked zCMatMul_checked zCMatDiv_checked zCMatCopy_checked zCMatZero_spec zCMatTouchup_spec zMatToCMat_spec_partial zMatToCMat_size_violated"), "proved; only zMatToCMat does not compare the sizes and writes beyond the end of a smaller matrix")
c("C154", "partial", ns(P, "zCMatCMul_checked_partial zCMatCMul_inplace zCMatCMul_inplace_violated zCMatCDiv_checked_partial zCMatCDiv_small_violated"), "violated in place, where the imaginary part is computed from the new real part, and by divisors between the two tolerances, by whose conjugates the elements are multiplied; proved otherwise")
c("C155", "partial", ns(P, "zCMatGetRow_checked_partial zCMatPutRow_checked_partial zCMatGetCol_checked_partial zCMatPutCol_checked_partial zCMatGetRow_negative_violated zCMulMatVec_checked_partial zCMulMatVec_inplace_violated"), "violated by negative indices, which are not refused, and by products in place; proved otherwise")
P = "Zm.MD."
c("C156", "proved", ns(P, "problem_spec addAll_spec addConstraint_spec"), "for a tolerance of zero, as an equivalence between the constraints of the user and the kept lines and interval")
c("C157", "partial", ns(P, "zLPMegiddoDyerSolveDirect_correct_partial direct_within_tol zLPMegiddoDyerSolveDirect_tol_violated"), "proved for a tolerance of zero; with the tolerance of the library a returned point satisfies the kept constraints within it, and a problem without admissible points can be reported as solved")
c("C158", "partial", ns(P, "zLPMegiddoDyerSolve_correct_partial zLPMegiddoDyerSolve_small_partial zLPMegiddoDyerSolve_vertical_violated zLPMegiddoDyerSolve_extend_violated"), "proved, for a tolerance of zero and any median, when no constraint is on the first variable alone or at most four are not; violated otherwise, and when constraints are added after a call")
c("C159", "partial", ns(P, "zLPMegiddoDyerSolveDirect_infinite_partial zLPMegiddoDyerSolveDirect_infinite_violated"), "proved when the constraints on the first variable alone come first; violated when they come last, where a problem with exactly one optimum is refused")
P = "Zm.GMM."
c("C160", "proved", ns(P, "emStep_ok emLoop_ok gamma_nonneg gamma_sum nks_sum estimAll_ok"), "for any tolerance and also when covariances are singular")
c("C161", "proved", ns(P, "estim_spec loadedMean_eq loadedCov_eq loadedCov_psd maximizeUnit_det_nonneg maximizeUnit_regular"), "the mean and the covariance are divided by the total responsibility when this is above the tolerance")
c("C162", "partial", ns(P, "em_monotone emStep_monotone turns_monotone em_1d zGMMCreateEM_1d zGMMCreateEM_spec_partial zGMMCreateEM_empty_violated zGMMCreateEM_small_violated"), "proved while no covariance is singular, which in one dimension and exact arithmetic is always so; violated for an empty cluster and for data so small that determinants are below the tolerance")
c("C163", "proved", ns(P, "emStep_one emStep_one_optimal"), "after any turn, in any dimension, when the covariance of the points is not singular")
c("C164", "partial", ns(P, "zGMMAIC_partial zGMMBIC_partial zGMMAIC_violated zGMMBIC_violated zGMMAIC_choice_violated"), "only the means are counted; the criteria are too small and prefer too many Gaussians")
P = "Zm.Bessel."
c("C165", "proved", ns(P, "zBesselJ0_ok zBesselJ1_ok zBesselY0_ok zBesselY1_ok zBesselI0_ok zBesselI1_ok zBesselK0_ok zBesselK1_ok"), "in exact arithmetic; NaN as the argument is converted to an integer, which is undefined")
c("C166", "partial", ns(P, "zBesselJ0_accurate_partial zBesselJ1_accurate_partial zBesselJ_accurate_partial J_recurrence J_zero"), "proved for arguments below 12.5 in magnitude, and for orders below the argument with 5/2 times the error for every order; missing: the asymptotic branch from 12.5 on, and Miller's method")
c("C167", "partial", ns(P, "zBesselI0_accurate_partial zBesselI1_accurate_partial zBesselI_error_partial zBesselI_accurate_partial miller_error miller_bound I_recurrence zBesselI_large_violated"), "orders 0 and 1 for arguments below 12.5 in magnitude; all higher orders for arguments up to 8 (3e-14), and below 12.5 with an explicit error of Miller's method; violated for large arguments")
c("C168", "proved", ns(P, "zBesselJ0_even zBesselI0_even zBesselJ1_odd zBesselI1_odd zBesselJ_parity zBesselI_parity zBesselJ_upward zBesselJ_recurrence zBesselY_upward zBesselY_recurrence zBesselK_upward zBesselK_recurrence"), "")
c("C169", "partial", ns(P, "zBesselJ_miller zBesselI_miller I_lt zBesselI_large_violated"), "the method is proved; the order where it begins does not depend on the argument, so that zBesselI grows from order 3 to order 5 at 300")
P = "Zm.Mat."
c("C170", "proved", ns(P, "zMatCopy_checked zMatRev_checked zMatMul_checked zMatCat_checked zMatT_checked zMatTGet_checked zMatTPut_checked"), "positions of zMatTGet and zMatTPut are not negative")
c("C171", "proved", ns(P, "zMatIdent_checked zMatDiag_checked zRawMatIdent_correct zRawMatDiag_correct"), "")
c("C172", "partial", ns(P, "zMatGetRow_partial zMatGetCol_partial zMatPutRow_partial zMatPutCol_partial zMatSwapRow_partial zMatSwapCol_partial zMatGetRow_violated zMatGetCol_violated zMatPutRow_violated zMatPutCol_violated zMatSwap_violated"), "proved for positions that are not negative; violated: a negative position is not refused")
c("C173", "proved", ns(P, "zVecDyad_checked zMatAddDyad_checked zMatSubDyad_checked zMatCatDyad_checked zMatTrace_correct zMulMatTVec_checked zMulMatMatT_checked zMulMatTMat_checked"), "")
c("C174", "partial", ns(P, "zMulMatTVecDRC_violated zMulMatTVecDRC_partial"), "proved for a square matrix of the size of the vector; violated otherwise: the vector is overwritten")
c("C175", "partial", ns(P, "zMatElemMax_correct zMatElemMin_correct zMatElemAbsMax_correct zMatElemAbsMin_correct zMatElem_empty"), "proved for matrices with rows and columns; violated by matrices without columns, outside of which they read (zMatElem_empty)")
c("C176", "partial", ns(P, "zMatEqual_iff zMatMatch_iff zMatIsTol_iff zMatIsDiag_iff zMatIsIdent_partial zMatIsSymmetric_iff zMatIsIdent_violated") + " " + ns("Zm.Vec.", "zVecEqual_iff zVecMatch_iff zVecIsTol_iff zVecIsNan_iff"), "violated by zMatIsIdent, which accepts matrices that are not square; the others are proved")
P = "Zm.Vec."
c("C177", "partial", ns(P, "zVecReorder_partial zVecReorderDRC_partial zVecReorder_violated"), "proved for indices in range; violated: elements of the index out of range are not refused, and zVecReorderDRC reports success for an index of another size")
c("C178", "proved", ns(P, "zVecCats_correct zVecLinearSum_correct"), "the vectors do not overlap the destination")
c("C179", "partial", ns(P, "zVecShiftScale_partial zVecInterDiv_partial zVecNormalize_partial zVecWSqrNorm_correct zVecDem_checked zVecShift_violated zVecUnchecked_violated"), "proved for operands of the same size; violated for others: zVecShift writes beyond the end of a shorter destination, and so do the scalings and zVecNormalize; zVecInterDiv and zVecMid read beyond the end of shorter operands")
P = "Zm.Distrib."
c("C180", "proved", ns(P, "zNormalCumDistrib_correct zNormalDistrib_correct"), "exact arithmetic except for the test that ends the series, which compares a sum with itself plus a term: the sum absorbs a term only below 2^-53 of it, and always below 2^-55")
c("C181", "partial", ns(P, "zPoissonDistrib_partial poisson_sums zPoissonDistrib_violated"), "violated for negative numbers: the division by a factorial of zero gives infinity")
c("C182", "proved", ns(P, "zChi2CumDistrib_correct zChi2Distrib_correct chi2_odd") , "the density for positive arguments")
P = "Zm.IP."
c("C183", "partial", ns(P, "linSecAcc_limit linAcc_spec linSecVel_partial lagSec_correct chebSec_correct akSec_partial linSecVel_last_violated pchipSecAcc_violated pchipSecAcc_last_violated akSecVel_first_violated akSecAcc_inner_partial akSecAcc_inner_violated akSecAcc_last_violated"), "holds for Lagrange, Chebyshev and the acceleration of linear ones; violated: linear velocity at the last knot, every PCHIP acceleration, Akima velocity at the first knot and acceleration at the others; PCHIP and Akima read beyond the knots for the last one. The cubic spline is in C32")
P = "Zm.CVec."
c("C184", "partial", ns(P, "zCVecAdd_checked zCVecSub_checked zCVecRev_checked zCVecMul_checked zCVecDiv_checked zCVecCopy_checked zCVecCat_checked_partial zCVecZero_spec zCVecTouchup_spec zVecToCVec_checked zCVecToReIm_checked zCVecEqual_spec zCVecIsTol_spec zCVecCat_alias_violated"), "violated only by v1 + z v2 when z is an element of the result")
c("C185", "partial", ns(P, "zCVecCMul_checked_partial zCVecCMul_inplace zCVecCMul_inplace_violated zCVecCDiv_checked_partial zCVecCDiv_inplace_violated zCVecInnerProd_checked zCVecNorm_spec zCVecNormalize_checked_partial zCVecNormalize_size_violated"), "violated in place (zCVecCMulNCDRC, zCVecCDivNCDRC): the imaginary part is computed from the new real part; zCVecNormalize does not compare the sizes. The macros zCVecCMulDRC and zCVecCDivDRC pass a pointer for a number and zCVecValIsIncluded omits an argument: they do not compile when used")
P = "Zm.Eig."
c("C186", "partial", ns(P, "sturm_count sturm_gap sturm_exact sturm_first_violated"), "violated where e is the first element of the matrix: a vanishing first term is counted as negative but divided by as positive")
c("C187", "partial", ns(P, "bisecEnds_spec bisecVals_partial bisecVals_lost_violated bisecVals_twin_violated"), "violated: eigenvalues on an end of the range are lost (one and zero on the diagonal), and the recursion never ends for a double eigenvalue (two, two and three on the diagonal). Proved for simple eigenvalues off the lower end. The number of halvings after which rounding stops the loop is a parameter")
P = "Zm.Eig."
c("C188", "partial", ns(P, "zMatEigPower_rayleigh zMatSingularValueMax_gain zMatSingularValueMin_partial zMatCondNum_partial zMatCondNum_singular_violated"), "violated for every matrix without full rank: zMatInv hands back the identity for the singular product, so the least singular value comes out as one and the condition number as the greatest singular value")
P = "Zm.Eig."
c("C189", "partial", ns(P, "eigVecReal_residual_partial eigVecReal_near_partial symEigBisecR_columns eigVecReal_singular_violated"), "violated where the estimate plus the shift is an eigenvalue: zMatInv does not report the singular matrix, no other shift is taken and the random vector comes out")
c("C190", "partial", ns(P, "eigVecComplex_residual_partial zMatEigBase_columns_partial eigVecComplex_singular_violated"), "proved for estimates that, plus the shift, are no eigenvalues; the residual is exact, whether or not the iteration ended by its test; the eigenvalues themselves are inputs; violated where an estimate plus the shift is an eigenvalue: the random vector comes out, as in C189")
P = "Zm.Text."
c("C191", "partial", ns(P, "zPexSExpr_partial zPexSExpr_exact_partial zPexSExpr_fits zPexSExpr_constant_violated zPexSExpr_uninit_violated"), "violated by every polynomial with a constant term: the constant is printed from a variable that holds the coefficient of the term before, and that was never set for a constant polynomial")
c("C192", "partial", ns(P, "zComplex_roundtrip_partial zComplex_roundtrip_violated"), "violated by every positive multiple of the imaginary unit: a null character is printed in place of the sign")
c("C193", "partial", ns(P, "zVec_roundtrip_partial zVec_short zMat_roundtrip_partial zPex_roundtrip zSeq_roundtrip_partial zVec_resized_violated zMat_resized_violated zPex_nodim_violated"), "violated by vectors and matrices with another capacity than size: the capacity is printed behind the size but not read; a polynomial without a degree in the file takes a variable that was never set")
P = "Zm.Data."
c("C194", "proved", ns(P, "zDataSort_correct zDataSortIndex_correct zDataSortAbsIndex_correct zVecSort_correct zDataSelect_correct zDataMedian_correct zDataMedian_optimal"), "on the contracts of zQuickSort and zQuickSelect")
c("C195", "partial", ns(P, "zDataSmoothSG_exact_partial zDataSmoothSG_degree_violated zDataSmoothSG_one_violated zDataSmoothSG_odd_violated"), "violated by windows of odd length, which read behind the data, by a window of one sample, where a pointer that was never set is freed, and by degrees not below the length, where zeros are reported as success")
c("C196", "partial", ns(P, "peaksOf_spec zDataPeakSG_partial zDataPeakSG_parabola_partial zDataPeakSG_sample_violated zDataPeakSG_fail_violated"), "violated where the smoothed slope is zero at the sample of the maximum: nothing is reported; where the smoothing fails a list that was never initialised is destroyed")
P = "Zm.ClusterLS."
c("C197", "partial", ns(P, "errorLS_correct coreLS_partial loadedMeanLS_partial coreLS_singular_violated"), "violated by clusters whose samples do not determine the coefficients: the failure of the solver is not noticed and the previous core is returned")
P = "Zm.ClusterMethod."
c("C198", "partial", ns(P, "method_safe_partial method_size_violated"), "violated by an error size that is not positive: it is refused after the vector of the error was freed, which is freed again later")
c("C199", "partial", ns(P, "loadedMean_complete_partial setDefault_complete loadedMean_dist_violated loadedMean_size_violated"), "violated: the function for the distance is never asked for, and setting another function for the error leaves the workspace with the previous size")
P = "Zm.Mat."
c("C200", "partial", ns(P, "zMatQuad_checked zMatTQuad_checked zMulMatMatMatT_partial zMulMatTMatMat_partial zMulMatMatMatT_size_violated zMulMatTMatMat_size_violated"), "violated: zMulMatMatMatT and zMulMatTMatMat do not compare the size of the destination with that of the matrix and write behind it")
P = "Zm.VecList."
c("C201", "partial", ns(P, "list_copies addrList_safe listDestroy_leaks_violated"), "violated: zVecListDestroy releases the structures of the vectors but not their buffers")
P = "Zm.Parse."
c("C202", "partial", ns(P, "parseText_refines text_value_partial name_overflow_violated"), "violated by names as long as the buffer of BUFSIZ characters, which are copied beyond its end; the expressions are those of C49")
c("C203", "partial", ns(P, "names_constant assign_violated"), "violated: an assignment evaluates to its right-hand side, but no variable changes, whatever the text")
P = "Zm.Cluster."
c("C204", "partial", ns(P, "evenness_ratio evenness_empty_violated"), "violated by a cluster without samples: the quotient is not guarded")
c("C205", "partial", ns(P, "checkBIC_partial checkBIC_zero_violated checkBIC_dimension_violated"), "proved for errors of one dimension and positive variances; violated by a part of variance zero, such as one sample, which is always divided off, and by errors of more dimensions, for which the density is that of one dimension")
P = "Zm.RANSAC."
c("C206", "partial", ns(P, "autoNumber_range zRANSACAuto_spec zRANSACAuto_few_violated zRANSACSaveInlierAuto_spec"), "violated by few samples, for which no trial is made and the parameters given decide")
P = "Zm.Life."
c("C207", "partial", ns(P, "ode_releases euler_life heun_life rk4_life rkg_life erk_life adams_life beuler_life bk4_life gear_life dc_life regular_life symplectic_life leapfrog_life euler_clean_partial leapfrog_clean_partial ode_leak_violated ode_undefined_violated adams_weights_violated"), "what was created is released; violated by failed creations, which leak in all methods but Euler's, the symplectic and the leapfrog method, and are undefined in the embedded and the implicit ones; predictors without weights are reported as created")
c("C208", "partial", ns(P, "opt_life opt_clean nle_life nle_clean_partial nle_uninit_violated nle_double_violated"), "proved of optimisers; failed creations of solvers of equations free pointers without a value or free twice")
c("C209", "partial", ns(P, "ring_life ring_clean_partial ring_null_violated"), "violated if the array of pointers cannot be allocated: the vectors are written to it all the same")
P = "Zm.Life."
c("C210", "partial", ns(P, "decompLU_memory solveLU_memory decompLQ_memory decompGS_memory decompQR_memory mulInv_memory mulInvVec_memory hotelling_memory lyapunov_memory jacobi_memory normMin_memory refNormMin_memory gauss_memory_partial tridiag_memory_partial mulMatInv_memory_partial hessenberg_memory_partial eigPower_memory_partial penrose_memory_partial luri_memory_partial matInv_memory_partial matEig_memory_partial singular_memory_partial svd_memory_partial solveSVD_memory_partial condNum_memory_partial solveMP_memory_partial mpInv_memory_partial exhausted_report_violated eig_report_violated exhausted_release_violated mpInv_rank_violated"), "proved of twelve calls; violated by those that report success without memory (Gauss, tridiagonal, residual iteration, inverse, Hessenberg, power method, eigenvectors, singular values, Penrose), by double releases (pseudo-inverses) and leaks (condition number, copies of workspaces, pseudo-inverse of rank zero)")
c("C211", "partial", ns(P, "lemke_memory lcpip_memory simplex_memory_partial feasibleBase_memory_partial pdip_memory_partial asm_memory_partial nm_memory_partial pso_memory_partial ga_memory_partial tableau_null_violated opt_release_violated pso_empty_violated"), "proved of complementarity problems; the others only while there is memory: null tableaux, double releases and leaks otherwise; a swarm of no particles leaks")
c("C212", "partial", ns(P, "nurbs_memory spline_memory_partial akima_memory_partial nurbsClone_memory_partial gmm_memory_partial gng_memory_partial spline_edge_violated akima_outside_violated gng_destroy_violated gng_null_violated clone_release_violated"), "proved of curves; violated by splines with invalid edges, Akima past the last knot, networks (working vectors never released, null units) and by copies and mixtures that run out of memory")
P = "Zm.Phase."
c("C213", "proved", ns(P, "zPhaseNormalize_spec zPhaseNormalize_unique zSinCos_spec zCycloid_spec zSigmoid_spec zCeil_spec zRound_spec zFruct_spec zLog_spec"), "")
P = "Zm.Rnd."
c("C214", "partial", ns(P, "zRandLog_spec zRandT_big zRandT_small zRandT_again zRandBinom2_spec zRandCauchy_spec_partial zRandCauchy_zero_violated"), "violated by the Cauchy variate: the draw for its abscissa may be one, and the division is by zero; proved of it for draws below one")
P = "Zm.LE."
c("C215", "partial", ns(P, "zMatDecompLU_leading_partial zMatDecompLUAndResize_partial zMatDecompLQAndResize_spec zMatDecompCholeskyAndResize_spec zLESolveMP_LU_spec_partial zLESolveMP_LU_skipped_violated zLESolveMP_LU_wide_violated"), "violated when a column before a pivot is skipped: the column of the lower factor is written in the wrong place, outside of it for a wide matrix; proved for all matrices whose leading columns are a basis of their columns")
c("C216", "partial", ns(P, "zMatVecBalancing_rows zMatVecBalancing_spec_partial zMatVecBalancing_sizes zMatVecBalancing_wide_violated zMatVecBalancing_tall_violated"), "violated with factors for the columns of a matrix that is not square: their number is compared with that of the rows; proved for square systems, tall ones with a longer vector of factors, and without factors")
P = "Zm.RawMat."
c("C217", "proved", ns(P, "zRawMatTouchup_correct zRawMatRevDRC_correct zRawMatDivDRC_correct zRawMatColAddDRC_correct zRawMatColSubDRC_correct zRawMatColCatDRC_correct zRawMatColMulDRC_correct zRawVecCats_correct zRawVecCats_ub zRawVecLinearSum_correct zRawVecIsTol_iff zRawVecEqual_iff zRawVecMatch_iff zRawMatIsTol_iff zRawMatEqual_iff zRawMatMatch_iff zRawVecRandUniform_correct zRawVecRand_correct zRawMatRandUniform_correct zRawMatRand_correct zRawMatRand_within zVecSetElemVList_correct zVecSetElemVList_ub zMatSetElemList_correct zVecCopyArray_checked zMatCopyArray_checked"), "")
P = "Zm.Parse."
c("C218", "partial", ns(P, "parseOutM_loses zmParseM_fair_partial zmParseEvalM_single zmParseEvalM_violated uses_safe_partial zmParserDestroy_tokens_partial zmParserDestroy_violated"), "The full property, nothing left after the destruction, is false of the code: zmParserDestroy_violated shows it for every history; what is proved is that nothing is released twice or while in use.")
P = "Zm.Misc."
c("C219", "proved", ns(P, "zSmoothStep_ends zSmoothStep_binomial zSmoothStep_symm zSmoothStepDif_closed zSmoothStep_deriv zSmoothStep_ramp zSmoothStep_contDiff zSmoothStep_mono"), "Exact real arithmetic; the orders are those for which 2n+1 is an int.")
P = "Zm.OptDM."
c("C220", "partial", ns(P, "vecCG_direction updateNone_restart updateNone_early_violated vecCG_leftover_violated stepTest_scale"), "violated: the directions are started again after the second one and then after every n-th, and a second solution starts in the direction left behind by the first; the directions themselves are proved to be those of Fletcher and Reeves")
P = "Zm.Pex."
c("C221", "partial", ns(P, "zPexCExp_correct_partial zPexCExp_leak_violated"), "violated: when the factors cannot be paired the vectors they were sorted into are left behind; correctness is proved for an upward-copying memcpy (see C23) and exact conjugates")
P = "Zm.ClusterMem."
c("C222", "partial", ns(P, "clusters_released_partial xMeans_released_partial clusters_again_violated clusters_kkz_violated xMeans_leak_violated"), "violated: a second clustering forgets the clusters of the first, and KKZ and X-means leave vectors behind when an allocation fails; proved for one K-means++ clustering between initialisation and destruction under any allocation failures, and for X-means without failures")
R = "Zm.RawMat."
c("C223", "partial", ns(R, "zMatGetI_partial zMatPutI_partial zRawMatGet_right_violated zRawMatPut_right_violated zMatGet_negative_violated zMatPut_negative_violated"), "violated: negative positions pass the test and memory in front of the block or of the matrix is read or overwritten, and a block to the right of the matrix is clipped to a negative width that reaches memcpy; proved for positions that are not negative")
P = "Zm.TreeMem."
c("C224", "partial", ns(P, "init_correct zVecTreeAdd_correct zVecTreeAdd_leaf_failure zVecTreeDestroy_perm zVecTree_history_partial zVecTree_enough_memory zVecTreeDestroy_violated zVecTreeAdd_leak_violated zVecTreeAdd_retry_violated"), "violated: where the box of a leaf cannot be allocated the leaf is released although its parent points to it, and its vector is lost; where the first vector cannot be copied the next addition reads a null pointer; proved for histories without such failures")
P = "Zm.GraphMem."
c("C225", "partial", ns(P, "run_destroy zGraph_history destroy_live addNode_live nodeConnect_eq zGraphSearchAStar_leak_violated zGraphInit_equal_violated"), "building and destroying is proved for every history; violated: every search that returns loses at least one cell, and with the functions set by zGraphInit a graph never has more than one node")
P = "Zm.RRTMem."
c("C226", "partial", ns(P, "zRRT_history_partial zRRT_destroy_partial zRRTFindPathOpt_leak_violated"), "violated: a search that rewires loses the vector of a node when there is no memory for its list of near nodes, and reports success; proved for the other searches, and for this one if no allocation fails")
P = "Zm.DirectMem."
c("C227", "partial", ns(P, "zOptSolveDIRECT_blocks zOptSolveDIRECT_leak_violated rectDivide_spec rectDivide_dangling_violated rectDivide_lost_violated"), "violated: every search that evaluates the objective more than once loses a list cell for each region divided; a division that runs out of memory loses a region or releases one that stays in the set; proved: the exact number of blocks left after a search, and that a division itself releases live blocks only and accounts for all of them when it succeeds")
P = "Zm.GMMMem."
c("C228", "partial", ns(P, "zGMM_history_partial zGMM_full createEM_live init_spec destroy_spec zGMMInit_leak_violated zGMMCreateEM_leak_violated zGMMSetErrorFunc_size_violated"), "proved for every history with positive sizes in which the initialisation succeeds and no estimation fails, and with enough memory all calls succeed; violated: a failed initialisation loses blocks of a unit, a failed estimation loses the copy of the method, and a size of errors that is not positive leaves a pointer to a released vector, which is then released again")
P = "Zm.MDMem."
c("C229", "partial", ns(P, "zLPMegiddoDyer_history zLPMegiddoDyer_direct_partial zLPMegiddoDyerAddConstraint_ok zLPMegiddoDyerDestroy_leak_violated"), "violated: destroying a program solved by the method of Megiddo and Dyer leaves two blocks for each pair of constraints that is left; proved: no block is used after its release or released twice, the exact number of blocks left, and that none is left if only the direct method is used")
P = "Zm.Links."
c("C230", "proved", ns(P, "moveLoop_ok zRANSACSelectInlier_ok sweep_ok purgeLoop_ok purgeBetween_ok merge_ok zSeqJump_ok zRRTShortcutPath_refines"), "on the level of the pointers of the cells; Linked and Reps are the specification of well-formed lists")
P = "Zm.SeqMem."
c("C231", "partial", ns(P, "zSeq_history zSeqFScan_partial push_ok push_iff pop_ok scan_ok zSeqFScan_leak_violated"), "proved for every history without files, and for a file read into an empty sequence in which every frame has an interval; violated: a frame without one loses a cell, and reading into a sequence that is not empty loses all of its frames")
P = "Zm.Obj."
c("C232", "proved", ns(P, "history step_ok elem_ok no_leak freeAtOnce_ok zMatResize_ret zMatRowResize_ret zMatColResize_ret"), "refinement of a heap of headers and buffers to rectangles of numbers, for every history; the client passes as many arguments as there are elements, does not use a freed object and copies only between different objects of one class")
P = "Zm.ODEUser."
c("C233", "proved", ns(P, "zODEUpdateEuler_keeps zODEUpdateHeun_keeps zODEUpdateRK4_keeps zODEUpdateRKG_keeps zODEUpdateERK_keeps zODEUpdateAdams_keeps zODE2UpdateRegular_keeps inner_contract zODE2UpdateSymplectic_keeps zODE2UpdateLeapfrog_keeps zODEUpdateEuler_plain zODEUpdateHeun_plain zODEUpdateRK4_plain zODEUpdateRKG_plain zODEUpdateERK_plain zODEUpdateAdams_plain inner_plain zODE2UpdateRegular_plain zODE2UpdateSymplectic_plain zODE2UpdateLeapfrog_plain"), "the functions of the caller may be undefined for every other pointer, state and derivative; derivatives form a linear space; with the default functions the results are those whose orders C52, C53 and C90 are about")
c("C234", "partial", ns(P, "implicit_plain zODEUpdateDC_plain zODEGearEq_plain_partial zODEGearEq_util_violated zODE2UpdateRegular_gear_violated zODEUpdateDC_violated bk4_sub_violated"), "backward Euler, trapezoidal, Gauss and Radau equations depend on the caller's pointer only; Gear's method passes the solver itself instead, so that a second-order equation on top of it is undefined for every input; deferred correction doubles states without the caller's function, and Gauss's and Radau's methods compare derivatives with the function for states, so that on a circle a rotation of one turn per unit of time is taken for rest")
P = "Zm.NURBS."
c("C235", "partial", ns(P, "zNURBSVecNN_on_curve zNURBSVecNN_nearest_partial zNURBSVecNN_error_partial zNURBSVecNN_nearest_violated zNURBSVecNN_no_memory"), "parameter and point always belong to the curve; the point is nearest up to a thirtieth of the interval if the distance along the curve has one valley; on a closed curve the two ends are equally near and the middle between them is returned, which may be the farthest point of the curve")
P = "Zm.MDFile."
c("C236", "partial", ns(P, "read_write_lines read_write_same_partial read_succeeds read_missing write_cost_violated write_bound_violated writeASCII_violated"), "short and missing files are refused exactly; a problem comes back the same if the cost is the second variable and no constraint is on the first variable alone; otherwise the lines written are those of the cost and the bounds of the first variable are lost; the text file writes the upper bounds twice and no lower bound")
P = "Zm.Obj."
c("C237", "proved", ns(P, "arith_history bin_answer un_answer"), "real vectors and matrices; the complex classes take part in the histories without arithmetic")
P = "Zm.Obj."
c("C238", "proved", ns(P, "mul_history mul_answer trans_answer inner_ok"), "that the destination is another object is the obligation of the client")
P = "Zm.Obj."
c("C239", "proved", ns(P, "place_history mulDRC_ok mulDRC_mismatch transDRC_ok"), "")
P = "Zm.Obj."
c("C240", "proved", ns(P, "part_history part_answer part_filled put_get"), "negative positions are not modelled: the functions do not look for them")
P = "Zm.Img."
c("C241", "partial", ns(P, "zMatImg_partial zMatImg_empty zMatImg_sign_violated"), "violated: negative elements below an eighth of the greatest absolute value are drawn like positive ones; a matrix without columns is read outside")
c("C242", "proved", ns(P, "zComplexValIsIncluded_iff zComplexValConjIsIncluded_iff zComplexValIsIncluded_exact"), "")
P = "Zm.Obj."
c("C243", "partial", ns(P, "misc_history_partial diag_filled vshift_filled mshift_filled vswap_filled fillGo_ok misc_violated"), "violated: arrays of vectors of different sizes and empty arrays, shifts into smaller vectors, shifts of the diagonal of matrices with more rows than columns, and the position after the last element are not refused; proved where the client avoids these")
P = "Zm.Stat."
c("C244", "partial", ns(P, "zVecListMeanVar_spec zVecListMeanCov_spec zVecListMeanVar_empty_violated zDataStandardDeviation_spec"), "violated: an empty list is not refused, the vector at its head is read; proved for lists that are not empty, with vectors of one size")
P = "Zm.NM."
c("C245", "proved", ns(P, "turn_moves expandLoop_line zOptSolveNM_affine"), "")
P = "Zm.Clus."
c("C246", "partial", ns(P, "meanSilhouette_spec maxSilhouette_partial maxSilhouette_after_partial maxSilhouette_violated clusterCreate_violated"), "violated: after samples are removed or added the largest silhouette is read outside of the array; a failing zVecClusterCreate releases a pointer that was never written; proved as long as the samples are those the silhouettes were computed from")
P = "Zm.SplinePrm."
c("C247", "partial", ns(P, "param_history_partial step_spec param_violated"), "violated: a clone or allocation over a parameter that holds knots loses them, and a copy between parameters without knots reads a null pointer; proved where the client avoids these and stays within the knots")
P = "Zm.ODE."
c("C248", "partial", ns(P, "momentum angular_momentum leap_displacement leap_constant_violated"), "violated: as it is started, the leapfrog method does not integrate constant acceleration exactly; the error is given for any number of steps; the conservation laws are proved in full")
