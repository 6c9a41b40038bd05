{
 "claims": [
  {
   "property": "C01",
   "status": "proved",
   "theorems": [
    "Zm.Misc.zPowN_eq",
    "Zm.Misc.zPermutation_eq",
    "Zm.Misc.zFactorial_eq",
    "Zm.Misc.zCombination_eq",
    "Zm.Misc.zCombination_out_of_range",
    "Zm.Misc.zCombinationRecursive_eq",
    "Zm.Misc.zCombinationRecursive_nan"
   ],
   "note": "exact arithmetic over an arbitrary field"
  },
  {
   "property": "C02",
   "status": "proved",
   "theorems": [
    "Zm.Misc.zCombinationSeries_correct"
   ],
   "note": ""
  },
  {
   "property": "C03",
   "status": "proved",
   "theorems": [
    "Zm.Misc.zEqual_iff",
    "Zm.Misc.zEqual_symm",
    "Zm.Misc.zEqual_refl",
    "Zm.Misc.zEqual_mono",
    "Zm.Misc.zEqual_not_transitive"
   ],
   "note": ""
  },
  {
   "property": "C04",
   "status": "proved",
   "theorems": [
    "Zm.Ieee.zIsInf_correct",
    "Zm.Ieee.zIsNan_correct",
    "Zm.Ieee.zIsFinite_correct",
    "Zm.Ieee.classification_exclusive",
    "Zm.Ieee.zIsInf_bigEndian_wrong"
   ],
   "note": "all 2^64 bit patterns, little-endian build; the big-endian build is shown wrong"
  },
  {
   "property": "C05",
   "status": "partial",
   "theorems": [
    "Zm.Misc.zLine_not_through",
    "Zm.Misc.zLine_through_iff_partial"
   ],
   "note": "the property is violated by the code; the violation and the exact set of inputs on which it holds are proved"
  },
  {
   "property": "C06",
   "status": "proved",
   "theorems": [
    "Zm.RawVec.zRawVecAdd_correct",
    "Zm.RawVec.zRawVecSub_correct",
    "Zm.RawVec.zRawVecRev_correct",
    "Zm.RawVec.zRawVecMul_correct",
    "Zm.RawVec.zRawVecDiv_correct",
    "Zm.RawVec.zRawVecAmp_correct",
    "Zm.RawVec.zRawVecDem_correct",
    "Zm.RawVec.zRawVecCat_correct",
    "Zm.RawVec.zRawVecInterDiv_correct",
    "Zm.RawVec.zRawVecMid_correct",
    "Zm.RawVec.zRawVecScale_correct",
    "Zm.RawVec.zRawVecScaleUniform_correct",
    "Zm.RawVec.zRawVecShift_correct",
    "Zm.RawVec.zRawVecAddDRC_correct",
    "Zm.RawVec.zRawVecSubDRC_correct",
    "Zm.RawVec.zRawVecRevDRC_correct",
    "Zm.RawVec.zRawVecMulDRC_correct",
    "Zm.RawVec.zRawVecDivDRC_correct",
    "Zm.RawVec.zRawVecAmpDRC_correct",
    "Zm.RawVec.zRawVecDemDRC_correct",
    "Zm.RawVec.zRawVecCatDRC_correct",
    "Zm.RawVec.zRawVecInterDivDRC_correct",
    "Zm.RawVec.zRawVecTouchup_correct",
    "Zm.RawVec.zRawVecSetAll_correct",
    "Zm.RawVec.zRawVecLinSpace_correct",
    "Zm.RawVec.zRawVecCopy_correct",
    "Zm.RawVec.zRawVecInnerProd_correct",
    "Zm.RawVec.zRawVecWSqrNorm_correct",
    "Zm.RawVec.zRawVecSqrDist_correct",
    "Zm.RawVec.zRawVecAdd_overlap_wrong",
    "Zm.RawVec.map2_nonpos"
   ],
   "note": "every size, every aliasing pattern in which the destination does not start strictly inside a source"
  },
  {
   "property": "C07",
   "status": "proved",
   "theorems": [
    "Zm.Vec.zVecAdd_checked",
    "Zm.Vec.zVecSub_checked",
    "Zm.Vec.zVecRev_checked",
    "Zm.Vec.zVecMul_checked",
    "Zm.Vec.zVecDiv_checked",
    "Zm.Vec.zVecAmp_checked",
    "Zm.Vec.zVecCat_checked",
    "Zm.Vec.zVecCopy_checked",
    "Zm.Vec.zVecInnerProd_checked",
    "Zm.Mat.zMatAdd_checked",
    "Zm.Mat.zMatSub_checked",
    "Zm.Mat.zMatDiv_checked",
    "Zm.Mat.zMulMatVec_checked",
    "Zm.Mat.zMulMatMat_checked"
   ],
   "note": ""
  },
  {
   "property": "C08",
   "status": "partial",
   "theorems": [
    "Zm.Vec.zVecSwap_undefined",
    "Zm.Vec.zVecGet_undefined",
    "Zm.Vec.zVecSwap_correct_partial",
    "Zm.Vec.zVecGet_correct_partial",
    "Zm.Vec.zVecPut_correct_partial"
   ],
   "note": "violated: index = size and negative indices/positions are not rejected; proved for the inputs in range"
  },
  {
   "property": "C09",
   "status": "proved",
   "theorems": [
    "Zm.RawMat.zRawMatTDRC_correct",
    "Zm.RawMat.zRawMatTDRC_involutive",
    "Zm.Mat.zMatTDRC_correct"
   ],
   "note": "termination of both inner loops is part of the theorem (fuel above the element count suffices)"
  },
  {
   "property": "C10",
   "status": "proved",
   "theorems": [
    "Zm.RawMat.zRawMatGet_correct",
    "Zm.RawMat.zRawMatPut_correct",
    "Zm.RawMat.zRawMatGetCol_correct",
    "Zm.RawMat.zRawMatPutCol_correct",
    "Zm.RawMat.zRawMatGetRow_correct",
    "Zm.RawMat.zRawMatPutRow_correct",
    "Zm.RawMat.zRawMatSwapRow_correct",
    "Zm.RawMat.zRawMatSwapCol_correct",
    "Zm.RawMat.zRawMatT_correct",
    "Zm.RawMat.zRawMatTGet_correct",
    "Zm.RawMat.zRawMatTPut_correct",
    "Zm.RawMat.zRawMatCopy_correct",
    "Zm.RawMat.zRawMat_put_get",
    "Zm.Mat.zMatGet_checked",
    "Zm.Mat.zMatPut_checked"
   ],
   "note": "non-negative positions"
  },
  {
   "property": "C11",
   "status": "proved",
   "theorems": [
    "Zm.RawMat.zRawMulMatVec_correct",
    "Zm.RawMat.zRawMulMatTVec_correct",
    "Zm.RawMat.zRawMulMatMat_correct",
    "Zm.RawMat.zRawMulMatMatT_correct",
    "Zm.RawMat.zRawMulMatTMat_correct",
    "Zm.RawMat.zRawVecDyad_correct",
    "Zm.RawMat.zRawMatAddDyad_correct",
    "Zm.RawMat.zRawMatSubDyad_correct",
    "Zm.RawMat.zRawMatCatDyad_correct",
    "Zm.RawMat.zRawMatTrace_correct",
    "Zm.RawMat.zRawMatSqrNorm_correct",
    "Zm.RawMat.zRawMatColInnerProd_correct",
    "Zm.RawMat.zRawMatRev_correct",
    "Zm.RawMat.zRawMatMul_correct",
    "Zm.RawMat.zRawMatDiv_correct",
    "Zm.RawMat.zRawMatAdd_correct",
    "Zm.RawMat.zRawMatSub_correct",
    "Zm.RawMat.zRawMatCat_correct",
    "Zm.RawMat.zRawMatMulDRC_correct",
    "Zm.RawMat.zRawMatAddDRC_correct",
    "Zm.RawMat.zRawMatSubDRC_correct",
    "Zm.RawMat.zRawMatCatDRC_correct"
   ],
   "note": ""
  },
  {
   "property": "C12",
   "status": "partial",
   "theorems": [
    "Zm.Mat.zMatInfNorm_wrong",
    "Zm.Mat.zMatInfNorm_partial"
   ],
   "note": "violated when column capacity exceeds column size; proved when they are equal"
  },
  {
   "property": "C13",
   "status": "partial",
   "theorems": [
    "Zm.Mat.zMulMatVecDRC_clobbers",
    "Zm.Mat.zMulMatVecDRC_partial",
    "Zm.Mat.zMatShift_partial",
    "Zm.Mat.zMatShift_tall_ub"
   ],
   "note": "violated: on a size mismatch zMulMatVecDRC zeroes its operand and reports success; the matching case is proved"
  },
  {
   "property": "C14",
   "status": "proved",
   "theorems": [
    "Zm.LE.zLESolveGauss_correct",
    "Zm.LE.zLESolveGauss_backward_error",
    "Zm.LE.gaussSolve_exact",
    "Zm.LE.gaussSolve_backward_error",
    "Zm.LE.gaussSolve_singular_fail",
    "Zm.LE.gaussSolve_singular",
    "Zm.LE.zLESolveGauss_iff",
    "Zm.LE.zMatPivoting_props"
   ],
   "note": "exact solution for a vanishing tolerance, backward error bounded by the tolerance otherwise"
  },
  {
   "property": "C15",
   "status": "partial",
   "theorems": [
    "Zm.LE.zLESolveL_correct",
    "Zm.LE.zLESolveU_correct_partial",
    "Zm.LE.zLESolveU_nonunit_wrong",
    "Zm.LE.zLESolveLU_correct",
    "Zm.LE.zMatDecompLU_zLESolveLU"
   ],
   "note": "violated by zLESolveU for upper-triangular matrices whose diagonal is not all ones; proved for unit upper-triangular ones, which is what the decomposition produces"
  },
  {
   "property": "C16",
   "status": "partial",
   "theorems": [
    "Zm.LE.zMatDecompLU_correct_partial",
    "Zm.LE.zMatDecompLU_nonsingular",
    "Zm.LE.zMatDecompLU_ok",
    "Zm.LE.zMatDecompLU_rank_deficient_wrong",
    "Zm.LE.zMatDecompLU_wide_ub"
   ],
   "note": "violated when a pivot is found right of the diagonal; proved when the pivots are in the leading columns, in particular for every non-singular square matrix"
  },
  {
   "property": "C17",
   "status": "proved",
   "theorems": [
    "Zm.LE.zMatDet_correct",
    "Zm.LE.zMatDet_nonzero",
    "Zm.LE.zMatDet_cases",
    "Zm.LE.zMatAdj_correct",
    "Zm.LE.zMatAdj_mul"
   ],
   "note": ""
  },
  {
   "property": "C18",
   "status": "partial",
   "theorems": [
    "Zm.LE.zMatInv_correct_partial",
    "Zm.LE.zMatInv_singular_wrong",
    "Zm.LE.zMulInvMatMat_correct",
    "Zm.LE.zMulInvMatMat_iff",
    "Zm.LE.zMulInvMatMatAndVec_correct"
   ],
   "note": "violated: zMatInv ignores the failure of the solver and returns the identity matrix as inverse of a singular matrix"
  },
  {
   "property": "C19",
   "status": "proved",
   "theorems": [
    "Zm.LE.zLETridiagSolve_correct",
    "Zm.LE.zLETridiagSolve_fail",
    "Zm.LE.zLETridiagSolve_last_pivot_unchecked",
    "Zm.LE.zLETridiagSolve_dominant"
   ],
   "note": "a zero pivot is refused in every row but the last, where it is divided by"
  },
  {
   "property": "C20",
   "status": "proved",
   "theorems": [
    "Zm.Pex.zPexVal_correct",
    "Zm.Pex.zPexCVal_correct",
    "Zm.Pex.zPexDifVal_correct"
   ],
   "note": ""
  },
  {
   "property": "C21",
   "status": "partial",
   "theorems": [
    "Zm.Pex.zPexAdd_correct_partial",
    "Zm.Pex.zPexAdd_zero_ub",
    "Zm.Pex.zPexSub_correct_partial",
    "Zm.Pex.zPexSub_self_ub",
    "Zm.Pex.zPexMul_correct_partial",
    "Zm.Pex.zPexMul_zero_ub",
    "Zm.Pex.zPexAddDRC_mismatch"
   ],
   "note": "violated when the result is the zero polynomial (out-of-bounds read); proved for all other results"
  },
  {
   "property": "C22",
   "status": "partial",
   "theorems": [
    "Zm.Pex.zPexDiv_correct_partial",
    "Zm.Pex.zPexDiv_exact_ub",
    "Zm.Pex.zPexDiv_rejects"
   ],
   "note": "violated for exact divisions (out-of-bounds read) and for constant divisors or dividends of smaller degree (rejected); proved otherwise"
  },
  {
   "property": "C23",
   "status": "partial",
   "theorems": [
    "Zm.Pex.zPexExp_correct_partial",
    "Zm.Pex.zPexExp_pow2_partial",
    "Zm.Pex.zPexExp_overlap_ub",
    "Zm.Pex.zPexExp_three_ub",
    "Zm.Pex.zPexExpIm_correct_partial"
   ],
   "note": "proved for an upward-copying memcpy; the C code calls memcpy on overlapping memory unless the number of factors is a power of two"
  },
  {
   "property": "C24",
   "status": "proved",
   "theorems": [
    "Zm.Pex.zPexDif_correct",
    "Zm.Pex.zPexDif_constant",
    "Zm.Pex.zPexIntg_correct",
    "Zm.Pex.zPexDif_zPexIntg"
   ],
   "note": ""
  },
  {
   "property": "C25",
   "status": "proved",
   "theorems": [
    "Zm.Pex.zPexModulo_correct",
    "Zm.Pex.zPexModulo_mismatch"
   ],
   "note": ""
  },
  {
   "property": "C26",
   "status": "partial",
   "theorems": [
    "Zm.Pex.zPexRgl_correct_partial",
    "Zm.Pex.zPexRgl_zero_ub"
   ],
   "note": "violated by the zero polynomial; proved for all others"
  },
  {
   "property": "C27",
   "status": "proved",
   "theorems": [
    "Zm.FFT.zFFT_correct",
    "Zm.FFT.zFFT2_correct",
    "Zm.FFT.zFFT_mismatch",
    "Zm.FFT.zFFT2_mismatch",
    "Zm.FFT.inner_spec",
    "Zm.FFT.radix_spec"
   ],
   "note": "one and two dimensions, every length; exact arithmetic with exact sine and cosine"
  },
  {
   "property": "C28",
   "status": "proved",
   "theorems": [
    "Zm.FFT.zFFT_roundtrip",
    "Zm.FFT.zFFT2_roundtrip",
    "Zm.FFT.zFFTInv_correct"
   ],
   "note": ""
  },
  {
   "property": "C29",
   "status": "proved",
   "theorems": [
    "Zm.IP.zIPDataSeg_spec",
    "Zm.IP.zIPDataSeg_bracket",
    "Zm.IP.zIPDataSeg_eq",
    "Zm.IP.zIPDataSeg_knot"
   ],
   "note": ""
  },
  {
   "property": "C30",
   "status": "proved",
   "theorems": [
    "Zm.IP.linCreate_spec",
    "Zm.IP.linVec_knot",
    "Zm.IP.linVec_between",
    "Zm.IP.linVec_mem",
    "Zm.IP.linVel_hasDerivAt"
   ],
   "note": ""
  },
  {
   "property": "C31",
   "status": "proved",
   "theorems": [
    "Zm.IP.lagVec_correct",
    "Zm.IP.lagVel_correct",
    "Zm.IP.lagAcc_correct",
    "Zm.IP.lagVec_knot",
    "Zm.IP.lagVec_unique"
   ],
   "note": ""
  },
  {
   "property": "C32",
   "status": "partial",
   "theorems": [
    "Zm.IP.spline_partial",
    "Zm.IP.splCreate_ok",
    "Zm.IP.splVec_knot",
    "Zm.IP.splVec_hasDerivAt",
    "Zm.IP.splVel_hasDerivAt",
    "Zm.IP.splCoeff_spec",
    "Zm.IP.zFergusonVal_spec",
    "Zm.IP.spl_free_end_acc",
    "Zm.IP.spl_free_end_violated",
    "Zm.IP.splSecAcc_interior",
    "Zm.IP.splSecAcc_last_violated",
    "Zm.IP.splCreate_two_free",
    "Zm.IP.splSecVel_knot"
   ],
   "note": "violated: a free terminal edge does not have vanishing second derivative, the reported acceleration at the last knot has wrong signs, and two knots with both edges free divide by zero; interpolation, continuity and the interior are proved"
  },
  {
   "property": "C33",
   "status": "partial",
   "theorems": [
    "Zm.IP.pchipModify_spec",
    "Zm.IP.hermite_vel_nonneg",
    "Zm.IP.pchipInit_spec",
    "Zm.IP.pchip_monotone_partial",
    "Zm.IP.pchip_antitone_partial",
    "Zm.IP.pchip_first_violated",
    "Zm.IP.pchip_last_violated"
   ],
   "note": "the edge slope rule is violated; monotonicity is proved"
  },
  {
   "property": "C34",
   "status": "partial",
   "theorems": [
    "Zm.IP.akima_partial",
    "Zm.IP.akCreate_interior",
    "Zm.IP.akima_line_violated",
    "Zm.IP.akima_edge_violated",
    "Zm.IP.akCreateMod_line_partial",
    "Zm.IP.akCreateMod_edge_violated"
   ],
   "note": "violated in the first and last segments; proved for the inner segments"
  },
  {
   "property": "C35",
   "status": "proved",
   "theorems": [
    "Zm.IP.pexBoundary_correct",
    "Zm.IP.pexBoundary_zero_term"
   ],
   "note": ""
  },
  {
   "property": "C36",
   "status": "partial",
   "theorems": [
    "Zm.IP.trvel_partial",
    "Zm.IP.trvel_hasDerivAt",
    "Zm.IP.trvel_short_violated",
    "Zm.IP.trvel_reverse_violated"
   ],
   "note": "violated when the distance is too short for the velocity change and for reverse velocities beyond the limit; proved for feasible distances"
  },
  {
   "property": "C37",
   "status": "proved",
   "theorems": [
    "Zm.NURBS.zBSplineParamKnotInit_spec",
    "Zm.NURBS.zBSplineParamKnotInit_knots",
    "Zm.NURBS.zBSplineParamKnotNormalize_spec",
    "Zm.NURBS.zBSplineParamKnotScale_spec",
    "Zm.NURBS.zBSplineParamSeg_spec",
    "Zm.NURBS.zBSplineParamSeg_degenerate_ub"
   ],
   "note": "knots of which the first and the last differ, as the property says; if all are equal the search leaves the array"
  },
  {
   "property": "C38",
   "status": "proved",
   "theorems": [
    "Zm.NURBS.basis_correct",
    "Zm.NURBS.basis_reads",
    "Zm.NURBS.basis_outside",
    "Zm.NURBS.basis_nonneg",
    "Zm.NURBS.basis_sum",
    "Zm.NURBS.basisDiff_hasDerivAt"
   ],
   "note": ""
  },
  {
   "property": "C39",
   "status": "proved",
   "theorems": [
    "Zm.NURBS.zNURBSVec_hull",
    "Zm.NURBS.zNURBSVec_convex",
    "Zm.NURBS.zNURBSVec_unit",
    "Zm.NURBS.zBSplineVec_hull",
    "Zm.NURBS.zNURBSVec_start",
    "Zm.NURBS.zNURBSVec_end",
    "Zm.NURBS.zNURBSVec_init_ends"
   ],
   "note": ""
  },
  {
   "property": "C40",
   "status": "proved",
   "theorems": [
    "Zm.Cont.zVecTreeNN_correct",
    "Zm.Cont.zVecTree_stores",
    "Zm.Cont.zVecTreeNN_empty_ub"
   ],
   "note": "trees that hold a point; the search in an empty tree follows a null pointer"
  },
  {
   "property": "C41",
   "status": "proved",
   "theorems": [
    "Zm.Cont.zVecListNN_correct",
    "Zm.Cont.zVecListNN_empty"
   ],
   "note": ""
  },
  {
   "property": "C42",
   "status": "proved",
   "theorems": [
    "Zm.Cont.zVecListRDP_correct",
    "Zm.Cont.zVecListRDP_single_ub",
    "Zm.Cont.zVecListRDP_negative_ub"
   ],
   "note": "every metric and every polyline of at least two points; one point makes the loop read the root cell"
  },
  {
   "property": "C43",
   "status": "proved",
   "theorems": [
    "Zm.Cont.zSeq_fifo",
    "Zm.Cont.zSeqDequeue_none",
    "Zm.Cont.zSeqJump_spec"
   ],
   "note": ""
  },
  {
   "property": "C44",
   "status": "proved",
   "theorems": [
    "Zm.Stat.zDataMax_spec",
    "Zm.Stat.zDataMin_spec",
    "Zm.Stat.zDataAbsMax_spec",
    "Zm.Stat.zDataAbsMin_spec",
    "Zm.Stat.zDataMinMax_spec"
   ],
   "note": ""
  },
  {
   "property": "C45",
   "status": "proved",
   "theorems": [
    "Zm.Stat.zDataSum_spec",
    "Zm.Stat.zDataMean_spec",
    "Zm.Stat.zDataVar_spec",
    "Zm.Stat.zDataVar_nonneg",
    "Zm.Stat.zData_shift",
    "Zm.Stat.zData_scale",
    "Zm.Stat.zVecListSum_spec",
    "Zm.Stat.zVecListMean_spec",
    "Zm.Stat.zVecListMean_empty",
    "Zm.Stat.zVecListVar_spec",
    "Zm.Stat.zVecListCov_spec",
    "Zm.Stat.zVecListCov_symm_trace",
    "Zm.Stat.zVecListMinMax_spec",
    "Zm.Stat.zDataIsIncluded_spec"
   ],
   "note": ""
  },
  {
   "property": "C46",
   "status": "partial",
   "theorems": [
    "Zm.Stat.zHistogramVote_spec",
    "Zm.Stat.zHistogramCreate_spec",
    "Zm.Stat.zHistogramCreateAuto_spec",
    "Zm.Stat.zHistogramCreateAuto_one_ub",
    "Zm.Stat.zHistogramCreateAuto_constant_ub",
    "Zm.Stat.zHistogramBin_limits",
    "Zm.Stat.zHistogramBinMax_last_violated",
    "Zm.Stat.zHistogramBinMid_spec",
    "Zm.Stat.zHistogramBinMid_last_violated"
   ],
   "note": "violated: the upper limit of the last bin is reported wrongly, one automatic bin and constant data divide by zero; counting is proved"
  },
  {
   "property": "C47",
   "status": "proved",
   "theorems": [
    "Zm.Graph.run_wf",
    "Zm.Graph.run_spec"
   ],
   "note": "every history; with an equality test that decides equality, the nodes and the arc costs are those of the specification"
  },
  {
   "property": "C48",
   "status": "partial",
   "theorems": [
    "Zm.Graph.zGraphSearchAStar_directed_partial",
    "Zm.Graph.zGraphSearchDijkstra_shortest_partial",
    "Zm.Graph.zGraphSearchAStar_shortest_partial",
    "Zm.Graph.run_undirected",
    "Zm.Graph.zGraphSearch_unreachable_violated",
    "Zm.Graph.zGraphSearch_same_violated",
    "Zm.Graph.zGraphSearch_directed_violated"
   ],
   "note": "violated: an unreachable goal makes the code follow a null pointer, and start = goal is an error; shortest paths are proved when a path exists and start differs from goal"
  },
  {
   "property": "C49",
   "status": "partial",
   "theorems": [
    "Zm.Parse.parse_correct_partial",
    "Zm.Parse.parse_print",
    "Zm.Parse.parse_sign_violated",
    "Zm.Parse.parse_run_violated",
    "Zm.Parse.parse_func_violated",
    "Zm.Parse.parse_nested_violated",
    "Zm.Parse.parse_dropped_violated"
   ],
   "note": "violated: a sign inside brackets makes the parser loop for ever, adjacent operator characters are a syntax error, and a function call that is not at the beginning of the text disturbs the priorities or is applied to less than its bracket; proved for all expressions with a sign or a function call, of any argument without one, at the beginning only"
  },
  {
   "property": "C50",
   "status": "partial",
   "theorems": [
    "Zm.OneD.zNLE_Bisec_bracketed",
    "Zm.OneD.zNLE_Bisec_continuous",
    "Zm.OneD.zNLE_Bisec_unbracketed_partial",
    "Zm.OneD.zNLE_Bisec_random_violated",
    "Zm.OneD.zNLE_RF_bracketed",
    "Zm.OneD.zNLE_Secant_root",
    "Zm.OneD.zNLE_VDB_bracketed"
   ],
   "note": "violated: when the ends do not bracket a root and the random search meets one, an end of the interval is returned instead; proved for every bracket"
  },
  {
   "property": "C51",
   "status": "proved",
   "theorems": [
    "Zm.OneD.zOptLineGoldenSection_min",
    "Zm.OneD.zOptLineTrisection_min"
   ],
   "note": "golden section with the exact ratio instead of its 15 decimals"
  },
  {
   "property": "C52",
   "status": "partial",
   "theorems": [
    "Zm.ODE.zODEUpdateEuler_order",
    "Zm.ODE.zODEUpdateHeun_order",
    "Zm.ODE.zODEUpdateRK4_order",
    "Zm.ODE.zODEUpdateRKG_order",
    "Zm.ODE.rkf45_order",
    "Zm.ODE.dp45_order",
    "Zm.ODE.ck45_order_partial",
    "Zm.ODE.ck45_order_violated",
    "Zm.ODE.HasOrder.exact",
    "Zm.ODE.HasOrder.linear",
    "Zm.ODE.zODEUpdateERK_accepted",
    "Zm.ODE.zODEUpdateERK_total",
    "Zm.ODE.zODEUpdateERK_exact",
    "Zm.ODE.zODEUpdateDC_exact"
   ],
   "note": "violated by Cash-Karp, whose rows of weights are exchanged: the accepted estimate is of order four; all the others are proved, with all conditions up to order five and adaptive steps"
  },
  {
   "property": "C53",
   "status": "proved",
   "theorems": [
    "Zm.ODE.adamsBashforth_exact",
    "Zm.ODE.adamsMoulton_exact",
    "Zm.ODE.zODEUpdateAdams_exact"
   ],
   "note": "every number of steps"
  },
  {
   "property": "C54",
   "status": "proved",
   "theorems": [
    "Zm.ODE.gear_formula",
    "Zm.ODE.zODEUpdateGear_exact",
    "Zm.ODE.zODEUpdateGear_hist"
   ],
   "note": "the six formulae the code has; the equation is solved by the nonlinear solver, which is not part of this claim"
  },
  {
   "property": "C55",
   "status": "partial",
   "theorems": [
    "Zm.ODE.zIntgRect_spec",
    "Zm.ODE.zIntgTR_spec",
    "Zm.ODE.trSum_affine",
    "Zm.ODE.zIntgQuad_exact_partial",
    "Zm.ODE.zIntgQuad_affine",
    "Zm.ODE.zIntgQuad_first_violated"
   ],
   "note": "violated by the first step of the quadratic integrator, which is a trapezoid; proved from the second step on and for the other integrators"
  },
  {
   "property": "C56",
   "status": "partial",
   "theorems": [
    "Zm.LP.pivot_spec",
    "Zm.LP.sweepC1_cost",
    "Zm.LP.zLPSolveSimplex_optimal_partial",
    "Zm.LP.zLPSolveSimplex_tol_partial",
    "Zm.LP.phase1_infeasible",
    "Zm.LP.zLPTableauSimplex_no_ub",
    "Zm.LP.zLPSolveSimplex_no_ub_partial",
    "Zm.LP.zLPSolveSimplex_redundant_violated",
    "Zm.LP.zLPSolveSimplex_square_violated",
    "Zm.LP.zLPSolveSimplex_negative_violated"
   ],
   "note": "violated by redundant constraints (the wrong right-hand side is kept), by square systems (the first element of an empty index is read) and by coefficients below the tolerance; proved for independent rows and exact comparisons, and the equations and the cost for comparisons with tolerance"
  },
  {
   "property": "C57",
   "status": "proved",
   "theorems": [
    "Zm.LP.zLPIneq2Std_correct",
    "Zm.LP.zLPUnb2Std_correct"
   ],
   "note": ""
  },
  {
   "property": "C58",
   "status": "partial",
   "theorems": [
    "Zm.LCP.zLCPSolveLemke_spec_partial",
    "Zm.LCP.zLCPSolveLemke_tol_partial",
    "Zm.LCP.zLCPSolveLemke_tol_violated"
   ],
   "note": "violated by coefficients below the tolerance, which do not take part in the choice of the pivot; the equations and complementarity are proved as the code stands, the signs for exact comparisons"
  },
  {
   "property": "C59",
   "status": "proved",
   "theorems": [
    "Zm.LCP.qp2lcp_optimal",
    "Zm.LCP.qp2lcp_spec",
    "Zm.LCP.zQPSolveLemke_spec_partial",
    "Zm.LCP.zQuadraticValue_spec"
   ],
   "note": "the claim is the first theorem, for every solution of the complementarity problem; the others add the solver"
  },
  {
   "property": "C60",
   "status": "partial",
   "theorems": [
    "Zm.Cplx.zComplexAdd_spec",
    "Zm.Cplx.zComplexSub_spec",
    "Zm.Cplx.zComplexRev_spec",
    "Zm.Cplx.zComplexConj_spec",
    "Zm.Cplx.zComplexMul_spec",
    "Zm.Cplx.zComplexDiv_spec",
    "Zm.Cplx.zComplexCMul_spec_partial",
    "Zm.Cplx.zComplexCMul_alias_violated",
    "Zm.Cplx.zComplexCMulDRC_spec",
    "Zm.Cplx.zComplexInv_spec",
    "Zm.Cplx.zComplexCDiv_spec_partial",
    "Zm.Cplx.zComplexCDivDRC_spec_partial",
    "Zm.Cplx.zComplexCDiv_small_violated",
    "Zm.Cplx.zComplex_polar",
    "Zm.Cplx.zComplexCPow_spec",
    "Zm.Cplx.zComplexPow_spec",
    "Zm.Cplx.zComplexPowRef_spec",
    "Zm.Cplx.zComplexLog_spec",
    "Zm.Cplx.zComplexCLog_spec",
    "Zm.Cplx.zComplexNormalize_spec",
    "Zm.Cplx.zComplexTouchup_spec"
   ],
   "note": "violated: products stored in an argument are wrong, and quotients by small non-zero numbers read an uninitialised variable; everything else is proved"
  },
  {
   "property": "C61",
   "status": "partial",
   "theorems": [
    "Zm.Cplx.zQESolve_spec_partial",
    "Zm.Cplx.zQESolve_refused",
    "Zm.Cplx.zQESolve_zero_violated"
   ],
   "note": "violated for b = c = 0, where zero is divided by zero; proved for all other coefficients"
  },
  {
   "property": "C62",
   "status": "proved",
   "theorems": [
    "Zm.Cplx.zCbrt_spec",
    "Zm.Cplx.zCESolve_spec",
    "Zm.Cplx.zCESolve_refused"
   ],
   "note": ""
  },
  {
   "property": "C63",
   "status": "proved",
   "theorems": [
    "Zm.Cplx.zCVecConjPair_ok",
    "Zm.Cplx.zCVecConjPair_complete",
    "Zm.Cplx.zCVecToReImVec_spec"
   ],
   "note": ""
  },
  {
   "property": "C64",
   "status": "partial",
   "theorems": [
    "Zm.RRT.extend_history",
    "Zm.RRT.zRRTFindPath_spec",
    "Zm.RRT.zRRTFindPathOpt_spec",
    "Zm.RRT.zRRTFindPathDual_spec",
    "Zm.RRT.zRRTFindPath_nocost_violated",
    "Zm.RRT.zRRTFindPathDual_meet_violated"
   ],
   "note": "the tree invariants and the path are proved for the three planners; violated: the path is not stored when the caller asks for no cost, and two trees that meet with a full step are not recognised"
  },
  {
   "property": "C65",
   "status": "partial",
   "theorems": [
    "Zm.RRT.zRRTShortcutPath_spec_partial",
    "Zm.RRT.zRRTShortcutPath_total",
    "Zm.RRT.shortcutCheck_free",
    "Zm.RRT.zRRTShortcutPath_cost_violated"
   ],
   "note": "violated: the cost misses the last edge when the last pair was not replaced"
  },
  {
   "property": "C66",
   "status": "proved",
   "theorems": [
    "Zm.GNG.zGNG_history",
    "Zm.GNG.zGNGUpdate_lifetime_violated"
   ],
   "note": "for lifetimes that are not negative, as the statement says; the last theorem shows that the restriction is needed; allocation does not fail and ages do not overflow"
  },
  {
   "property": "C67",
   "status": "proved",
   "theorems": [
    "Zm.RANSAC.zRANSAC_spec",
    "Zm.RANSAC.zRANSACSaveInlier_spec",
    "Zm.RANSAC.zRANSAC_few",
    "Zm.RANSAC.Kept.best"
   ],
   "note": "allocation does not fail; when no trial has an inlier the given model is kept"
  },
  {
   "property": "C68",
   "status": "partial",
   "theorems": [
    "Zm.Clus.recluster_spec",
    "Zm.Clus.initCluster_spec",
    "Zm.Clus.initPP_total",
    "Zm.Clus.zKMeans_spec_partial",
    "Zm.Clus.zKMeansKKZ_spec_partial",
    "Zm.Clus.zKMedoids_spec",
    "Zm.Clus.recluster_total",
    "Zm.Clus.zKMeans_zero_draw_violated",
    "Zm.Clus.zKMeans_coincident_violated",
    "Zm.Clus.zKMeansKKZ_coincident_violated"
   ],
   "note": "proved whenever the seeds are found and the roulette of K-means++ does not draw zero; violated by a zero draw (a point in two clusters) and by coincident points (undefined behaviour)"
  },
  {
   "property": "C69",
   "status": "partial",
   "theorems": [
    "Zm.GA.quickSort_spec",
    "Zm.GA.sort_spec",
    "Zm.GA.zOptGAReproduce_spec",
    "Zm.GA.zOptSolveGA_spec_partial",
    "Zm.GA.zOptGAReproduce_one_violated"
   ],
   "note": "proved for random numbers below one in the roulette; violated when the generator gives exactly one: the worst individuals are drawn and zero is divided by zero"
  },
  {
   "property": "C70",
   "status": "partial",
   "theorems": [
    "Zm.PSO.update_spec",
    "Zm.PSO.swarmUpdate_spec",
    "Zm.PSO.zOptSolvePSO_spec_partial",
    "Zm.PSO.zOptSolvePSO_value_violated"
   ],
   "note": "violated: the value reported is one turn older than the answer; the rest is proved"
  },
  {
   "property": "C71",
   "status": "proved",
   "theorems": [
    "Zm.NM.turn_spec",
    "Zm.NM.zOptSolveNM_spec",
    "Zm.NM.zOptSolveNM_total",
    "Zm.NM.pin_spec",
    "Zm.NM.srtEx_ok"
   ],
   "note": "the sort of ZEDA is assumed to sort; termination for objectives with finitely many values, as those of double are"
  },
  {
   "property": "C72",
   "status": "partial",
   "theorems": [
    "Zm.Eig.jacobiRot_spec",
    "Zm.Eig.zMatSymEigJacobi_correct",
    "Zm.Eig.zMatSymEigJacobi_exact",
    "Zm.Eig.zMatSymEigJacobi_violated_size1"
   ],
   "note": "proved for two or more rows; when the limit of sweeps is reached the function still reports success, which the bound of the theorem excludes; a matrix of one row is read out of bounds"
  },
  {
   "property": "C73",
   "status": "proved",
   "theorems": [
    "Zm.Rnd.zRandBinom_spec",
    "Zm.Rnd.zRandBinom_certain",
    "Zm.Rnd.zRandND0_pairs",
    "Zm.Rnd.zRandND0_radius"
   ],
   "note": "the generator of ZEDA is an arbitrary sequence"
  },
  {
   "property": "C74",
   "status": "proved",
   "theorems": [
    "Zm.Cont.zVecRingLinearSum_spec",
    "Zm.Cont.zVecRingCat_spec",
    "Zm.Cont.zVecRingCat_mismatch",
    "Zm.Cont.zVecRingFill_spec"
   ],
   "note": ""
  },
  {
   "property": "C75",
   "status": "partial",
   "theorems": [
    "Zm.IP.zClothoidXY_start_partial",
    "Zm.IP.zClothoidXY_start_violated"
   ],
   "note": "violated: the ordinate is offset by x0 instead of y0"
  },
  {
   "property": "C76",
   "status": "partial",
   "theorems": [
    "Zm.LE.zLESolveNormMin_correct",
    "Zm.LE.zLESolveNormMin_unweighted",
    "Zm.LE.zLESolveErrorMin_correct",
    "Zm.LE.zLESolveRefNormMin_correct",
    "Zm.LE.zLESolveSRBias_correct",
    "Zm.LE.zLESolveSRRef_correct",
    "Zm.LE.zLESolveSRAux_correct",
    "Zm.LE.zLESolveNormMin_weight_violated"
   ],
   "note": "proved without weights; the norm minimised by zLESolveNormMin and zLESolveRefNormMin has the reciprocals of the weights the header describes"
  },
  {
   "property": "C77",
   "status": "partial",
   "theorems": [
    "Zm.LE.zMatDecompLQ_spec",
    "Zm.LE.zMatDecompLQ_exact",
    "Zm.LE.zMatDecompQR_spec",
    "Zm.LE.householder_full",
    "Zm.LE.zMatDecompLQNull_spec_partial",
    "Zm.LE.zMatDecompLQ_null_violated",
    "Zm.LE.zMatDecompLQ_Householder_violated"
   ],
   "note": "proved of zMatDecompLQ and zMatDecompQR; Householder's method only when no row is skipped, violated otherwise; a null pointer for the triangular matrix, which the header allows, is dereferenced"
  },
  {
   "property": "C78",
   "status": "proved",
   "theorems": [
    "Zm.LE.sweepOut_correct",
    "Zm.LE.sweepOut_zero",
    "Zm.LE.sweepOut_rows"
   ],
   "note": ""
  },
  {
   "property": "C79",
   "status": "proved",
   "theorems": [
    "Zm.IP.chebCreate_knot",
    "Zm.IP.chebVec_correct",
    "Zm.IP.chebVel_correct",
    "Zm.IP.chebAcc_correct"
   ],
   "note": ""
  },
  {
   "property": "C80",
   "status": "proved",
   "theorems": [
    "Zm.IP.pexLSM_spec",
    "Zm.IP.pexLSM_optimal"
   ],
   "note": ""
  },
  {
   "property": "C81",
   "status": "partial",
   "theorems": [
    "Zm.IP.pexBoundaryLSM_partial",
    "Zm.IP.pexBoundaryLSM_violated"
   ],
   "note": "violated: terminal velocity and acceleration are not scaled by the term"
  },
  {
   "property": "C82",
   "status": "proved",
   "theorems": [
    "Zm.NURBS.zNURBSVecDiff_correct",
    "Zm.NURBS.zNURBSVecDiff_refused",
    "Zm.NURBS.zBSplineVecDiff_correct"
   ],
   "note": ""
  },
  {
   "property": "C83",
   "status": "partial",
   "theorems": [
    "Zm.Cont.zVecEdgeDist_line",
    "Zm.Cont.zVecEdgeDist_degenerate",
    "Zm.Cont.zVecEdgeDist_partial",
    "Zm.Cont.zVecEdgeDist_violated"
   ],
   "note": "violated: the value is the distance to the straight line, not to the edge; proved when the foot of the perpendicular is on the edge"
  },
  {
   "property": "C84",
   "status": "partial",
   "theorems": [
    "Zm.Cont.zVecProj_spec",
    "Zm.Cont.zVecOrthogonalize_spec",
    "Zm.Cont.zVecOrthogonalize_alias_violated",
    "Zm.Cont.zVecProj_zero_ub"
   ],
   "note": "violated when the result is stored in the argument; proved otherwise"
  },
  {
   "property": "C85",
   "status": "proved",
   "theorems": [
    "Zm.Stat.zDataPeak_spec"
   ],
   "note": ""
  },
  {
   "property": "C86",
   "status": "partial",
   "theorems": [
    "Zm.Stat.smoothSG_even_partial",
    "Zm.Stat.smoothSG_odd_violated"
   ],
   "note": "violated for odd window lengths, which read one value behind the data; proved for even lengths"
  },
  {
   "property": "C87",
   "status": "proved",
   "theorems": [
    "Zm.Stat.zBinDistrib_spec",
    "Zm.Stat.chi2CumEven_eq",
    "Zm.Stat.chi2CumEven_hasDerivAt"
   ],
   "note": ""
  },
  {
   "property": "C88",
   "status": "proved",
   "theorems": [
    "Zm.OneD.zOptLineBrent_safe"
   ],
   "note": ""
  },
  {
   "property": "C89",
   "status": "proved",
   "theorems": [
    "Zm.ODE.zODEUpdateBEuler_order",
    "Zm.ODE.zODEUpdateTR_order",
    "Zm.ODE.zODEUpdateGauss_order",
    "Zm.ODE.zODEUpdateRadau_order",
    "Zm.ODE.HasIOrder.exact"
   ],
   "note": "square root of three exact"
  },
  {
   "property": "C90",
   "status": "partial",
   "theorems": [
    "Zm.ODE.zODE2UpdateRegular_order",
    "Zm.ODE.zODE2UpdateSymplectic_invariant",
    "Zm.ODE.zODE2UpdateLeapfrog_constant_partial",
    "Zm.ODE.zODE2UpdateLeapfrog_start_violated"
   ],
   "note": "violated by the leapfrog method, which takes the initial velocity for the one half a step before"
  },
  {
   "property": "C91",
   "status": "partial",
   "theorems": [
    "Zm.Cplx.zCVecInnerProd_spec",
    "Zm.Cplx.zCVecSqrNorm_spec",
    "Zm.Cplx.zCVecCDiv_spec_partial",
    "Zm.Cplx.zCVecCDiv_small_violated"
   ],
   "note": "violated by small scalars: the failure of the inner division is ignored"
  },
  {
   "property": "C92",
   "status": "partial",
   "theorems": [
    "Zm.LP.zLPFeasibleBase_partial",
    "Zm.LP.phase1_infeasible",
    "Zm.LP.zLPFeasibleBase_violated"
   ],
   "note": "violated: an artificial variable that stays basic at zero is written outside the vector"
  },
  {
   "property": "C93",
   "status": "partial",
   "theorems": [
    "Zm.LCP.zCGSolve_descent_partial",
    "Zm.LCP.zCGSolve_violated"
   ],
   "note": "violated: the sign of the correction is wrong and two turns do not solve two equations; proved that the solver never divides by zero and never gets worse"
  },
  {
   "property": "C94",
   "status": "partial",
   "theorems": [
    "Zm.RRT.zRRTInit_default_violated",
    "Zm.RRT.metric_default"
   ],
   "note": "violated: the function used in place of a collision check reports a collision everywhere; the default metric and extension are as claimed"
  },
  {
   "property": "C95",
   "status": "proved",
   "theorems": [
    "Zm.RRT.zRRTEscape_spec"
   ],
   "note": ""
  },
  {
   "property": "C96",
   "status": "partial",
   "theorems": [
    "Zm.GA.zOptGAReproduce_spec",
    "Zm.GA.zOptGAReproduce_best_violated"
   ],
   "note": "violated: the best individual may mutate; proved when it survives without mutation"
  },
  {
   "property": "C97",
   "status": "partial",
   "theorems": [
    "Zm.Rnd.ranges",
    "Zm.Rnd.zRandTri_range",
    "Zm.Rnd.zRandExp_inverse",
    "Zm.Rnd.zRandWeibull_inverse",
    "Zm.Rnd.zRandPower_inverse",
    "Zm.Rnd.zRandGamma_accept",
    "Zm.Rnd.zRandBeta_spec",
    "Zm.Rnd.zRandFD_spec",
    "Zm.Rnd.zRandGamma_range",
    "Zm.Rnd.zRandChiSqr_range",
    "Zm.Rnd.zRandBeta_range",
    "Zm.Rnd.zRandFD_range",
    "Zm.Rnd.zRandPoisson_spec",
    "Zm.Rnd.zRandGeo_spec_partial",
    "Zm.Rnd.zRandGeo_violated",
    "Zm.Rnd.zRandND_spec"
   ],
   "note": "violated by the geometric variate, which is zero when the generator gives zero"
  },
  {
   "property": "C98",
   "status": "proved",
   "theorems": [
    "Zm.GNG.findProximity2_spec",
    "Zm.GNG.findPivot_spec",
    "Zm.GNG.findSeed_spec",
    "Zm.GNG.adapt_spec",
    "Zm.GNG.removeAged_spec",
    "Zm.GNG.grow_spec",
    "Zm.GNG.zGNGDestroy_spec"
   ],
   "note": ""
  },
  {
   "property": "C99",
   "status": "proved",
   "theorems": [
    "Zm.Clus.recluster_descent",
    "Zm.Clus.mean_minimises"
   ],
   "note": "medoids minimise over the points of the cluster only: see medoid_spec"
  },
  {
   "property": "C100",
   "status": "partial",
   "theorems": [
    "Zm.Clus.xMeans_partition",
    "Zm.Clus.xMeans_total",
    "Zm.Clus.xMeans_density_violated",
    "Zm.Clus.xMeans_crisp_violated"
   ],
   "note": "the partition is proved; the test of the density and the check for too crisp clusters have the opposite sense of what the caller takes them for"
  },
  {
   "property": "C101",
   "status": "proved",
   "theorems": [
    "Zm.Clus.silhouette_spec"
   ],
   "note": ""
  },
  {
   "property": "C102",
   "status": "partial",
   "theorems": [
    "Zm.LE.zLESolveMP_spec_partial",
    "Zm.LE.zLESolveMPAux_spec_partial",
    "Zm.LE.zLESolveMP_zero_violated"
   ],
   "note": "proved for matrices that are not zero; the zero matrix leaves the answer as it was; the norm has the reciprocals of the weights"
  },
  {
   "property": "C103",
   "status": "partial",
   "theorems": [
    "Zm.LE.mpNull_spec_partial",
    "Zm.LE.mpNull_sign_violated",
    "Zm.LE.mpNull_zero_violated"
   ],
   "note": "the matrix is the negative of the projector, and is left as it was by the zero matrix"
  },
  {
   "property": "C104",
   "status": "proved",
   "theorems": [
    "Zm.LE.zMatDecompLQ_rank"
   ],
   "note": ""
  },
  {
   "property": "C105",
   "status": "proved",
   "theorems": [
    "Zm.LE.zMatQuadNC_spec",
    "Zm.LE.zMatTQuadNC_spec",
    "Zm.LE.zMulMatMatMatTNC_spec",
    "Zm.LE.zMulMatTMatMatNC_spec"
   ],
   "note": ""
  },
  {
   "property": "C106",
   "status": "partial",
   "theorems": [
    "Zm.Eig.zMatSVD_correct_partial",
    "Zm.Eig.zMatSVD_exact",
    "Zm.Eig.zMatSVDSort_spec",
    "Zm.Eig.zMatSVD_violated_row"
   ],
   "note": "proved from exact eigenvectors of m m^T, which Jacobi's method delivers up to its tolerance; a matrix of one row is read out of bounds"
  },
  {
   "property": "C107",
   "status": "partial",
   "theorems": [
    "Zm.Eig.zMatToHessenberg_correct_partial",
    "Zm.Eig.hessCol_spec",
    "Zm.Eig.hessCol_stuck",
    "Zm.Eig.zMatToHessenberg_violated"
   ],
   "note": "proved without a tolerance; with it, a column whose squares are below the tolerance is reflected by a vector that is not normalised, again and again"
  },
  {
   "property": "C108",
   "status": "partial",
   "theorems": [
    "Zm.Eig.zMatEigPower_correct_partial",
    "Zm.Eig.zMatEigPower_violated_dominant",
    "Zm.Eig.zMatEigPower_rayleigh",
    "Zm.Eig.zMatEigPower_near",
    "Zm.Eig.zMatEigPower_stops",
    "Zm.Eig.zMatEigPower_violated_oscillates"
   ],
   "note": "the eigenequation is proved when the iteration stops by its test, and that it stops for a symmetric matrix with one dominant eigenvalue and an initial vector with a part along it; the value need not be dominant, and with eigenvalues of opposite signs the method delivers a number that is no eigenvalue"
  },
  {
   "property": "C109",
   "status": "partial",
   "theorems": [
    "Zm.Eig.bisecRange_violated",
    "Zm.Eig.dqrHouseholder_violated",
    "Zm.Eig.dqrLoop_violated",
    "Zm.Eig.dqrLoop_two_partial"
   ],
   "note": "violated for every matrix by the bisection, and by the double QR method for three and more rows"
  },
  {
   "property": "C110",
   "status": "partial",
   "theorems": [
    "Zm.LE.zMatDecompCholesky_correct",
    "Zm.LE.zMatDecompCholesky_refuses",
    "Zm.LE.zMatDecompCholesky_definite",
    "Zm.LE.zMatDecompCholesky_full_rank",
    "Zm.LE.zMatDecompCholesky_definite_iff",
    "Zm.LE.zMatDecompCholesky_indefinite_violated"
   ],
   "note": "proved of positive semidefinite matrices; an indefinite matrix with a zero diagonal is accepted with the rank zero"
  },
  {
   "property": "C111",
   "status": "proved",
   "theorems": [
    "Zm.LE.zLESolveLURI_correct",
    "Zm.LE.zLESolveLURI_residuals"
   ],
   "note": ""
  },
  {
   "property": "C112",
   "status": "partial",
   "theorems": [
    "Zm.LE.zLESolveGaussSeidel_residual",
    "Zm.LE.zLESolveGaussSeidel_exact",
    "Zm.LE.zLESolveGaussSeidel_diag_violated",
    "Zm.LE.zLESolveGaussSeidel_limit_violated"
   ],
   "note": "proved if the iteration stops by its test; it divides by a zero diagonal, and returns the last vector when the limit of iterations is reached"
  },
  {
   "property": "C113",
   "status": "proved",
   "theorems": [
    "Zm.LE.zLELyapnovSolve_correct",
    "Zm.LE.zLELyapnovSolve_regular_violated"
   ],
   "note": "the header names singular A as the reason of failure; it is the singularity of the operator"
  },
  {
   "property": "C114",
   "status": "partial",
   "theorems": [
    "Zm.LE.zMulMatInvMat_partial",
    "Zm.LE.zMulMatInvMat_refuse_violated",
    "Zm.LE.zMulMatInvMat_accept_violated"
   ],
   "note": "proved of square m1; the size test compares the rows of m1 instead of its columns"
  },
  {
   "property": "C115",
   "status": "partial",
   "theorems": [
    "Zm.LE.zMatInvHotelling_partial",
    "Zm.LE.zMatInvHotelling_exact",
    "Zm.LE.zMatInvHotelling_singular",
    "Zm.LE.zMatInvHotelling_converges",
    "Zm.LE.zMatInvHotelling_violated"
   ],
   "note": "the matrix before the one that has passed the test is returned, so that only the square of the residual is within the tolerance; a singular matrix ends at the limit of iterations and is returned as if it were inverted"
  },
  {
   "property": "C116",
   "status": "partial",
   "theorems": [
    "Zm.LE.zMatMPInv_partial",
    "Zm.LE.zMatMPInvNull_partial",
    "Zm.LE.zMulMPInvMatMat_partial",
    "Zm.LE.zMatMPInv_zero_violated"
   ],
   "note": "proved of every matrix but zero, whose inverse (zero) is not stored; the projector has the opposite sign"
  },
  {
   "property": "C117",
   "status": "partial",
   "theorems": [
    "Zm.LE.zMatMPInvPenrose_pinv",
    "Zm.LE.zMatMPInvPenrose_partial",
    "Zm.LE.zMatMPInvPenrose_zero_violated"
   ],
   "note": "proved of every matrix but zero, for which zero is divided by zero; in exact arithmetic the loop ends after as many turns as the rank"
  },
  {
   "property": "C118",
   "status": "partial",
   "theorems": [
    "Zm.LE.zLESolveMP_SVD_eig",
    "Zm.LE.zLESolveMP_SVD_partial",
    "Zm.LE.zLESolveMP_SVD_row_violated"
   ],
   "note": "proved from exact eigenvectors; a matrix of one row is read out of bounds"
  },
  {
   "property": "C119",
   "status": "partial",
   "theorems": [
    "Zm.Mva.zVecListPCA_partial",
    "Zm.Mva.zVecListPCA_jacobi_partial",
    "Zm.Mva.zVecListPCA_violated"
   ],
   "note": "proved from an exact eigensystem but for the order of the scores and the number returned, which is an index"
  },
  {
   "property": "C120",
   "status": "partial",
   "theorems": [
    "Zm.Mva.zVecListGenRandND_partial",
    "Zm.Mva.zVecListGenRandND_zero_violated",
    "Zm.Mva.zVecListGenRandND_indefinite_violated"
   ],
   "note": "proved of every covariance matrix but zero; a matrix that is no covariance is not refused"
  },
  {
   "property": "C121",
   "status": "partial",
   "theorems": [
    "Zm.SF.zErfN_error",
    "Zm.SF.zErfN_tendsto",
    "Zm.SF.erf_abs_le_one",
    "Zm.SF.normalCDF_eq",
    "Zm.SF.zErf_partial",
    "Zm.SF.zCDF_partial",
    "Zm.SF.zErf_violated",
    "Zm.SF.zErf_doc_violated"
   ],
   "note": "up to 10^-20 on [-2,2] and 10^-8 on [-3,3]; the 36 terms diverge from the function for large arguments (below -10^28 at 10), and the header states another lower limit of the integral"
  },
  {
   "property": "C122",
   "status": "proved",
   "theorems": [
    "Zm.SF.zFresnelIntgPI_2_accurate",
    "Zm.SF.zFresnelIntgScale_accurate",
    "Zm.SF.zFresnelIntg_accurate",
    "Zm.SF.zFresnelIntgGen_accurate",
    "Zm.SF.zFresnelIntgGen_linear",
    "Zm.SF.zFresnelIntgLentz_accurate",
    "Zm.SF.zFresnelIntgPI_2_series",
    "Zm.SF.zFresnelIntgScale_series",
    "Zm.SF.zFresnelIntg_series",
    "Zm.SF.zFresnelIntgScale_error",
    "Zm.SF.zFresnelIntgGen_error"
   ],
   "note": "5 10^-11 for the integrals of pi/2 t^2, scaled for the others; 10^-12 |x| where the series is used; the continued fraction ends in at most 161 turns"
  },
  {
   "property": "C123",
   "status": "proved",
   "theorems": [
    "Zm.SF.zLnGamma_error",
    "Zm.SF.zGamma_error",
    "Zm.SF.zBeta_error"
   ],
   "note": "relative error below 3 10^-9 (10^-8 for the beta function) for all positive arguments"
  },
  {
   "property": "C124",
   "status": "proved",
   "theorems": [
    "Zm.SF.zFourierVal_spec",
    "Zm.SF.zFourierVel_deriv",
    "Zm.SF.zFourierAcc_deriv",
    "Zm.SF.zFourier_periodic",
    "Zm.SF.zFourierSet_spec"
   ],
   "note": ""
  },
  {
   "property": "C125",
   "status": "partial",
   "theorems": [
    "Zm.SF.zOscCreateVDP_spec",
    "Zm.SF.VDP.init_partial",
    "Zm.SF.VDP.init_violated",
    "Zm.SF.VDP.update_spec",
    "Zm.SF.VDP.energy_run",
    "Zm.SF.VDP.bounded"
   ],
   "note": "an amplitude of zero is accepted, and then divided by"
  },
  {
   "property": "C126",
   "status": "proved",
   "theorems": [
    "Zm.SF.Kura.init_spec",
    "Zm.SF.Kura.run_bound",
    "Zm.SF.Kura.entrained"
   ],
   "note": ""
  },
  {
   "property": "C127",
   "status": "proved",
   "theorems": [
    "Zm.SF.zSSSolve_spec",
    "Zm.SF.zSSSolve_contraction"
   ],
   "note": ""
  },
  {
   "property": "C128",
   "status": "partial",
   "theorems": [
    "Zm.PexEq.bhDelta_newton",
    "Zm.PexEq.Deflated.exact",
    "Zm.PexEq.zPexBH_partial",
    "Zm.PexEq.zPexBH_refused",
    "Zm.PexEq.zPexBH_square_violated",
    "Zm.PexEq.zPexBH_singular_violated"
   ],
   "note": "proved for calls that end without a warning; x^2 = 0 and singular first steps divide by zero"
  },
  {
   "property": "C129",
   "status": "partial",
   "theorems": [
    "Zm.PexEq.zPexDKA_partial",
    "Zm.PexEq.dkaInit_spec",
    "Zm.PexEq.dkaStep_spec",
    "Zm.PexEq.dkaStep_vieta",
    "Zm.PexEq.dkaStep_converges",
    "Zm.PexEq.dkaLoop_converges",
    "Zm.PexEq.zPexDKA_close_violated"
   ],
   "note": "convergence is proved near simple roots; approximations as close as 10^-6 make the code read a variable without a value"
  },
  {
   "property": "C130",
   "status": "partial",
   "theorems": [
    "Zm.OptDM.zOptDMSolve_partial",
    "Zm.OptDM.stepNoc_ok",
    "Zm.OptDM.stepDS_ok",
    "Zm.OptDM.stepMT_ok",
    "Zm.OptDM.stepBrent_ok",
    "Zm.OptDM.zOptDMSolve_plain",
    "Zm.OptDM.zOptDMSolve_default_violated",
    "Zm.OptDM.zOptDMSolve_value_violated"
   ],
   "note": "proved with a line search; without one, as created, the solver ascends by one step and reports success; the value reported belongs to the point before"
  },
  {
   "property": "C131",
   "status": "partial",
   "theorems": [
    "Zm.OptDM.stepNoc_descends",
    "Zm.OptDM.zOptDMSolve_SD_descends",
    "Zm.OptDM.zOptDMSolve_VM_descends",
    "Zm.OptDM.zOptDMSolve_SD_succeeds",
    "Zm.OptDM.zOptDMSolve_DS_violated"
   ],
   "note": "proved of steepest descent and variable metrics with Nocedal's line search; the default solver ascends (C130), and so does the search of Dennis and Schnabel on steep functions"
  },
  {
   "property": "C132",
   "status": "partial",
   "theorems": [
    "Zm.OptDM.updateBFGS_spec",
    "Zm.OptDM.updateDFP_spec",
    "Zm.OptDM.bfgs_secant",
    "Zm.OptDM.bfgs_posDef",
    "Zm.OptDM.updateDFP_violated"
   ],
   "note": "both are the update of Broyden, Fletcher, Goldfarb and Shanno; that of Davidon, Fletcher and Powell differs"
  },
  {
   "property": "C133",
   "status": "proved",
   "theorems": [
    "Zm.OptDM.gradNG_spec",
    "Zm.OptDM.hessNG_spec",
    "Zm.OptDM.gradNG_quadratic",
    "Zm.OptDM.hessNG_affine"
   ],
   "note": ""
  },
  {
   "property": "C134",
   "status": "partial",
   "theorems": [
    "Zm.OptDM.vecLM_direction",
    "Zm.OptDM.zOptDMSolve_LM_violated",
    "Zm.OptDM.stepNoc_LM_intact"
   ],
   "note": "the direction is right but the elimination destroys the gradient that the line search reads"
  },
  {
   "property": "C135",
   "status": "partial",
   "theorems": [
    "Zm.NLE.solveNR_success",
    "Zm.NLE.solveBroyden_success",
    "Zm.NLE.solveDM_violated",
    "Zm.OptDM.zOptDMSolve_partial"
   ],
   "note": "proved of Newton-Raphson's and Broyden's method; the descent methods report success at every stationary point of the squared error (x^2 + 1 = 0 is solved by 0)"
  },
  {
   "property": "C136",
   "status": "proved",
   "theorems": [
    "Zm.NLE.nrDirection_spec",
    "Zm.NLE.solveNR_affine",
    "Zm.NLE.solveNR_affine_succeeds"
   ],
   "note": "with the Jacobian matrix given"
  },
  {
   "property": "C137",
   "status": "partial",
   "theorems": [
    "Zm.NLE.broydenDirection_spec",
    "Zm.NLE.broydenUpdate_spec",
    "Zm.NLE.broyden_secant_partial",
    "Zm.NLE.solveBroyden_affine",
    "Zm.NLE.broyden_secant_violated"
   ],
   "note": "the secant equation fails after a shortened step"
  },
  {
   "property": "C138",
   "status": "partial",
   "theorems": [
    "Zm.NLE.jacNG_partial",
    "Zm.NLE.jacNG_square",
    "Zm.NLE.jacNG_overflow_violated",
    "Zm.NLE.solveNR_numeric_violated"
   ],
   "note": "right for one variable only: square matrices are transposed, and with more variables than equations memory is overrun"
  },
  {
   "property": "C139",
   "status": "proved",
   "theorems": [
    "Zm.NLE.descent_grad_deriv",
    "Zm.NLE.descent_hess",
    "Zm.NLE.descent_taylor"
   ],
   "note": ""
  },
  {
   "property": "C140",
   "status": "partial",
   "theorems": [
    "Zm.Direct.zOptSolveDIRECT_best_partial",
    "Zm.Direct.zOptSolveDIRECT_ends",
    "Zm.Direct.zOptSolveDIRECT_violated",
    "Zm.Direct.zOptSolveDIRECT_worse_violated"
   ],
   "note": "when the iterations run out the answer is taken from the list of a region that has been divided: in one dimension, after one iteration, the data of the root cell of an empty list are read; in two, the answer is worse than the centre"
  },
  {
   "property": "C141",
   "status": "proved",
   "theorems": [
    "Zm.Direct.zOptSolveDIRECT_tiling",
    "Zm.Direct.zOptSolveDIRECT_evaluations",
    "Zm.Direct.patterns_sorted"
   ],
   "note": ""
  },
  {
   "property": "C142",
   "status": "proved",
   "theorems": [
    "Zm.Direct.zOptSolveDIRECT_potentially_optimal"
   ],
   "note": ""
  },
  {
   "property": "C143",
   "status": "proved",
   "theorems": [
    "Zm.QPASM.zQPSolveASM_optimal",
    "Zm.QPASM.zQPSolveASM_optimal_posDef",
    "Zm.QPASM.kkt",
    "Zm.QPASM.initBase_inv"
   ],
   "note": ""
  },
  {
   "property": "C144",
   "status": "partial",
   "theorems": [
    "Zm.QPASM.zQPSolveASM_no_ub_partial",
    "Zm.QPASM.zQPSolveASM_overflow_violated",
    "Zm.QPASM.zQPSolveASM_halfplane_violated"
   ],
   "note": "proved of at least as many constraints as variables; with fewer, every problem whose first point is found overruns the heap block of one number per constraint"
  },
  {
   "property": "C145",
   "status": "partial",
   "theorems": [
    "Zm.QPASM.innerLoop_spec",
    "Zm.QPASM.zQPSolveASM_endless_violated"
   ],
   "note": "the inner loop ends; the outer loop goes round for ever on a problem of three variables and four constraints through the origin"
  },
  {
   "property": "C146",
   "status": "proved",
   "theorems": [
    "Zm.QPASM.zQPSolveASM_refuses"
   ],
   "note": ""
  },
  {
   "property": "C147",
   "status": "proved",
   "theorems": [
    "Zm.PDIP.eqLU_newton",
    "Zm.PDIP.luDecomp_full"
   ],
   "note": ""
  },
  {
   "property": "C148",
   "status": "partial",
   "theorems": [
    "Zm.PDIP.step_spec",
    "Zm.PDIP.damped_pos",
    "Zm.PDIP.turn_spec",
    "Zm.PDIP.loop_spec",
    "Zm.PDIP.zLPSolvePDIP_PC_residuals_partial"
   ],
   "note": "proved with exact comparisons inside of the iteration and independent constraints; the tolerance in the comparisons of the code can make an element negative by as much as the tolerance"
  },
  {
   "property": "C149",
   "status": "partial",
   "theorems": [
    "Zm.PDIP.zLPSolvePDIP_PC_optimal_partial",
    "Zm.PDIP.NearOptimal.cost",
    "Zm.PDIP.zLPSolvePDIP_PC_suboptimal_violated",
    "Zm.PDIP.zLPSolvePDIP_PC_infeasible_violated",
    "Zm.PDIP.zLPSolvePDIP_PC_unbounded_violated"
   ],
   "note": "proved if the loop ends by the test of the residuals; if both steps are tiny the solver returns true with points that are not optimal, and for problems without feasible points or without a bound"
  },
  {
   "property": "C150",
   "status": "partial",
   "theorems": [
    "Zm.LCPIP.turn_spec",
    "Zm.LCPIP.turn_ok",
    "Zm.LCPIP.pred_spec",
    "Zm.LCPIP.corr_spec",
    "Zm.LCPIP.pred_near",
    "Zm.LCPIP.corr_near",
    "Zm.LCPIP.ini_near",
    "Zm.LCPIP.loop_spec"
   ],
   "note": "proved with exact elimination for the turns in which the inner product k2 is positive"
  },
  {
   "property": "C151",
   "status": "partial",
   "theorems": [
    "Zm.LCPIP.stepLen_pos",
    "Zm.LCPIP.stepLen_neg_violated",
    "Zm.LCPIP.zLCPSolveIP_leaves_violated"
   ],
   "note": "proved for a positive inner product k2; for every negative k2 the step is refused or greater than one"
  },
  {
   "property": "C152",
   "status": "partial",
   "theorems": [
    "Zm.LCPIP.zLCPSolveIP_solution_partial",
    "Zm.LCPIP.zLCPSolveIP_refuses_violated"
   ],
   "note": "proved for runs in which k2 is always positive and which end by the test; a problem with one unknown and an obvious solution is refused"
  },
  {
   "property": "C153",
   "status": "partial",
   "theorems": [
    "Zm.CMat.zCMatAdd_checked",
    "Zm.CMat.zCMatSub_checked",
    "Zm.CMat.zCMatRev_checked",
    "Zm.CMat.zCMatMul_checked",
    "Zm.CMat.zCMatDiv_checked",
    "Zm.CMat.zCMatCopy_checked",
    "Zm.CMat.zCMatZero_spec",
    "Zm.CMat.zCMatTouchup_spec",
    "Zm.CMat.zMatToCMat_spec_partial",
    "Zm.CMat.zMatToCMat_size_violated"
   ],
   "note": "proved; only zMatToCMat does not compare the sizes and writes beyond the end of a smaller matrix"
  },
  {
   "property": "C154",
   "status": "partial",
   "theorems": [
    "Zm.CMat.zCMatCMul_checked_partial",
    "Zm.CMat.zCMatCMul_inplace",
    "Zm.CMat.zCMatCMul_inplace_violated",
    "Zm.CMat.zCMatCDiv_checked_partial",
    "Zm.CMat.zCMatCDiv_small_violated"
   ],
   "note": "violated in place, where the imaginary part is computed from the new real part, and by divisors between the two tolerances, by whose conjugates the elements are multiplied; proved otherwise"
  },
  {
   "property": "C155",
   "status": "partial",
   "theorems": [
    "Zm.CMat.zCMatGetRow_checked_partial",
    "Zm.CMat.zCMatPutRow_checked_partial",
    "Zm.CMat.zCMatGetCol_checked_partial",
    "Zm.CMat.zCMatPutCol_checked_partial",
    "Zm.CMat.zCMatGetRow_negative_violated",
    "Zm.CMat.zCMulMatVec_checked_partial",
    "Zm.CMat.zCMulMatVec_inplace_violated"
   ],
   "note": "violated by negative indices, which are not refused, and by products in place; proved otherwise"
  },
  {
   "property": "C156",
   "status": "proved",
   "theorems": [
    "Zm.MD.problem_spec",
    "Zm.MD.addAll_spec",
    "Zm.MD.addConstraint_spec"
   ],
   "note": "for a tolerance of zero, as an equivalence between the constraints of the user and the kept lines and interval"
  },
  {
   "property": "C157",
   "status": "partial",
   "theorems": [
    "Zm.MD.zLPMegiddoDyerSolveDirect_correct_partial",
    "Zm.MD.direct_within_tol",
    "Zm.MD.zLPMegiddoDyerSolveDirect_tol_violated"
   ],
   "note": "proved for a tolerance of zero; with the tolerance of the library a returned point satisfies the kept constraints within it, and a problem without admissible points can be reported as solved"
  },
  {
   "property": "C158",
   "status": "partial",
   "theorems": [
    "Zm.MD.zLPMegiddoDyerSolve_correct_partial",
    "Zm.MD.zLPMegiddoDyerSolve_small_partial",
    "Zm.MD.zLPMegiddoDyerSolve_vertical_violated",
    "Zm.MD.zLPMegiddoDyerSolve_extend_violated"
   ],
   "note": "proved, for a tolerance of zero and any median, when no constraint is on the first variable alone or at most four are not; violated otherwise, and when constraints are added after a call"
  },
  {
   "property": "C159",
   "status": "partial",
   "theorems": [
    "Zm.MD.zLPMegiddoDyerSolveDirect_infinite_partial",
    "Zm.MD.zLPMegiddoDyerSolveDirect_infinite_violated"
   ],
   "note": "proved when the constraints on the first variable alone come first; violated when they come last, where a problem with exactly one optimum is refused"
  },
  {
   "property": "C160",
   "status": "proved",
   "theorems": [
    "Zm.GMM.emStep_ok",
    "Zm.GMM.emLoop_ok",
    "Zm.GMM.gamma_nonneg",
    "Zm.GMM.gamma_sum",
    "Zm.GMM.nks_sum",
    "Zm.GMM.estimAll_ok"
   ],
   "note": "for any tolerance and also when covariances are singular"
  },
  {
   "property": "C161",
   "status": "proved",
   "theorems": [
    "Zm.GMM.estim_spec",
    "Zm.GMM.loadedMean_eq",
    "Zm.GMM.loadedCov_eq",
    "Zm.GMM.loadedCov_psd",
    "Zm.GMM.maximizeUnit_det_nonneg",
    "Zm.GMM.maximizeUnit_regular"
   ],
   "note": "the mean and the covariance are divided by the total responsibility when this is above the tolerance"
  },
  {
   "property": "C162",
   "status": "partial",
   "theorems": [
    "Zm.GMM.em_monotone",
    "Zm.GMM.emStep_monotone",
    "Zm.GMM.turns_monotone",
    "Zm.GMM.em_1d",
    "Zm.GMM.zGMMCreateEM_1d",
    "Zm.GMM.zGMMCreateEM_spec_partial",
    "Zm.GMM.zGMMCreateEM_empty_violated",
    "Zm.GMM.zGMMCreateEM_small_violated"
   ],
   "note": "proved while no covariance is singular, which in one dimension and exact arithmetic is always so; violated for an empty cluster and for data so small that determinants are below the tolerance"
  },
  {
   "property": "C163",
   "status": "proved",
   "theorems": [
    "Zm.GMM.emStep_one",
    "Zm.GMM.emStep_one_optimal"
   ],
   "note": "after any turn, in any dimension, when the covariance of the points is not singular"
  },
  {
   "property": "C164",
   "status": "partial",
   "theorems": [
    "Zm.GMM.zGMMAIC_partial",
    "Zm.GMM.zGMMBIC_partial",
    "Zm.GMM.zGMMAIC_violated",
    "Zm.GMM.zGMMBIC_violated",
    "Zm.GMM.zGMMAIC_choice_violated"
   ],
   "note": "only the means are counted; the criteria are too small and prefer too many Gaussians"
  },
  {
   "property": "C165",
   "status": "proved",
   "theorems": [
    "Zm.Bessel.zBesselJ0_ok",
    "Zm.Bessel.zBesselJ1_ok",
    "Zm.Bessel.zBesselY0_ok",
    "Zm.Bessel.zBesselY1_ok",
    "Zm.Bessel.zBesselI0_ok",
    "Zm.Bessel.zBesselI1_ok",
    "Zm.Bessel.zBesselK0_ok",
    "Zm.Bessel.zBesselK1_ok"
   ],
   "note": "in exact arithmetic; NaN as the argument is converted to an integer, which is undefined"
  },
  {
   "property": "C166",
   "status": "partial",
   "theorems": [
    "Zm.Bessel.zBesselJ0_accurate_partial",
    "Zm.Bessel.zBesselJ1_accurate_partial",
    "Zm.Bessel.zBesselJ_accurate_partial",
    "Zm.Bessel.J_recurrence",
    "Zm.Bessel.J_zero"
   ],
   "note": "proved for arguments below 12.5 in magnitude, and for orders below the argument with 5/2 times the error for every order; missing: the asymptotic branch from 12.5 on, and Miller's method"
  },
  {
   "property": "C167",
   "status": "partial",
   "theorems": [
    "Zm.Bessel.zBesselI0_accurate_partial",
    "Zm.Bessel.zBesselI1_accurate_partial",
    "Zm.Bessel.zBesselI_error_partial",
    "Zm.Bessel.zBesselI_accurate_partial",
    "Zm.Bessel.miller_error",
    "Zm.Bessel.miller_bound",
    "Zm.Bessel.I_recurrence",
    "Zm.Bessel.zBesselI_large_violated"
   ],
   "note": "orders 0 and 1 for arguments below 12.5 in magnitude; all higher orders for arguments up to 8 (3e-14), and below 12.5 with an explicit error of Miller's method; violated for large arguments"
  },
  {
   "property": "C168",
   "status": "proved",
   "theorems": [
    "Zm.Bessel.zBesselJ0_even",
    "Zm.Bessel.zBesselI0_even",
    "Zm.Bessel.zBesselJ1_odd",
    "Zm.Bessel.zBesselI1_odd",
    "Zm.Bessel.zBesselJ_parity",
    "Zm.Bessel.zBesselI_parity",
    "Zm.Bessel.zBesselJ_upward",
    "Zm.Bessel.zBesselJ_recurrence",
    "Zm.Bessel.zBesselY_upward",
    "Zm.Bessel.zBesselY_recurrence",
    "Zm.Bessel.zBesselK_upward",
    "Zm.Bessel.zBesselK_recurrence"
   ],
   "note": ""
  },
  {
   "property": "C169",
   "status": "partial",
   "theorems": [
    "Zm.Bessel.zBesselJ_miller",
    "Zm.Bessel.zBesselI_miller",
    "Zm.Bessel.I_lt",
    "Zm.Bessel.zBesselI_large_violated"
   ],
   "note": "the method is proved; the order where it begins does not depend on the argument, so that zBesselI grows from order 3 to order 5 at 300"
  },
  {
   "property": "C170",
   "status": "proved",
   "theorems": [
    "Zm.Mat.zMatCopy_checked",
    "Zm.Mat.zMatRev_checked",
    "Zm.Mat.zMatMul_checked",
    "Zm.Mat.zMatCat_checked",
    "Zm.Mat.zMatT_checked",
    "Zm.Mat.zMatTGet_checked",
    "Zm.Mat.zMatTPut_checked"
   ],
   "note": "positions of zMatTGet and zMatTPut are not negative"
  },
  {
   "property": "C171",
   "status": "proved",
   "theorems": [
    "Zm.Mat.zMatIdent_checked",
    "Zm.Mat.zMatDiag_checked",
    "Zm.Mat.zRawMatIdent_correct",
    "Zm.Mat.zRawMatDiag_correct"
   ],
   "note": ""
  },
  {
   "property": "C172",
   "status": "partial",
   "theorems": [
    "Zm.Mat.zMatGetRow_partial",
    "Zm.Mat.zMatGetCol_partial",
    "Zm.Mat.zMatPutRow_partial",
    "Zm.Mat.zMatPutCol_partial",
    "Zm.Mat.zMatSwapRow_partial",
    "Zm.Mat.zMatSwapCol_partial",
    "Zm.Mat.zMatGetRow_violated",
    "Zm.Mat.zMatGetCol_violated",
    "Zm.Mat.zMatPutRow_violated",
    "Zm.Mat.zMatPutCol_violated",
    "Zm.Mat.zMatSwap_violated"
   ],
   "note": "proved for positions that are not negative; violated: a negative position is not refused"
  },
  {
   "property": "C173",
   "status": "proved",
   "theorems": [
    "Zm.Mat.zVecDyad_checked",
    "Zm.Mat.zMatAddDyad_checked",
    "Zm.Mat.zMatSubDyad_checked",
    "Zm.Mat.zMatCatDyad_checked",
    "Zm.Mat.zMatTrace_correct",
    "Zm.Mat.zMulMatTVec_checked",
    "Zm.Mat.zMulMatMatT_checked",
    "Zm.Mat.zMulMatTMat_checked"
   ],
   "note": ""
  },
  {
   "property": "C174",
   "status": "partial",
   "theorems": [
    "Zm.Mat.zMulMatTVecDRC_violated",
    "Zm.Mat.zMulMatTVecDRC_partial"
   ],
   "note": "proved for a square matrix of the size of the vector; violated otherwise: the vector is overwritten"
  },
  {
   "property": "C175",
   "status": "partial",
   "theorems": [
    "Zm.Mat.zMatElemMax_correct",
    "Zm.Mat.zMatElemMin_correct",
    "Zm.Mat.zMatElemAbsMax_correct",
    "Zm.Mat.zMatElemAbsMin_correct",
    "Zm.Mat.zMatElem_empty"
   ],
   "note": "proved for matrices with rows and columns; violated by matrices without columns, outside of which they read (zMatElem_empty)"
  },
  {
   "property": "C176",
   "status": "partial",
   "theorems": [
    "Zm.Mat.zMatEqual_iff",
    "Zm.Mat.zMatMatch_iff",
    "Zm.Mat.zMatIsTol_iff",
    "Zm.Mat.zMatIsDiag_iff",
    "Zm.Mat.zMatIsIdent_partial",
    "Zm.Mat.zMatIsSymmetric_iff",
    "Zm.Mat.zMatIsIdent_violated",
    "Zm.Vec.zVecEqual_iff",
    "Zm.Vec.zVecMatch_iff",
    "Zm.Vec.zVecIsTol_iff",
    "Zm.Vec.zVecIsNan_iff"
   ],
   "note": "violated by zMatIsIdent, which accepts matrices that are not square; the others are proved"
  },
  {
   "property": "C177",
   "status": "partial",
   "theorems": [
    "Zm.Vec.zVecReorder_partial",
    "Zm.Vec.zVecReorderDRC_partial",
    "Zm.Vec.zVecReorder_violated"
   ],
   "note": "proved for indices in range; violated: elements of the index out of range are not refused, and zVecReorderDRC reports success for an index of another size"
  },
  {
   "property": "C178",
   "status": "proved",
   "theorems": [
    "Zm.Vec.zVecCats_correct",
    "Zm.Vec.zVecLinearSum_correct"
   ],
   "note": "the vectors do not overlap the destination"
  },
  {
   "property": "C179",
   "status": "partial",
   "theorems": [
    "Zm.Vec.zVecShiftScale_partial",
    "Zm.Vec.zVecInterDiv_partial",
    "Zm.Vec.zVecNormalize_partial",
    "Zm.Vec.zVecWSqrNorm_correct",
    "Zm.Vec.zVecDem_checked",
    "Zm.Vec.zVecShift_violated",
    "Zm.Vec.zVecUnchecked_violated"
   ],
   "note": "proved for operands of the same size; violated for others: zVecShift writes beyond the end of a shorter destination, and so do the scalings and zVecNormalize; zVecInterDiv and zVecMid read beyond the end of shorter operands"
  },
  {
   "property": "C180",
   "status": "proved",
   "theorems": [
    "Zm.Distrib.zNormalCumDistrib_correct",
    "Zm.Distrib.zNormalDistrib_correct"
   ],
   "note": "exact arithmetic except for the test that ends the series, which compares a sum with itself plus a term: the sum absorbs a term only below 2^-53 of it, and always below 2^-55"
  },
  {
   "property": "C181",
   "status": "partial",
   "theorems": [
    "Zm.Distrib.zPoissonDistrib_partial",
    "Zm.Distrib.poisson_sums",
    "Zm.Distrib.zPoissonDistrib_violated"
   ],
   "note": "violated for negative numbers: the division by a factorial of zero gives infinity"
  },
  {
   "property": "C182",
   "status": "proved",
   "theorems": [
    "Zm.Distrib.zChi2CumDistrib_correct",
    "Zm.Distrib.zChi2Distrib_correct",
    "Zm.Distrib.chi2_odd"
   ],
   "note": "the density for positive arguments"
  },
  {
   "property": "C183",
   "status": "partial",
   "theorems": [
    "Zm.IP.linSecAcc_limit",
    "Zm.IP.linAcc_spec",
    "Zm.IP.linSecVel_partial",
    "Zm.IP.lagSec_correct",
    "Zm.IP.chebSec_correct",
    "Zm.IP.akSec_partial",
    "Zm.IP.linSecVel_last_violated",
    "Zm.IP.pchipSecAcc_violated",
    "Zm.IP.pchipSecAcc_last_violated",
    "Zm.IP.akSecVel_first_violated",
    "Zm.IP.akSecAcc_inner_partial",
    "Zm.IP.akSecAcc_inner_violated",
    "Zm.IP.akSecAcc_last_violated"
   ],
   "note": "holds for Lagrange, Chebyshev and the acceleration of linear ones; violated: linear velocity at the last knot, every PCHIP acceleration, Akima velocity at the first knot and acceleration at the others; PCHIP and Akima read beyond the knots for the last one. The cubic spline is in C32"
  },
  {
   "property": "C184",
   "status": "partial",
   "theorems": [
    "Zm.CVec.zCVecAdd_checked",
    "Zm.CVec.zCVecSub_checked",
    "Zm.CVec.zCVecRev_checked",
    "Zm.CVec.zCVecMul_checked",
    "Zm.CVec.zCVecDiv_checked",
    "Zm.CVec.zCVecCopy_checked",
    "Zm.CVec.zCVecCat_checked_partial",
    "Zm.CVec.zCVecZero_spec",
    "Zm.CVec.zCVecTouchup_spec",
    "Zm.CVec.zVecToCVec_checked",
    "Zm.CVec.zCVecToReIm_checked",
    "Zm.CVec.zCVecEqual_spec",
    "Zm.CVec.zCVecIsTol_spec",
    "Zm.CVec.zCVecCat_alias_violated"
   ],
   "note": "violated only by v1 + z v2 when z is an element of the result"
  },
  {
   "property": "C185",
   "status": "partial",
   "theorems": [
    "Zm.CVec.zCVecCMul_checked_partial",
    "Zm.CVec.zCVecCMul_inplace",
    "Zm.CVec.zCVecCMul_inplace_violated",
    "Zm.CVec.zCVecCDiv_checked_partial",
    "Zm.CVec.zCVecCDiv_inplace_violated",
    "Zm.CVec.zCVecInnerProd_checked",
    "Zm.CVec.zCVecNorm_spec",
    "Zm.CVec.zCVecNormalize_checked_partial",
    "Zm.CVec.zCVecNormalize_size_violated"
   ],
   "note": "violated in place (zCVecCMulNCDRC, zCVecCDivNCDRC): the imaginary part is computed from the new real part; zCVecNormalize does not compare the sizes. The macros zCVecCMulDRC and zCVecCDivDRC pass a pointer for a number and zCVecValIsIncluded omits an argument: they do not compile when used"
  },
  {
   "property": "C186",
   "status": "partial",
   "theorems": [
    "Zm.Eig.sturm_count",
    "Zm.Eig.sturm_gap",
    "Zm.Eig.sturm_exact",
    "Zm.Eig.sturm_first_violated"
   ],
   "note": "violated where e is the first element of the matrix: a vanishing first term is counted as negative but divided by as positive"
  },
  {
   "property": "C187",
   "status": "partial",
   "theorems": [
    "Zm.Eig.bisecEnds_spec",
    "Zm.Eig.bisecVals_partial",
    "Zm.Eig.bisecVals_lost_violated",
    "Zm.Eig.bisecVals_twin_violated"
   ],
   "note": "violated: eigenvalues on an end of the range are lost (one and zero on the diagonal), and the recursion never ends for a double eigenvalue (two, two and three on the diagonal). Proved for simple eigenvalues off the lower end. The number of halvings after which rounding stops the loop is a parameter"
  },
  {
   "property": "C188",
   "status": "partial",
   "theorems": [
    "Zm.Eig.zMatEigPower_rayleigh",
    "Zm.Eig.zMatSingularValueMax_gain",
    "Zm.Eig.zMatSingularValueMin_partial",
    "Zm.Eig.zMatCondNum_partial",
    "Zm.Eig.zMatCondNum_singular_violated"
   ],
   "note": "violated for every matrix without full rank: zMatInv hands back the identity for the singular product, so the least singular value comes out as one and the condition number as the greatest singular value"
  },
  {
   "property": "C189",
   "status": "partial",
   "theorems": [
    "Zm.Eig.eigVecReal_residual_partial",
    "Zm.Eig.eigVecReal_near_partial",
    "Zm.Eig.symEigBisecR_columns",
    "Zm.Eig.eigVecReal_singular_violated"
   ],
   "note": "violated where the estimate plus the shift is an eigenvalue: zMatInv does not report the singular matrix, no other shift is taken and the random vector comes out"
  },
  {
   "property": "C190",
   "status": "partial",
   "theorems": [
    "Zm.Eig.eigVecComplex_residual_partial",
    "Zm.Eig.zMatEigBase_columns_partial",
    "Zm.Eig.eigVecComplex_singular_violated"
   ],
   "note": "proved for estimates that, plus the shift, are no eigenvalues; the residual is exact, whether or not the iteration ended by its test; the eigenvalues themselves are inputs; violated where an estimate plus the shift is an eigenvalue: the random vector comes out, as in C189"
  },
  {
   "property": "C191",
   "status": "partial",
   "theorems": [
    "Zm.Text.zPexSExpr_partial",
    "Zm.Text.zPexSExpr_exact_partial",
    "Zm.Text.zPexSExpr_fits",
    "Zm.Text.zPexSExpr_constant_violated",
    "Zm.Text.zPexSExpr_uninit_violated"
   ],
   "note": "violated by every polynomial with a constant term: the constant is printed from a variable that holds the coefficient of the term before, and that was never set for a constant polynomial"
  },
  {
   "property": "C192",
   "status": "partial",
   "theorems": [
    "Zm.Text.zComplex_roundtrip_partial",
    "Zm.Text.zComplex_roundtrip_violated"
   ],
   "note": "violated by every positive multiple of the imaginary unit: a null character is printed in place of the sign"
  },
  {
   "property": "C193",
   "status": "partial",
   "theorems": [
    "Zm.Text.zVec_roundtrip_partial",
    "Zm.Text.zVec_short",
    "Zm.Text.zMat_roundtrip_partial",
    "Zm.Text.zPex_roundtrip",
    "Zm.Text.zSeq_roundtrip_partial",
    "Zm.Text.zVec_resized_violated",
    "Zm.Text.zMat_resized_violated",
    "Zm.Text.zPex_nodim_violated"
   ],
   "note": "violated by vectors and matrices with another capacity than size: the capacity is printed behind the size but not read; a polynomial without a degree in the file takes a variable that was never set"
  },
  {
   "property": "C194",
   "status": "proved",
   "theorems": [
    "Zm.Data.zDataSort_correct",
    "Zm.Data.zDataSortIndex_correct",
    "Zm.Data.zDataSortAbsIndex_correct",
    "Zm.Data.zVecSort_correct",
    "Zm.Data.zDataSelect_correct",
    "Zm.Data.zDataMedian_correct",
    "Zm.Data.zDataMedian_optimal"
   ],
   "note": "on the contracts of zQuickSort and zQuickSelect"
  },
  {
   "property": "C195",
   "status": "partial",
   "theorems": [
    "Zm.Data.zDataSmoothSG_exact_partial",
    "Zm.Data.zDataSmoothSG_degree_violated",
    "Zm.Data.zDataSmoothSG_one_violated",
    "Zm.Data.zDataSmoothSG_odd_violated"
   ],
   "note": "violated by windows of odd length, which read behind the data, by a window of one sample, where a pointer that was never set is freed, and by degrees not below the length, where zeros are reported as success"
  },
  {
   "property": "C196",
   "status": "partial",
   "theorems": [
    "Zm.Data.peaksOf_spec",
    "Zm.Data.zDataPeakSG_partial",
    "Zm.Data.zDataPeakSG_parabola_partial",
    "Zm.Data.zDataPeakSG_sample_violated",
    "Zm.Data.zDataPeakSG_fail_violated"
   ],
   "note": "violated where the smoothed slope is zero at the sample of the maximum: nothing is reported; where the smoothing fails a list that was never initialised is destroyed"
  },
  {
   "property": "C197",
   "status": "partial",
   "theorems": [
    "Zm.ClusterLS.errorLS_correct",
    "Zm.ClusterLS.coreLS_partial",
    "Zm.ClusterLS.loadedMeanLS_partial",
    "Zm.ClusterLS.coreLS_singular_violated"
   ],
   "note": "violated by clusters whose samples do not determine the coefficients: the failure of the solver is not noticed and the previous core is returned"
  },
  {
   "property": "C198",
   "status": "partial",
   "theorems": [
    "Zm.ClusterMethod.method_safe_partial",
    "Zm.ClusterMethod.method_size_violated"
   ],
   "note": "violated by an error size that is not positive: it is refused after the vector of the error was freed, which is freed again later"
  },
  {
   "property": "C199",
   "status": "partial",
   "theorems": [
    "Zm.ClusterMethod.loadedMean_complete_partial",
    "Zm.ClusterMethod.setDefault_complete",
    "Zm.ClusterMethod.loadedMean_dist_violated",
    "Zm.ClusterMethod.loadedMean_size_violated"
   ],
   "note": "violated: the function for the distance is never asked for, and setting another function for the error leaves the workspace with the previous size"
  },
  {
   "property": "C200",
   "status": "partial",
   "theorems": [
    "Zm.Mat.zMatQuad_checked",
    "Zm.Mat.zMatTQuad_checked",
    "Zm.Mat.zMulMatMatMatT_partial",
    "Zm.Mat.zMulMatTMatMat_partial",
    "Zm.Mat.zMulMatMatMatT_size_violated",
    "Zm.Mat.zMulMatTMatMat_size_violated"
   ],
   "note": "violated: zMulMatMatMatT and zMulMatTMatMat do not compare the size of the destination with that of the matrix and write behind it"
  },
  {
   "property": "C201",
   "status": "partial",
   "theorems": [
    "Zm.VecList.list_copies",
    "Zm.VecList.addrList_safe",
    "Zm.VecList.listDestroy_leaks_violated"
   ],
   "note": "violated: zVecListDestroy releases the structures of the vectors but not their buffers"
  },
  {
   "property": "C202",
   "status": "partial",
   "theorems": [
    "Zm.Parse.parseText_refines",
    "Zm.Parse.text_value_partial",
    "Zm.Parse.name_overflow_violated"
   ],
   "note": "violated by names as long as the buffer of BUFSIZ characters, which are copied beyond its end; the expressions are those of C49"
  },
  {
   "property": "C203",
   "status": "partial",
   "theorems": [
    "Zm.Parse.names_constant",
    "Zm.Parse.assign_violated"
   ],
   "note": "violated: an assignment evaluates to its right-hand side, but no variable changes, whatever the text"
  },
  {
   "property": "C204",
   "status": "partial",
   "theorems": [
    "Zm.Cluster.evenness_ratio",
    "Zm.Cluster.evenness_empty_violated"
   ],
   "note": "violated by a cluster without samples: the quotient is not guarded"
  },
  {
   "property": "C205",
   "status": "partial",
   "theorems": [
    "Zm.Cluster.checkBIC_partial",
    "Zm.Cluster.checkBIC_zero_violated",
    "Zm.Cluster.checkBIC_dimension_violated"
   ],
   "note": "proved for errors of one dimension and positive variances; violated by a part of variance zero, such as one sample, which is always divided off, and by errors of more dimensions, for which the density is that of one dimension"
  },
  {
   "property": "C206",
   "status": "partial",
   "theorems": [
    "Zm.RANSAC.autoNumber_range",
    "Zm.RANSAC.zRANSACAuto_spec",
    "Zm.RANSAC.zRANSACAuto_few_violated",
    "Zm.RANSAC.zRANSACSaveInlierAuto_spec"
   ],
   "note": "violated by few samples, for which no trial is made and the parameters given decide"
  },
  {
   "property": "C207",
   "status": "partial",
   "theorems": [
    "Zm.Life.ode_releases",
    "Zm.Life.euler_life",
    "Zm.Life.heun_life",
    "Zm.Life.rk4_life",
    "Zm.Life.rkg_life",
    "Zm.Life.erk_life",
    "Zm.Life.adams_life",
    "Zm.Life.beuler_life",
    "Zm.Life.bk4_life",
    "Zm.Life.gear_life",
    "Zm.Life.dc_life",
    "Zm.Life.regular_life",
    "Zm.Life.symplectic_life",
    "Zm.Life.leapfrog_life",
    "Zm.Life.euler_clean_partial",
    "Zm.Life.leapfrog_clean_partial",
    "Zm.Life.ode_leak_violated",
    "Zm.Life.ode_undefined_violated",
    "Zm.Life.adams_weights_violated"
   ],
   "note": "what was created is released; violated by failed creations, which leak in all methods but Euler's, the symplectic and the leapfrog method, and are undefined in the embedded and the implicit ones; predictors without weights are reported as created"
  },
  {
   "property": "C208",
   "status": "partial",
   "theorems": [
    "Zm.Life.opt_life",
    "Zm.Life.opt_clean",
    "Zm.Life.nle_life",
    "Zm.Life.nle_clean_partial",
    "Zm.Life.nle_uninit_violated",
    "Zm.Life.nle_double_violated"
   ],
   "note": "proved of optimisers; failed creations of solvers of equations free pointers without a value or free twice"
  },
  {
   "property": "C209",
   "status": "partial",
   "theorems": [
    "Zm.Life.ring_life",
    "Zm.Life.ring_clean_partial",
    "Zm.Life.ring_null_violated"
   ],
   "note": "violated if the array of pointers cannot be allocated: the vectors are written to it all the same"
  },
  {
   "property": "C210",
   "status": "partial",
   "theorems": [
    "Zm.Life.decompLU_memory",
    "Zm.Life.solveLU_memory",
    "Zm.Life.decompLQ_memory",
    "Zm.Life.decompGS_memory",
    "Zm.Life.decompQR_memory",
    "Zm.Life.mulInv_memory",
    "Zm.Life.mulInvVec_memory",
    "Zm.Life.hotelling_memory",
    "Zm.Life.lyapunov_memory",
    "Zm.Life.jacobi_memory",
    "Zm.Life.normMin_memory",
    "Zm.Life.refNormMin_memory",
    "Zm.Life.gauss_memory_partial",
    "Zm.Life.tridiag_memory_partial",
    "Zm.Life.mulMatInv_memory_partial",
    "Zm.Life.hessenberg_memory_partial",
    "Zm.Life.eigPower_memory_partial",
    "Zm.Life.penrose_memory_partial",
    "Zm.Life.luri_memory_partial",
    "Zm.Life.matInv_memory_partial",
    "Zm.Life.matEig_memory_partial",
    "Zm.Life.singular_memory_partial",
    "Zm.Life.svd_memory_partial",
    "Zm.Life.solveSVD_memory_partial",
    "Zm.Life.condNum_memory_partial",
    "Zm.Life.solveMP_memory_partial",
    "Zm.Life.mpInv_memory_partial",
    "Zm.Life.exhausted_report_violated",
    "Zm.Life.eig_report_violated",
    "Zm.Life.exhausted_release_violated",
    "Zm.Life.mpInv_rank_violated"
   ],
   "note": "proved of twelve calls; violated by those that report success without memory (Gauss, tridiagonal, residual iteration, inverse, Hessenberg, power method, eigenvectors, singular values, Penrose), by double releases (pseudo-inverses) and leaks (condition number, copies of workspaces, pseudo-inverse of rank zero)"
  },
  {
   "property": "C211",
   "status": "partial",
   "theorems": [
    "Zm.Life.lemke_memory",
    "Zm.Life.lcpip_memory",
    "Zm.Life.simplex_memory_partial",
    "Zm.Life.feasibleBase_memory_partial",
    "Zm.Life.pdip_memory_partial",
    "Zm.Life.asm_memory_partial",
    "Zm.Life.nm_memory_partial",
    "Zm.Life.pso_memory_partial",
    "Zm.Life.ga_memory_partial",
    "Zm.Life.tableau_null_violated",
    "Zm.Life.opt_release_violated",
    "Zm.Life.pso_empty_violated"
   ],
   "note": "proved of complementarity problems; the others only while there is memory: null tableaux, double releases and leaks otherwise; a swarm of no particles leaks"
  },
  {
   "property": "C212",
   "status": "partial",
   "theorems": [
    "Zm.Life.nurbs_memory",
    "Zm.Life.spline_memory_partial",
    "Zm.Life.akima_memory_partial",
    "Zm.Life.nurbsClone_memory_partial",
    "Zm.Life.gmm_memory_partial",
    "Zm.Life.gng_memory_partial",
    "Zm.Life.spline_edge_violated",
    "Zm.Life.akima_outside_violated",
    "Zm.Life.gng_destroy_violated",
    "Zm.Life.gng_null_violated",
    "Zm.Life.clone_release_violated"
   ],
   "note": "proved of curves; violated by splines with invalid edges, Akima past the last knot, networks (working vectors never released, null units) and by copies and mixtures that run out of memory"
  },
  {
   "property": "C213",
   "status": "proved",
   "theorems": [
    "Zm.Phase.zPhaseNormalize_spec",
    "Zm.Phase.zPhaseNormalize_unique",
    "Zm.Phase.zSinCos_spec",
    "Zm.Phase.zCycloid_spec",
    "Zm.Phase.zSigmoid_spec",
    "Zm.Phase.zCeil_spec",
    "Zm.Phase.zRound_spec",
    "Zm.Phase.zFruct_spec",
    "Zm.Phase.zLog_spec"
   ],
   "note": ""
  },
  {
   "property": "C214",
   "status": "partial",
   "theorems": [
    "Zm.Rnd.zRandLog_spec",
    "Zm.Rnd.zRandT_big",
    "Zm.Rnd.zRandT_small",
    "Zm.Rnd.zRandT_again",
    "Zm.Rnd.zRandBinom2_spec",
    "Zm.Rnd.zRandCauchy_spec_partial",
    "Zm.Rnd.zRandCauchy_zero_violated"
   ],
   "note": "violated by the Cauchy variate: the draw for its abscissa may be one, and the division is by zero; proved of it for draws below one"
  },
  {
   "property": "C215",
   "status": "partial",
   "theorems": [
    "Zm.LE.zMatDecompLU_leading_partial",
    "Zm.LE.zMatDecompLUAndResize_partial",
    "Zm.LE.zMatDecompLQAndResize_spec",
    "Zm.LE.zMatDecompCholeskyAndResize_spec",
    "Zm.LE.zLESolveMP_LU_spec_partial",
    "Zm.LE.zLESolveMP_LU_skipped_violated",
    "Zm.LE.zLESolveMP_LU_wide_violated"
   ],
   "note": "violated when a column before a pivot is skipped: the column of the lower factor is written in the wrong place, outside of it for a wide matrix; proved for all matrices whose leading columns are a basis of their columns"
  },
  {
   "property": "C216",
   "status": "partial",
   "theorems": [
    "Zm.LE.zMatVecBalancing_rows",
    "Zm.LE.zMatVecBalancing_spec_partial",
    "Zm.LE.zMatVecBalancing_sizes",
    "Zm.LE.zMatVecBalancing_wide_violated",
    "Zm.LE.zMatVecBalancing_tall_violated"
   ],
   "note": "violated with factors for the columns of a matrix that is not square: their number is compared with that of the rows; proved for square systems, tall ones with a longer vector of factors, and without factors"
  },
  {
   "property": "C217",
   "status": "proved",
   "theorems": [
    "Zm.RawMat.zRawMatTouchup_correct",
    "Zm.RawMat.zRawMatRevDRC_correct",
    "Zm.RawMat.zRawMatDivDRC_correct",
    "Zm.RawMat.zRawMatColAddDRC_correct",
    "Zm.RawMat.zRawMatColSubDRC_correct",
    "Zm.RawMat.zRawMatColCatDRC_correct",
    "Zm.RawMat.zRawMatColMulDRC_correct",
    "Zm.RawMat.zRawVecCats_correct",
    "Zm.RawMat.zRawVecCats_ub",
    "Zm.RawMat.zRawVecLinearSum_correct",
    "Zm.RawMat.zRawVecIsTol_iff",
    "Zm.RawMat.zRawVecEqual_iff",
    "Zm.RawMat.zRawVecMatch_iff",
    "Zm.RawMat.zRawMatIsTol_iff",
    "Zm.RawMat.zRawMatEqual_iff",
    "Zm.RawMat.zRawMatMatch_iff",
    "Zm.RawMat.zRawVecRandUniform_correct",
    "Zm.RawMat.zRawVecRand_correct",
    "Zm.RawMat.zRawMatRandUniform_correct",
    "Zm.RawMat.zRawMatRand_correct",
    "Zm.RawMat.zRawMatRand_within",
    "Zm.RawMat.zVecSetElemVList_correct",
    "Zm.RawMat.zVecSetElemVList_ub",
    "Zm.RawMat.zMatSetElemList_correct",
    "Zm.RawMat.zVecCopyArray_checked",
    "Zm.RawMat.zMatCopyArray_checked"
   ],
   "note": ""
  },
  {
   "property": "C218",
   "status": "partial",
   "theorems": [
    "Zm.Parse.parseOutM_loses",
    "Zm.Parse.zmParseM_fair_partial",
    "Zm.Parse.zmParseEvalM_single",
    "Zm.Parse.zmParseEvalM_violated",
    "Zm.Parse.uses_safe_partial",
    "Zm.Parse.zmParserDestroy_tokens_partial",
    "Zm.Parse.zmParserDestroy_violated"
   ],
   "note": "The full property, nothing left after the destruction, is false of the code: zmParserDestroy_violated shows it for every history; what is proved is that nothing is released twice or while in use."
  },
  {
   "property": "C219",
   "status": "proved",
   "theorems": [
    "Zm.Misc.zSmoothStep_ends",
    "Zm.Misc.zSmoothStep_binomial",
    "Zm.Misc.zSmoothStep_symm",
    "Zm.Misc.zSmoothStepDif_closed",
    "Zm.Misc.zSmoothStep_deriv",
    "Zm.Misc.zSmoothStep_ramp",
    "Zm.Misc.zSmoothStep_contDiff",
    "Zm.Misc.zSmoothStep_mono"
   ],
   "note": "Exact real arithmetic; the orders are those for which 2n+1 is an int."
  },
  {
   "property": "C220",
   "status": "partial",
   "theorems": [
    "Zm.OptDM.vecCG_direction",
    "Zm.OptDM.updateNone_restart",
    "Zm.OptDM.updateNone_early_violated",
    "Zm.OptDM.vecCG_leftover_violated",
    "Zm.OptDM.stepTest_scale"
   ],
   "note": "violated: the directions are started again after the second one and then after every n-th, and a second solution starts in the direction left behind by the first; the directions themselves are proved to be those of Fletcher and Reeves"
  },
  {
   "property": "C221",
   "status": "partial",
   "theorems": [
    "Zm.Pex.zPexCExp_correct_partial",
    "Zm.Pex.zPexCExp_leak_violated"
   ],
   "note": "violated: when the factors cannot be paired the vectors they were sorted into are left behind; correctness is proved for an upward-copying memcpy (see C23) and exact conjugates"
  },
  {
   "property": "C222",
   "status": "partial",
   "theorems": [
    "Zm.ClusterMem.clusters_released_partial",
    "Zm.ClusterMem.xMeans_released_partial",
    "Zm.ClusterMem.clusters_again_violated",
    "Zm.ClusterMem.clusters_kkz_violated",
    "Zm.ClusterMem.xMeans_leak_violated"
   ],
   "note": "violated: a second clustering forgets the clusters of the first, and KKZ and X-means leave vectors behind when an allocation fails; proved for one K-means++ clustering between initialisation and destruction under any allocation failures, and for X-means without failures"
  },
  {
   "property": "C223",
   "status": "partial",
   "theorems": [
    "Zm.RawMat.zMatGetI_partial",
    "Zm.RawMat.zMatPutI_partial",
    "Zm.RawMat.zRawMatGet_right_violated",
    "Zm.RawMat.zRawMatPut_right_violated",
    "Zm.RawMat.zMatGet_negative_violated",
    "Zm.RawMat.zMatPut_negative_violated"
   ],
   "note": "violated: negative positions pass the test and memory in front of the block or of the matrix is read or overwritten, and a block to the right of the matrix is clipped to a negative width that reaches memcpy; proved for positions that are not negative"
  },
  {
   "property": "C224",
   "status": "partial",
   "theorems": [
    "Zm.TreeMem.init_correct",
    "Zm.TreeMem.zVecTreeAdd_correct",
    "Zm.TreeMem.zVecTreeAdd_leaf_failure",
    "Zm.TreeMem.zVecTreeDestroy_perm",
    "Zm.TreeMem.zVecTree_history_partial",
    "Zm.TreeMem.zVecTree_enough_memory",
    "Zm.TreeMem.zVecTreeDestroy_violated",
    "Zm.TreeMem.zVecTreeAdd_leak_violated",
    "Zm.TreeMem.zVecTreeAdd_retry_violated"
   ],
   "note": "violated: where the box of a leaf cannot be allocated the leaf is released although its parent points to it, and its vector is lost; where the first vector cannot be copied the next addition reads a null pointer; proved for histories without such failures"
  },
  {
   "property": "C225",
   "status": "partial",
   "theorems": [
    "Zm.GraphMem.run_destroy",
    "Zm.GraphMem.zGraph_history",
    "Zm.GraphMem.destroy_live",
    "Zm.GraphMem.addNode_live",
    "Zm.GraphMem.nodeConnect_eq",
    "Zm.GraphMem.zGraphSearchAStar_leak_violated",
    "Zm.GraphMem.zGraphInit_equal_violated"
   ],
   "note": "building and destroying is proved for every history; violated: every search that returns loses at least one cell, and with the functions set by zGraphInit a graph never has more than one node"
  },
  {
   "property": "C226",
   "status": "partial",
   "theorems": [
    "Zm.RRTMem.zRRT_history_partial",
    "Zm.RRTMem.zRRT_destroy_partial",
    "Zm.RRTMem.zRRTFindPathOpt_leak_violated"
   ],
   "note": "violated: a search that rewires loses the vector of a node when there is no memory for its list of near nodes, and reports success; proved for the other searches, and for this one if no allocation fails"
  },
  {
   "property": "C227",
   "status": "partial",
   "theorems": [
    "Zm.DirectMem.zOptSolveDIRECT_blocks",
    "Zm.DirectMem.zOptSolveDIRECT_leak_violated",
    "Zm.DirectMem.rectDivide_spec",
    "Zm.DirectMem.rectDivide_dangling_violated",
    "Zm.DirectMem.rectDivide_lost_violated"
   ],
   "note": "violated: every search that evaluates the objective more than once loses a list cell for each region divided; a division that runs out of memory loses a region or releases one that stays in the set; proved: the exact number of blocks left after a search, and that a division itself releases live blocks only and accounts for all of them when it succeeds"
  },
  {
   "property": "C228",
   "status": "partial",
   "theorems": [
    "Zm.GMMMem.zGMM_history_partial",
    "Zm.GMMMem.zGMM_full",
    "Zm.GMMMem.createEM_live",
    "Zm.GMMMem.init_spec",
    "Zm.GMMMem.destroy_spec",
    "Zm.GMMMem.zGMMInit_leak_violated",
    "Zm.GMMMem.zGMMCreateEM_leak_violated",
    "Zm.GMMMem.zGMMSetErrorFunc_size_violated"
   ],
   "note": "proved for every history with positive sizes in which the initialisation succeeds and no estimation fails, and with enough memory all calls succeed; violated: a failed initialisation loses blocks of a unit, a failed estimation loses the copy of the method, and a size of errors that is not positive leaves a pointer to a released vector, which is then released again"
  },
  {
   "property": "C229",
   "status": "partial",
   "theorems": [
    "Zm.MDMem.zLPMegiddoDyer_history",
    "Zm.MDMem.zLPMegiddoDyer_direct_partial",
    "Zm.MDMem.zLPMegiddoDyerAddConstraint_ok",
    "Zm.MDMem.zLPMegiddoDyerDestroy_leak_violated"
   ],
   "note": "violated: destroying a program solved by the method of Megiddo and Dyer leaves two blocks for each pair of constraints that is left; proved: no block is used after its release or released twice, the exact number of blocks left, and that none is left if only the direct method is used"
  },
  {
   "property": "C230",
   "status": "proved",
   "theorems": [
    "Zm.Links.moveLoop_ok",
    "Zm.Links.zRANSACSelectInlier_ok",
    "Zm.Links.sweep_ok",
    "Zm.Links.purgeLoop_ok",
    "Zm.Links.purgeBetween_ok",
    "Zm.Links.merge_ok",
    "Zm.Links.zSeqJump_ok",
    "Zm.Links.zRRTShortcutPath_refines"
   ],
   "note": "on the level of the pointers of the cells; Linked and Reps are the specification of well-formed lists"
  },
  {
   "property": "C231",
   "status": "partial",
   "theorems": [
    "Zm.SeqMem.zSeq_history",
    "Zm.SeqMem.zSeqFScan_partial",
    "Zm.SeqMem.push_ok",
    "Zm.SeqMem.push_iff",
    "Zm.SeqMem.pop_ok",
    "Zm.SeqMem.scan_ok",
    "Zm.SeqMem.zSeqFScan_leak_violated"
   ],
   "note": "proved for every history without files, and for a file read into an empty sequence in which every frame has an interval; violated: a frame without one loses a cell, and reading into a sequence that is not empty loses all of its frames"
  },
  {
   "property": "C232",
   "status": "proved",
   "theorems": [
    "Zm.Obj.history",
    "Zm.Obj.step_ok",
    "Zm.Obj.elem_ok",
    "Zm.Obj.no_leak",
    "Zm.Obj.freeAtOnce_ok",
    "Zm.Obj.zMatResize_ret",
    "Zm.Obj.zMatRowResize_ret",
    "Zm.Obj.zMatColResize_ret"
   ],
   "note": "refinement of a heap of headers and buffers to rectangles of numbers, for every history; the client passes as many arguments as there are elements, does not use a freed object and copies only between different objects of one class"
  },
  {
   "property": "C233",
   "status": "proved",
   "theorems": [
    "Zm.ODEUser.zODEUpdateEuler_keeps",
    "Zm.ODEUser.zODEUpdateHeun_keeps",
    "Zm.ODEUser.zODEUpdateRK4_keeps",
    "Zm.ODEUser.zODEUpdateRKG_keeps",
    "Zm.ODEUser.zODEUpdateERK_keeps",
    "Zm.ODEUser.zODEUpdateAdams_keeps",
    "Zm.ODEUser.zODE2UpdateRegular_keeps",
    "Zm.ODEUser.inner_contract",
    "Zm.ODEUser.zODE2UpdateSymplectic_keeps",
    "Zm.ODEUser.zODE2UpdateLeapfrog_keeps",
    "Zm.ODEUser.zODEUpdateEuler_plain",
    "Zm.ODEUser.zODEUpdateHeun_plain",
    "Zm.ODEUser.zODEUpdateRK4_plain",
    "Zm.ODEUser.zODEUpdateRKG_plain",
    "Zm.ODEUser.zODEUpdateERK_plain",
    "Zm.ODEUser.zODEUpdateAdams_plain",
    "Zm.ODEUser.inner_plain",
    "Zm.ODEUser.zODE2UpdateRegular_plain",
    "Zm.ODEUser.zODE2UpdateSymplectic_plain",
    "Zm.ODEUser.zODE2UpdateLeapfrog_plain"
   ],
   "note": "the functions of the caller may be undefined for every other pointer, state and derivative; derivatives form a linear space; with the default functions the results are those whose orders C52, C53 and C90 are about"
  },
  {
   "property": "C234",
   "status": "partial",
   "theorems": [
    "Zm.ODEUser.implicit_plain",
    "Zm.ODEUser.zODEUpdateDC_plain",
    "Zm.ODEUser.zODEGearEq_plain_partial",
    "Zm.ODEUser.zODEGearEq_util_violated",
    "Zm.ODEUser.zODE2UpdateRegular_gear_violated",
    "Zm.ODEUser.zODEUpdateDC_violated",
    "Zm.ODEUser.bk4_sub_violated"
   ],
   "note": "backward Euler, trapezoidal, Gauss and Radau equations depend on the caller's pointer only; Gear's method passes the solver itself instead, so that a second-order equation on top of it is undefined for every input; deferred correction doubles states without the caller's function, and Gauss's and Radau's methods compare derivatives with the function for states, so that on a circle a rotation of one turn per unit of time is taken for rest"
  },
  {
   "property": "C235",
   "status": "partial",
   "theorems": [
    "Zm.NURBS.zNURBSVecNN_on_curve",
    "Zm.NURBS.zNURBSVecNN_nearest_partial",
    "Zm.NURBS.zNURBSVecNN_error_partial",
    "Zm.NURBS.zNURBSVecNN_nearest_violated",
    "Zm.NURBS.zNURBSVecNN_no_memory"
   ],
   "note": "parameter and point always belong to the curve; the point is nearest up to a thirtieth of the interval if the distance along the curve has one valley; on a closed curve the two ends are equally near and the middle between them is returned, which may be the farthest point of the curve"
  },
  {
   "property": "C236",
   "status": "partial",
   "theorems": [
    "Zm.MDFile.read_write_lines",
    "Zm.MDFile.read_write_same_partial",
    "Zm.MDFile.read_succeeds",
    "Zm.MDFile.read_missing",
    "Zm.MDFile.write_cost_violated",
    "Zm.MDFile.write_bound_violated",
    "Zm.MDFile.writeASCII_violated"
   ],
   "note": "short and missing files are refused exactly; a problem comes back the same if the cost is the second variable and no constraint is on the first variable alone; otherwise the lines written are those of the cost and the bounds of the first variable are lost; the text file writes the upper bounds twice and no lower bound"
  },
  {
   "property": "C237",
   "status": "proved",
   "theorems": [
    "Zm.Obj.arith_history",
    "Zm.Obj.bin_answer",
    "Zm.Obj.un_answer"
   ],
   "note": "real vectors and matrices; the complex classes take part in the histories without arithmetic"
  },
  {
   "property": "C238",
   "status": "proved",
   "theorems": [
    "Zm.Obj.mul_history",
    "Zm.Obj.mul_answer",
    "Zm.Obj.trans_answer",
    "Zm.Obj.inner_ok"
   ],
   "note": "that the destination is another object is the obligation of the client"
  },
  {
   "property": "C239",
   "status": "proved",
   "theorems": [
    "Zm.Obj.place_history",
    "Zm.Obj.mulDRC_ok",
    "Zm.Obj.mulDRC_mismatch",
    "Zm.Obj.transDRC_ok"
   ],
   "note": ""
  },
  {
   "property": "C240",
   "status": "proved",
   "theorems": [
    "Zm.Obj.part_history",
    "Zm.Obj.part_answer",
    "Zm.Obj.part_filled",
    "Zm.Obj.put_get"
   ],
   "note": "negative positions are not modelled: the functions do not look for them"
  },
  {
   "property": "C241",
   "status": "partial",
   "theorems": [
    "Zm.Img.zMatImg_partial",
    "Zm.Img.zMatImg_empty",
    "Zm.Img.zMatImg_sign_violated"
   ],
   "note": "violated: negative elements below an eighth of the greatest absolute value are drawn like positive ones; a matrix without columns is read outside"
  },
  {
   "property": "C242",
   "status": "proved",
   "theorems": [
    "Zm.Img.zComplexValIsIncluded_iff",
    "Zm.Img.zComplexValConjIsIncluded_iff",
    "Zm.Img.zComplexValIsIncluded_exact"
   ],
   "note": ""
  },
  {
   "property": "C243",
   "status": "partial",
   "theorems": [
    "Zm.Obj.misc_history_partial",
    "Zm.Obj.diag_filled",
    "Zm.Obj.vshift_filled",
    "Zm.Obj.mshift_filled",
    "Zm.Obj.vswap_filled",
    "Zm.Obj.fillGo_ok",
    "Zm.Obj.misc_violated"
   ],
   "note": "violated: arrays of vectors of different sizes and empty arrays, shifts into smaller vectors, shifts of the diagonal of matrices with more rows than columns, and the position after the last element are not refused; proved where the client avoids these"
  },
  {
   "property": "C244",
   "status": "partial",
   "theorems": [
    "Zm.Stat.zVecListMeanVar_spec",
    "Zm.Stat.zVecListMeanCov_spec",
    "Zm.Stat.zVecListMeanVar_empty_violated",
    "Zm.Stat.zDataStandardDeviation_spec"
   ],
   "note": "violated: an empty list is not refused, the vector at its head is read; proved for lists that are not empty, with vectors of one size"
  },
  {
   "property": "C245",
   "status": "proved",
   "theorems": [
    "Zm.NM.turn_moves",
    "Zm.NM.expandLoop_line",
    "Zm.NM.zOptSolveNM_affine"
   ],
   "note": ""
  },
  {
   "property": "C246",
   "status": "partial",
   "theorems": [
    "Zm.Clus.meanSilhouette_spec",
    "Zm.Clus.maxSilhouette_partial",
    "Zm.Clus.maxSilhouette_after_partial",
    "Zm.Clus.maxSilhouette_violated",
    "Zm.Clus.clusterCreate_violated"
   ],
   "note": "violated: after samples are removed or added the largest silhouette is read outside of the array; a failing zVecClusterCreate releases a pointer that was never written; proved as long as the samples are those the silhouettes were computed from"
  },
  {
   "property": "C247",
   "status": "partial",
   "theorems": [
    "Zm.SplinePrm.param_history_partial",
    "Zm.SplinePrm.step_spec",
    "Zm.SplinePrm.param_violated"
   ],
   "note": "violated: a clone or allocation over a parameter that holds knots loses them, and a copy between parameters without knots reads a null pointer; proved where the client avoids these and stays within the knots"
  },
  {
   "property": "C248",
   "status": "partial",
   "theorems": [
    "Zm.ODE.momentum",
    "Zm.ODE.angular_momentum",
    "Zm.ODE.leap_displacement",
    "Zm.ODE.leap_constant_violated"
   ],
   "note": "violated: as it is started, the leapfrog method does not integrate constant acceleration exactly; the error is given for any number of steps; the conservation laws are proved in full"
  }
 ]
}