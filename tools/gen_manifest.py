#!/usr/bin/env python3
"""Writes MANIFEST.json."""
import json, os
claims = []
def c(prop, status, theorems, note):
    claims.append(dict(property=prop, status=status, theorems=["Verif." + t for t in theorems.split()], note=note))

c("C01", "proved", "Utils.integer2baseb_spec Utils.integer2baseb_ok_iff Utils.baseb2integer_spec Utils.baseb2integer_integer2baseb Utils.integer2baseb_baseb2integer Utils.defaultDigits_spec Utils.integer2baseb_zero_default_raises",
  "With the digit count left out and max(i)=0 the code asks for 0 digits and raises (integer2baseb_zero_default_raises).")
c("C02", "proved", "MultiIndices.sub2ind_spec MultiIndices.ind2sub_sub2ind MultiIndices.sub2ind_ind2sub MultiIndices.sub2ind_ind2sub_eq MultiIndices.ravelF_eq_colMajor", "")
c("C03", "proved", "MultiIndices.productSet_ok_iff MultiIndices.productSet_replicate MultiIndices.mem_productSet MultiIndices.productSet_order MultiIndices.productSet_nodup", "An empty factor raises TypeError (productSet_ok_iff).")
c("C04", "proved", "MultiIndices.boundedBy_ok_iff MultiIndices.mem_boundedBy MultiIndices.boundedBy_order", "")
c("C05", "proved", "MultiIndices.addIndices_spec MultiIndices.addIndices_idem MultiIndices.addIndices_empty_empty", "Hypothesis: I has rows; for two empty sets numpy yields one empty row (addIndices_empty_empty).")
c("C06", "proved", "MultiIndices.removeIndices_spec MultiIndices.intersectIndices_spec MultiIndices.remove_intersect_partition MultiIndices.intersectIndices_nodup MultiIndices.removeIndicesAt_spec MultiIndices.keepIndices_spec", "")
c("C07", "proved", "MultiIndices.getMargin_spec MultiIndices.getMargin_empty", "")
c("C08", "proved", "MultiIndices.getReducedMargin_spec MultiIndices.addIndices_downClosed MultiIndices.enrich_history_downClosed", "")
c("C09", "proved", "MultiIndices.getMaximalIndices_spec MultiIndices.mem_iff_below_maximal", "")
c("C10", "proved", "MultiIndices.isDownwardClosed_spec MultiIndices.isDownwardClosed_below_raises", "")
c("C11", "proved", "MultiIndices.withBoundedNorm_one_spec", "")
c("C12", "partial", "MultiIndices.hyperbolicCrossSet_spec MultiIndices.withBoundedNorm_partial MultiIndices.withBoundedNorm_incomplete MultiIndices.withBoundedNorm_inf_raises MultiIndices.weightedHyperbolicCrossSet_incomplete MultiIndices.lowOrderInteractions_incomplete MultiIndices.lowOrderInteractions_partial MultiIndices.withBoundedWeightedNorm_spec",
  "The full claim is false of the code: with p<1-type growth stopping rules the loops stop early (witness theorems *_incomplete); the partial theorems give the exact sets where the claim holds.")
c("C13", "partial", "MultiIndices.sort_ascend_spec MultiIndices.sort_default_columns MultiIndices.sort_descend_partial MultiIndices.sort_descend_one_column MultiIndices.sort_descend_wrong",
  "Mode 'descend' alternates directions with two or more columns (sort_descend_partial, sort_descend_wrong): the full claim is false of the code there.")
c("C14", "proved", "MultiIndices.envelope_spec", "")
c("C15", "proved", "Utils.fastIntersect_spec Utils.fastSetdiff_spec Utils.fastIntersect_needs_nodup", "")

c("C16", "proved", "DimTree.trivial_valid DimTree.trivial_spec DimTree.linear_valid DimTree.linear_binary DimTree.linear_dims DimTree.balanced_valid DimTree.balanced_binary DimTree.balanced_level DimTree.linear_one_invalid", "linear(1) yields a leaf map with node 0 (linear_one_invalid): the order must be at least two there.")
c("C17", "proved", "DimTree.attributes_spec", "")
c("C18", "proved", "DimTree.dims_spec", "")
c("C19", "proved", "DimTree.ascendants_spec DimTree.descendants_spec DimTree.descendants_ascendants", "")
c("C20", "proved", "DimTree.permute_spec DimTree.ipermute_spec DimTree.ipermute_permute DimTree.permute_ipermute DimTree.permute_valid DimTree.permute_dims DimTree.scatter_spec", "")
c("C21", "partial", "DimTree.eq_of_sameTree DimTree.sameTree_of_eq_partial DimTree.eq_unsound", "== is complete but not sound: it returns True for trees whose level sizes differ (eq_unsound); the partial theorem gives soundness when the level sizes agree.")

c("C22", "proved", "FullTensor.transpose_spec FullTensor.transpose_refused FullTensor.itranspose_transpose FullTensor.transpose_itranspose FullTensor.reshape_spec FullTensor.reshape_reshape FullTensor.matricize_spec FullTensor.matricize_default", "")
c("C23", "proved", "FullTensor.tmpStep_spec FullTensor.tmpStep_refused FullTensor.tensorMatrixProduct_spec FullTensor.tensorMatrixProduct_comm FullTensor.tensorMatrixProduct_comp FullTensor.tensorVectorProduct_spec", "")
c("C24", "partial", "FullTensor.evalAtIndices_all FullTensor.evalAtIndices_full FullTensor.evalAtIndices_one FullTensor.evalAtIndices_partial FullTensor.evalAtIndices_wrong FullTensor.evalDiag_spec FullTensor.evalDiag_refused",
  "False of the code when two or more but not all dimensions are designated: rows are numbered in row-major order against a column-major matricisation (evalAtIndices_wrong). The partial theorem covers rows whose two numbers agree, which gives eval_diag in full.")
c("C25", "proved", "FullTensor.kron_spec FullTensor.kron_refused FullTensor.cat_spec FullTensor.cat_default FullTensor.cat_refused FullTensor.subTensor_spec FullTensor.subTensor_refused FullTensor.subTensor_missing FullTensor.kron_diag_eq_mul", "")

c("C26", "proved", "Sparse.ofFull_spec Sparse.full_ofFull_spec Sparse.full_refused Sparse.transpose_spec Sparse.itranspose_spec Sparse.reshape_spec Sparse.transpose_order_one", "transpose needs a non-0-d shape attribute; a tensor of order one built by the constructor raises (transpose_order_one).")
c("C27", "proved", "Sparse.add_spec Sparse.add_empty Sparse.dot_spec Sparse.mul_spec Sparse.one_entry_raises Sparse.mk_indexable Sparse.evalAtIndices_spec", "A tensor built with exactly one entry has a 0-d data array, and then dot/mul/eval_at_indices raise IndexError instead of returning (one_entry_raises); add of two empty tensors yields one empty row (add_empty).")
c("C28", "partial", "Sparse.tensorVectorProduct_partial Sparse.tensorVectorProduct_example Sparse.tensorVectorProduct_order_one_wrong Sparse.tensorVectorProduct_full_wrong Sparse.tensorVectorProduct_vanishing_wrong Sparse.tensorMatrixProductEvalDiag_spec", "False of the code when all the dimensions are contracted, or when all the products vanish: the stale values are kept (witness theorems). The partial theorem covers every contraction that leaves a dimension and an entry.")

D = lambda names: " ".join("Diagonal." + n for n in names.split())
CN = lambda names: " ".join("Canonical." + n for n in names.split())
c("C29", "proved", D("add_spec sub_spec mul_spec neg_spec dot_spec add_refused tensorVectorProduct_spec tensorDiagonalMatrixProduct_spec sparse_spec cat_spec kron_spec evalAtIndices_spec tensordotMatrixProductExceptDim_spec"), "")
c("C30", "partial", D("evalDiag_all evalDiag_code evalDiag_partial evalDiag_gap_wrong evalDiag_gap_example dense_metric dotWithRankOneMetric_code dotWithRankOneMetric_partial dotWithRankOneMetric_wrong"), "False of the code when dims has a gap (the dimensions in the gap are merged too) and when a metric matrix is not symmetric (the matrices are transposed); both are witnessed. The partial theorems cover contiguous dims and symmetric matrices.")
c("C31", "proved", CN("full_spec add_spec neg_spec sub_spec tensorMatrixProduct_spec squeeze_spec tensorVectorProduct_spec reduceSum_spec representationRank_spec"), "")
c("C32", "partial", CN("dense_dot dot_code dot_partial dot_rank_one_partial norm_spec dot_wrong"), "False of the code for tensors with different factors (dot_wrong: the cores are exchanged). Proved for equal factors (hence norm()) and for rank one.")
c("C33", "partial", CN("evalDiag_partial evalDiag_order_one_partial evalDiag_wrong"), "False of the code from order two on: the first factor is multiplied in place (evalDiag_partial gives the exact state after the call, evalDiag_wrong two calls with different answers). The answer of the first call is proved.")

T = lambda names: " ".join("TreeBased." + n for n in names.split())
c("C34", "partial", T("full_spec full_again full_wrong_order_one exT_wf"), "full() is proved from order two on; for order one it returns the root tensor only (full_wrong_order_one).")
c("C36", "proved", T("tensorMatrixProduct_full tensorMatrixProduct_refused subTensor_full subTensor_refused"), "")

c("C35", "proved", T("add_full add_same sub_full neg_full smul_full add_numbering_wrong exT_compat exT_addable"), "Sums of tensors whose active leaves differ are covered (add_full). add_numbering_wrong shows that the hypothesis on the node numbering is needed although == ignores it.")
c("C37", "partial", T("kron_full mul_full mul_refused mul_wrong mul_wrong_swapped"), "Proved for tensors with the same active nodes. When a leaf is inactive in the first factor only, the code silently ignores the matrix of the leaf in the second one (mul_wrong).")

TZ = lambda names: " ".join("Tensorizer." + n for n in names.split())
c("C42", "proved", TZ("u2z_spec u2z_unique z2u_spec z2u_u2z map_spec inverseMap_spec inverseMap_map map_inverseMap map_refused inverseMap_map_uniform exTz_codes"), "Over any ordered field with a floor function (no rounding). The hypotheses on cdf and icdf are discharged for the default uniform variables.")

MSn = lambda names: " ".join("ModelSelection." + n for n in names.split())
ME = lambda names: " ".join("Measures." + n for n in names.split())
c("C43", "partial", MSn("mLambda1_spec mLambda_spec mLambda1_empty lambdaPath_terminates lambdaPath_empty lambdaPath_partial lambdaPath_sorted tieBreak_of_sorted tieBreak_of_generic exSorted lambdaPath_ties_wrong lambdaPath_zero_wrong"), "m_lambda in full. lambda_path in full when the penalties increase along the list (lambdaPath_sorted), and for data where the first of tied models has the least penalty (lambdaPath_partial). False of the code otherwise: ties (lambdaPath_ties_wrong) and the answer 0 when there is no breakpoint (lambdaPath_zero_wrong).")
c("C44", "partial", ME("cdf_eq cdf_mono cdf_bounds icdf_spec icdf_zero icdf_refused icdf_galois_partial icdf_unsorted_wrong exLaw"), "The Galois connection is proved for values stored in nondecreasing order and false of the code otherwise (icdf_unsorted_wrong); the rest in full.")
c("C45", "partial", ME("moment_fresh moment_history_partial moment_history_wrong"), "False of the code: after a stored request for orders other than 0..n the cache is read at the wrong positions (moment_history_wrong). The exactness of the Gauss rule is a hypothesis.")
c("C49", "partial", ME("vectorEq_spec productEq_partial productEq_iff productEq_wrong basesEq_partial basesEq_wrong"), "False of the code for product measures and collections of bases with different numbers of components (zip truncates).")
c("C51", "proved", T("activateNodes_full activateNodes_refused inactivateNodes_full inactivateNodes_refused"), "Both directions: activation inserts identities, inactivation absorbs the node tensors; the represented tensor is unchanged.")
c("C52", "proved", ME("mk_spec mk_uniform mk_refused"), "A sum within machine precision of one is left as it is, as the code does.")
c("C53", "proved", ME("standard_spec"), "The square root of the variance is a parameter.")
c("C54", "proved", ME("discretizeSupport_spec"), "The distribution function is any nondecreasing function with values in [0, 1].")
c("C55", "partial", MSn("slopeHeuristic_spec slopeHeuristic_equal_wrong slopeHeuristic_no_path_raises exSlope"), "Proved whenever lambda_path has breakpoints. With equal complexities the code answers model 0 whatever the risks, and without breakpoints it raises IndexError (witness theorems).")

GN = lambda names: " ".join("Grids." + n for n in names.split())
BN = lambda names: " ".join("Bases." + n for n in names.split())
MN = lambda names: " ".join("MultiIndices." + n for n in names.split())
c("C46", "proved", GN("array_spec array_refused mem_array arrayAt_spec sparseArray_spec weightsOnGrid_spec tensor_integrate_spec integrate_product integrate_refused mk'_refused mk'_accepts_mismatch"), "The constructor of the tensor rule does not compare the sizes of the weight vectors with the grids (mk'_accepts_mismatch): the theorems assume that they agree.")
c("C47", "partial", BN("mk'_spec mk'_refused mk'_keeps_iff mk'_scalar_partial mk'_transposes evalWith_spec eval_scalar_partial eval_wrong neg_wrong neg_neg_wrong arith_scalar_partial"), "True of functions with one output. False of the code for several outputs and several basis functions: the constructor permutes the coefficients; mk'_keeps_iff says exactly when it does not.")
c("C48", "partial", BN("evalSparse_spec evalFull_spec meanSparse_spec gramSparse_spec meanFull_rowMajor meanFull_partial meanFull_wrong condArray_spec condExp_wrong"), "Evaluation, and the means of sparse tensor bases, in full. mean() of a full tensor basis is in row-major order (meanFull_rowMajor) and so disagrees with eval when two bases have several functions (meanFull_wrong). conditional_expectation computes the right array (condArray_spec) and then permutes it (condExp_wrong).")
c("C56", "proved", GN("composite_integrate composite_exact lebesgueRule_integrate"), "The one-interval rule is a parameter.")
c("C57", "proved", GN("productGauss_spec productGauss_scalar productGauss_refused productGauss_integrate tensorize_spec tensorize_power"), "")
c("C58", "proved", BN("mean_spec variance_spec variance_refused dot0_spec coefficients_spec"), "Means and orthonormality of the basis are stated for a finite quadrature.")
c("C59", "proved", BN("adaptationPath_spec adaptationPath_nested triuPath_spec"), "")
c("C60", "proved", BN("basesEval_spec"), "")
c("C61", "partial", BN("basesMean_partial basesMean_general basesMean_wrong"), "True when dims are the first dimensions in order; false of the code in general: basis dims[k] is averaged under marginal k (basesMean_general, basesMean_wrong).")
c("C62", "partial", BN("keep_spec keep_measure_iff keep_measure_wrong remove_keep"), "The bases are the selected ones; the attribute measure is left unchanged, which is right only when the measures coincide (keep_measure_iff).")
c("C63", "proved", MN("keepDims_spec keepDims_refused removeDims_eq keepDims_downClosed"), "")

c("C38","partial",T("dotMetric_full dot_full dot_refused dotNode_refused"),
  "dot and dot_with_rank_one_metric equal the scalar products of the full tensors when the dimensions do not all have one size; when they do, NumPy stacks the matrices and dot raises ValueError (dot_refused), and a root rank axis of size one is refused (dotNode_refused): the unrestricted statement is false of the code. norm is normSq_full (C39).")
c("C39","proved",T("orth_full ortho_normSq normSq_full orthAtNode_spec"),
  "orth and norm for any exact QR (which exists over the reals, FullTensor.exists_qr); orth_at_node is C73")
c("C64","proved","FullTensor.orth_spec FullTensor.exists_qr","any exact reduced QR; exists_qr: such a QR exists for real matrices")

c("C41","proved","Truncation.truncSvd_spec Truncation.truncSvd_error Truncation.truncSvd_zero Truncation.truncSvd_threshold Truncation.exists_svd Truncation.hosvd_error Truncation.hsvd_error Truncation.hsvdDense_spec Truncation.ttsvd_spec",
  "Total errors of hosvd, hsvd and ttsvd: hosvd_error, hsvd_error, hsvdDense_spec, ttsvd_spec. trunc_svd for any exact SVD (one exists over the reals: exists_svd): rank, prescribed relative error, maximal rank, thresholding. A zero matrix divides by zero and keeps all the ranks (truncSvd_zero).")

c("C65","proved","Truncation.hosvd_spec Truncation.hosvd_error Truncation.truncate_error",
  "no thresholding; max_rank zero excluded. hosvd leaves the attribute max_rank of the truncator equal to the last maximal rank (hosvd_spec, m').")

DTn = lambda names: " ".join("DimTree." + n for n in names.split())
c("C50","partial",DTn("elemPerm_spec permuteLeaves_partial permuteLeaves_one_based swapNodes_spec swapNodes_refused"),
  "Decomposition, termination and the resulting tree are proved. The computation of the node tensors (orth_at_node and truncated SVDs) is not modelled, so the equality up to the tolerance is missing. With the numbering from 1 of the documentation the call raises IndexError (permuteLeaves_one_based).")
c("C66","proved",DTn("addChild_spec"),"")
c("C67","proved",DTn("changeRoot_spec changeRoot_unary_raises"),"A root with a single son makes the constructor raise ValueError (changeRoot_unary_raises).")
c("C68","proved",DTn("subTree_spec"),"")
c("C69","proved",DTn("nodeWithDims_spec"),"")

c("C40","partial",T("isAdmissible_partial isAdmissible_wrong"),
  "Proved when the inactive leaves are numbered in the order of their dimensions (in particular with at most one inactive leaf). Otherwise the code attributes the sizes of the inactive dimensions to the wrong leaves: isAdmissible_wrong exhibits a tensor declared admissible although it is not.")

c("C70","proved","Truncation.hsvd_spec Truncation.hsvd_error",
  "For any QR/SVD oracles that return exact decompositions (their existence is proved: exists_qr, exists_svd). Exact arithmetic. The flag is_orth of the result, which the code sets to True although the tensors of the nodes are not orthonormal in general, is not modelled.")

c("C71","proved","TreeBased.gramians_spec TreeBased.gramiansAt_spec","Exact arithmetic; for any QR oracle that returns exact factorizations (existence proved).")
c("C72","proved","TreeBased.singularValues_spec","Exact arithmetic; for any QR/SVD oracles that return exact decompositions. At the root the code returns [1], not the norm of the tensor: the claim excludes the root.")

c("C73","proved","TreeBased.orthAtNode_spec TreeBased.orthAtNode_other","Exact arithmetic; QR, SVD, matrix_rank, pinv and inv are oracles with their mathematical specification (existence proved: exists_qr, exists_svd, exists_linAlg). The flags orth_node/is_orth are not modelled. For a zero tensor the code returns the orthogonalised tensor.")

c("C74","proved","Truncation.hsvdDense_spec","Exact arithmetic; the SVD is an oracle with its mathematical specification (existence proved: exists_svd). Inactive nodes must be leaves; no thresholding. The attribute max_rank of the truncator, overwritten by the call, is not modelled.")
c("C75","proved","Truncation.ttsvd_spec","As C74.")
c("C76","proved","TreeBased.storage_spec","")

c("C77","proved","LeastSquares.solveOls_fit LeastSquares.solveOls_ok LeastSquares.solveOls_residuals LeastSquares.exists_la","Exact arithmetic, one output; np.linalg functions are oracles with their specification LaOk (existence proved: exists_la). Weights are not modelled (the code reads the unweighted attributes again).")
c("C78","proved","LeastSquares.solveOls_leaveOut LeastSquares.solveOls_leaveOut_inf LeastSquares.solveOls_leaveOut_nan LeastSquares.effective_leaveOut_iff LeastSquares.fit_unique","As C77, without option gram_matrix. When a sample alone determines a direction, the reported error is nan (solveOls_leaveOut_nan).")
c("C79","proved","LeastSquares.solveOls_kFold","As C78; the folds of sklearn's KFold are an arbitrary partition into nonempty sets.")
c("C80","partial","LeastSquares.selectOptimalPath_spec LeastSquares.selectOptimalPath_leaveOut LeastSquares.selectOptimalPath_none LeastSquares.solveBasisAdaptation_default LeastSquares.mem_triuPath LeastSquares.selectOptimalPath_nan_wrong","False of the code when the error of a candidate is not defined: np.argmin then selects the nan (selectOptimalPath_nan_wrong). Proved when no error is nan; for leave-one-out, when any N-1 samples determine the coefficients of the candidates. L1/L2/OMP paths come from sklearn and are arbitrary here.")
c("C81","proved","DensityL2.standardSol_minimizes DensityL2.standardErr_eq","Exact arithmetic.")
c("C82","proved","DensityL2.solveRegularized_spec DensityL2.selectPath_spec DensityL2.restrict_minimizes","Exact arithmetic; without the option included_coefficients.")

c("C83","proved","Polynomials.polyval_polynomials","Exact real arithmetic (all claims on polynomials).")
c("C84","partial","Polynomials.polyval_orthonormal Polynomials.lebesgue_orthogonal Polynomials.lebesgue_orthonormal_iff","Proved for random variables. False of the code for LebesgueMeasure(a, b) unless b - a = 2: the squared norm of every polynomial is (b - a)/2 (lebesgue_orthonormal_iff).")
c("C85","partial","Polynomials.dnPolyval_derivative Polynomials.dPolyval_derivative Polynomials.lebesgue_derivative_wrong","Proved for random variables. False of the code for the Lebesgue measure: the normalisation by the mass is applied to the values only (lebesgue_derivative_wrong).")
c("C86","partial","Polynomials.polyCoeff_spec Polynomials.lebesgue_polyCoeff_wrong","Proved for Hermite and Legendre. False of the code for LegendrePolynomialsLebesgue (lebesgue_polyCoeff_wrong). poly_coeff of shifted polynomials raises and is not modelled.")
c("C87","proved","Polynomials.roots_spec Polynomials.exists_eig","np.linalg.eig is an oracle, exact on symmetric matrices (existence proved: exists_eig).")
c("C88","proved","Polynomials.gauss_spec Polynomials.gauss_mass Polynomials.moment_spec","As C87. Random variables without stored moments (the cache is the subject of C49).")
c("C89","partial","Polynomials.moment_polynomials Polynomials.mean_polynomials Polynomials.one_spec Polynomials.orthonormalPolynomials_measure Polynomials.lebesgue_moment_wrong Polynomials.mean_shifted_wrong Polynomials.moment_normal_wrong","Proved for the polynomials of random variables: moments for every uniform random variable or normal one (centred if the polynomials are shifted), mean for the own measure. False of the code otherwise: the Lebesgue polynomials (lebesgue_moment_wrong), the mean of shifted polynomials for a given measure (mean_shifted_wrong: the measure is not shifted), moments of shifted polynomials for a non-centred normal measure (moment_normal_wrong: NormalRandomVariable.shift does not scale the mean).")
c("C90","proved","Polynomials.discrete_orthonormal Polynomials.discrete_indexError Polynomials.discrete_derivative Polynomials.discrete_gauss Polynomials.discrete_gauss_all Polynomials.discrete_moment Polynomials.discrete_moment_error","In floating point the loop may stop earlier; exact arithmetic here.")
c("C91","proved","Polynomials.recurrenceMonic_spec","")

c("C92","proved","FullTensor.tensorMatrixProductEvalDiag_spec FullTensor.tensorMatrixProductEvalDiag_all","np.einsum accepts at most 52 labels; the bound is not modelled.")
c("C93","proved","TreeBased.tensorMatrixProductEvalDiag_full","Without dims (with dims the code raises NotImplementedError unless the sizes are 1).")
c("C94","proved","TreeBased.evalDiag_full","Without dims.")
c("C95","proved","FunctionalTensor.eval_spec FunctionalTensor.evalDiagProduct_spec","fdims is the default range(order). A basis is a number of variables, a cardinal and functions.")
c("C96","proved","FunctionalTensor.mean_spec FunctionalTensor.mean_average FunctionalTensor.vectorProductAll_spec","The means of the bases are parameters.")
c("C97","proved","FunctionalTensor.evalOnGrid_spec FunctionalTensor.product_spec","Without dims (with dims the code raises AttributeError, np.range).")
c("C98","partial","FunctionalTensor.evalPartial_first_partial FunctionalTensor.evalPartial_wrong","Proved for dims = [0]. False of the code for other dims: fdims designates the axis of the points as a variable (evalPartial_wrong).")

c("C99","proved","Magic.magicIndices_leftRight Magic.magicIndices_leftRight_error Magic.cross_unique Magic.cross_exact Magic.magicIndices_nested","Exact arithmetic in an ordered field (also C100-C102): np.linalg.solve raises exactly for singular matrices.")
c("C100","proved","Magic.magicIndices_left Magic.magicIndices_left_error Magic.magicIndices_right Magic.magicIndices_right_error","The docstring says the maximum is over all columns; the code takes the first k+1, i.e. the next column.")
c("C101","proved","Magic.magicPoints_spec Magic.magicPoints_error Magic.magicPoints_few","Without the argument J.")
c("C102","partial","Magic.interpolate_scalar_partial Magic.interpolate_error Magic.interpolate_wrong","Proved for one output. False of the code for several outputs (interpolate_wrong): the constructor of FunctionalBasisArray permutes the coefficients (C47).")
c("C103","proved","Magic.projection_spec Magic.projection_reproduces Magic.gramMatrix_spec","One output (several outputs are scrambled as in C102). np.linalg.lstsq is an oracle that minimises the residual.")

c("C104","partial","TreeBased.paramGradEval_node_partial TreeBased.paramGradEval_root_partial TreeBased.predict_eval TreeBased.paramGradEval_axis_one_witness TreeBased.paramGradEval_unary_witness","Proved with all nodes active, no node with an only child, and, for an internal node other than the root, no output axis of size 1. False of the code in the last two cases (witnesses: it raises); the branch with inactive nodes (functional_tensor.py l.484-569) is not modelled.")
c("C105","proved","TreeBased.amStep_spec TreeBased.exUR_data","All nodes active, no only child, output axis of the root absent or of size > 1 (AmData); no basis adaptation, no weights, no regularization. numpy qr/svd/solve/lstsq are oracles with their specifications. Exact real arithmetic.")
c("C106","proved","TreeBased.solveStandard_spec TreeBased.amSweep_spec TreeBased.amLoop_spec","Same setting as C105. Early stopping and tolerances are an arbitrary stopping test.")
c("C107","proved","TreeBased.explorationStrategy_spec","")
c("C108","proved","TreeBased.selectModel_spec","Errors are numbers (no nan).")
c("C109","proved","RankAdaptation.solveAdaptation_spec RankAdaptation.solveAdaptation_first_inf RankAdaptation.bad_val","Local solver, error and rank selection are arbitrary functions; without tree adaptation. The early stopping test is not applied at the last iteration (so the statement excludes the last function); an infinite error at the first iteration raises AttributeError (solveAdaptation_first_inf).")
c("C110","partial","TreeBased.makeRanksAdmissible_partial TreeBased.makeRanksAdmissible_fallback_witness","Proved when the inactive leaves are numbered in the order of their dimensions; otherwise is_admissible_rank is wrong (C40). When the ranks of f are not admissible the result may not be (fallback_witness).")

c("C111","proved","Functions.userEval_spec","")
c("C112","partial","Functions.storeRun_partial Functions.storeEval_once_partial Functions.storeRun_matrix_wrong","Proved for functions with scalar or vector values. False of the code for matrix-valued functions (storeRun_matrix_wrong): new values are reshaped in C order and returned in F order. The returned value is the first component: store_eval returns (y, self), and __call__ passes the pair on.")
c("C113","partial","Functions.partialEval_partial Functions.partialEval_several","Proved for one point x and a scalar function. False of the code for several points x: evaluating the result raises ValueError (partialEval_several).")
c("C114","proved","Functions.evalOnFullGrid_spec Functions.evalOnFullGrid_scalar","Full tensor grids.")
c("C115","proved","Functions.tensorize_spec","Exact arithmetic.")
c("C116","proved","Functions.compEval_spec","")
c("C117","proved","Losses.relativeTestError_spec Losses.relativeTestError_zero Losses.relativeTestError_mismatch_wrong","Exact real arithmetic. Shapes n and n x 1 are not the same shape: they are broadcast and exact predictions have a nonzero error (relativeTestError_mismatch_wrong).")
c("C118","partial","Losses.absoluteTestError_partial Losses.absoluteTestError_vector Losses.absoluteTestError_wrong","Proved for observations of shape n x m. False of the code for observations of shape n: the sum is not divided by n.")
c("C119","proved","BSplines.eval_spec","Exact real arithmetic.")
c("C120","proved","BSplines.eval_sum","Exact real arithmetic.")
c("C121","proved","BSplines.evalDerivative_spec","Exact real arithmetic; for increasing knots no division by zero occurs.")
c("C122","proved","BSplines.extraKnots_spec","Exact real arithmetic.")
c("C123","proved","BSplines.dilated_spec","Exact real arithmetic.")

c("C124","partial","Pca.principalComponents_spec_partial Pca.fullAlphaPC_spec Pca.principalComponents_count_wrong","Exact real arithmetic, np.linalg.svd a parameter. False of the code for the number of components: it is min(p, rows, columns) and the documentation says min(p, rows) (principalComponents_count_wrong).")
c("C125","proved","Pca.approximation_interpolates","Exact real arithmetic, np.linalg.svd a parameter; subsampling=random is not modelled. The grid of the root has its columns in the order of the dimensions below the root, not in increasing order.")
c("C126","proved","Pca.approximation_exact","Exact real arithmetic, np.linalg.svd a parameter; subsampling=random is not modelled.")
c("C127","partial","Pca.approximation_rank_partial Pca.maxRank_ignored Pca.maxRank_exceeded","Proved when the tolerance is at least one (a rank) or infinite. False of the code for a tolerance smaller than one: the smaller of the tolerance and the maximal rank is used, so that max_rank is ignored (maxRank_ignored, maxRank_exceeded).")
c("C128","proved","Pca.hopca_spec Pca.tuckerApproximation_spec Pca.ttApproximation_spec","Exact real arithmetic, np.linalg.svd a parameter.")

c("C129","proved","Canonical.paramGrad_factor_spec Canonical.paramGrad_core_spec","Evaluated bases as matrices.")
c("C130","proved","Canonical.factorStep_spec Canonical.coreStep_spec Canonical.columnStep_spec Canonical.factorStep_two Canonical.oneByOne_order","Exact real arithmetic; ordinary least squares without regularization or basis adaptation, np.linalg.qr and the linear solvers are parameters. For order two the step for the first factor needs a rank that is at most the first dimension (otherwise the code builds factors with different numbers of columns).")
c("C131","partial","Canonical.cnSolve_partial Canonical.sweep_two_partial Canonical.sweep_two_increases","Proved for order at least three, for one_by_one_factor, and for order two with the default exploration order. False of the code for order two with a random order: the first factor is replaced by its QR factor without updating the others, and a sweep from an interpolating tensor then has a positive risk whatever the linear algebra does (sweep_two_increases).")

c("C132","proved","TreeBased.ofFull_full","Any commutative semiring of entries.")
c("C133","proved","TreeBased.ofDiagonal_full TreeBased.ofDiagonal_default TreeBased.ofDiagonal_refused","Any commutative semiring of entries; a diagonal with at least one entry.")
c("C134","partial","TreeBased.ofCanonical_partial TreeBased.ofCanonical_equal","Proved when the dimensions are not all equal. False of the code otherwise: the assignment of the list of matrices to the array of tensors raises ValueError because NumPy makes an array with three axes of them (ofCanonical_equal). This is also the path of TreeBasedTensorLearning with the canonical initialization.")

c("C135","proved","Piecewise.elementNumber_spec","Exact real arithmetic.")
c("C136","proved","Piecewise.evalRow_spec Piecewise.evalRow_indices Piecewise.piecewise_basis","The reference polynomials are those of polyval of the Lebesgue measure on [0, 1] (C83).")
c("C137","partial","Piecewise.gram_partial Piecewise.not_orthonormal","The functions are orthogonal but of squared norm 1/2: orthonormality is false of the code, because the polynomials of LebesgueMeasure(0, 1) are not normalised (C84).")
c("C138","partial","Piecewise.evalDerivativeRow_partial Piecewise.evalDerivativeRow_zero Piecewise.evalDerivativeRow_wrong","The map to the element and the scaling are right for every order, and order 0 is the value; for larger orders the property is false of the code because the derivatives of the reference polynomials are wrong (C85, evalDerivativeRow_wrong).")
c("C139","proved","Piecewise.interpolationPoints_spec Piecewise.interpolation_unisolvent","")
c("C140","proved","Piecewise.npMesh_spec Piecewise.hpMesh_spec Piecewise.singularityHp_spec Piecewise.singularityHp_empty Piecewise.singularityHp_coarse","Scalar p. Outside the stated range: without singularity singularityhp_adapted raises UnboundLocalError (singularityHp_empty), and for h of at least 1 between two singularities the basis has no degrees (singularityHp_coarse).")

c("C141","proved","TreeBased.removeUniqueChildren_full TreeBased.removeUniqueChildren_one_node","The method also overwrites the tensors and the adjacency matrix of its argument, which is not stated. On a tree with one node it raises IndexError (removeUniqueChildren_one_node).")
c("C142","proved","TreeBased.squeezeTB_full TreeBased.squeezeTB_one TreeBased.squeezeTB_none","Nonnegative dimensions (negative ones raise IndexError or select wrong nodes). With one remaining dimension full() also drops a rank axis of size one of the root.")
c("C143","partial","TreeBased.squeezeTB_all TreeBased.squeezeTB_refused_witness","False of the code: when dims contains all the dimensions, the axes of size one of the full array are removed and the others are kept silently (squeezeTB_all). The ValueError for other lists is shown on an example only.")
c("C144","proved","TreeBased.tensorVectorProductTB_full TreeBased.tensorVectorProductTB_one TreeBased.tensorVectorProductTB_all TreeBased.reduceSumTB_full TreeBased.reduceSumTB_all","")

c("C145","proved","FunctionalTensor.conditionalExpectation_eval FunctionalTensor.conditionalExpectation_average FunctionalTensor.conditionalExpectation_empty","Bases with at least one function. The optional measure argument is not covered (C61: it is matched to the wrong bases).")
c("C146","proved","FunctionalTensor.mean_conditionalExpectation","")
c("C147","partial","FunctionalTensor.normSqEvaluated_partial FunctionalTensor.dotProductExpectation_refused FunctionalTensor.variance_refused FunctionalTensor.varianceConditionalExpectation_refused","False of the code: FunctionalBases has no method gram_matrix, all these methods raise AttributeError for FunctionalBases (proved). What holds: the norm with evaluated bases, for dense tensors.")
c("C148","partial","FunctionalTensor.mask_wrong FunctionalTensor.mask_two","False of the code: the elements of an array of booleans are numpy booleans, not bool, so masks are used as the dimensions 0 and 1 (witness); with two dimensions and a mask with both values the function itself is returned (proved).")

c("C149","proved","FunctionalPca.gridPoints_ok FunctionalPca.project_spec FunctionalPca.projection_refused FunctionalPca.points_refused","pinv is a parameter that gives the inverse of an invertible matrix. Bases with at least one function.")
c("C150","proved","FunctionalPca.approximation_interpolates FunctionalPca.tuckerApproximation_spec FunctionalPca.ttApproximation_spec","Exact arithmetic; the candidate points (given, values of a discrete measure, or random draws) are a parameter.")
c("C151","proved","FunctionalPca.approximation_exact","Exact arithmetic.")
c("C152","proved","FunctionalPca.hopca_spec","Exact arithmetic.")

c("C153","proved","SubBasis.sub_fns SubBasis.sub_eval_indices SubBasis.sub_mean SubBasis.sub_gram","The mean E is any functional that is linear on the functions (mean) or on the products of pairs of functions (Gram matrix); met by polynomials, see polyFns_linear.")
c("C154","proved","SubBasis.flag_spec SubBasis.flag_sound SubBasis.flag_other","Exact arithmetic: in floating point the threshold 1e-15 is of the order of the rounding error.")
c("C155","proved","SubBasis.orthonormalize_spec SubBasis.orthonormalize_refuses","Exact arithmetic, matrices of floating-point numbers.")
c("C156","proved","SubBasis.basis_orthonormalize SubBasis.basis_orthonormalize_refuses SubBasis.basis_orthonormalize_gram","Exact arithmetic. Only bases with a gram_matrix() without argument; for the others the exception is passed on.")
c("C157","partial","SubBasis.evalDerivative_refuses SubBasis.evalDerivative_swapped SubBasis.evalDerivative_wrong SubBasis.evalJacobian_eq SubBasis.evalJacobian_partial SubBasis.evalJacobian_wrong","False of the code: eval_derivative exchanges the order and the points (sub_functional_basis.py l.143), so that it raises an exception with two points or more and otherwise returns derivatives of order x at n; eval_jacobian contracts the wrong axis of the matrix (l.183). Proved: what is returned in each case, the symmetric case, and witnesses.")
c("C158","proved","SubBasis.polyBasis_fns SubBasis.polyBasis_gram SubBasis.polyBasis_gram_measure SubBasis.polyBasis_orthonormal SubBasis.polyOne_spec","Exact arithmetic; np.linalg.eig is a parameter that returns eigenvectors.")
c("C159","partial","SubBasis.polyDerivative_transposed SubBasis.polyDerivative_partial SubBasis.polyDerivative_wrong","False of the code: the coefficients are transposed by the constructor of FunctionalBasisArray (C47). Proved: the functions that are returned, for every order and indices; the case k = 0; and for every uniform or normal variable a wrong derivative for the degrees 0 and 1.")

c("C160","proved","TensorInterp.fullInterpolation_spec TensorInterp.fullInterpolation_exact","Exact arithmetic; functions with one output.")
c("C161","partial","TensorInterp.fullInterpolation_tensor_refused TensorInterp.fullInterpolation_arg_partial","False of the code: isinstance is called with three arguments (full_tensor_product_functional_basis.py l.304-308), which raises TypeError. Proved: exactly the functions are accepted.")
c("C162","proved","TensorInterp.sparseInterpolation_polynomials TensorInterp.sparseInterpolation_spec TensorInterp.sparseInterpolation_exact","Exact arithmetic; functions with one output. The last two are for all bases and nodes that are hierarchical; the first shows that polynomials are so.")
c("C163","partial","TensorInterp.sparseInterpolation_partial TensorInterp.sparseInterpolation_wrong","False of the code: the nodes are unisolvent for the whole basis of a dimension but not for its first functions (magic_points without J), so that the linear system of a downward closed set may be singular. Proved when the nodes are unisolvent for the first functions.")
c("C164","partial","TensorInterp.fullProjection_partial TensorInterp.fullProjection_best_partial TensorInterp.fullProjection_exact_partial TensorInterp.fullProjection_wrong TensorInterp.fullProjection_refuses","False of the code for rules whose numbers of points differ among the dimensions: np.hstack refuses their points (full_tensor_product_functional_basis.py l.238). Proved when the numbers are equal. Exact arithmetic.")

c("C165","proved","Derivatives.evalDerivative_spec Derivatives.evalDerivative_refuses Derivatives.polyD_ok","Exact arithmetic. The bases are such that their eval_derivative returns the derivatives; polynomials are so (polyD_ok, with polyEvalDerivative_partial of C168). Without the argument dims (see C98).")
c("C166","partial","Derivatives.evalGradient_partial Derivatives.evalGradient_refused","False of the code: eval_gradient calls self.length(), which does not exist (functional_tensor.py l.753). Proved: eval_derivative gives the components of the gradient.")
c("C167","proved","Derivatives.sparseEvalDerivative_spec Derivatives.sparseEvalJacobian_spec Derivatives.arrayFn_eval Derivatives.fbaEvalDerivative_spec Derivatives.fbaEvalGradient_spec","Exact arithmetic; bases with one variable. The functions are those that eval evaluates from the stored coefficients (the constructor may permute the given ones, C47).")
c("C168","partial","Derivatives.polyEvalDerivative_partial Derivatives.polyEvalJacobian_refused","False of the code: eval_jacobian passes a list of orders (functional_basis.py l.472-475) to which dn_polyval adds 1, which raises TypeError. Proved: with an integer order the derivatives are right.")
c("C169","partial","GramH1.gramH1_partial GramH1.gramH1_wrong","False of the code: derivative() returns transposed coefficients (C159). Proved: the matrix is the sum of the Gram matrices of the bases that derivative() returns, when none is marked orthonormal; and for every uniform or normal variable a wrong entry.")

c("C170","proved","Distributions.pdf_spec Distributions.isProba Distributions.cdf_spec Distributions.moments_spec","Exact arithmetic. The functions of scipy.stats are their documented formulas; the laws are measures of Mathlib.")
c("C171","proved","Distributions.icdf_spec Distributions.icdf_outside Distributions.law_cdf_le Distributions.transfer_spec Distributions.exists_ndtri","Exact arithmetic. scipy.special.ndtri is a parameter that inverts the distribution function (exists_ndtri).")
c("C172","proved","Distributions.isoGrid_spec Distributions.isoGridFrac_spec Distributions.vecIsoGrid_spec Distributions.vecIsoGrid_one Distributions.vecIsoGridFrac_spec Distributions.cells_refused","Exact arithmetic, as for C171.")
c("C173","proved","Distributions.vecPdf_spec Distributions.vecCdf_spec Distributions.vecMoments_spec Distributions.vecTransfer_spec Distributions.vecTransfer_refused Distributions.vec_wrong_size","Exact arithmetic. The silent 0 for points with too many components is what the code does, and is a defect.")

c("C174","proved","Empirical.pdf_spec Empirical.bandwidth_spec Empirical.shift_law Empirical.standard_law","Exact arithmetic.")
c("C175","partial","Empirical.moments_partial","False of the code: variance() is the variance of the sample, the square of the bandwidth is missing (proved for all samples). The mean is right.")
c("C176","partial","Empirical.cdf_eq Empirical.cdf_iff Empirical.cdf_wrong","False of the code: scipy.stats.gaussian_kde multiplies the given bandwidth by the unbiased standard deviation of the sample. Proved: cdf is the distribution function of another mixture, and that of pdf exactly when the unbiased variance of the sample is 1.")
c("C177","proved","Empirical.integrationRule_spec","Exact arithmetic; np.linalg.eig is a parameter that returns eigenvectors.")
c("C178","proved","Empirical.polyval_orthonormal Empirical.polyval_refused Empirical.gauss_exactness Empirical.gauss_refused Empirical.moment_spec","Exact arithmetic. The mean and standard deviation of the sample are 0 and 1, or one of them differs by more than the machine precision (hypothesis Resolved): in between, the code does not shift the polynomials.")

c("C179","proved","TruncatedSupport.truncatedSupport_spec","Exact arithmetic; ndtri is a parameter that inverts the normal distribution function.")
c("C180","partial","TruncatedSupport.empIcdf_refused TruncatedSupport.empRandom_refused","False of the code: icdf calls truncated_support, which calls icdf: RecursionError for every sample, level and stack depth (proved).")

c("C181","proved","ProductMeasure.gauss_exact ProductMeasure.gauss_sizes","Exact arithmetic; np.linalg.eig is a parameter that returns eigenvectors.")
c("C182","proved","ProductMeasure.measEq_law ProductMeasure.vectorEq_spec ProductMeasure.vectorEq_length","")
c("C183","partial","ProductMeasure.productEq_partial ProductMeasure.productEq_prefix","False of the code: a product measure equals every extension of it, because the factors are compared with zip (proved). Proved for the same number of factors.")
c("C184","proved","ProductMeasure.shift_uniform ProductMeasure.shift_normal ProductMeasure.standard_spec","Exact arithmetic.")
c("C185","proved","ProductMeasure.marginal_spec ProductMeasure.marginal_refused ProductMeasure.mass_spec","Negative indices are not modelled.")

c("C186","partial","TreeBased.newRankSelection_partial TreeBased.newRankSelection_refused","False of the code when rank_one_correction is False: s_local is not assigned, UnboundLocalError (proved for every input). Proved with the correction; the inactive leaves are numbered in the order of the dimensions (see C40). The corrected tensor and its singular values are parameters.")
c("C187","proved","TreeBased.uniqueTol_spec","")
c("C188","partial","TreeBased.enrichedEdges_wrong TreeBased.enrichedEdges_witness","False of the code: indices from zero are compared with node numbers from one (l.1243, l.1246); for every input, when a tensor is returned, a node keeps a rank smaller than the one asked (proved).")
c("C189","partial","TreeBased.randomizeTree_refused TreeBased.randomizeCanonical_spec","False of the code for tree-based tensors: np.intersect1d with return_indices gives three arrays, unpacked into two names: ValueError for every tensor (proved). Proved for canonical tensors, without one_by_one_factor.")

c("C190","proved","TreeBased.tensorTrain_spec","Exact arithmetic.")
c("C191","partial","TreeBased.tensorTrain_dims_partial TreeBased.tensorTrain_list_refused","False of the code for a list of cores, which cannot be indexed by np.argsort(dims): TypeError (proved). Proved for an array of cores.")

c("C192","proved","Polynomials.genPolyval_spec Polynomials.dPolyCoef_spec Polynomials.dnPolyCoeff_spec Polynomials.hasCoeffs_family Polynomials.hasCoeffs_canonical","Exact arithmetic.")
c("C193","partial","Polynomials.genDnPolyval_partial","False of the code for orders larger than the largest degree, for which it raises ValueError although the derivatives are zero (proved). Proved for the other orders.")
c("C194","proved","Polynomials.canonical_polyval Polynomials.canonicalMoment_spec Polynomials.canonicalMean_spec Polynomials.canonical_refused","Exact arithmetic; numpy.linalg.eig is any function meeting its specification, used by the Gauss rule.")

c("C195","proved","TreeBased.rankProp_spec TreeBased.rank_of_splits","Exact arithmetic; QR and SVD oracles meeting their specifications. The root, where the code always answers 1, is excluded.")
c("C196","proved","TreeBased.sparseLeavesStorage_spec TreeBased.complexityTB_spec TreeBased.complexityTB_nonneg","")
c("C197","proved","TreeBased.tensorDiagonalMatrixProductTB_spec","")
c("C198","partial","TreeBased.rmulMat_partial TreeBased.rmulMat_refused","False of the code for the attribute ranks when M is not square: it is assigned the number of columns of M instead of its number of rows (proved). Proved for the entries.")
c("C199","partial","TreeBased.isActiveDim_partial TreeBased.isActiveDim_int","False of the code for an integer, for which it raises IndexError (proved). Proved for arrays.")

c("C200","proved","TreeBased.changeRoot_full TreeBased.changeRoot_inactive","")
c("C201","partial","TreeBased.changeRoot_outputs_partial TreeBased.changeRoot_axis TreeBased.changeRoot_outputs_witness","False of the code: with several outputs the method addChild, which does not exist, is called (AttributeError), and an output axis of size one makes the transposition of the root fail (ValueError); both proved for all such tensors.")

c("C202","partial","SubBasis.polyKron_partial SubBasis.polyKron_wrong","False of the code: kron projects the products on the polynomials of degree less than m1 + m2, with coefficients computed in self's basis, so the product of the two functions of highest degree is never in the result, and the result cannot even be evaluated (ValueError) unless self has exactly m1 + m2 functions. What kron returns is characterised entry by entry in polyKron_partial; polyKron_wrong holds for all pairs of bases not both constant.")
c("C203","partial","FunctionalTensor.mul_partial FunctionalTensor.mul_outputs_wrong FunctionalTensor.mul_ranks_refused FunctionalTensor.mul_outputs_witness","Proved for one output when the bases are the products in the order of the Kronecker product of tensors. False of the code with several outputs: np.arange(n**2, step=n) selects f_e g_0 instead of f_e g_e (proved for all such functions).")
c("C204","proved","FunctionalTensor.smul_spec","")

c("C205","proved","TreeBased.adaptPath_spec TreeBased.adaptPath_support","The list of the sets of a leaf is repeated twice by the code (np.tile), which adds no candidate.")
c("C206","proved","TreeBased.adaptPathDmrg_spec TreeBased.adaptPathLowRank_spec","")

c("C207","proved","FullTensor.tensordotExceptDim_spec FullTensor.tensordotExceptDim_refused","")

c("C208","partial","TreeBased.paramGradEvalDmrg_node_partial TreeBased.paramGradEvalDmrg_root_partial TreeBased.paramGradEvalDmrg_raises","The tensors of alpha and gamma may be replaced by any others, with another rank of alpha. Proved when all the nodes are active and every internal node has two children or more. False of the code for functions with an output axis of size one when gamma is not the root, and for several outputs when gamma is the root: the code raises (paramGradEvalDmrg_raises). Missing: inactive nodes.")
c("C209","partial","TreeBased.paramGradEvalLowRank_partial TreeBased.paramGradEvalLowRank_raises","Same scope as C208. False of the code for functions with an output axis when gamma is not the root, and for several outputs when it is (paramGradEvalLowRank_raises: the order of the whole gradient is used for a factor). Missing: inactive nodes.")

c("C210","partial","TreeBased.dmrgUpdate_partial TreeBased.dmrgUpdate_error_partial TreeBased.dmrgUpdate_raises","Proved for functions without output axis (an output axis of size one is allowed when the parent is the root). False of the code for functions with several outputs when the parent is not the root: every vector of coefficients is refused (dmrgUpdate_raises). The singular value decomposition is an exact one. Missing: inactive nodes, unary nodes, thresholding.")
c("C211","partial","TreeBased.dmrgUpdateLowRank_partial","Same scope as C209 and C210; functions with an output axis are refused by the gradient when the parent is not the root (paramGradEvalLowRank_raises). Missing: inactive nodes, unary nodes.")

c("C212","proved","TreeBased.optimizeTree_storage TreeBased.optimizeLeaves_storage","The exchange of two nodes (permute_nodes) is a parameter: the claim does not depend on it, except that it builds tensors without inactive internal node (the constructor refuses the others). The deep copies are values.")
c("C213","proved","TreeBased.optimizeTree_error TreeBased.optimizeLeaves_error","The exchange of two nodes is a parameter with the stated contract (PermuteOk); its tensors are not modelled. Numbers of exchanges per iteration are at least one, as in the code.")
c("C214","partial","TreeBased.permutationCost_spec TreeBased.candidates_spec TreeBased.leafCandidates_spec TreeBased.swappable_swapNodes TreeBased.costRanks_spec_partial TreeBased.costRanks_order TreeBased.permutationCost_modifies_ranks","The claim on the sizes of the inactive leaves is false of the code when the numbers of the leaves do not increase with the dimensions (costRanks_order): proved when they do. A call also overwrites self.ranks with these sizes, after which the ranks of the tensor are no longer admissible (permutationCost_modifies_ranks).")
c("C215","partial","TreeBased.whileLoop_ends_partial TreeBased.whileLoop_never TreeBased.optimizeTree_never TreeBased.not_swappable_of_star","False of the code for trees whose nodes other than the root are its sons: the inner loop never ends (optimizeTree_never). Proved for the inner loop when each node drawn can be exchanged with another.")

c("C216","proved","TreeBased.adaptTree_storage TreeBased.adaptError_spec TreeBased.adaptTree_error TreeBased.adaptTree_raises","The exchange of two nodes is a parameter with the contract PermuteOk, as in C213. The claim is about the calls that return: without a tolerance in the options, with a relative error, no test error and no cross-validation error, an exception is raised (adaptTree_raises).")

c("C217","partial","TreeBased.rankOneCorrection_none TreeBased.rankOneCorrection_spec_partial TreeBased.rankOneCorrection_interpolant TreeBased.rankOneCorrection_increases TreeBased.exists_la_null","False of the code when the first linear system has a null solution: the loop is left with the initial tensor of ones, which is added to the function. In particular the correction of a function that interpolates the data adds the tensor of ones (rankOneCorrection_interpolant, for solvers that give the null solution for null data), which increases the risk (rankOneCorrection_increases). Proved otherwise, for tensors whose nodes are all active.")

c("C218","partial","Sets.isIn_spec Sets.isIn_interval Sets.isIn_short Sets.isIn_vector Sets.isIn_vector_wrong","False of the code for a vector of numbers and an interval: the vector is one point, and only its first entry is tested (isIn_vector, isIn_vector_wrong). Proved for the points given by the rows of a matrix.")
c("C219","partial","Sets.randomMultiIndices_ints Sets.randomMultiIndices_lists Sets.randomMultiIndices_twice","False of the code for a list of lists: its elements are replaced by the random variables (randomMultiIndices_lists), so that a second call with it raises an exception (randomMultiIndices_twice). The law is proved in both cases, with exact arithmetic.")

c("C220","proved","TreeBased.evalAtIndices_full TreeBased.evalAtIndices_columns TreeBased.evalAtIndices_refused","eval_diag is the modelled method of C94; a square matrix is read by rows.")
c("C221","partial","TreeBased.evalAtIndices_dim TreeBased.evalAtIndices_point_partial TreeBased.evalAtIndices_fibre_partial TreeBased.evalAtIndices_entry TreeBased.evalAtIndices_point_wrong","False of the code when one of the other dimensions has size one: the code calls squeeze() without argument, which drops it too (evalAtIndices_point_wrong). Several points in several dimensions (eval_diag(dims)) are not modelled.")

c("C222","partial","ExplicitBases.delta_eval ExplicitBases.delta_eval_numbers ExplicitBases.delta_cardinal_partial ExplicitBases.delta_cardinal_wrong ExplicitBases.delta_ndim ExplicitBases.delta_ndim_wrong ExplicitBases.delta_random_wrong ExplicitBases.delta_witness","False of the code: cardinal() is the dimension of the values (delta_cardinal_wrong), so that random(n) raises an exception (delta_random_wrong), and ndim() is one when no measure is given (delta_ndim_wrong). The evaluation is proved.")
c("C223","proved","ExplicitBases.user_eval ExplicitBases.user_eval_numbers ExplicitBases.user_constant ExplicitBases.user_refused ExplicitBases.user_attributes ExplicitBases.user_random","The functions are any functions of the array of points; the measure is represented by its dimension and its sample.")

c("C224","partial","TestError.testError_points TestError.testError_refused TestError.testError_measure TestError.testError_default TestError.isErrors_zero TestError.testError_one_wrong","False of the code for one number as the only test point: no branch computes the errors and UnboundLocalError is raised (testError_one_wrong). Proved for the other sets of points; exact arithmetic; evaluations of shape [n] or [n, m].")
c("C225","partial","TestError.random_self TestError.random_refused TestError.random_given_partial TestError.random_given_wrong TestError.random_other_wrong","False of the code: the type of the attribute measure is tested instead of the one of the argument, so that a given probability measure is refused for a function without one (random_given_wrong), and another measure is accepted (random_other_wrong).")

c("C226","partial","LearningSetup.prepare_eval LearningSetup.prepare_keep LearningSetup.prepare_disabled LearningSetup.prepare_missing_wrong LearningSetup.prepare_test_wrong","False of the code for missing inputs and for an evaluation that raises: all the exceptions are ignored, including the ValueError of the method itself, and the evaluations stay undefined (prepare_missing_wrong, prepare_test_wrong). The other parts are proved.")
c("C227","proved","LearningSetup.densityRisk_fun LearningSetup.densityRisk_evals LearningSetup.densityRisk_call LearningSetup.densityRisk_nan LearningSetup.densityTestError_spec LearningSetup.densityRisk_expectation","Exact arithmetic; the expectation is stated for one point of the sample, on a finite set with any weights.")

c("C228","proved","DiscreteMeasures.create_uniform DiscreteMeasures.create_weights DiscreteMeasures.create_vec DiscreteMeasures.create_refused DiscreteMeasures.eq_spec DiscreteMeasures.support_spec","Rational values and weights, no rounding.")
c("C229","partial","DiscreteMeasures.random_partial DiscreteMeasures.random_wrong DiscreteMeasures.draws_interval","False of the code for values in a dimension other than one: np.squeeze raises ValueError (random_wrong). In dimension one the value drawn by each number of the uniform sample is given, and these numbers form an interval of length proportional to the weight (draws_interval); exact arithmetic, numbers in (0, 1].")

c("C230","partial","CustomLoss.eval_spec CustomLoss.eval_error CustomLoss.risk_unobserved CustomLoss.risk_vector_partial CustomLoss.risk_matrix_partial CustomLoss.risk_zero_partial CustomLoss.risk_column_wrong CustomLoss.risk_exact_wrong","Proved for observations and predictions of the same shape. False of the code for observations of shape n and predictions of shape n x 1, which are broadcast: the mean is over all the pairs. Exact real arithmetic; *args not modelled.")
c("C231","partial","CustomLoss.testError_default CustomLoss.testError_given CustomLoss.relativeTestError_spec CustomLoss.testError_type_partial CustomLoss.testError_type_wrong CustomLoss.eval_hidden_wrong","False of the code for the error type (it is ignored) and for exceptions of the predictor (ignored; the object itself is then given to the loss, which is taken to raise TypeError).")

c("C232","partial","Benchmark.borehole_spec Benchmark.ishigami_spec Benchmark.sinOfSum_spec Benchmark.linearAdditive_spec Benchmark.linearRankOne_spec Benchmark.quadraticRankOne_spec Benchmark.canonicalRank2_spec Benchmark.mixture_spec Benchmark.field_spec Benchmark.cornerPeak_spec Benchmark.henonHeiles_spec Benchmark.sobol_spec Benchmark.anisotropic_spec Benchmark.polynomial_spec Benchmark.benchmark_partial Benchmark.canonicalRank2_refused Benchmark.names_wrong Benchmark.expPeak_wrong Benchmark.oscillatory_wrong Benchmark.productPeak_wrong","False of the code for six documented names: sin_of_a_sum and discontinuous are not implemented, gaussian and continuous always raise, oscillatory returns d values per point, product_peak is refused for several points. Exact real arithmetic; parameters a, b of ishigami and q of polynomial by default.")
c("C233","proved","Benchmark.sobol_mean Benchmark.polynomial_mean","Exact integrals over the cube of the law of the returned random vector (Fubini).")

here = os.path.dirname(os.path.abspath(__file__))
json.dump(dict(claims=claims), open(os.path.join(here, "..", "MANIFEST.json"), "w"), indent=1)
print(len(claims), "claims")
