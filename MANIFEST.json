{
 "claims": [
  {
   "property": "C01",
   "status": "proved",
   "theorems": [
    "Verif.Utils.integer2baseb_spec",
    "Verif.Utils.integer2baseb_ok_iff",
    "Verif.Utils.baseb2integer_spec",
    "Verif.Utils.baseb2integer_integer2baseb",
    "Verif.Utils.integer2baseb_baseb2integer",
    "Verif.Utils.defaultDigits_spec",
    "Verif.Utils.integer2baseb_zero_default_raises"
   ],
   "note": "With the digit count left out and max(i)=0 the code asks for 0 digits and raises (integer2baseb_zero_default_raises)."
  },
  {
   "property": "C02",
   "status": "proved",
   "theorems": [
    "Verif.MultiIndices.sub2ind_spec",
    "Verif.MultiIndices.ind2sub_sub2ind",
    "Verif.MultiIndices.sub2ind_ind2sub",
    "Verif.MultiIndices.sub2ind_ind2sub_eq",
    "Verif.MultiIndices.ravelF_eq_colMajor"
   ],
   "note": ""
  },
  {
   "property": "C03",
   "status": "proved",
   "theorems": [
    "Verif.MultiIndices.productSet_ok_iff",
    "Verif.MultiIndices.productSet_replicate",
    "Verif.MultiIndices.mem_productSet",
    "Verif.MultiIndices.productSet_order",
    "Verif.MultiIndices.productSet_nodup"
   ],
   "note": "An empty factor raises TypeError (productSet_ok_iff)."
  },
  {
   "property": "C04",
   "status": "proved",
   "theorems": [
    "Verif.MultiIndices.boundedBy_ok_iff",
    "Verif.MultiIndices.mem_boundedBy",
    "Verif.MultiIndices.boundedBy_order"
   ],
   "note": ""
  },
  {
   "property": "C05",
   "status": "proved",
   "theorems": [
    "Verif.MultiIndices.addIndices_spec",
    "Verif.MultiIndices.addIndices_idem",
    "Verif.MultiIndices.addIndices_empty_empty"
   ],
   "note": "Hypothesis: I has rows; for two empty sets numpy yields one empty row (addIndices_empty_empty)."
  },
  {
   "property": "C06",
   "status": "proved",
   "theorems": [
    "Verif.MultiIndices.removeIndices_spec",
    "Verif.MultiIndices.intersectIndices_spec",
    "Verif.MultiIndices.remove_intersect_partition",
    "Verif.MultiIndices.intersectIndices_nodup",
    "Verif.MultiIndices.removeIndicesAt_spec",
    "Verif.MultiIndices.keepIndices_spec"
   ],
   "note": ""
  },
  {
   "property": "C07",
   "status": "proved",
   "theorems": [
    "Verif.MultiIndices.getMargin_spec",
    "Verif.MultiIndices.getMargin_empty"
   ],
   "note": ""
  },
  {
   "property": "C08",
   "status": "proved",
   "theorems": [
    "Verif.MultiIndices.getReducedMargin_spec",
    "Verif.MultiIndices.addIndices_downClosed",
    "Verif.MultiIndices.enrich_history_downClosed"
   ],
   "note": ""
  },
  {
   "property": "C09",
   "status": "proved",
   "theorems": [
    "Verif.MultiIndices.getMaximalIndices_spec",
    "Verif.MultiIndices.mem_iff_below_maximal"
   ],
   "note": ""
  },
  {
   "property": "C10",
   "status": "proved",
   "theorems": [
    "Verif.MultiIndices.isDownwardClosed_spec",
    "Verif.MultiIndices.isDownwardClosed_below_raises"
   ],
   "note": ""
  },
  {
   "property": "C11",
   "status": "proved",
   "theorems": [
    "Verif.MultiIndices.withBoundedNorm_one_spec"
   ],
   "note": ""
  },
  {
   "property": "C12",
   "status": "partial",
   "theorems": [
    "Verif.MultiIndices.hyperbolicCrossSet_spec",
    "Verif.MultiIndices.withBoundedNorm_partial",
    "Verif.MultiIndices.withBoundedNorm_incomplete",
    "Verif.MultiIndices.withBoundedNorm_inf_raises",
    "Verif.MultiIndices.weightedHyperbolicCrossSet_incomplete",
    "Verif.MultiIndices.lowOrderInteractions_incomplete",
    "Verif.MultiIndices.lowOrderInteractions_partial",
    "Verif.MultiIndices.withBoundedWeightedNorm_spec"
   ],
   "note": "The full claim is false of the code: with p<1-type growth stopping rules the loops stop early (witness theorems *_incomplete); the partial theorems give the exact sets where the claim holds."
  },
  {
   "property": "C13",
   "status": "partial",
   "theorems": [
    "Verif.MultiIndices.sort_ascend_spec",
    "Verif.MultiIndices.sort_default_columns",
    "Verif.MultiIndices.sort_descend_partial",
    "Verif.MultiIndices.sort_descend_one_column",
    "Verif.MultiIndices.sort_descend_wrong"
   ],
   "note": "Mode 'descend' alternates directions with two or more columns (sort_descend_partial, sort_descend_wrong): the full claim is false of the code there."
  },
  {
   "property": "C14",
   "status": "proved",
   "theorems": [
    "Verif.MultiIndices.envelope_spec"
   ],
   "note": ""
  },
  {
   "property": "C15",
   "status": "proved",
   "theorems": [
    "Verif.Utils.fastIntersect_spec",
    "Verif.Utils.fastSetdiff_spec",
    "Verif.Utils.fastIntersect_needs_nodup"
   ],
   "note": ""
  },
  {
   "property": "C16",
   "status": "proved",
   "theorems": [
    "Verif.DimTree.trivial_valid",
    "Verif.DimTree.trivial_spec",
    "Verif.DimTree.linear_valid",
    "Verif.DimTree.linear_binary",
    "Verif.DimTree.linear_dims",
    "Verif.DimTree.balanced_valid",
    "Verif.DimTree.balanced_binary",
    "Verif.DimTree.balanced_level",
    "Verif.DimTree.linear_one_invalid"
   ],
   "note": "linear(1) yields a leaf map with node 0 (linear_one_invalid): the order must be at least two there."
  },
  {
   "property": "C17",
   "status": "proved",
   "theorems": [
    "Verif.DimTree.attributes_spec"
   ],
   "note": ""
  },
  {
   "property": "C18",
   "status": "proved",
   "theorems": [
    "Verif.DimTree.dims_spec"
   ],
   "note": ""
  },
  {
   "property": "C19",
   "status": "proved",
   "theorems": [
    "Verif.DimTree.ascendants_spec",
    "Verif.DimTree.descendants_spec",
    "Verif.DimTree.descendants_ascendants"
   ],
   "note": ""
  },
  {
   "property": "C20",
   "status": "proved",
   "theorems": [
    "Verif.DimTree.permute_spec",
    "Verif.DimTree.ipermute_spec",
    "Verif.DimTree.ipermute_permute",
    "Verif.DimTree.permute_ipermute",
    "Verif.DimTree.permute_valid",
    "Verif.DimTree.permute_dims",
    "Verif.DimTree.scatter_spec"
   ],
   "note": ""
  },
  {
   "property": "C21",
   "status": "partial",
   "theorems": [
    "Verif.DimTree.eq_of_sameTree",
    "Verif.DimTree.sameTree_of_eq_partial",
    "Verif.DimTree.eq_unsound"
   ],
   "note": "== is complete but not sound: it returns True for trees whose level sizes differ (eq_unsound); the partial theorem gives soundness when the level sizes agree."
  },
  {
   "property": "C22",
   "status": "proved",
   "theorems": [
    "Verif.FullTensor.transpose_spec",
    "Verif.FullTensor.transpose_refused",
    "Verif.FullTensor.itranspose_transpose",
    "Verif.FullTensor.transpose_itranspose",
    "Verif.FullTensor.reshape_spec",
    "Verif.FullTensor.reshape_reshape",
    "Verif.FullTensor.matricize_spec",
    "Verif.FullTensor.matricize_default"
   ],
   "note": ""
  },
  {
   "property": "C23",
   "status": "proved",
   "theorems": [
    "Verif.FullTensor.tmpStep_spec",
    "Verif.FullTensor.tmpStep_refused",
    "Verif.FullTensor.tensorMatrixProduct_spec",
    "Verif.FullTensor.tensorMatrixProduct_comm",
    "Verif.FullTensor.tensorMatrixProduct_comp",
    "Verif.FullTensor.tensorVectorProduct_spec"
   ],
   "note": ""
  },
  {
   "property": "C24",
   "status": "partial",
   "theorems": [
    "Verif.FullTensor.evalAtIndices_all",
    "Verif.FullTensor.evalAtIndices_full",
    "Verif.FullTensor.evalAtIndices_one",
    "Verif.FullTensor.evalAtIndices_partial",
    "Verif.FullTensor.evalAtIndices_wrong",
    "Verif.FullTensor.evalDiag_spec",
    "Verif.FullTensor.evalDiag_refused"
   ],
   "note": "False of the code when two or more but not all dimensions are designated: rows are numbered in row-major order against a column-major matricisation (evalAtIndices_wrong). The partial theorem covers rows whose two numbers agree, which gives eval_diag in full."
  },
  {
   "property": "C25",
   "status": "proved",
   "theorems": [
    "Verif.FullTensor.kron_spec",
    "Verif.FullTensor.kron_refused",
    "Verif.FullTensor.cat_spec",
    "Verif.FullTensor.cat_default",
    "Verif.FullTensor.cat_refused",
    "Verif.FullTensor.subTensor_spec",
    "Verif.FullTensor.subTensor_refused",
    "Verif.FullTensor.subTensor_missing",
    "Verif.FullTensor.kron_diag_eq_mul"
   ],
   "note": ""
  },
  {
   "property": "C26",
   "status": "proved",
   "theorems": [
    "Verif.Sparse.ofFull_spec",
    "Verif.Sparse.full_ofFull_spec",
    "Verif.Sparse.full_refused",
    "Verif.Sparse.transpose_spec",
    "Verif.Sparse.itranspose_spec",
    "Verif.Sparse.reshape_spec",
    "Verif.Sparse.transpose_order_one"
   ],
   "note": "transpose needs a non-0-d shape attribute; a tensor of order one built by the constructor raises (transpose_order_one)."
  },
  {
   "property": "C27",
   "status": "proved",
   "theorems": [
    "Verif.Sparse.add_spec",
    "Verif.Sparse.add_empty",
    "Verif.Sparse.dot_spec",
    "Verif.Sparse.mul_spec",
    "Verif.Sparse.one_entry_raises",
    "Verif.Sparse.mk_indexable",
    "Verif.Sparse.evalAtIndices_spec"
   ],
   "note": "A tensor built with exactly one entry has a 0-d data array, and then dot/mul/eval_at_indices raise IndexError instead of returning (one_entry_raises); add of two empty tensors yields one empty row (add_empty)."
  },
  {
   "property": "C28",
   "status": "partial",
   "theorems": [
    "Verif.Sparse.tensorVectorProduct_partial",
    "Verif.Sparse.tensorVectorProduct_example",
    "Verif.Sparse.tensorVectorProduct_order_one_wrong",
    "Verif.Sparse.tensorVectorProduct_full_wrong",
    "Verif.Sparse.tensorVectorProduct_vanishing_wrong",
    "Verif.Sparse.tensorMatrixProductEvalDiag_spec"
   ],
   "note": "False of the code when all the dimensions are contracted, or when all the products vanish: the stale values are kept (witness theorems). The partial theorem covers every contraction that leaves a dimension and an entry."
  },
  {
   "property": "C29",
   "status": "proved",
   "theorems": [
    "Verif.Diagonal.add_spec",
    "Verif.Diagonal.sub_spec",
    "Verif.Diagonal.mul_spec",
    "Verif.Diagonal.neg_spec",
    "Verif.Diagonal.dot_spec",
    "Verif.Diagonal.add_refused",
    "Verif.Diagonal.tensorVectorProduct_spec",
    "Verif.Diagonal.tensorDiagonalMatrixProduct_spec",
    "Verif.Diagonal.sparse_spec",
    "Verif.Diagonal.cat_spec",
    "Verif.Diagonal.kron_spec",
    "Verif.Diagonal.evalAtIndices_spec",
    "Verif.Diagonal.tensordotMatrixProductExceptDim_spec"
   ],
   "note": ""
  },
  {
   "property": "C30",
   "status": "partial",
   "theorems": [
    "Verif.Diagonal.evalDiag_all",
    "Verif.Diagonal.evalDiag_code",
    "Verif.Diagonal.evalDiag_partial",
    "Verif.Diagonal.evalDiag_gap_wrong",
    "Verif.Diagonal.evalDiag_gap_example",
    "Verif.Diagonal.dense_metric",
    "Verif.Diagonal.dotWithRankOneMetric_code",
    "Verif.Diagonal.dotWithRankOneMetric_partial",
    "Verif.Diagonal.dotWithRankOneMetric_wrong"
   ],
   "note": "False of the code when dims has a gap (the dimensions in the gap are merged too) and when a metric matrix is not symmetric (the matrices are transposed); both are witnessed. The partial theorems cover contiguous dims and symmetric matrices."
  },
  {
   "property": "C31",
   "status": "proved",
   "theorems": [
    "Verif.Canonical.full_spec",
    "Verif.Canonical.add_spec",
    "Verif.Canonical.neg_spec",
    "Verif.Canonical.sub_spec",
    "Verif.Canonical.tensorMatrixProduct_spec",
    "Verif.Canonical.squeeze_spec",
    "Verif.Canonical.tensorVectorProduct_spec",
    "Verif.Canonical.reduceSum_spec",
    "Verif.Canonical.representationRank_spec"
   ],
   "note": ""
  },
  {
   "property": "C32",
   "status": "partial",
   "theorems": [
    "Verif.Canonical.dense_dot",
    "Verif.Canonical.dot_code",
    "Verif.Canonical.dot_partial",
    "Verif.Canonical.dot_rank_one_partial",
    "Verif.Canonical.norm_spec",
    "Verif.Canonical.dot_wrong"
   ],
   "note": "False of the code for tensors with different factors (dot_wrong: the cores are exchanged). Proved for equal factors (hence norm()) and for rank one."
  },
  {
   "property": "C33",
   "status": "partial",
   "theorems": [
    "Verif.Canonical.evalDiag_partial",
    "Verif.Canonical.evalDiag_order_one_partial",
    "Verif.Canonical.evalDiag_wrong"
   ],
   "note": "False of the code from order two on: the first factor is multiplied in place (evalDiag_partial gives the exact state after the call, evalDiag_wrong two calls with different answers). The answer of the first call is proved."
  },
  {
   "property": "C34",
   "status": "partial",
   "theorems": [
    "Verif.TreeBased.full_spec",
    "Verif.TreeBased.full_again",
    "Verif.TreeBased.full_wrong_order_one",
    "Verif.TreeBased.exT_wf"
   ],
   "note": "full() is proved from order two on; for order one it returns the root tensor only (full_wrong_order_one)."
  },
  {
   "property": "C36",
   "status": "proved",
   "theorems": [
    "Verif.TreeBased.tensorMatrixProduct_full",
    "Verif.TreeBased.tensorMatrixProduct_refused",
    "Verif.TreeBased.subTensor_full",
    "Verif.TreeBased.subTensor_refused"
   ],
   "note": ""
  },
  {
   "property": "C35",
   "status": "proved",
   "theorems": [
    "Verif.TreeBased.add_full",
    "Verif.TreeBased.add_same",
    "Verif.TreeBased.sub_full",
    "Verif.TreeBased.neg_full",
    "Verif.TreeBased.smul_full",
    "Verif.TreeBased.add_numbering_wrong",
    "Verif.TreeBased.exT_compat",
    "Verif.TreeBased.exT_addable"
   ],
   "note": "Sums of tensors whose active leaves differ are covered (add_full). add_numbering_wrong shows that the hypothesis on the node numbering is needed although == ignores it."
  },
  {
   "property": "C37",
   "status": "partial",
   "theorems": [
    "Verif.TreeBased.kron_full",
    "Verif.TreeBased.mul_full",
    "Verif.TreeBased.mul_refused",
    "Verif.TreeBased.mul_wrong",
    "Verif.TreeBased.mul_wrong_swapped"
   ],
   "note": "Proved for tensors with the same active nodes. When a leaf is inactive in the first factor only, the code silently ignores the matrix of the leaf in the second one (mul_wrong)."
  },
  {
   "property": "C42",
   "status": "proved",
   "theorems": [
    "Verif.Tensorizer.u2z_spec",
    "Verif.Tensorizer.u2z_unique",
    "Verif.Tensorizer.z2u_spec",
    "Verif.Tensorizer.z2u_u2z",
    "Verif.Tensorizer.map_spec",
    "Verif.Tensorizer.inverseMap_spec",
    "Verif.Tensorizer.inverseMap_map",
    "Verif.Tensorizer.map_inverseMap",
    "Verif.Tensorizer.map_refused",
    "Verif.Tensorizer.inverseMap_map_uniform",
    "Verif.Tensorizer.exTz_codes"
   ],
   "note": "Over any ordered field with a floor function (no rounding). The hypotheses on cdf and icdf are discharged for the default uniform variables."
  },
  {
   "property": "C43",
   "status": "partial",
   "theorems": [
    "Verif.ModelSelection.mLambda1_spec",
    "Verif.ModelSelection.mLambda_spec",
    "Verif.ModelSelection.mLambda1_empty",
    "Verif.ModelSelection.lambdaPath_terminates",
    "Verif.ModelSelection.lambdaPath_empty",
    "Verif.ModelSelection.lambdaPath_partial",
    "Verif.ModelSelection.lambdaPath_sorted",
    "Verif.ModelSelection.tieBreak_of_sorted",
    "Verif.ModelSelection.tieBreak_of_generic",
    "Verif.ModelSelection.exSorted",
    "Verif.ModelSelection.lambdaPath_ties_wrong",
    "Verif.ModelSelection.lambdaPath_zero_wrong"
   ],
   "note": "m_lambda in full. lambda_path in full when the penalties increase along the list (lambdaPath_sorted), and for data where the first of tied models has the least penalty (lambdaPath_partial). False of the code otherwise: ties (lambdaPath_ties_wrong) and the answer 0 when there is no breakpoint (lambdaPath_zero_wrong)."
  },
  {
   "property": "C44",
   "status": "partial",
   "theorems": [
    "Verif.Measures.cdf_eq",
    "Verif.Measures.cdf_mono",
    "Verif.Measures.cdf_bounds",
    "Verif.Measures.icdf_spec",
    "Verif.Measures.icdf_zero",
    "Verif.Measures.icdf_refused",
    "Verif.Measures.icdf_galois_partial",
    "Verif.Measures.icdf_unsorted_wrong",
    "Verif.Measures.exLaw"
   ],
   "note": "The Galois connection is proved for values stored in nondecreasing order and false of the code otherwise (icdf_unsorted_wrong); the rest in full."
  },
  {
   "property": "C45",
   "status": "partial",
   "theorems": [
    "Verif.Measures.moment_fresh",
    "Verif.Measures.moment_history_partial",
    "Verif.Measures.moment_history_wrong"
   ],
   "note": "False of the code: after a stored request for orders other than 0..n the cache is read at the wrong positions (moment_history_wrong). The exactness of the Gauss rule is a hypothesis."
  },
  {
   "property": "C49",
   "status": "partial",
   "theorems": [
    "Verif.Measures.vectorEq_spec",
    "Verif.Measures.productEq_partial",
    "Verif.Measures.productEq_iff",
    "Verif.Measures.productEq_wrong",
    "Verif.Measures.basesEq_partial",
    "Verif.Measures.basesEq_wrong"
   ],
   "note": "False of the code for product measures and collections of bases with different numbers of components (zip truncates)."
  },
  {
   "property": "C51",
   "status": "proved",
   "theorems": [
    "Verif.TreeBased.activateNodes_full",
    "Verif.TreeBased.activateNodes_refused",
    "Verif.TreeBased.inactivateNodes_full",
    "Verif.TreeBased.inactivateNodes_refused"
   ],
   "note": "Both directions: activation inserts identities, inactivation absorbs the node tensors; the represented tensor is unchanged."
  },
  {
   "property": "C52",
   "status": "proved",
   "theorems": [
    "Verif.Measures.mk_spec",
    "Verif.Measures.mk_uniform",
    "Verif.Measures.mk_refused"
   ],
   "note": "A sum within machine precision of one is left as it is, as the code does."
  },
  {
   "property": "C53",
   "status": "proved",
   "theorems": [
    "Verif.Measures.standard_spec"
   ],
   "note": "The square root of the variance is a parameter."
  },
  {
   "property": "C54",
   "status": "proved",
   "theorems": [
    "Verif.Measures.discretizeSupport_spec"
   ],
   "note": "The distribution function is any nondecreasing function with values in [0, 1]."
  },
  {
   "property": "C55",
   "status": "partial",
   "theorems": [
    "Verif.ModelSelection.slopeHeuristic_spec",
    "Verif.ModelSelection.slopeHeuristic_equal_wrong",
    "Verif.ModelSelection.slopeHeuristic_no_path_raises",
    "Verif.ModelSelection.exSlope"
   ],
   "note": "Proved whenever lambda_path has breakpoints. With equal complexities the code answers model 0 whatever the risks, and without breakpoints it raises IndexError (witness theorems)."
  },
  {
   "property": "C46",
   "status": "proved",
   "theorems": [
    "Verif.Grids.array_spec",
    "Verif.Grids.array_refused",
    "Verif.Grids.mem_array",
    "Verif.Grids.arrayAt_spec",
    "Verif.Grids.sparseArray_spec",
    "Verif.Grids.weightsOnGrid_spec",
    "Verif.Grids.tensor_integrate_spec",
    "Verif.Grids.integrate_product",
    "Verif.Grids.integrate_refused",
    "Verif.Grids.mk'_refused",
    "Verif.Grids.mk'_accepts_mismatch"
   ],
   "note": "The constructor of the tensor rule does not compare the sizes of the weight vectors with the grids (mk'_accepts_mismatch): the theorems assume that they agree."
  },
  {
   "property": "C47",
   "status": "partial",
   "theorems": [
    "Verif.Bases.mk'_spec",
    "Verif.Bases.mk'_refused",
    "Verif.Bases.mk'_keeps_iff",
    "Verif.Bases.mk'_scalar_partial",
    "Verif.Bases.mk'_transposes",
    "Verif.Bases.evalWith_spec",
    "Verif.Bases.eval_scalar_partial",
    "Verif.Bases.eval_wrong",
    "Verif.Bases.neg_wrong",
    "Verif.Bases.neg_neg_wrong",
    "Verif.Bases.arith_scalar_partial"
   ],
   "note": "True of functions with one output. False of the code for several outputs and several basis functions: the constructor permutes the coefficients; mk'_keeps_iff says exactly when it does not."
  },
  {
   "property": "C48",
   "status": "partial",
   "theorems": [
    "Verif.Bases.evalSparse_spec",
    "Verif.Bases.evalFull_spec",
    "Verif.Bases.meanSparse_spec",
    "Verif.Bases.gramSparse_spec",
    "Verif.Bases.meanFull_rowMajor",
    "Verif.Bases.meanFull_partial",
    "Verif.Bases.meanFull_wrong",
    "Verif.Bases.condArray_spec",
    "Verif.Bases.condExp_wrong"
   ],
   "note": "Evaluation, and the means of sparse tensor bases, in full. mean() of a full tensor basis is in row-major order (meanFull_rowMajor) and so disagrees with eval when two bases have several functions (meanFull_wrong). conditional_expectation computes the right array (condArray_spec) and then permutes it (condExp_wrong)."
  },
  {
   "property": "C56",
   "status": "proved",
   "theorems": [
    "Verif.Grids.composite_integrate",
    "Verif.Grids.composite_exact",
    "Verif.Grids.lebesgueRule_integrate"
   ],
   "note": "The one-interval rule is a parameter."
  },
  {
   "property": "C57",
   "status": "proved",
   "theorems": [
    "Verif.Grids.productGauss_spec",
    "Verif.Grids.productGauss_scalar",
    "Verif.Grids.productGauss_refused",
    "Verif.Grids.productGauss_integrate",
    "Verif.Grids.tensorize_spec",
    "Verif.Grids.tensorize_power"
   ],
   "note": ""
  },
  {
   "property": "C58",
   "status": "proved",
   "theorems": [
    "Verif.Bases.mean_spec",
    "Verif.Bases.variance_spec",
    "Verif.Bases.variance_refused",
    "Verif.Bases.dot0_spec",
    "Verif.Bases.coefficients_spec"
   ],
   "note": "Means and orthonormality of the basis are stated for a finite quadrature."
  },
  {
   "property": "C59",
   "status": "proved",
   "theorems": [
    "Verif.Bases.adaptationPath_spec",
    "Verif.Bases.adaptationPath_nested",
    "Verif.Bases.triuPath_spec"
   ],
   "note": ""
  },
  {
   "property": "C60",
   "status": "proved",
   "theorems": [
    "Verif.Bases.basesEval_spec"
   ],
   "note": ""
  },
  {
   "property": "C61",
   "status": "partial",
   "theorems": [
    "Verif.Bases.basesMean_partial",
    "Verif.Bases.basesMean_general",
    "Verif.Bases.basesMean_wrong"
   ],
   "note": "True when dims are the first dimensions in order; false of the code in general: basis dims[k] is averaged under marginal k (basesMean_general, basesMean_wrong)."
  },
  {
   "property": "C62",
   "status": "partial",
   "theorems": [
    "Verif.Bases.keep_spec",
    "Verif.Bases.keep_measure_iff",
    "Verif.Bases.keep_measure_wrong",
    "Verif.Bases.remove_keep"
   ],
   "note": "The bases are the selected ones; the attribute measure is left unchanged, which is right only when the measures coincide (keep_measure_iff)."
  },
  {
   "property": "C63",
   "status": "proved",
   "theorems": [
    "Verif.MultiIndices.keepDims_spec",
    "Verif.MultiIndices.keepDims_refused",
    "Verif.MultiIndices.removeDims_eq",
    "Verif.MultiIndices.keepDims_downClosed"
   ],
   "note": ""
  },
  {
   "property": "C38",
   "status": "partial",
   "theorems": [
    "Verif.TreeBased.dotMetric_full",
    "Verif.TreeBased.dot_full",
    "Verif.TreeBased.dot_refused",
    "Verif.TreeBased.dotNode_refused"
   ],
   "note": "dot and dot_with_rank_one_metric equal the scalar products of the full tensors when the dimensions do not all have one size; when they do, NumPy stacks the matrices and dot raises ValueError (dot_refused), and a root rank axis of size one is refused (dotNode_refused): the unrestricted statement is false of the code. norm is normSq_full (C39)."
  },
  {
   "property": "C39",
   "status": "proved",
   "theorems": [
    "Verif.TreeBased.orth_full",
    "Verif.TreeBased.ortho_normSq",
    "Verif.TreeBased.normSq_full",
    "Verif.TreeBased.orthAtNode_spec"
   ],
   "note": "orth and norm for any exact QR (which exists over the reals, FullTensor.exists_qr); orth_at_node is C73"
  },
  {
   "property": "C64",
   "status": "proved",
   "theorems": [
    "Verif.FullTensor.orth_spec",
    "Verif.FullTensor.exists_qr"
   ],
   "note": "any exact reduced QR; exists_qr: such a QR exists for real matrices"
  },
  {
   "property": "C41",
   "status": "proved",
   "theorems": [
    "Verif.Truncation.truncSvd_spec",
    "Verif.Truncation.truncSvd_error",
    "Verif.Truncation.truncSvd_zero",
    "Verif.Truncation.truncSvd_threshold",
    "Verif.Truncation.exists_svd",
    "Verif.Truncation.hosvd_error",
    "Verif.Truncation.hsvd_error",
    "Verif.Truncation.hsvdDense_spec",
    "Verif.Truncation.ttsvd_spec"
   ],
   "note": "Total errors of hosvd, hsvd and ttsvd: hosvd_error, hsvd_error, hsvdDense_spec, ttsvd_spec. trunc_svd for any exact SVD (one exists over the reals: exists_svd): rank, prescribed relative error, maximal rank, thresholding. A zero matrix divides by zero and keeps all the ranks (truncSvd_zero)."
  },
  {
   "property": "C65",
   "status": "proved",
   "theorems": [
    "Verif.Truncation.hosvd_spec",
    "Verif.Truncation.hosvd_error",
    "Verif.Truncation.truncate_error"
   ],
   "note": "no thresholding; max_rank zero excluded. hosvd leaves the attribute max_rank of the truncator equal to the last maximal rank (hosvd_spec, m')."
  },
  {
   "property": "C50",
   "status": "partial",
   "theorems": [
    "Verif.DimTree.elemPerm_spec",
    "Verif.DimTree.permuteLeaves_partial",
    "Verif.DimTree.permuteLeaves_one_based",
    "Verif.DimTree.swapNodes_spec",
    "Verif.DimTree.swapNodes_refused"
   ],
   "note": "Decomposition, termination and the resulting tree are proved. The computation of the node tensors (orth_at_node and truncated SVDs) is not modelled, so the equality up to the tolerance is missing. With the numbering from 1 of the documentation the call raises IndexError (permuteLeaves_one_based)."
  },
  {
   "property": "C66",
   "status": "proved",
   "theorems": [
    "Verif.DimTree.addChild_spec"
   ],
   "note": ""
  },
  {
   "property": "C67",
   "status": "proved",
   "theorems": [
    "Verif.DimTree.changeRoot_spec",
    "Verif.DimTree.changeRoot_unary_raises"
   ],
   "note": "A root with a single son makes the constructor raise ValueError (changeRoot_unary_raises)."
  },
  {
   "property": "C68",
   "status": "proved",
   "theorems": [
    "Verif.DimTree.subTree_spec"
   ],
   "note": ""
  },
  {
   "property": "C69",
   "status": "proved",
   "theorems": [
    "Verif.DimTree.nodeWithDims_spec"
   ],
   "note": ""
  },
  {
   "property": "C40",
   "status": "partial",
   "theorems": [
    "Verif.TreeBased.isAdmissible_partial",
    "Verif.TreeBased.isAdmissible_wrong"
   ],
   "note": "Proved when the inactive leaves are numbered in the order of their dimensions (in particular with at most one inactive leaf). Otherwise the code attributes the sizes of the inactive dimensions to the wrong leaves: isAdmissible_wrong exhibits a tensor declared admissible although it is not."
  },
  {
   "property": "C70",
   "status": "proved",
   "theorems": [
    "Verif.Truncation.hsvd_spec",
    "Verif.Truncation.hsvd_error"
   ],
   "note": "For any QR/SVD oracles that return exact decompositions (their existence is proved: exists_qr, exists_svd). Exact arithmetic. The flag is_orth of the result, which the code sets to True although the tensors of the nodes are not orthonormal in general, is not modelled."
  },
  {
   "property": "C71",
   "status": "proved",
   "theorems": [
    "Verif.TreeBased.gramians_spec",
    "Verif.TreeBased.gramiansAt_spec"
   ],
   "note": "Exact arithmetic; for any QR oracle that returns exact factorizations (existence proved)."
  },
  {
   "property": "C72",
   "status": "proved",
   "theorems": [
    "Verif.TreeBased.singularValues_spec"
   ],
   "note": "Exact arithmetic; for any QR/SVD oracles that return exact decompositions. At the root the code returns [1], not the norm of the tensor: the claim excludes the root."
  },
  {
   "property": "C73",
   "status": "proved",
   "theorems": [
    "Verif.TreeBased.orthAtNode_spec",
    "Verif.TreeBased.orthAtNode_other"
   ],
   "note": "Exact arithmetic; QR, SVD, matrix_rank, pinv and inv are oracles with their mathematical specification (existence proved: exists_qr, exists_svd, exists_linAlg). The flags orth_node/is_orth are not modelled. For a zero tensor the code returns the orthogonalised tensor."
  },
  {
   "property": "C74",
   "status": "proved",
   "theorems": [
    "Verif.Truncation.hsvdDense_spec"
   ],
   "note": "Exact arithmetic; the SVD is an oracle with its mathematical specification (existence proved: exists_svd). Inactive nodes must be leaves; no thresholding. The attribute max_rank of the truncator, overwritten by the call, is not modelled."
  },
  {
   "property": "C75",
   "status": "proved",
   "theorems": [
    "Verif.Truncation.ttsvd_spec"
   ],
   "note": "As C74."
  },
  {
   "property": "C76",
   "status": "proved",
   "theorems": [
    "Verif.TreeBased.storage_spec"
   ],
   "note": ""
  },
  {
   "property": "C77",
   "status": "proved",
   "theorems": [
    "Verif.LeastSquares.solveOls_fit",
    "Verif.LeastSquares.solveOls_ok",
    "Verif.LeastSquares.solveOls_residuals",
    "Verif.LeastSquares.exists_la"
   ],
   "note": "Exact arithmetic, one output; np.linalg functions are oracles with their specification LaOk (existence proved: exists_la). Weights are not modelled (the code reads the unweighted attributes again)."
  },
  {
   "property": "C78",
   "status": "proved",
   "theorems": [
    "Verif.LeastSquares.solveOls_leaveOut",
    "Verif.LeastSquares.solveOls_leaveOut_inf",
    "Verif.LeastSquares.solveOls_leaveOut_nan",
    "Verif.LeastSquares.effective_leaveOut_iff",
    "Verif.LeastSquares.fit_unique"
   ],
   "note": "As C77, without option gram_matrix. When a sample alone determines a direction, the reported error is nan (solveOls_leaveOut_nan)."
  },
  {
   "property": "C79",
   "status": "proved",
   "theorems": [
    "Verif.LeastSquares.solveOls_kFold"
   ],
   "note": "As C78; the folds of sklearn's KFold are an arbitrary partition into nonempty sets."
  },
  {
   "property": "C80",
   "status": "partial",
   "theorems": [
    "Verif.LeastSquares.selectOptimalPath_spec",
    "Verif.LeastSquares.selectOptimalPath_leaveOut",
    "Verif.LeastSquares.selectOptimalPath_none",
    "Verif.LeastSquares.solveBasisAdaptation_default",
    "Verif.LeastSquares.mem_triuPath",
    "Verif.LeastSquares.selectOptimalPath_nan_wrong"
   ],
   "note": "False of the code when the error of a candidate is not defined: np.argmin then selects the nan (selectOptimalPath_nan_wrong). Proved when no error is nan; for leave-one-out, when any N-1 samples determine the coefficients of the candidates. L1/L2/OMP paths come from sklearn and are arbitrary here."
  },
  {
   "property": "C81",
   "status": "proved",
   "theorems": [
    "Verif.DensityL2.standardSol_minimizes",
    "Verif.DensityL2.standardErr_eq"
   ],
   "note": "Exact arithmetic."
  },
  {
   "property": "C82",
   "status": "proved",
   "theorems": [
    "Verif.DensityL2.solveRegularized_spec",
    "Verif.DensityL2.selectPath_spec",
    "Verif.DensityL2.restrict_minimizes"
   ],
   "note": "Exact arithmetic; without the option included_coefficients."
  },
  {
   "property": "C83",
   "status": "proved",
   "theorems": [
    "Verif.Polynomials.polyval_polynomials"
   ],
   "note": "Exact real arithmetic (all claims on polynomials)."
  },
  {
   "property": "C84",
   "status": "partial",
   "theorems": [
    "Verif.Polynomials.polyval_orthonormal",
    "Verif.Polynomials.lebesgue_orthogonal",
    "Verif.Polynomials.lebesgue_orthonormal_iff"
   ],
   "note": "Proved for random variables. False of the code for LebesgueMeasure(a, b) unless b - a = 2: the squared norm of every polynomial is (b - a)/2 (lebesgue_orthonormal_iff)."
  },
  {
   "property": "C85",
   "status": "partial",
   "theorems": [
    "Verif.Polynomials.dnPolyval_derivative",
    "Verif.Polynomials.dPolyval_derivative",
    "Verif.Polynomials.lebesgue_derivative_wrong"
   ],
   "note": "Proved for random variables. False of the code for the Lebesgue measure: the normalisation by the mass is applied to the values only (lebesgue_derivative_wrong)."
  },
  {
   "property": "C86",
   "status": "partial",
   "theorems": [
    "Verif.Polynomials.polyCoeff_spec",
    "Verif.Polynomials.lebesgue_polyCoeff_wrong"
   ],
   "note": "Proved for Hermite and Legendre. False of the code for LegendrePolynomialsLebesgue (lebesgue_polyCoeff_wrong). poly_coeff of shifted polynomials raises and is not modelled."
  },
  {
   "property": "C87",
   "status": "proved",
   "theorems": [
    "Verif.Polynomials.roots_spec",
    "Verif.Polynomials.exists_eig"
   ],
   "note": "np.linalg.eig is an oracle, exact on symmetric matrices (existence proved: exists_eig)."
  },
  {
   "property": "C88",
   "status": "proved",
   "theorems": [
    "Verif.Polynomials.gauss_spec",
    "Verif.Polynomials.gauss_mass",
    "Verif.Polynomials.moment_spec"
   ],
   "note": "As C87. Random variables without stored moments (the cache is the subject of C49)."
  },
  {
   "property": "C89",
   "status": "partial",
   "theorems": [
    "Verif.Polynomials.moment_polynomials",
    "Verif.Polynomials.mean_polynomials",
    "Verif.Polynomials.one_spec",
    "Verif.Polynomials.orthonormalPolynomials_measure",
    "Verif.Polynomials.lebesgue_moment_wrong",
    "Verif.Polynomials.mean_shifted_wrong",
    "Verif.Polynomials.moment_normal_wrong"
   ],
   "note": "Proved for the polynomials of random variables: moments for every uniform random variable or normal one (centred if the polynomials are shifted), mean for the own measure. False of the code otherwise: the Lebesgue polynomials (lebesgue_moment_wrong), the mean of shifted polynomials for a given measure (mean_shifted_wrong: the measure is not shifted), moments of shifted polynomials for a non-centred normal measure (moment_normal_wrong: NormalRandomVariable.shift does not scale the mean)."
  },
  {
   "property": "C90",
   "status": "proved",
   "theorems": [
    "Verif.Polynomials.discrete_orthonormal",
    "Verif.Polynomials.discrete_indexError",
    "Verif.Polynomials.discrete_derivative",
    "Verif.Polynomials.discrete_gauss",
    "Verif.Polynomials.discrete_gauss_all",
    "Verif.Polynomials.discrete_moment",
    "Verif.Polynomials.discrete_moment_error"
   ],
   "note": "In floating point the loop may stop earlier; exact arithmetic here."
  },
  {
   "property": "C91",
   "status": "proved",
   "theorems": [
    "Verif.Polynomials.recurrenceMonic_spec"
   ],
   "note": ""
  },
  {
   "property": "C92",
   "status": "proved",
   "theorems": [
    "Verif.FullTensor.tensorMatrixProductEvalDiag_spec",
    "Verif.FullTensor.tensorMatrixProductEvalDiag_all"
   ],
   "note": "np.einsum accepts at most 52 labels; the bound is not modelled."
  },
  {
   "property": "C93",
   "status": "proved",
   "theorems": [
    "Verif.TreeBased.tensorMatrixProductEvalDiag_full"
   ],
   "note": "Without dims (with dims the code raises NotImplementedError unless the sizes are 1)."
  },
  {
   "property": "C94",
   "status": "proved",
   "theorems": [
    "Verif.TreeBased.evalDiag_full"
   ],
   "note": "Without dims."
  },
  {
   "property": "C95",
   "status": "proved",
   "theorems": [
    "Verif.FunctionalTensor.eval_spec",
    "Verif.FunctionalTensor.evalDiagProduct_spec"
   ],
   "note": "fdims is the default range(order). A basis is a number of variables, a cardinal and functions."
  },
  {
   "property": "C96",
   "status": "proved",
   "theorems": [
    "Verif.FunctionalTensor.mean_spec",
    "Verif.FunctionalTensor.mean_average",
    "Verif.FunctionalTensor.vectorProductAll_spec"
   ],
   "note": "The means of the bases are parameters."
  },
  {
   "property": "C97",
   "status": "proved",
   "theorems": [
    "Verif.FunctionalTensor.evalOnGrid_spec",
    "Verif.FunctionalTensor.product_spec"
   ],
   "note": "Without dims (with dims the code raises AttributeError, np.range)."
  },
  {
   "property": "C98",
   "status": "partial",
   "theorems": [
    "Verif.FunctionalTensor.evalPartial_first_partial",
    "Verif.FunctionalTensor.evalPartial_wrong"
   ],
   "note": "Proved for dims = [0]. False of the code for other dims: fdims designates the axis of the points as a variable (evalPartial_wrong)."
  },
  {
   "property": "C99",
   "status": "proved",
   "theorems": [
    "Verif.Magic.magicIndices_leftRight",
    "Verif.Magic.magicIndices_leftRight_error",
    "Verif.Magic.cross_unique",
    "Verif.Magic.cross_exact",
    "Verif.Magic.magicIndices_nested"
   ],
   "note": "Exact arithmetic in an ordered field (also C100-C102): np.linalg.solve raises exactly for singular matrices."
  },
  {
   "property": "C100",
   "status": "proved",
   "theorems": [
    "Verif.Magic.magicIndices_left",
    "Verif.Magic.magicIndices_left_error",
    "Verif.Magic.magicIndices_right",
    "Verif.Magic.magicIndices_right_error"
   ],
   "note": "The docstring says the maximum is over all columns; the code takes the first k+1, i.e. the next column."
  },
  {
   "property": "C101",
   "status": "proved",
   "theorems": [
    "Verif.Magic.magicPoints_spec",
    "Verif.Magic.magicPoints_error",
    "Verif.Magic.magicPoints_few"
   ],
   "note": "Without the argument J."
  },
  {
   "property": "C102",
   "status": "partial",
   "theorems": [
    "Verif.Magic.interpolate_scalar_partial",
    "Verif.Magic.interpolate_error",
    "Verif.Magic.interpolate_wrong"
   ],
   "note": "Proved for one output. False of the code for several outputs (interpolate_wrong): the constructor of FunctionalBasisArray permutes the coefficients (C47)."
  },
  {
   "property": "C103",
   "status": "proved",
   "theorems": [
    "Verif.Magic.projection_spec",
    "Verif.Magic.projection_reproduces",
    "Verif.Magic.gramMatrix_spec"
   ],
   "note": "One output (several outputs are scrambled as in C102). np.linalg.lstsq is an oracle that minimises the residual."
  },
  {
   "property": "C104",
   "status": "partial",
   "theorems": [
    "Verif.TreeBased.paramGradEval_node_partial",
    "Verif.TreeBased.paramGradEval_root_partial",
    "Verif.TreeBased.predict_eval",
    "Verif.TreeBased.paramGradEval_axis_one_witness",
    "Verif.TreeBased.paramGradEval_unary_witness"
   ],
   "note": "Proved with all nodes active, no node with an only child, and, for an internal node other than the root, no output axis of size 1. False of the code in the last two cases (witnesses: it raises); the branch with inactive nodes (functional_tensor.py l.484-569) is not modelled."
  },
  {
   "property": "C105",
   "status": "proved",
   "theorems": [
    "Verif.TreeBased.amStep_spec",
    "Verif.TreeBased.exUR_data"
   ],
   "note": "All nodes active, no only child, output axis of the root absent or of size > 1 (AmData); no basis adaptation, no weights, no regularization. numpy qr/svd/solve/lstsq are oracles with their specifications. Exact real arithmetic."
  },
  {
   "property": "C106",
   "status": "proved",
   "theorems": [
    "Verif.TreeBased.solveStandard_spec",
    "Verif.TreeBased.amSweep_spec",
    "Verif.TreeBased.amLoop_spec"
   ],
   "note": "Same setting as C105. Early stopping and tolerances are an arbitrary stopping test."
  },
  {
   "property": "C107",
   "status": "proved",
   "theorems": [
    "Verif.TreeBased.explorationStrategy_spec"
   ],
   "note": ""
  },
  {
   "property": "C108",
   "status": "proved",
   "theorems": [
    "Verif.TreeBased.selectModel_spec"
   ],
   "note": "Errors are numbers (no nan)."
  },
  {
   "property": "C109",
   "status": "proved",
   "theorems": [
    "Verif.RankAdaptation.solveAdaptation_spec",
    "Verif.RankAdaptation.solveAdaptation_first_inf",
    "Verif.RankAdaptation.bad_val"
   ],
   "note": "Local solver, error and rank selection are arbitrary functions; without tree adaptation. The early stopping test is not applied at the last iteration (so the statement excludes the last function); an infinite error at the first iteration raises AttributeError (solveAdaptation_first_inf)."
  },
  {
   "property": "C110",
   "status": "partial",
   "theorems": [
    "Verif.TreeBased.makeRanksAdmissible_partial",
    "Verif.TreeBased.makeRanksAdmissible_fallback_witness"
   ],
   "note": "Proved when the inactive leaves are numbered in the order of their dimensions; otherwise is_admissible_rank is wrong (C40). When the ranks of f are not admissible the result may not be (fallback_witness)."
  },
  {
   "property": "C111",
   "status": "proved",
   "theorems": [
    "Verif.Functions.userEval_spec"
   ],
   "note": ""
  },
  {
   "property": "C112",
   "status": "partial",
   "theorems": [
    "Verif.Functions.storeRun_partial",
    "Verif.Functions.storeEval_once_partial",
    "Verif.Functions.storeRun_matrix_wrong"
   ],
   "note": "Proved for functions with scalar or vector values. False of the code for matrix-valued functions (storeRun_matrix_wrong): new values are reshaped in C order and returned in F order. The returned value is the first component: store_eval returns (y, self), and __call__ passes the pair on."
  },
  {
   "property": "C113",
   "status": "partial",
   "theorems": [
    "Verif.Functions.partialEval_partial",
    "Verif.Functions.partialEval_several"
   ],
   "note": "Proved for one point x and a scalar function. False of the code for several points x: evaluating the result raises ValueError (partialEval_several)."
  },
  {
   "property": "C114",
   "status": "proved",
   "theorems": [
    "Verif.Functions.evalOnFullGrid_spec",
    "Verif.Functions.evalOnFullGrid_scalar"
   ],
   "note": "Full tensor grids."
  },
  {
   "property": "C115",
   "status": "proved",
   "theorems": [
    "Verif.Functions.tensorize_spec"
   ],
   "note": "Exact arithmetic."
  },
  {
   "property": "C116",
   "status": "proved",
   "theorems": [
    "Verif.Functions.compEval_spec"
   ],
   "note": ""
  },
  {
   "property": "C117",
   "status": "proved",
   "theorems": [
    "Verif.Losses.relativeTestError_spec",
    "Verif.Losses.relativeTestError_zero",
    "Verif.Losses.relativeTestError_mismatch_wrong"
   ],
   "note": "Exact real arithmetic. Shapes n and n x 1 are not the same shape: they are broadcast and exact predictions have a nonzero error (relativeTestError_mismatch_wrong)."
  },
  {
   "property": "C118",
   "status": "partial",
   "theorems": [
    "Verif.Losses.absoluteTestError_partial",
    "Verif.Losses.absoluteTestError_vector",
    "Verif.Losses.absoluteTestError_wrong"
   ],
   "note": "Proved for observations of shape n x m. False of the code for observations of shape n: the sum is not divided by n."
  },
  {
   "property": "C119",
   "status": "proved",
   "theorems": [
    "Verif.BSplines.eval_spec"
   ],
   "note": "Exact real arithmetic."
  },
  {
   "property": "C120",
   "status": "proved",
   "theorems": [
    "Verif.BSplines.eval_sum"
   ],
   "note": "Exact real arithmetic."
  },
  {
   "property": "C121",
   "status": "proved",
   "theorems": [
    "Verif.BSplines.evalDerivative_spec"
   ],
   "note": "Exact real arithmetic; for increasing knots no division by zero occurs."
  },
  {
   "property": "C122",
   "status": "proved",
   "theorems": [
    "Verif.BSplines.extraKnots_spec"
   ],
   "note": "Exact real arithmetic."
  },
  {
   "property": "C123",
   "status": "proved",
   "theorems": [
    "Verif.BSplines.dilated_spec"
   ],
   "note": "Exact real arithmetic."
  },
  {
   "property": "C124",
   "status": "partial",
   "theorems": [
    "Verif.Pca.principalComponents_spec_partial",
    "Verif.Pca.fullAlphaPC_spec",
    "Verif.Pca.principalComponents_count_wrong"
   ],
   "note": "Exact real arithmetic, np.linalg.svd a parameter. False of the code for the number of components: it is min(p, rows, columns) and the documentation says min(p, rows) (principalComponents_count_wrong)."
  },
  {
   "property": "C125",
   "status": "proved",
   "theorems": [
    "Verif.Pca.approximation_interpolates"
   ],
   "note": "Exact real arithmetic, np.linalg.svd a parameter; subsampling=random is not modelled. The grid of the root has its columns in the order of the dimensions below the root, not in increasing order."
  },
  {
   "property": "C126",
   "status": "proved",
   "theorems": [
    "Verif.Pca.approximation_exact"
   ],
   "note": "Exact real arithmetic, np.linalg.svd a parameter; subsampling=random is not modelled."
  },
  {
   "property": "C127",
   "status": "partial",
   "theorems": [
    "Verif.Pca.approximation_rank_partial",
    "Verif.Pca.maxRank_ignored",
    "Verif.Pca.maxRank_exceeded"
   ],
   "note": "Proved when the tolerance is at least one (a rank) or infinite. False of the code for a tolerance smaller than one: the smaller of the tolerance and the maximal rank is used, so that max_rank is ignored (maxRank_ignored, maxRank_exceeded)."
  },
  {
   "property": "C128",
   "status": "proved",
   "theorems": [
    "Verif.Pca.hopca_spec",
    "Verif.Pca.tuckerApproximation_spec",
    "Verif.Pca.ttApproximation_spec"
   ],
   "note": "Exact real arithmetic, np.linalg.svd a parameter."
  },
  {
   "property": "C129",
   "status": "proved",
   "theorems": [
    "Verif.Canonical.paramGrad_factor_spec",
    "Verif.Canonical.paramGrad_core_spec"
   ],
   "note": "Evaluated bases as matrices."
  },
  {
   "property": "C130",
   "status": "proved",
   "theorems": [
    "Verif.Canonical.factorStep_spec",
    "Verif.Canonical.coreStep_spec",
    "Verif.Canonical.columnStep_spec",
    "Verif.Canonical.factorStep_two",
    "Verif.Canonical.oneByOne_order"
   ],
   "note": "Exact real arithmetic; ordinary least squares without regularization or basis adaptation, np.linalg.qr and the linear solvers are parameters. For order two the step for the first factor needs a rank that is at most the first dimension (otherwise the code builds factors with different numbers of columns)."
  },
  {
   "property": "C131",
   "status": "partial",
   "theorems": [
    "Verif.Canonical.cnSolve_partial",
    "Verif.Canonical.sweep_two_partial",
    "Verif.Canonical.sweep_two_increases"
   ],
   "note": "Proved for order at least three, for one_by_one_factor, and for order two with the default exploration order. False of the code for order two with a random order: the first factor is replaced by its QR factor without updating the others, and a sweep from an interpolating tensor then has a positive risk whatever the linear algebra does (sweep_two_increases)."
  },
  {
   "property": "C132",
   "status": "proved",
   "theorems": [
    "Verif.TreeBased.ofFull_full"
   ],
   "note": "Any commutative semiring of entries."
  },
  {
   "property": "C133",
   "status": "proved",
   "theorems": [
    "Verif.TreeBased.ofDiagonal_full",
    "Verif.TreeBased.ofDiagonal_default",
    "Verif.TreeBased.ofDiagonal_refused"
   ],
   "note": "Any commutative semiring of entries; a diagonal with at least one entry."
  },
  {
   "property": "C134",
   "status": "partial",
   "theorems": [
    "Verif.TreeBased.ofCanonical_partial",
    "Verif.TreeBased.ofCanonical_equal"
   ],
   "note": "Proved when the dimensions are not all equal. False of the code otherwise: the assignment of the list of matrices to the array of tensors raises ValueError because NumPy makes an array with three axes of them (ofCanonical_equal). This is also the path of TreeBasedTensorLearning with the canonical initialization."
  },
  {
   "property": "C135",
   "status": "proved",
   "theorems": [
    "Verif.Piecewise.elementNumber_spec"
   ],
   "note": "Exact real arithmetic."
  },
  {
   "property": "C136",
   "status": "proved",
   "theorems": [
    "Verif.Piecewise.evalRow_spec",
    "Verif.Piecewise.evalRow_indices",
    "Verif.Piecewise.piecewise_basis"
   ],
   "note": "The reference polynomials are those of polyval of the Lebesgue measure on [0, 1] (C83)."
  },
  {
   "property": "C137",
   "status": "partial",
   "theorems": [
    "Verif.Piecewise.gram_partial",
    "Verif.Piecewise.not_orthonormal"
   ],
   "note": "The functions are orthogonal but of squared norm 1/2: orthonormality is false of the code, because the polynomials of LebesgueMeasure(0, 1) are not normalised (C84)."
  },
  {
   "property": "C138",
   "status": "partial",
   "theorems": [
    "Verif.Piecewise.evalDerivativeRow_partial",
    "Verif.Piecewise.evalDerivativeRow_zero",
    "Verif.Piecewise.evalDerivativeRow_wrong"
   ],
   "note": "The map to the element and the scaling are right for every order, and order 0 is the value; for larger orders the property is false of the code because the derivatives of the reference polynomials are wrong (C85, evalDerivativeRow_wrong)."
  },
  {
   "property": "C139",
   "status": "proved",
   "theorems": [
    "Verif.Piecewise.interpolationPoints_spec",
    "Verif.Piecewise.interpolation_unisolvent"
   ],
   "note": ""
  },
  {
   "property": "C140",
   "status": "proved",
   "theorems": [
    "Verif.Piecewise.npMesh_spec",
    "Verif.Piecewise.hpMesh_spec",
    "Verif.Piecewise.singularityHp_spec",
    "Verif.Piecewise.singularityHp_empty",
    "Verif.Piecewise.singularityHp_coarse"
   ],
   "note": "Scalar p. Outside the stated range: without singularity singularityhp_adapted raises UnboundLocalError (singularityHp_empty), and for h of at least 1 between two singularities the basis has no degrees (singularityHp_coarse)."
  },
  {
   "property": "C141",
   "status": "proved",
   "theorems": [
    "Verif.TreeBased.removeUniqueChildren_full",
    "Verif.TreeBased.removeUniqueChildren_one_node"
   ],
   "note": "The method also overwrites the tensors and the adjacency matrix of its argument, which is not stated. On a tree with one node it raises IndexError (removeUniqueChildren_one_node)."
  },
  {
   "property": "C142",
   "status": "proved",
   "theorems": [
    "Verif.TreeBased.squeezeTB_full",
    "Verif.TreeBased.squeezeTB_one",
    "Verif.TreeBased.squeezeTB_none"
   ],
   "note": "Nonnegative dimensions (negative ones raise IndexError or select wrong nodes). With one remaining dimension full() also drops a rank axis of size one of the root."
  },
  {
   "property": "C143",
   "status": "partial",
   "theorems": [
    "Verif.TreeBased.squeezeTB_all",
    "Verif.TreeBased.squeezeTB_refused_witness"
   ],
   "note": "False of the code: when dims contains all the dimensions, the axes of size one of the full array are removed and the others are kept silently (squeezeTB_all). The ValueError for other lists is shown on an example only."
  },
  {
   "property": "C144",
   "status": "proved",
   "theorems": [
    "Verif.TreeBased.tensorVectorProductTB_full",
    "Verif.TreeBased.tensorVectorProductTB_one",
    "Verif.TreeBased.tensorVectorProductTB_all",
    "Verif.TreeBased.reduceSumTB_full",
    "Verif.TreeBased.reduceSumTB_all"
   ],
   "note": ""
  },
  {
   "property": "C145",
   "status": "proved",
   "theorems": [
    "Verif.FunctionalTensor.conditionalExpectation_eval",
    "Verif.FunctionalTensor.conditionalExpectation_average",
    "Verif.FunctionalTensor.conditionalExpectation_empty"
   ],
   "note": "Bases with at least one function. The optional measure argument is not covered (C61: it is matched to the wrong bases)."
  },
  {
   "property": "C146",
   "status": "proved",
   "theorems": [
    "Verif.FunctionalTensor.mean_conditionalExpectation"
   ],
   "note": ""
  },
  {
   "property": "C147",
   "status": "partial",
   "theorems": [
    "Verif.FunctionalTensor.normSqEvaluated_partial",
    "Verif.FunctionalTensor.dotProductExpectation_refused",
    "Verif.FunctionalTensor.variance_refused",
    "Verif.FunctionalTensor.varianceConditionalExpectation_refused"
   ],
   "note": "False of the code: FunctionalBases has no method gram_matrix, all these methods raise AttributeError for FunctionalBases (proved). What holds: the norm with evaluated bases, for dense tensors."
  },
  {
   "property": "C148",
   "status": "partial",
   "theorems": [
    "Verif.FunctionalTensor.mask_wrong",
    "Verif.FunctionalTensor.mask_two"
   ],
   "note": "False of the code: the elements of an array of booleans are numpy booleans, not bool, so masks are used as the dimensions 0 and 1 (witness); with two dimensions and a mask with both values the function itself is returned (proved)."
  },
  {
   "property": "C149",
   "status": "proved",
   "theorems": [
    "Verif.FunctionalPca.gridPoints_ok",
    "Verif.FunctionalPca.project_spec",
    "Verif.FunctionalPca.projection_refused",
    "Verif.FunctionalPca.points_refused"
   ],
   "note": "pinv is a parameter that gives the inverse of an invertible matrix. Bases with at least one function."
  },
  {
   "property": "C150",
   "status": "proved",
   "theorems": [
    "Verif.FunctionalPca.approximation_interpolates",
    "Verif.FunctionalPca.tuckerApproximation_spec",
    "Verif.FunctionalPca.ttApproximation_spec"
   ],
   "note": "Exact arithmetic; the candidate points (given, values of a discrete measure, or random draws) are a parameter."
  },
  {
   "property": "C151",
   "status": "proved",
   "theorems": [
    "Verif.FunctionalPca.approximation_exact"
   ],
   "note": "Exact arithmetic."
  },
  {
   "property": "C152",
   "status": "proved",
   "theorems": [
    "Verif.FunctionalPca.hopca_spec"
   ],
   "note": "Exact arithmetic."
  },
  {
   "property": "C153",
   "status": "proved",
   "theorems": [
    "Verif.SubBasis.sub_fns",
    "Verif.SubBasis.sub_eval_indices",
    "Verif.SubBasis.sub_mean",
    "Verif.SubBasis.sub_gram"
   ],
   "note": "The mean E is any functional that is linear on the functions (mean) or on the products of pairs of functions (Gram matrix); met by polynomials, see polyFns_linear."
  },
  {
   "property": "C154",
   "status": "proved",
   "theorems": [
    "Verif.SubBasis.flag_spec",
    "Verif.SubBasis.flag_sound",
    "Verif.SubBasis.flag_other"
   ],
   "note": "Exact arithmetic: in floating point the threshold 1e-15 is of the order of the rounding error."
  },
  {
   "property": "C155",
   "status": "proved",
   "theorems": [
    "Verif.SubBasis.orthonormalize_spec",
    "Verif.SubBasis.orthonormalize_refuses"
   ],
   "note": "Exact arithmetic, matrices of floating-point numbers."
  },
  {
   "property": "C156",
   "status": "proved",
   "theorems": [
    "Verif.SubBasis.basis_orthonormalize",
    "Verif.SubBasis.basis_orthonormalize_refuses",
    "Verif.SubBasis.basis_orthonormalize_gram"
   ],
   "note": "Exact arithmetic. Only bases with a gram_matrix() without argument; for the others the exception is passed on."
  },
  {
   "property": "C157",
   "status": "partial",
   "theorems": [
    "Verif.SubBasis.evalDerivative_refuses",
    "Verif.SubBasis.evalDerivative_swapped",
    "Verif.SubBasis.evalDerivative_wrong",
    "Verif.SubBasis.evalJacobian_eq",
    "Verif.SubBasis.evalJacobian_partial",
    "Verif.SubBasis.evalJacobian_wrong"
   ],
   "note": "False of the code: eval_derivative exchanges the order and the points (sub_functional_basis.py l.143), so that it raises an exception with two points or more and otherwise returns derivatives of order x at n; eval_jacobian contracts the wrong axis of the matrix (l.183). Proved: what is returned in each case, the symmetric case, and witnesses."
  },
  {
   "property": "C158",
   "status": "proved",
   "theorems": [
    "Verif.SubBasis.polyBasis_fns",
    "Verif.SubBasis.polyBasis_gram",
    "Verif.SubBasis.polyBasis_gram_measure",
    "Verif.SubBasis.polyBasis_orthonormal",
    "Verif.SubBasis.polyOne_spec"
   ],
   "note": "Exact arithmetic; np.linalg.eig is a parameter that returns eigenvectors."
  },
  {
   "property": "C159",
   "status": "partial",
   "theorems": [
    "Verif.SubBasis.polyDerivative_transposed",
    "Verif.SubBasis.polyDerivative_partial",
    "Verif.SubBasis.polyDerivative_wrong"
   ],
   "note": "False of the code: the coefficients are transposed by the constructor of FunctionalBasisArray (C47). Proved: the functions that are returned, for every order and indices; the case k = 0; and for every uniform or normal variable a wrong derivative for the degrees 0 and 1."
  },
  {
   "property": "C160",
   "status": "proved",
   "theorems": [
    "Verif.TensorInterp.fullInterpolation_spec",
    "Verif.TensorInterp.fullInterpolation_exact"
   ],
   "note": "Exact arithmetic; functions with one output."
  },
  {
   "property": "C161",
   "status": "partial",
   "theorems": [
    "Verif.TensorInterp.fullInterpolation_tensor_refused",
    "Verif.TensorInterp.fullInterpolation_arg_partial"
   ],
   "note": "False of the code: isinstance is called with three arguments (full_tensor_product_functional_basis.py l.304-308), which raises TypeError. Proved: exactly the functions are accepted."
  },
  {
   "property": "C162",
   "status": "proved",
   "theorems": [
    "Verif.TensorInterp.sparseInterpolation_polynomials",
    "Verif.TensorInterp.sparseInterpolation_spec",
    "Verif.TensorInterp.sparseInterpolation_exact"
   ],
   "note": "Exact arithmetic; functions with one output. The last two are for all bases and nodes that are hierarchical; the first shows that polynomials are so."
  },
  {
   "property": "C163",
   "status": "partial",
   "theorems": [
    "Verif.TensorInterp.sparseInterpolation_partial",
    "Verif.TensorInterp.sparseInterpolation_wrong"
   ],
   "note": "False of the code: the nodes are unisolvent for the whole basis of a dimension but not for its first functions (magic_points without J), so that the linear system of a downward closed set may be singular. Proved when the nodes are unisolvent for the first functions."
  },
  {
   "property": "C164",
   "status": "partial",
   "theorems": [
    "Verif.TensorInterp.fullProjection_partial",
    "Verif.TensorInterp.fullProjection_best_partial",
    "Verif.TensorInterp.fullProjection_exact_partial",
    "Verif.TensorInterp.fullProjection_wrong",
    "Verif.TensorInterp.fullProjection_refuses"
   ],
   "note": "False of the code for rules whose numbers of points differ among the dimensions: np.hstack refuses their points (full_tensor_product_functional_basis.py l.238). Proved when the numbers are equal. Exact arithmetic."
  },
  {
   "property": "C165",
   "status": "proved",
   "theorems": [
    "Verif.Derivatives.evalDerivative_spec",
    "Verif.Derivatives.evalDerivative_refuses",
    "Verif.Derivatives.polyD_ok"
   ],
   "note": "Exact arithmetic. The bases are such that their eval_derivative returns the derivatives; polynomials are so (polyD_ok, with polyEvalDerivative_partial of C168). Without the argument dims (see C98)."
  },
  {
   "property": "C166",
   "status": "partial",
   "theorems": [
    "Verif.Derivatives.evalGradient_partial",
    "Verif.Derivatives.evalGradient_refused"
   ],
   "note": "False of the code: eval_gradient calls self.length(), which does not exist (functional_tensor.py l.753). Proved: eval_derivative gives the components of the gradient."
  },
  {
   "property": "C167",
   "status": "proved",
   "theorems": [
    "Verif.Derivatives.sparseEvalDerivative_spec",
    "Verif.Derivatives.sparseEvalJacobian_spec",
    "Verif.Derivatives.arrayFn_eval",
    "Verif.Derivatives.fbaEvalDerivative_spec",
    "Verif.Derivatives.fbaEvalGradient_spec"
   ],
   "note": "Exact arithmetic; bases with one variable. The functions are those that eval evaluates from the stored coefficients (the constructor may permute the given ones, C47)."
  },
  {
   "property": "C168",
   "status": "partial",
   "theorems": [
    "Verif.Derivatives.polyEvalDerivative_partial",
    "Verif.Derivatives.polyEvalJacobian_refused"
   ],
   "note": "False of the code: eval_jacobian passes a list of orders (functional_basis.py l.472-475) to which dn_polyval adds 1, which raises TypeError. Proved: with an integer order the derivatives are right."
  },
  {
   "property": "C169",
   "status": "partial",
   "theorems": [
    "Verif.GramH1.gramH1_partial",
    "Verif.GramH1.gramH1_wrong"
   ],
   "note": "False of the code: derivative() returns transposed coefficients (C159). Proved: the matrix is the sum of the Gram matrices of the bases that derivative() returns, when none is marked orthonormal; and for every uniform or normal variable a wrong entry."
  },
  {
   "property": "C170",
   "status": "proved",
   "theorems": [
    "Verif.Distributions.pdf_spec",
    "Verif.Distributions.isProba",
    "Verif.Distributions.cdf_spec",
    "Verif.Distributions.moments_spec"
   ],
   "note": "Exact arithmetic. The functions of scipy.stats are their documented formulas; the laws are measures of Mathlib."
  },
  {
   "property": "C171",
   "status": "proved",
   "theorems": [
    "Verif.Distributions.icdf_spec",
    "Verif.Distributions.icdf_outside",
    "Verif.Distributions.law_cdf_le",
    "Verif.Distributions.transfer_spec",
    "Verif.Distributions.exists_ndtri"
   ],
   "note": "Exact arithmetic. scipy.special.ndtri is a parameter that inverts the distribution function (exists_ndtri)."
  },
  {
   "property": "C172",
   "status": "proved",
   "theorems": [
    "Verif.Distributions.isoGrid_spec",
    "Verif.Distributions.isoGridFrac_spec",
    "Verif.Distributions.vecIsoGrid_spec",
    "Verif.Distributions.vecIsoGrid_one",
    "Verif.Distributions.vecIsoGridFrac_spec",
    "Verif.Distributions.cells_refused"
   ],
   "note": "Exact arithmetic, as for C171."
  },
  {
   "property": "C173",
   "status": "proved",
   "theorems": [
    "Verif.Distributions.vecPdf_spec",
    "Verif.Distributions.vecCdf_spec",
    "Verif.Distributions.vecMoments_spec",
    "Verif.Distributions.vecTransfer_spec",
    "Verif.Distributions.vecTransfer_refused",
    "Verif.Distributions.vec_wrong_size"
   ],
   "note": "Exact arithmetic. The silent 0 for points with too many components is what the code does, and is a defect."
  },
  {
   "property": "C174",
   "status": "proved",
   "theorems": [
    "Verif.Empirical.pdf_spec",
    "Verif.Empirical.bandwidth_spec",
    "Verif.Empirical.shift_law",
    "Verif.Empirical.standard_law"
   ],
   "note": "Exact arithmetic."
  },
  {
   "property": "C175",
   "status": "partial",
   "theorems": [
    "Verif.Empirical.moments_partial"
   ],
   "note": "False of the code: variance() is the variance of the sample, the square of the bandwidth is missing (proved for all samples). The mean is right."
  },
  {
   "property": "C176",
   "status": "partial",
   "theorems": [
    "Verif.Empirical.cdf_eq",
    "Verif.Empirical.cdf_iff",
    "Verif.Empirical.cdf_wrong"
   ],
   "note": "False of the code: scipy.stats.gaussian_kde multiplies the given bandwidth by the unbiased standard deviation of the sample. Proved: cdf is the distribution function of another mixture, and that of pdf exactly when the unbiased variance of the sample is 1."
  },
  {
   "property": "C177",
   "status": "proved",
   "theorems": [
    "Verif.Empirical.integrationRule_spec"
   ],
   "note": "Exact arithmetic; np.linalg.eig is a parameter that returns eigenvectors."
  },
  {
   "property": "C178",
   "status": "proved",
   "theorems": [
    "Verif.Empirical.polyval_orthonormal",
    "Verif.Empirical.polyval_refused",
    "Verif.Empirical.gauss_exactness",
    "Verif.Empirical.gauss_refused",
    "Verif.Empirical.moment_spec"
   ],
   "note": "Exact arithmetic. The mean and standard deviation of the sample are 0 and 1, or one of them differs by more than the machine precision (hypothesis Resolved): in between, the code does not shift the polynomials."
  },
  {
   "property": "C179",
   "status": "proved",
   "theorems": [
    "Verif.TruncatedSupport.truncatedSupport_spec"
   ],
   "note": "Exact arithmetic; ndtri is a parameter that inverts the normal distribution function."
  },
  {
   "property": "C180",
   "status": "partial",
   "theorems": [
    "Verif.TruncatedSupport.empIcdf_refused",
    "Verif.TruncatedSupport.empRandom_refused"
   ],
   "note": "False of the code: icdf calls truncated_support, which calls icdf: RecursionError for every sample, level and stack depth (proved)."
  },
  {
   "property": "C181",
   "status": "proved",
   "theorems": [
    "Verif.ProductMeasure.gauss_exact",
    "Verif.ProductMeasure.gauss_sizes"
   ],
   "note": "Exact arithmetic; np.linalg.eig is a parameter that returns eigenvectors."
  },
  {
   "property": "C182",
   "status": "proved",
   "theorems": [
    "Verif.ProductMeasure.measEq_law",
    "Verif.ProductMeasure.vectorEq_spec",
    "Verif.ProductMeasure.vectorEq_length"
   ],
   "note": ""
  },
  {
   "property": "C183",
   "status": "partial",
   "theorems": [
    "Verif.ProductMeasure.productEq_partial",
    "Verif.ProductMeasure.productEq_prefix"
   ],
   "note": "False of the code: a product measure equals every extension of it, because the factors are compared with zip (proved). Proved for the same number of factors."
  },
  {
   "property": "C184",
   "status": "proved",
   "theorems": [
    "Verif.ProductMeasure.shift_uniform",
    "Verif.ProductMeasure.shift_normal",
    "Verif.ProductMeasure.standard_spec"
   ],
   "note": "Exact arithmetic."
  },
  {
   "property": "C185",
   "status": "proved",
   "theorems": [
    "Verif.ProductMeasure.marginal_spec",
    "Verif.ProductMeasure.marginal_refused",
    "Verif.ProductMeasure.mass_spec"
   ],
   "note": "Negative indices are not modelled."
  },
  {
   "property": "C186",
   "status": "partial",
   "theorems": [
    "Verif.TreeBased.newRankSelection_partial",
    "Verif.TreeBased.newRankSelection_refused"
   ],
   "note": "False of the code when rank_one_correction is False: s_local is not assigned, UnboundLocalError (proved for every input). Proved with the correction; the inactive leaves are numbered in the order of the dimensions (see C40). The corrected tensor and its singular values are parameters."
  },
  {
   "property": "C187",
   "status": "proved",
   "theorems": [
    "Verif.TreeBased.uniqueTol_spec"
   ],
   "note": ""
  },
  {
   "property": "C188",
   "status": "partial",
   "theorems": [
    "Verif.TreeBased.enrichedEdges_wrong",
    "Verif.TreeBased.enrichedEdges_witness"
   ],
   "note": "False of the code: indices from zero are compared with node numbers from one (l.1243, l.1246); for every input, when a tensor is returned, a node keeps a rank smaller than the one asked (proved)."
  },
  {
   "property": "C189",
   "status": "partial",
   "theorems": [
    "Verif.TreeBased.randomizeTree_refused",
    "Verif.TreeBased.randomizeCanonical_spec"
   ],
   "note": "False of the code for tree-based tensors: np.intersect1d with return_indices gives three arrays, unpacked into two names: ValueError for every tensor (proved). Proved for canonical tensors, without one_by_one_factor."
  },
  {
   "property": "C190",
   "status": "proved",
   "theorems": [
    "Verif.TreeBased.tensorTrain_spec"
   ],
   "note": "Exact arithmetic."
  },
  {
   "property": "C191",
   "status": "partial",
   "theorems": [
    "Verif.TreeBased.tensorTrain_dims_partial",
    "Verif.TreeBased.tensorTrain_list_refused"
   ],
   "note": "False of the code for a list of cores, which cannot be indexed by np.argsort(dims): TypeError (proved). Proved for an array of cores."
  },
  {
   "property": "C192",
   "status": "proved",
   "theorems": [
    "Verif.Polynomials.genPolyval_spec",
    "Verif.Polynomials.dPolyCoef_spec",
    "Verif.Polynomials.dnPolyCoeff_spec",
    "Verif.Polynomials.hasCoeffs_family",
    "Verif.Polynomials.hasCoeffs_canonical"
   ],
   "note": "Exact arithmetic."
  },
  {
   "property": "C193",
   "status": "partial",
   "theorems": [
    "Verif.Polynomials.genDnPolyval_partial"
   ],
   "note": "False of the code for orders larger than the largest degree, for which it raises ValueError although the derivatives are zero (proved). Proved for the other orders."
  },
  {
   "property": "C194",
   "status": "proved",
   "theorems": [
    "Verif.Polynomials.canonical_polyval",
    "Verif.Polynomials.canonicalMoment_spec",
    "Verif.Polynomials.canonicalMean_spec",
    "Verif.Polynomials.canonical_refused"
   ],
   "note": "Exact arithmetic; numpy.linalg.eig is any function meeting its specification, used by the Gauss rule."
  },
  {
   "property": "C195",
   "status": "proved",
   "theorems": [
    "Verif.TreeBased.rankProp_spec",
    "Verif.TreeBased.rank_of_splits"
   ],
   "note": "Exact arithmetic; QR and SVD oracles meeting their specifications. The root, where the code always answers 1, is excluded."
  },
  {
   "property": "C196",
   "status": "proved",
   "theorems": [
    "Verif.TreeBased.sparseLeavesStorage_spec",
    "Verif.TreeBased.complexityTB_spec",
    "Verif.TreeBased.complexityTB_nonneg"
   ],
   "note": ""
  },
  {
   "property": "C197",
   "status": "proved",
   "theorems": [
    "Verif.TreeBased.tensorDiagonalMatrixProductTB_spec"
   ],
   "note": ""
  },
  {
   "property": "C198",
   "status": "partial",
   "theorems": [
    "Verif.TreeBased.rmulMat_partial",
    "Verif.TreeBased.rmulMat_refused"
   ],
   "note": "False of the code for the attribute ranks when M is not square: it is assigned the number of columns of M instead of its number of rows (proved). Proved for the entries."
  },
  {
   "property": "C199",
   "status": "partial",
   "theorems": [
    "Verif.TreeBased.isActiveDim_partial",
    "Verif.TreeBased.isActiveDim_int"
   ],
   "note": "False of the code for an integer, for which it raises IndexError (proved). Proved for arrays."
  },
  {
   "property": "C200",
   "status": "proved",
   "theorems": [
    "Verif.TreeBased.changeRoot_full",
    "Verif.TreeBased.changeRoot_inactive"
   ],
   "note": ""
  },
  {
   "property": "C201",
   "status": "partial",
   "theorems": [
    "Verif.TreeBased.changeRoot_outputs_partial",
    "Verif.TreeBased.changeRoot_axis",
    "Verif.TreeBased.changeRoot_outputs_witness"
   ],
   "note": "False of the code: with several outputs the method addChild, which does not exist, is called (AttributeError), and an output axis of size one makes the transposition of the root fail (ValueError); both proved for all such tensors."
  },
  {
   "property": "C202",
   "status": "partial",
   "theorems": [
    "Verif.SubBasis.polyKron_partial",
    "Verif.SubBasis.polyKron_wrong"
   ],
   "note": "False of the code: kron projects the products on the polynomials of degree less than m1 + m2, with coefficients computed in self's basis, so the product of the two functions of highest degree is never in the result, and the result cannot even be evaluated (ValueError) unless self has exactly m1 + m2 functions. What kron returns is characterised entry by entry in polyKron_partial; polyKron_wrong holds for all pairs of bases not both constant."
  },
  {
   "property": "C203",
   "status": "partial",
   "theorems": [
    "Verif.FunctionalTensor.mul_partial",
    "Verif.FunctionalTensor.mul_outputs_wrong",
    "Verif.FunctionalTensor.mul_ranks_refused",
    "Verif.FunctionalTensor.mul_outputs_witness"
   ],
   "note": "Proved for one output when the bases are the products in the order of the Kronecker product of tensors. False of the code with several outputs: np.arange(n**2, step=n) selects f_e g_0 instead of f_e g_e (proved for all such functions)."
  },
  {
   "property": "C204",
   "status": "proved",
   "theorems": [
    "Verif.FunctionalTensor.smul_spec"
   ],
   "note": ""
  },
  {
   "property": "C205",
   "status": "proved",
   "theorems": [
    "Verif.TreeBased.adaptPath_spec",
    "Verif.TreeBased.adaptPath_support"
   ],
   "note": "The list of the sets of a leaf is repeated twice by the code (np.tile), which adds no candidate."
  },
  {
   "property": "C206",
   "status": "proved",
   "theorems": [
    "Verif.TreeBased.adaptPathDmrg_spec",
    "Verif.TreeBased.adaptPathLowRank_spec"
   ],
   "note": ""
  },
  {
   "property": "C207",
   "status": "proved",
   "theorems": [
    "Verif.FullTensor.tensordotExceptDim_spec",
    "Verif.FullTensor.tensordotExceptDim_refused"
   ],
   "note": ""
  },
  {
   "property": "C208",
   "status": "partial",
   "theorems": [
    "Verif.TreeBased.paramGradEvalDmrg_node_partial",
    "Verif.TreeBased.paramGradEvalDmrg_root_partial",
    "Verif.TreeBased.paramGradEvalDmrg_raises"
   ],
   "note": "The tensors of alpha and gamma may be replaced by any others, with another rank of alpha. Proved when all the nodes are active and every internal node has two children or more. False of the code for functions with an output axis of size one when gamma is not the root, and for several outputs when gamma is the root: the code raises (paramGradEvalDmrg_raises). Missing: inactive nodes."
  },
  {
   "property": "C209",
   "status": "partial",
   "theorems": [
    "Verif.TreeBased.paramGradEvalLowRank_partial",
    "Verif.TreeBased.paramGradEvalLowRank_raises"
   ],
   "note": "Same scope as C208. False of the code for functions with an output axis when gamma is not the root, and for several outputs when it is (paramGradEvalLowRank_raises: the order of the whole gradient is used for a factor). Missing: inactive nodes."
  },
  {
   "property": "C210",
   "status": "partial",
   "theorems": [
    "Verif.TreeBased.dmrgUpdate_partial",
    "Verif.TreeBased.dmrgUpdate_error_partial",
    "Verif.TreeBased.dmrgUpdate_raises"
   ],
   "note": "Proved for functions without output axis (an output axis of size one is allowed when the parent is the root). False of the code for functions with several outputs when the parent is not the root: every vector of coefficients is refused (dmrgUpdate_raises). The singular value decomposition is an exact one. Missing: inactive nodes, unary nodes, thresholding."
  },
  {
   "property": "C211",
   "status": "partial",
   "theorems": [
    "Verif.TreeBased.dmrgUpdateLowRank_partial"
   ],
   "note": "Same scope as C209 and C210; functions with an output axis are refused by the gradient when the parent is not the root (paramGradEvalLowRank_raises). Missing: inactive nodes, unary nodes."
  },
  {
   "property": "C212",
   "status": "proved",
   "theorems": [
    "Verif.TreeBased.optimizeTree_storage",
    "Verif.TreeBased.optimizeLeaves_storage"
   ],
   "note": "The exchange of two nodes (permute_nodes) is a parameter: the claim does not depend on it, except that it builds tensors without inactive internal node (the constructor refuses the others). The deep copies are values."
  },
  {
   "property": "C213",
   "status": "proved",
   "theorems": [
    "Verif.TreeBased.optimizeTree_error",
    "Verif.TreeBased.optimizeLeaves_error"
   ],
   "note": "The exchange of two nodes is a parameter with the stated contract (PermuteOk); its tensors are not modelled. Numbers of exchanges per iteration are at least one, as in the code."
  },
  {
   "property": "C214",
   "status": "partial",
   "theorems": [
    "Verif.TreeBased.permutationCost_spec",
    "Verif.TreeBased.candidates_spec",
    "Verif.TreeBased.leafCandidates_spec",
    "Verif.TreeBased.swappable_swapNodes",
    "Verif.TreeBased.costRanks_spec_partial",
    "Verif.TreeBased.costRanks_order",
    "Verif.TreeBased.permutationCost_modifies_ranks"
   ],
   "note": "The claim on the sizes of the inactive leaves is false of the code when the numbers of the leaves do not increase with the dimensions (costRanks_order): proved when they do. A call also overwrites self.ranks with these sizes, after which the ranks of the tensor are no longer admissible (permutationCost_modifies_ranks)."
  },
  {
   "property": "C215",
   "status": "partial",
   "theorems": [
    "Verif.TreeBased.whileLoop_ends_partial",
    "Verif.TreeBased.whileLoop_never",
    "Verif.TreeBased.optimizeTree_never",
    "Verif.TreeBased.not_swappable_of_star"
   ],
   "note": "False of the code for trees whose nodes other than the root are its sons: the inner loop never ends (optimizeTree_never). Proved for the inner loop when each node drawn can be exchanged with another."
  },
  {
   "property": "C216",
   "status": "proved",
   "theorems": [
    "Verif.TreeBased.adaptTree_storage",
    "Verif.TreeBased.adaptError_spec",
    "Verif.TreeBased.adaptTree_error",
    "Verif.TreeBased.adaptTree_raises"
   ],
   "note": "The exchange of two nodes is a parameter with the contract PermuteOk, as in C213. The claim is about the calls that return: without a tolerance in the options, with a relative error, no test error and no cross-validation error, an exception is raised (adaptTree_raises)."
  },
  {
   "property": "C217",
   "status": "partial",
   "theorems": [
    "Verif.TreeBased.rankOneCorrection_none",
    "Verif.TreeBased.rankOneCorrection_spec_partial",
    "Verif.TreeBased.rankOneCorrection_interpolant",
    "Verif.TreeBased.rankOneCorrection_increases",
    "Verif.TreeBased.exists_la_null"
   ],
   "note": "False of the code when the first linear system has a null solution: the loop is left with the initial tensor of ones, which is added to the function. In particular the correction of a function that interpolates the data adds the tensor of ones (rankOneCorrection_interpolant, for solvers that give the null solution for null data), which increases the risk (rankOneCorrection_increases). Proved otherwise, for tensors whose nodes are all active."
  },
  {
   "property": "C218",
   "status": "partial",
   "theorems": [
    "Verif.Sets.isIn_spec",
    "Verif.Sets.isIn_interval",
    "Verif.Sets.isIn_short",
    "Verif.Sets.isIn_vector",
    "Verif.Sets.isIn_vector_wrong"
   ],
   "note": "False of the code for a vector of numbers and an interval: the vector is one point, and only its first entry is tested (isIn_vector, isIn_vector_wrong). Proved for the points given by the rows of a matrix."
  },
  {
   "property": "C219",
   "status": "partial",
   "theorems": [
    "Verif.Sets.randomMultiIndices_ints",
    "Verif.Sets.randomMultiIndices_lists",
    "Verif.Sets.randomMultiIndices_twice"
   ],
   "note": "False of the code for a list of lists: its elements are replaced by the random variables (randomMultiIndices_lists), so that a second call with it raises an exception (randomMultiIndices_twice). The law is proved in both cases, with exact arithmetic."
  },
  {
   "property": "C220",
   "status": "proved",
   "theorems": [
    "Verif.TreeBased.evalAtIndices_full",
    "Verif.TreeBased.evalAtIndices_columns",
    "Verif.TreeBased.evalAtIndices_refused"
   ],
   "note": "eval_diag is the modelled method of C94; a square matrix is read by rows."
  },
  {
   "property": "C221",
   "status": "partial",
   "theorems": [
    "Verif.TreeBased.evalAtIndices_dim",
    "Verif.TreeBased.evalAtIndices_point_partial",
    "Verif.TreeBased.evalAtIndices_fibre_partial",
    "Verif.TreeBased.evalAtIndices_entry",
    "Verif.TreeBased.evalAtIndices_point_wrong"
   ],
   "note": "False of the code when one of the other dimensions has size one: the code calls squeeze() without argument, which drops it too (evalAtIndices_point_wrong). Several points in several dimensions (eval_diag(dims)) are not modelled."
  },
  {
   "property": "C222",
   "status": "partial",
   "theorems": [
    "Verif.ExplicitBases.delta_eval",
    "Verif.ExplicitBases.delta_eval_numbers",
    "Verif.ExplicitBases.delta_cardinal_partial",
    "Verif.ExplicitBases.delta_cardinal_wrong",
    "Verif.ExplicitBases.delta_ndim",
    "Verif.ExplicitBases.delta_ndim_wrong",
    "Verif.ExplicitBases.delta_random_wrong",
    "Verif.ExplicitBases.delta_witness"
   ],
   "note": "False of the code: cardinal() is the dimension of the values (delta_cardinal_wrong), so that random(n) raises an exception (delta_random_wrong), and ndim() is one when no measure is given (delta_ndim_wrong). The evaluation is proved."
  },
  {
   "property": "C223",
   "status": "proved",
   "theorems": [
    "Verif.ExplicitBases.user_eval",
    "Verif.ExplicitBases.user_eval_numbers",
    "Verif.ExplicitBases.user_constant",
    "Verif.ExplicitBases.user_refused",
    "Verif.ExplicitBases.user_attributes",
    "Verif.ExplicitBases.user_random"
   ],
   "note": "The functions are any functions of the array of points; the measure is represented by its dimension and its sample."
  },
  {
   "property": "C224",
   "status": "partial",
   "theorems": [
    "Verif.TestError.testError_points",
    "Verif.TestError.testError_refused",
    "Verif.TestError.testError_measure",
    "Verif.TestError.testError_default",
    "Verif.TestError.isErrors_zero",
    "Verif.TestError.testError_one_wrong"
   ],
   "note": "False of the code for one number as the only test point: no branch computes the errors and UnboundLocalError is raised (testError_one_wrong). Proved for the other sets of points; exact arithmetic; evaluations of shape [n] or [n, m]."
  },
  {
   "property": "C225",
   "status": "partial",
   "theorems": [
    "Verif.TestError.random_self",
    "Verif.TestError.random_refused",
    "Verif.TestError.random_given_partial",
    "Verif.TestError.random_given_wrong",
    "Verif.TestError.random_other_wrong"
   ],
   "note": "False of the code: the type of the attribute measure is tested instead of the one of the argument, so that a given probability measure is refused for a function without one (random_given_wrong), and another measure is accepted (random_other_wrong)."
  },
  {
   "property": "C226",
   "status": "partial",
   "theorems": [
    "Verif.LearningSetup.prepare_eval",
    "Verif.LearningSetup.prepare_keep",
    "Verif.LearningSetup.prepare_disabled",
    "Verif.LearningSetup.prepare_missing_wrong",
    "Verif.LearningSetup.prepare_test_wrong"
   ],
   "note": "False of the code for missing inputs and for an evaluation that raises: all the exceptions are ignored, including the ValueError of the method itself, and the evaluations stay undefined (prepare_missing_wrong, prepare_test_wrong). The other parts are proved."
  },
  {
   "property": "C227",
   "status": "proved",
   "theorems": [
    "Verif.LearningSetup.densityRisk_fun",
    "Verif.LearningSetup.densityRisk_evals",
    "Verif.LearningSetup.densityRisk_call",
    "Verif.LearningSetup.densityRisk_nan",
    "Verif.LearningSetup.densityTestError_spec",
    "Verif.LearningSetup.densityRisk_expectation"
   ],
   "note": "Exact arithmetic; the expectation is stated for one point of the sample, on a finite set with any weights."
  },
  {
   "property": "C228",
   "status": "proved",
   "theorems": [
    "Verif.DiscreteMeasures.create_uniform",
    "Verif.DiscreteMeasures.create_weights",
    "Verif.DiscreteMeasures.create_vec",
    "Verif.DiscreteMeasures.create_refused",
    "Verif.DiscreteMeasures.eq_spec",
    "Verif.DiscreteMeasures.support_spec"
   ],
   "note": "Rational values and weights, no rounding."
  },
  {
   "property": "C229",
   "status": "partial",
   "theorems": [
    "Verif.DiscreteMeasures.random_partial",
    "Verif.DiscreteMeasures.random_wrong",
    "Verif.DiscreteMeasures.draws_interval"
   ],
   "note": "False of the code for values in a dimension other than one: np.squeeze raises ValueError (random_wrong). In dimension one the value drawn by each number of the uniform sample is given, and these numbers form an interval of length proportional to the weight (draws_interval); exact arithmetic, numbers in (0, 1]."
  },
  {
   "property": "C230",
   "status": "partial",
   "theorems": [
    "Verif.CustomLoss.eval_spec",
    "Verif.CustomLoss.eval_error",
    "Verif.CustomLoss.risk_unobserved",
    "Verif.CustomLoss.risk_vector_partial",
    "Verif.CustomLoss.risk_matrix_partial",
    "Verif.CustomLoss.risk_zero_partial",
    "Verif.CustomLoss.risk_column_wrong",
    "Verif.CustomLoss.risk_exact_wrong"
   ],
   "note": "Proved for observations and predictions of the same shape. False of the code for observations of shape n and predictions of shape n x 1, which are broadcast: the mean is over all the pairs. Exact real arithmetic; *args not modelled."
  },
  {
   "property": "C231",
   "status": "partial",
   "theorems": [
    "Verif.CustomLoss.testError_default",
    "Verif.CustomLoss.testError_given",
    "Verif.CustomLoss.relativeTestError_spec",
    "Verif.CustomLoss.testError_type_partial",
    "Verif.CustomLoss.testError_type_wrong",
    "Verif.CustomLoss.eval_hidden_wrong"
   ],
   "note": "False of the code for the error type (it is ignored) and for exceptions of the predictor (ignored; the object itself is then given to the loss, which is taken to raise TypeError)."
  },
  {
   "property": "C232",
   "status": "partial",
   "theorems": [
    "Verif.Benchmark.borehole_spec",
    "Verif.Benchmark.ishigami_spec",
    "Verif.Benchmark.sinOfSum_spec",
    "Verif.Benchmark.linearAdditive_spec",
    "Verif.Benchmark.linearRankOne_spec",
    "Verif.Benchmark.quadraticRankOne_spec",
    "Verif.Benchmark.canonicalRank2_spec",
    "Verif.Benchmark.mixture_spec",
    "Verif.Benchmark.field_spec",
    "Verif.Benchmark.cornerPeak_spec",
    "Verif.Benchmark.henonHeiles_spec",
    "Verif.Benchmark.sobol_spec",
    "Verif.Benchmark.anisotropic_spec",
    "Verif.Benchmark.polynomial_spec",
    "Verif.Benchmark.benchmark_partial",
    "Verif.Benchmark.canonicalRank2_refused",
    "Verif.Benchmark.names_wrong",
    "Verif.Benchmark.expPeak_wrong",
    "Verif.Benchmark.oscillatory_wrong",
    "Verif.Benchmark.productPeak_wrong"
   ],
   "note": "False of the code for six documented names: sin_of_a_sum and discontinuous are not implemented, gaussian and continuous always raise, oscillatory returns d values per point, product_peak is refused for several points. Exact real arithmetic; parameters a, b of ishigami and q of polynomial by default."
  },
  {
   "property": "C233",
   "status": "proved",
   "theorems": [
    "Verif.Benchmark.sobol_mean",
    "Verif.Benchmark.polynomial_mean"
   ],
   "note": "Exact integrals over the cube of the law of the returned random vector (Fubini)."
  }
 ]
}