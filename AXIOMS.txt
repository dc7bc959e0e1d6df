[Classical.choice, Quot.sound, propext] 740 theorems
  Verif.BSplines.dilated_spec
  Verif.BSplines.evalDerivative_spec
  Verif.BSplines.eval_spec
  Verif.BSplines.eval_sum
  Verif.BSplines.extraKnots_spec
  Verif.Bases.adaptationPath_nested
  Verif.Bases.adaptationPath_spec
  Verif.Bases.arith_scalar_partial
  Verif.Bases.basesEval_spec
  Verif.Bases.basesMean_general
  Verif.Bases.basesMean_partial
  Verif.Bases.coefficients_spec
  Verif.Bases.condArray_spec
  Verif.Bases.condExp_wrong
  Verif.Bases.dot0_spec
  Verif.Bases.evalFull_spec
  Verif.Bases.evalSparse_spec
  Verif.Bases.evalWith_spec
  Verif.Bases.eval_scalar_partial
  Verif.Bases.eval_wrong
  Verif.Bases.gramSparse_spec
  Verif.Bases.keep_measure_iff
  Verif.Bases.keep_spec
  Verif.Bases.meanFull_partial
  Verif.Bases.meanFull_rowMajor
  Verif.Bases.meanFull_wrong
  Verif.Bases.meanSparse_spec
  Verif.Bases.mean_spec
  Verif.Bases.mk'_keeps_iff
  Verif.Bases.mk'_scalar_partial
  Verif.Bases.mk'_spec
  Verif.Bases.mk'_transposes
  Verif.Bases.remove_keep
  Verif.Bases.triuPath_spec
  Verif.Bases.variance_refused
  Verif.Bases.variance_spec
  Verif.Benchmark.anisotropic_spec
  Verif.Benchmark.benchmark_partial
  Verif.Benchmark.borehole_spec
  Verif.Benchmark.canonicalRank2_refused
  Verif.Benchmark.canonicalRank2_spec
  Verif.Benchmark.cornerPeak_spec
  Verif.Benchmark.expPeak_wrong
  Verif.Benchmark.field_spec
  Verif.Benchmark.henonHeiles_spec
  Verif.Benchmark.ishigami_spec
  Verif.Benchmark.linearAdditive_spec
  Verif.Benchmark.linearRankOne_spec
  Verif.Benchmark.mixture_spec
  Verif.Benchmark.names_wrong
  Verif.Benchmark.oscillatory_wrong
  Verif.Benchmark.polynomial_mean
  Verif.Benchmark.polynomial_spec
  Verif.Benchmark.productPeak_wrong
  Verif.Benchmark.quadraticRankOne_spec
  Verif.Benchmark.sinOfSum_spec
  Verif.Benchmark.sobol_mean
  Verif.Benchmark.sobol_spec
  Verif.Canonical.add_spec
  Verif.Canonical.cnSolve_partial
  Verif.Canonical.columnStep_spec
  Verif.Canonical.coreStep_spec
  Verif.Canonical.dense_dot
  Verif.Canonical.dot_code
  Verif.Canonical.dot_partial
  Verif.Canonical.dot_rank_one_partial
  Verif.Canonical.dot_wrong
  Verif.Canonical.evalDiag_order_one_partial
  Verif.Canonical.evalDiag_partial
  Verif.Canonical.evalDiag_wrong
  Verif.Canonical.factorStep_spec
  Verif.Canonical.factorStep_two
  Verif.Canonical.full_spec
  Verif.Canonical.neg_spec
  Verif.Canonical.norm_spec
  Verif.Canonical.paramGrad_core_spec
  Verif.Canonical.paramGrad_factor_spec
  Verif.Canonical.reduceSum_spec
  Verif.Canonical.representationRank_spec
  Verif.Canonical.squeeze_spec
  Verif.Canonical.sub_spec
  Verif.Canonical.sweep_two_increases
  Verif.Canonical.sweep_two_partial
  Verif.Canonical.tensorMatrixProduct_spec
  Verif.Canonical.tensorVectorProduct_spec
  Verif.CustomLoss.eval_error
  Verif.CustomLoss.eval_hidden_wrong
  Verif.CustomLoss.eval_spec
  Verif.CustomLoss.relativeTestError_spec
  Verif.CustomLoss.risk_column_wrong
  Verif.CustomLoss.risk_exact_wrong
  Verif.CustomLoss.risk_matrix_partial
  Verif.CustomLoss.risk_unobserved
  Verif.CustomLoss.risk_vector_partial
  Verif.CustomLoss.risk_zero_partial
  Verif.CustomLoss.testError_default
  Verif.CustomLoss.testError_given
  Verif.CustomLoss.testError_type_partial
  Verif.CustomLoss.testError_type_wrong
  Verif.DensityL2.restrict_minimizes
  Verif.DensityL2.selectPath_spec
  Verif.DensityL2.solveRegularized_spec
  Verif.DensityL2.standardErr_eq
  Verif.DensityL2.standardSol_minimizes
  Verif.Derivatives.arrayFn_eval
  Verif.Derivatives.evalDerivative_refuses
  Verif.Derivatives.evalDerivative_spec
  Verif.Derivatives.evalGradient_partial
  Verif.Derivatives.evalGradient_refused
  Verif.Derivatives.fbaEvalDerivative_spec
  Verif.Derivatives.fbaEvalGradient_spec
  Verif.Derivatives.polyD_ok
  Verif.Derivatives.polyEvalDerivative_partial
  Verif.Derivatives.polyEvalJacobian_refused
  Verif.Derivatives.sparseEvalDerivative_spec
  Verif.Derivatives.sparseEvalJacobian_spec
  Verif.Diagonal.add_spec
  Verif.Diagonal.cat_spec
  Verif.Diagonal.dense_metric
  Verif.Diagonal.dotWithRankOneMetric_code
  Verif.Diagonal.dotWithRankOneMetric_partial
  Verif.Diagonal.dotWithRankOneMetric_wrong
  Verif.Diagonal.dot_spec
  Verif.Diagonal.evalAtIndices_spec
  Verif.Diagonal.evalDiag_all
  Verif.Diagonal.evalDiag_code
  Verif.Diagonal.evalDiag_gap_wrong
  Verif.Diagonal.evalDiag_partial
  Verif.Diagonal.kron_spec
  Verif.Diagonal.mul_spec
  Verif.Diagonal.neg_spec
  Verif.Diagonal.sparse_spec
  Verif.Diagonal.sub_spec
  Verif.Diagonal.tensorDiagonalMatrixProduct_spec
  Verif.Diagonal.tensorVectorProduct_spec
  Verif.Diagonal.tensordotMatrixProductExceptDim_spec
  Verif.DimTree.addChild_spec
  Verif.DimTree.ascendants_spec
  Verif.DimTree.attributes_spec
  Verif.DimTree.balanced_binary
  Verif.DimTree.balanced_level
  Verif.DimTree.balanced_valid
  Verif.DimTree.changeRoot_spec
  Verif.DimTree.changeRoot_unary_raises
  Verif.DimTree.descendants_ascendants
  Verif.DimTree.descendants_spec
  Verif.DimTree.dims_spec
  Verif.DimTree.elemPerm_spec
  Verif.DimTree.eq_of_sameTree
  Verif.DimTree.eq_unsound
  Verif.DimTree.ipermute_permute
  Verif.DimTree.linear_binary
  Verif.DimTree.linear_dims
  Verif.DimTree.linear_valid
  Verif.DimTree.nodeWithDims_spec
  Verif.DimTree.permuteLeaves_one_based
  Verif.DimTree.permuteLeaves_partial
  Verif.DimTree.permute_dims
  Verif.DimTree.permute_ipermute
  Verif.DimTree.permute_spec
  Verif.DimTree.permute_valid
  Verif.DimTree.sameTree_of_eq_partial
  Verif.DimTree.scatter_spec
  Verif.DimTree.subTree_spec
  Verif.DimTree.swapNodes_refused
  Verif.DimTree.swapNodes_spec
  Verif.DimTree.trivial_spec
  Verif.DimTree.trivial_valid
  Verif.DiscreteMeasures.create_uniform
  Verif.DiscreteMeasures.create_weights
  Verif.DiscreteMeasures.draws_interval
  Verif.DiscreteMeasures.random_partial
  Verif.DiscreteMeasures.random_wrong
  Verif.DiscreteMeasures.support_spec
  Verif.Distributions.cdf_spec
  Verif.Distributions.cells_refused
  Verif.Distributions.exists_ndtri
  Verif.Distributions.icdf_outside
  Verif.Distributions.icdf_spec
  Verif.Distributions.isProba
  Verif.Distributions.isoGridFrac_spec
  Verif.Distributions.isoGrid_spec
  Verif.Distributions.law_cdf_le
  Verif.Distributions.moments_spec
  Verif.Distributions.pdf_spec
  Verif.Distributions.transfer_spec
  Verif.Distributions.vecCdf_spec
  Verif.Distributions.vecIsoGridFrac_spec
  Verif.Distributions.vecIsoGrid_one
  Verif.Distributions.vecIsoGrid_spec
  Verif.Distributions.vecMoments_spec
  Verif.Distributions.vecPdf_spec
  Verif.Distributions.vecTransfer_refused
  Verif.Distributions.vecTransfer_spec
  Verif.Distributions.vec_wrong_size
  Verif.Empirical.bandwidth_spec
  Verif.Empirical.cdf_eq
  Verif.Empirical.cdf_iff
  Verif.Empirical.cdf_wrong
  Verif.Empirical.gauss_exactness
  Verif.Empirical.gauss_refused
  Verif.Empirical.integrationRule_spec
  Verif.Empirical.moment_spec
  Verif.Empirical.moments_partial
  Verif.Empirical.pdf_spec
  Verif.Empirical.polyval_orthonormal
  Verif.Empirical.polyval_refused
  Verif.Empirical.shift_law
  Verif.Empirical.standard_law
  Verif.FullTensor.cat_spec
  Verif.FullTensor.evalAtIndices_all
  Verif.FullTensor.evalAtIndices_full
  Verif.FullTensor.evalAtIndices_one
  Verif.FullTensor.evalAtIndices_partial
  Verif.FullTensor.evalAtIndices_wrong
  Verif.FullTensor.evalDiag_refused
  Verif.FullTensor.evalDiag_spec
  Verif.FullTensor.exists_qr
  Verif.FullTensor.itranspose_transpose
  Verif.FullTensor.kron_diag_eq_mul
  Verif.FullTensor.kron_spec
  Verif.FullTensor.matricize_default
  Verif.FullTensor.matricize_spec
  Verif.FullTensor.orth_spec
  Verif.FullTensor.reshape_reshape
  Verif.FullTensor.subTensor_spec
  Verif.FullTensor.tensorMatrixProductEvalDiag_all
  Verif.FullTensor.tensorMatrixProductEvalDiag_spec
  Verif.FullTensor.tensorMatrixProduct_comm
  Verif.FullTensor.tensorMatrixProduct_comp
  Verif.FullTensor.tensorMatrixProduct_spec
  Verif.FullTensor.tensorVectorProduct_spec
  Verif.FullTensor.tensordotExceptDim_refused
  Verif.FullTensor.tensordotExceptDim_spec
  Verif.FullTensor.tmpStep_refused
  Verif.FullTensor.tmpStep_spec
  Verif.FullTensor.transpose_itranspose
  Verif.FullTensor.transpose_refused
  Verif.FullTensor.transpose_spec
  Verif.FunctionalPca.approximation_exact
  Verif.FunctionalPca.approximation_interpolates
  Verif.FunctionalPca.gridPoints_ok
  Verif.FunctionalPca.hopca_spec
  Verif.FunctionalPca.points_refused
  Verif.FunctionalPca.project_spec
  Verif.FunctionalPca.projection_refused
  Verif.FunctionalPca.ttApproximation_spec
  Verif.FunctionalPca.tuckerApproximation_spec
  Verif.FunctionalTensor.conditionalExpectation_average
  Verif.FunctionalTensor.conditionalExpectation_empty
  Verif.FunctionalTensor.conditionalExpectation_eval
  Verif.FunctionalTensor.evalDiagProduct_spec
  Verif.FunctionalTensor.evalOnGrid_spec
  Verif.FunctionalTensor.evalPartial_first_partial
  Verif.FunctionalTensor.evalPartial_wrong
  Verif.FunctionalTensor.eval_spec
  Verif.FunctionalTensor.mask_two
  Verif.FunctionalTensor.mask_wrong
  Verif.FunctionalTensor.mean_average
  Verif.FunctionalTensor.mean_conditionalExpectation
  Verif.FunctionalTensor.mean_spec
  Verif.FunctionalTensor.mul_outputs_witness
  Verif.FunctionalTensor.mul_outputs_wrong
  Verif.FunctionalTensor.mul_partial
  Verif.FunctionalTensor.mul_ranks_refused
  Verif.FunctionalTensor.normSqEvaluated_partial
  Verif.FunctionalTensor.product_spec
  Verif.FunctionalTensor.smul_spec
  Verif.FunctionalTensor.varianceConditionalExpectation_refused
  Verif.FunctionalTensor.variance_refused
  Verif.FunctionalTensor.vectorProductAll_spec
  Verif.Functions.compEval_spec
  Verif.Functions.evalOnFullGrid_scalar
  Verif.Functions.evalOnFullGrid_spec
  Verif.Functions.partialEval_partial
  Verif.Functions.partialEval_several
  Verif.Functions.storeEval_once_partial
  Verif.Functions.storeRun_partial
  Verif.Functions.tensorize_spec
  Verif.Functions.userEval_spec
  Verif.GramH1.gramH1_partial
  Verif.GramH1.gramH1_wrong
  Verif.Grids.arrayAt_spec
  Verif.Grids.array_refused
  Verif.Grids.array_spec
  Verif.Grids.composite_exact
  Verif.Grids.composite_integrate
  Verif.Grids.integrate_product
  Verif.Grids.mem_array
  Verif.Grids.mk'_accepts_mismatch
  Verif.Grids.productGauss_integrate
  Verif.Grids.productGauss_scalar
  Verif.Grids.sparseArray_spec
  Verif.Grids.tensor_integrate_spec
  Verif.Grids.tensorize_power
  Verif.Grids.weightsOnGrid_spec
  Verif.LearningSetup.densityRisk_call
  Verif.LearningSetup.densityRisk_evals
  Verif.LearningSetup.densityRisk_expectation
  Verif.LearningSetup.densityRisk_fun
  Verif.LearningSetup.densityRisk_nan
  Verif.LearningSetup.densityTestError_spec
  Verif.LeastSquares.exists_la
  Verif.LeastSquares.fit_unique
  Verif.LeastSquares.selectOptimalPath_leaveOut
  Verif.LeastSquares.selectOptimalPath_nan_wrong
  Verif.LeastSquares.selectOptimalPath_none
  Verif.LeastSquares.selectOptimalPath_spec
  Verif.LeastSquares.solveBasisAdaptation_default
  Verif.LeastSquares.solveOls_fit
  Verif.LeastSquares.solveOls_kFold
  Verif.LeastSquares.solveOls_leaveOut
  Verif.LeastSquares.solveOls_leaveOut_inf
  Verif.LeastSquares.solveOls_leaveOut_nan
  Verif.LeastSquares.solveOls_ok
  Verif.LeastSquares.solveOls_residuals
  Verif.Losses.absoluteTestError_partial
  Verif.Losses.absoluteTestError_vector
  Verif.Losses.absoluteTestError_wrong
  Verif.Losses.relativeTestError_mismatch_wrong
  Verif.Losses.relativeTestError_spec
  Verif.Losses.relativeTestError_zero
  Verif.Magic.cross_exact
  Verif.Magic.cross_unique
  Verif.Magic.gramMatrix_spec
  Verif.Magic.interpolate_error
  Verif.Magic.interpolate_scalar_partial
  Verif.Magic.interpolate_wrong
  Verif.Magic.magicIndices_left
  Verif.Magic.magicIndices_leftRight
  Verif.Magic.magicIndices_leftRight_error
  Verif.Magic.magicIndices_left_error
  Verif.Magic.magicIndices_nested
  Verif.Magic.magicIndices_right
  Verif.Magic.magicIndices_right_error
  Verif.Magic.magicPoints_error
  Verif.Magic.magicPoints_few
  Verif.Magic.magicPoints_spec
  Verif.Magic.projection_reproduces
  Verif.Magic.projection_spec
  Verif.Measures.cdf_bounds
  Verif.Measures.cdf_mono
  Verif.Measures.discretizeSupport_spec
  Verif.Measures.exLaw
  Verif.Measures.icdf_galois_partial
  Verif.Measures.icdf_refused
  Verif.Measures.icdf_spec
  Verif.Measures.icdf_unsorted_wrong
  Verif.Measures.icdf_zero
  Verif.Measures.mk_spec
  Verif.Measures.mk_uniform
  Verif.Measures.moment_fresh
  Verif.Measures.moment_history_partial
  Verif.Measures.moment_history_wrong
  Verif.Measures.standard_spec
  Verif.Measures.vectorEq_spec
  Verif.ModelSelection.exSlope
  Verif.ModelSelection.exSorted
  Verif.ModelSelection.lambdaPath_partial
  Verif.ModelSelection.lambdaPath_sorted
  Verif.ModelSelection.lambdaPath_terminates
  Verif.ModelSelection.lambdaPath_ties_wrong
  Verif.ModelSelection.lambdaPath_zero_wrong
  Verif.ModelSelection.mLambda1_spec
  Verif.ModelSelection.mLambda_spec
  Verif.ModelSelection.slopeHeuristic_equal_wrong
  Verif.ModelSelection.slopeHeuristic_no_path_raises
  Verif.ModelSelection.slopeHeuristic_spec
  Verif.MultiIndices.addIndices_downClosed
  Verif.MultiIndices.addIndices_idem
  Verif.MultiIndices.addIndices_spec
  Verif.MultiIndices.boundedBy_ok_iff
  Verif.MultiIndices.boundedBy_order
  Verif.MultiIndices.enrich_history_downClosed
  Verif.MultiIndices.envelope_spec
  Verif.MultiIndices.getMargin_empty
  Verif.MultiIndices.getMargin_spec
  Verif.MultiIndices.getMaximalIndices_spec
  Verif.MultiIndices.getReducedMargin_spec
  Verif.MultiIndices.hyperbolicCrossSet_spec
  Verif.MultiIndices.ind2sub_sub2ind
  Verif.MultiIndices.intersectIndices_nodup
  Verif.MultiIndices.intersectIndices_spec
  Verif.MultiIndices.isDownwardClosed_below_raises
  Verif.MultiIndices.isDownwardClosed_spec
  Verif.MultiIndices.keepDims_downClosed
  Verif.MultiIndices.keepDims_spec
  Verif.MultiIndices.keepIndices_spec
  Verif.MultiIndices.lowOrderInteractions_partial
  Verif.MultiIndices.mem_boundedBy
  Verif.MultiIndices.mem_iff_below_maximal
  Verif.MultiIndices.mem_productSet
  Verif.MultiIndices.productSet_nodup
  Verif.MultiIndices.productSet_ok_iff
  Verif.MultiIndices.productSet_order
  Verif.MultiIndices.ravelF_eq_colMajor
  Verif.MultiIndices.removeDims_eq
  Verif.MultiIndices.removeIndices_spec
  Verif.MultiIndices.remove_intersect_partition
  Verif.MultiIndices.sort_ascend_spec
  Verif.MultiIndices.sort_descend_one_column
  Verif.MultiIndices.sort_descend_partial
  Verif.MultiIndices.sort_descend_wrong
  Verif.MultiIndices.sub2ind_ind2sub_eq
  Verif.MultiIndices.sub2ind_spec
  Verif.MultiIndices.withBoundedNorm_incomplete
  Verif.MultiIndices.withBoundedNorm_one_spec
  Verif.MultiIndices.withBoundedNorm_partial
  Verif.MultiIndices.withBoundedWeightedNorm_spec
  Verif.Pca.approximation_exact
  Verif.Pca.approximation_interpolates
  Verif.Pca.approximation_rank_partial
  Verif.Pca.fullAlphaPC_spec
  Verif.Pca.hopca_spec
  Verif.Pca.maxRank_exceeded
  Verif.Pca.maxRank_ignored
  Verif.Pca.principalComponents_count_wrong
  Verif.Pca.principalComponents_spec_partial
  Verif.Pca.ttApproximation_spec
  Verif.Pca.tuckerApproximation_spec
  Verif.Piecewise.elementNumber_spec
  Verif.Piecewise.evalDerivativeRow_partial
  Verif.Piecewise.evalDerivativeRow_wrong
  Verif.Piecewise.evalDerivativeRow_zero
  Verif.Piecewise.evalRow_indices
  Verif.Piecewise.evalRow_spec
  Verif.Piecewise.gram_partial
  Verif.Piecewise.hpMesh_spec
  Verif.Piecewise.interpolationPoints_spec
  Verif.Piecewise.interpolation_unisolvent
  Verif.Piecewise.not_orthonormal
  Verif.Piecewise.npMesh_spec
  Verif.Piecewise.piecewise_basis
  Verif.Piecewise.singularityHp_coarse
  Verif.Piecewise.singularityHp_empty
  Verif.Piecewise.singularityHp_spec
  Verif.Polynomials.canonicalMean_spec
  Verif.Polynomials.canonicalMoment_spec
  Verif.Polynomials.canonical_polyval
  Verif.Polynomials.canonical_refused
  Verif.Polynomials.dPolyCoef_spec
  Verif.Polynomials.dPolyval_derivative
  Verif.Polynomials.discrete_derivative
  Verif.Polynomials.discrete_gauss
  Verif.Polynomials.discrete_gauss_all
  Verif.Polynomials.discrete_indexError
  Verif.Polynomials.discrete_moment
  Verif.Polynomials.discrete_moment_error
  Verif.Polynomials.discrete_orthonormal
  Verif.Polynomials.dnPolyCoeff_spec
  Verif.Polynomials.dnPolyval_derivative
  Verif.Polynomials.exists_eig
  Verif.Polynomials.gauss_mass
  Verif.Polynomials.gauss_spec
  Verif.Polynomials.genDnPolyval_partial
  Verif.Polynomials.genPolyval_spec
  Verif.Polynomials.hasCoeffs_canonical
  Verif.Polynomials.hasCoeffs_family
  Verif.Polynomials.lebesgue_derivative_wrong
  Verif.Polynomials.lebesgue_moment_wrong
  Verif.Polynomials.lebesgue_orthogonal
  Verif.Polynomials.lebesgue_orthonormal_iff
  Verif.Polynomials.lebesgue_polyCoeff_wrong
  Verif.Polynomials.mean_polynomials
  Verif.Polynomials.mean_shifted_wrong
  Verif.Polynomials.moment_normal_wrong
  Verif.Polynomials.moment_polynomials
  Verif.Polynomials.moment_spec
  Verif.Polynomials.one_spec
  Verif.Polynomials.orthonormalPolynomials_measure
  Verif.Polynomials.polyCoeff_spec
  Verif.Polynomials.polyval_orthonormal
  Verif.Polynomials.polyval_polynomials
  Verif.Polynomials.recurrenceMonic_spec
  Verif.Polynomials.roots_spec
  Verif.ProductMeasure.gauss_exact
  Verif.ProductMeasure.gauss_sizes
  Verif.ProductMeasure.marginal_refused
  Verif.ProductMeasure.marginal_spec
  Verif.ProductMeasure.mass_spec
  Verif.ProductMeasure.measEq_law
  Verif.ProductMeasure.productEq_partial
  Verif.ProductMeasure.productEq_prefix
  Verif.ProductMeasure.shift_normal
  Verif.ProductMeasure.shift_uniform
  Verif.ProductMeasure.standard_spec
  Verif.ProductMeasure.vectorEq_length
  Verif.ProductMeasure.vectorEq_spec
  Verif.RankAdaptation.bad_val
  Verif.RankAdaptation.solveAdaptation_first_inf
  Verif.RankAdaptation.solveAdaptation_spec
  Verif.Sets.isIn_short
  Verif.Sets.isIn_spec
  Verif.Sets.isIn_vector
  Verif.Sets.isIn_vector_wrong
  Verif.Sets.randomMultiIndices_ints
  Verif.Sets.randomMultiIndices_lists
  Verif.Sets.randomMultiIndices_twice
  Verif.Sparse.add_empty
  Verif.Sparse.add_spec
  Verif.Sparse.dot_spec
  Verif.Sparse.evalAtIndices_spec
  Verif.Sparse.full_ofFull_spec
  Verif.Sparse.itranspose_spec
  Verif.Sparse.mul_spec
  Verif.Sparse.ofFull_spec
  Verif.Sparse.reshape_spec
  Verif.Sparse.tensorMatrixProductEvalDiag_spec
  Verif.Sparse.tensorVectorProduct_example
  Verif.Sparse.tensorVectorProduct_full_wrong
  Verif.Sparse.tensorVectorProduct_order_one_wrong
  Verif.Sparse.tensorVectorProduct_partial
  Verif.Sparse.tensorVectorProduct_vanishing_wrong
  Verif.Sparse.transpose_order_one
  Verif.Sparse.transpose_spec
  Verif.SubBasis.basis_orthonormalize
  Verif.SubBasis.basis_orthonormalize_gram
  Verif.SubBasis.basis_orthonormalize_refuses
  Verif.SubBasis.evalDerivative_refuses
  Verif.SubBasis.evalDerivative_swapped
  Verif.SubBasis.evalDerivative_wrong
  Verif.SubBasis.evalJacobian_eq
  Verif.SubBasis.evalJacobian_partial
  Verif.SubBasis.evalJacobian_wrong
  Verif.SubBasis.flag_other
  Verif.SubBasis.flag_sound
  Verif.SubBasis.flag_spec
  Verif.SubBasis.orthonormalize_refuses
  Verif.SubBasis.orthonormalize_spec
  Verif.SubBasis.polyBasis_fns
  Verif.SubBasis.polyBasis_gram
  Verif.SubBasis.polyBasis_gram_measure
  Verif.SubBasis.polyBasis_orthonormal
  Verif.SubBasis.polyDerivative_partial
  Verif.SubBasis.polyDerivative_transposed
  Verif.SubBasis.polyDerivative_wrong
  Verif.SubBasis.polyKron_partial
  Verif.SubBasis.polyKron_wrong
  Verif.SubBasis.polyOne_spec
  Verif.SubBasis.sub_eval_indices
  Verif.SubBasis.sub_fns
  Verif.SubBasis.sub_gram
  Verif.SubBasis.sub_mean
  Verif.TensorInterp.fullInterpolation_arg_partial
  Verif.TensorInterp.fullInterpolation_exact
  Verif.TensorInterp.fullInterpolation_spec
  Verif.TensorInterp.fullInterpolation_tensor_refused
  Verif.TensorInterp.fullProjection_best_partial
  Verif.TensorInterp.fullProjection_exact_partial
  Verif.TensorInterp.fullProjection_partial
  Verif.TensorInterp.fullProjection_refuses
  Verif.TensorInterp.fullProjection_wrong
  Verif.TensorInterp.sparseInterpolation_exact
  Verif.TensorInterp.sparseInterpolation_partial
  Verif.TensorInterp.sparseInterpolation_polynomials
  Verif.TensorInterp.sparseInterpolation_spec
  Verif.TensorInterp.sparseInterpolation_wrong
  Verif.Tensorizer.exTz_codes
  Verif.Tensorizer.inverseMap_map
  Verif.Tensorizer.inverseMap_map_uniform
  Verif.Tensorizer.inverseMap_spec
  Verif.Tensorizer.map_inverseMap
  Verif.Tensorizer.map_refused
  Verif.Tensorizer.map_spec
  Verif.Tensorizer.u2z_spec
  Verif.Tensorizer.u2z_unique
  Verif.Tensorizer.z2u_spec
  Verif.Tensorizer.z2u_u2z
  Verif.TestError.isErrors_zero
  Verif.TestError.random_given_partial
  Verif.TestError.random_given_wrong
  Verif.TestError.random_other_wrong
  Verif.TestError.random_refused
  Verif.TestError.random_self
  Verif.TestError.testError_default
  Verif.TestError.testError_measure
  Verif.TestError.testError_one_wrong
  Verif.TestError.testError_points
  Verif.TestError.testError_refused
  Verif.TreeBased.activateNodes_full
  Verif.TreeBased.adaptError_spec
  Verif.TreeBased.adaptPathDmrg_spec
  Verif.TreeBased.adaptPathLowRank_spec
  Verif.TreeBased.adaptPath_spec
  Verif.TreeBased.adaptPath_support
  Verif.TreeBased.adaptTree_error
  Verif.TreeBased.adaptTree_raises
  Verif.TreeBased.adaptTree_storage
  Verif.TreeBased.add_full
  Verif.TreeBased.add_numbering_wrong
  Verif.TreeBased.add_same
  Verif.TreeBased.amLoop_spec
  Verif.TreeBased.amStep_spec
  Verif.TreeBased.amSweep_spec
  Verif.TreeBased.candidates_spec
  Verif.TreeBased.changeRoot_axis
  Verif.TreeBased.changeRoot_full
  Verif.TreeBased.changeRoot_inactive
  Verif.TreeBased.changeRoot_outputs_partial
  Verif.TreeBased.changeRoot_outputs_witness
  Verif.TreeBased.complexityTB_nonneg
  Verif.TreeBased.complexityTB_spec
  Verif.TreeBased.costRanks_order
  Verif.TreeBased.costRanks_spec_partial
  Verif.TreeBased.dmrgUpdateLowRank_partial
  Verif.TreeBased.dmrgUpdate_error_partial
  Verif.TreeBased.dmrgUpdate_partial
  Verif.TreeBased.dmrgUpdate_raises
  Verif.TreeBased.dotMetric_full
  Verif.TreeBased.dotNode_refused
  Verif.TreeBased.dot_full
  Verif.TreeBased.dot_refused
  Verif.TreeBased.enrichedEdges_witness
  Verif.TreeBased.enrichedEdges_wrong
  Verif.TreeBased.evalAtIndices_columns
  Verif.TreeBased.evalAtIndices_dim
  Verif.TreeBased.evalAtIndices_entry
  Verif.TreeBased.evalAtIndices_fibre_partial
  Verif.TreeBased.evalAtIndices_full
  Verif.TreeBased.evalAtIndices_point_partial
  Verif.TreeBased.evalAtIndices_point_wrong
  Verif.TreeBased.evalAtIndices_refused
  Verif.TreeBased.evalDiag_full
  Verif.TreeBased.exT_addable
  Verif.TreeBased.exT_compat
  Verif.TreeBased.exT_wf
  Verif.TreeBased.exUR_data
  Verif.TreeBased.exists_la_null
  Verif.TreeBased.explorationStrategy_spec
  Verif.TreeBased.full_again
  Verif.TreeBased.full_spec
  Verif.TreeBased.full_wrong_order_one
  Verif.TreeBased.gramiansAt_spec
  Verif.TreeBased.gramians_spec
  Verif.TreeBased.inactivateNodes_full
  Verif.TreeBased.inactivateNodes_refused
  Verif.TreeBased.isActiveDim_partial
  Verif.TreeBased.isAdmissible_partial
  Verif.TreeBased.isAdmissible_wrong
  Verif.TreeBased.kron_full
  Verif.TreeBased.leafCandidates_spec
  Verif.TreeBased.makeRanksAdmissible_fallback_witness
  Verif.TreeBased.makeRanksAdmissible_partial
  Verif.TreeBased.mul_full
  Verif.TreeBased.mul_refused
  Verif.TreeBased.mul_wrong
  Verif.TreeBased.mul_wrong_swapped
  Verif.TreeBased.neg_full
  Verif.TreeBased.newRankSelection_partial
  Verif.TreeBased.newRankSelection_refused
  Verif.TreeBased.normSq_full
  Verif.TreeBased.ofCanonical_equal
  Verif.TreeBased.ofCanonical_partial
  Verif.TreeBased.ofDiagonal_default
  Verif.TreeBased.ofDiagonal_full
  Verif.TreeBased.ofDiagonal_refused
  Verif.TreeBased.ofFull_full
  Verif.TreeBased.optimizeLeaves_error
  Verif.TreeBased.optimizeLeaves_storage
  Verif.TreeBased.optimizeTree_error
  Verif.TreeBased.optimizeTree_never
  Verif.TreeBased.optimizeTree_storage
  Verif.TreeBased.orthAtNode_other
  Verif.TreeBased.orthAtNode_spec
  Verif.TreeBased.orth_full
  Verif.TreeBased.ortho_normSq
  Verif.TreeBased.paramGradEvalDmrg_node_partial
  Verif.TreeBased.paramGradEvalDmrg_raises
  Verif.TreeBased.paramGradEvalDmrg_root_partial
  Verif.TreeBased.paramGradEvalLowRank_partial
  Verif.TreeBased.paramGradEvalLowRank_raises
  Verif.TreeBased.paramGradEval_axis_one_witness
  Verif.TreeBased.paramGradEval_node_partial
  Verif.TreeBased.paramGradEval_root_partial
  Verif.TreeBased.paramGradEval_unary_witness
  Verif.TreeBased.permutationCost_modifies_ranks
  Verif.TreeBased.permutationCost_spec
  Verif.TreeBased.predict_eval
  Verif.TreeBased.randomizeTree_refused
  Verif.TreeBased.rankOneCorrection_increases
  Verif.TreeBased.rankOneCorrection_interpolant
  Verif.TreeBased.rankOneCorrection_none
  Verif.TreeBased.rankOneCorrection_spec_partial
  Verif.TreeBased.rankProp_spec
  Verif.TreeBased.rank_of_splits
  Verif.TreeBased.reduceSumTB_all
  Verif.TreeBased.reduceSumTB_full
  Verif.TreeBased.removeUniqueChildren_full
  Verif.TreeBased.removeUniqueChildren_one_node
  Verif.TreeBased.rmulMat_partial
  Verif.TreeBased.rmulMat_refused
  Verif.TreeBased.selectModel_spec
  Verif.TreeBased.singularValues_spec
  Verif.TreeBased.smul_full
  Verif.TreeBased.solveStandard_spec
  Verif.TreeBased.sparseLeavesStorage_spec
  Verif.TreeBased.squeezeTB_all
  Verif.TreeBased.squeezeTB_full
  Verif.TreeBased.squeezeTB_none
  Verif.TreeBased.squeezeTB_one
  Verif.TreeBased.squeezeTB_refused_witness
  Verif.TreeBased.storage_spec
  Verif.TreeBased.subTensor_full
  Verif.TreeBased.subTensor_refused
  Verif.TreeBased.sub_full
  Verif.TreeBased.swappable_swapNodes
  Verif.TreeBased.tensorDiagonalMatrixProductTB_spec
  Verif.TreeBased.tensorMatrixProductEvalDiag_full
  Verif.TreeBased.tensorMatrixProduct_full
  Verif.TreeBased.tensorMatrixProduct_refused
  Verif.TreeBased.tensorTrain_dims_partial
  Verif.TreeBased.tensorTrain_spec
  Verif.TreeBased.tensorVectorProductTB_all
  Verif.TreeBased.tensorVectorProductTB_full
  Verif.TreeBased.tensorVectorProductTB_one
  Verif.TreeBased.uniqueTol_spec
  Verif.TreeBased.whileLoop_ends_partial
  Verif.TreeBased.whileLoop_never
  Verif.TruncatedSupport.empIcdf_refused
  Verif.TruncatedSupport.empRandom_refused
  Verif.TruncatedSupport.truncatedSupport_spec
  Verif.Truncation.exists_svd
  Verif.Truncation.hosvd_error
  Verif.Truncation.hosvd_spec
  Verif.Truncation.hsvdDense_spec
  Verif.Truncation.hsvd_error
  Verif.Truncation.hsvd_spec
  Verif.Truncation.truncSvd_error
  Verif.Truncation.truncSvd_spec
  Verif.Truncation.truncSvd_threshold
  Verif.Truncation.truncSvd_zero
  Verif.Truncation.truncate_error
  Verif.Truncation.ttsvd_spec
  Verif.Utils.baseb2integer_integer2baseb
  Verif.Utils.baseb2integer_spec
  Verif.Utils.defaultDigits_spec
  Verif.Utils.fastIntersect_spec
  Verif.Utils.integer2baseb_baseb2integer
  Verif.Utils.integer2baseb_spec
  Verif.Utils.integer2baseb_zero_default_raises
[Quot.sound, propext] 44 theorems
  Verif.Bases.neg_neg_wrong
  Verif.Bases.neg_wrong
  Verif.Canonical.oneByOne_order
  Verif.DimTree.ipermute_spec
  Verif.DimTree.linear_one_invalid
  Verif.DiscreteMeasures.create_refused
  Verif.DiscreteMeasures.create_vec
  Verif.ExplicitBases.delta_eval
  Verif.ExplicitBases.delta_eval_numbers
  Verif.ExplicitBases.delta_random_wrong
  Verif.ExplicitBases.delta_witness
  Verif.ExplicitBases.user_constant
  Verif.ExplicitBases.user_eval
  Verif.ExplicitBases.user_eval_numbers
  Verif.ExplicitBases.user_random
  Verif.ExplicitBases.user_refused
  Verif.FullTensor.cat_default
  Verif.FullTensor.cat_refused
  Verif.FullTensor.reshape_spec
  Verif.FullTensor.subTensor_refused
  Verif.Grids.lebesgueRule_integrate
  Verif.Grids.productGauss_spec
  Verif.LearningSetup.prepare_keep
  Verif.LeastSquares.effective_leaveOut_iff
  Verif.LeastSquares.mem_triuPath
  Verif.Measures.cdf_eq
  Verif.Measures.mk_refused
  Verif.Measures.productEq_iff
  Verif.ModelSelection.lambdaPath_empty
  Verif.ModelSelection.mLambda1_empty
  Verif.ModelSelection.tieBreak_of_generic
  Verif.ModelSelection.tieBreak_of_sorted
  Verif.MultiIndices.keepDims_refused
  Verif.MultiIndices.productSet_replicate
  Verif.MultiIndices.removeIndicesAt_spec
  Verif.MultiIndices.sub2ind_ind2sub
  Verif.MultiIndices.weightedHyperbolicCrossSet_incomplete
  Verif.Sparse.full_refused
  Verif.Sparse.mk_indexable
  Verif.TreeBased.activateNodes_refused
  Verif.TreeBased.randomizeCanonical_spec
  Verif.Utils.fastIntersect_needs_nodup
  Verif.Utils.fastSetdiff_spec
  Verif.Utils.integer2baseb_ok_iff
[none] 9 theorems
  Verif.Diagonal.evalDiag_gap_example
  Verif.ExplicitBases.delta_cardinal_partial
  Verif.ExplicitBases.delta_cardinal_wrong
  Verif.ExplicitBases.delta_ndim
  Verif.ExplicitBases.delta_ndim_wrong
  Verif.ExplicitBases.user_attributes
  Verif.Measures.basesEq_wrong
  Verif.Measures.productEq_wrong
  Verif.TreeBased.not_swappable_of_star
[propext] 27 theorems
  Verif.Bases.basesMean_wrong
  Verif.Bases.keep_measure_wrong
  Verif.Bases.mk'_refused
  Verif.Diagonal.add_refused
  Verif.DiscreteMeasures.eq_spec
  Verif.FullTensor.kron_refused
  Verif.FullTensor.subTensor_missing
  Verif.FunctionalTensor.dotProductExpectation_refused
  Verif.Functions.storeRun_matrix_wrong
  Verif.Grids.integrate_refused
  Verif.Grids.mk'_refused
  Verif.Grids.productGauss_refused
  Verif.Grids.tensorize_spec
  Verif.LearningSetup.prepare_disabled
  Verif.LearningSetup.prepare_eval
  Verif.LearningSetup.prepare_missing_wrong
  Verif.LearningSetup.prepare_test_wrong
  Verif.Measures.basesEq_partial
  Verif.Measures.productEq_partial
  Verif.MultiIndices.addIndices_empty_empty
  Verif.MultiIndices.lowOrderInteractions_incomplete
  Verif.MultiIndices.sort_default_columns
  Verif.MultiIndices.withBoundedNorm_inf_raises
  Verif.Sets.isIn_interval
  Verif.Sparse.one_entry_raises
  Verif.TreeBased.isActiveDim_int
  Verif.TreeBased.tensorTrain_list_refused
