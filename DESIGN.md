# Formal model of tensap in Lean 4 — design

(The plan was written before the proofs and is extended before each new part; the sections "Trusted base",
"What is modelled" and "Disagreements" are kept current.)

## Modelling conventions

* Python/NumPy integers are `Nat`/`Int`; floats are elements of an arbitrary commutative (semi)ring,
  of a linear ordered field where an order is needed, or of `ℝ` where square roots or singular values are needed:
  rounding is **not** modelled.
* A NumPy array is `Verif.Arr R` (`Verif/Np/Arr.lean`): a shape (`List Nat`) and an entry function on index lists; only the
  entries whose index is inside the shape are observable, and two arrays are compared with `≃ₐ` (same shape, same entries
  inside it). NumPy primitives (`transpose`, `reshape`, `tensordot`, `take`, `einsum`, `concatenate`, ...) are modelled by
  their index formulas: these are the trusted semantics of the library the code calls.
* Exceptions are values: `Py α = Except PyErr α`, with one constructor per Python exception class that occurs.
* `while` loops take fuel or are structural; the theorems say that a fuel computed from the input is enough.
* Mutation is state passing: a method that mutates `self` returns the new `self`.
* `np.linalg.qr`, `svd`, `matrix_rank`, `pinv`, `inv`, least squares are parameters ("oracles"); the theorems quantify over
  all the functions that satisfy the mathematical specification (`QROk`, `SvdOk`, `LinAlgOk`, ...). Beside each specification
  there is a theorem that such a function exists (`FullTensor.exists_qr`, `exists_svd`, `exists_linAlg`).
* `Verif/Model/*.lean` is the model of the code (every definition cites the lines it models); `Verif/Spec/*.lean` the
  specifications (trees, tensors represented by a tree, box sums); `Verif/Lemmas/*.lean` helper lemmas; `Verif/Props/*.lean`
  the property theorems with their witnesses (`example`s that meet the hypotheses).

## Per-property plan

| id | modelled | proof idea |
|----|----------|------------|
| C01 | `integer2baseb`, `baseb2integer` over column-major ravel/unravel | induction on number of digits |
| C02 | `sub2ind`, `ind2sub` | induction on the shape |
| C03, C04 | `product_set`, `bounded_by` | enumeration via C02; membership by ravel/unravel bijection |
| C05, C06 | row lists, first-occurrence dedup | list induction |
| C07–C09 | neighbour array flattening, margins, maximal indices | membership characterisation, then order theory on `List Nat` |
| C10 | the `while` loop with fuel | loop invariant: removed elements have their boxes in the set |
| C11, C12 | margin-growing loops | induction on the degree; path from any member down to 0; negation with a witness for the early stop |
| C13 | iterated stable sort by columns | stability of `mergeSort`; negation for 'descend' |
| C14 | running maximum from the end | list induction |
| C15 | sort-based intersection | list induction |
| C16–C21 | adjacency matrix, derived attributes, level loops, constructors | arithmetic on node numbers; induction on level |
| C22–C25 | `Arr` model of the FullTensor methods | index calculus |
| C26–C28 | index list + data list | sums over supports |
| C29, C30 | core vector, order | index calculus, sums with Kronecker deltas |
| C31–C33 | factor matrices + core | finite sums |
| C34–C39 | node-indexed tensors on a tree; `full` as the level loop | a node has a *value* (function of the subscripts and of its rank index) given by a recursion on the tree; `full` computes the value of the root (loop invariant on levels); each operation gives new values from old ones by induction on the tree |
| C40 | rank inequality test with the code's index assignment | case analysis; negation with witness |
| C41 | tail-norm test over an ordered field, SVD as parameter | list induction |
| C42 | `u2z`, `z2u`, both orderings | Euclidean division on an archimedean floor field |
| C43 | argmin and lower-envelope walk | induction on the walk |
| C44, C45 | lists of values/probabilities; cache state machine | list induction; history witness |
| C46–C48 | grids, weights, tensor bases as column-major enumerations | ravel/unravel lemmas |
| C49 | zip comparison | list induction; negation with witness |
| C50 | decomposition loop into transpositions, tree permutation | permutation list induction; node tensors not modelled |
| C51 | `activate_nodes`, `inactivate_nodes` | change of values at the leaf and its parent |
| C52–C54 | `DiscreteRandomVariable`, standardisation, discretisation | list sums; telescoping |
| C55 | `slope_heuristic` on top of the model of `lambda_path` | argmax of jumps |
| C56, C57 | composite and tensor integration rules | sums over concatenations and boxes |
| C58 | mean and variance of expansions (`FunctionalBasisArray`) | linearity, orthonormality |
| C59 | `adaptation_path` | membership per column |
| C60–C62 | `FunctionalBases` evaluation, means, selection | list indexing; negations with witness |
| C63 | `keep_dims`, `remove_dims` etc. of multi-indices | set of projections |
| C64 | `FullTensor.orth` | matricization and QR specification |
| C65 | `svd`, `hosvd` of dense tensors | orthogonal projections on matricizations; Pythagoras and telescoping over the dimensions |
| C66–C69 | `add_child`, `change_root`, `sub_dimension_tree`, `node_with_dims` | adjacency calculus, paths |
| C70 | `hsvd` of tree-based tensors | truncation at a node = insertion of an orthogonal projection above the node; Pythagoras for nested projections; error at a node = discarded part of the trace of its Gram matrix |
| C71, C72 | `gramians`, `singular_values` | the Gram matrix of a node is the matrix of scalar products of the environment of the node (induction from the root) |
| C73 | `orth_at_node`, `gramians(alpha)` | the inserted matrix `L S` is the orthogonal projection on the range of the Gram matrix: zero error |
| C74 | `hsvd` of a dense tensor (`hsvdDenseStep`, `hsvdSplit`) | loop invariant: the remaining tensor holds the scalar products of the tensor with products of orthonormal functions given by the visited nodes; each step subtracts the discarded singular values from the squared norm |
| C75 | `ttsvd` | C74 on the linear tree |
| C76 | `storage` | shapes of the node tensors of a well-formed tensor |
| C77 | `_solve_ols` with both solvers and the lstsq/pinv fallbacks | all branches satisfy the normal equations, which characterise the minimisers |
| C78, C79 | `_compute_cv_error` (leave-one-out, k-fold, correction) | the hat matrix is the orthogonal projection on the range; the refitted model fits the data in which the left-out observations are replaced by its predictions |
| C80 | `_select_optimal_path`, `_solve_basis_adaptation` | loop invariant on the arrays written at each iteration; argmin with nan and infinities; restriction to the columns of a pattern |
| C81, C82 | `LinearModelLearningDensityL2` | the risk is separable in the coefficients; algebra of leave-one-out means |
| C83, C85, C86 | recurrences of `polyval`, `dn_polyval`, `poly_coeff`, shifted families | the rows are the values / derivatives / coefficients of Mathlib polynomials `pp` |
| C84, C91 | Hermite, Legendre families; integrals of Mathlib (interval integrals, `gaussianReal`) | Favard-type argument from `L(p_i) = 0`; Rodrigues/integration by parts for Legendre, Stein identity for Hermite |
| C87, C88 | `roots`, `gauss_integration_rule`, `moment` | Golub-Welsch: eigenvectors of the Jacobi matrix are evaluations of the polynomials; Euclidean division |
| C89 | `moment`, `mean`, `one` | exactness of the Gauss rules |
| C90 | `_precompute_recurrence_monic` (Stieltjes), `DiscretePolynomials` | loop invariant: the functions are the monic orthogonal polynomials; the number of zeros bounds the degree |
| C92 | `tensor_matrix_product_eval_diag` of `FullTensor` (einsum as its entrywise formula) | invariant of the loop on decreasing dimensions |
| C93, C94 | `tensor_matrix_product_eval_diag`, `eval_diag` of `TreeBasedTensor` | bottom-up invariant on the tree; active and inactive children interleaved by `weave` |
| C95-C98 | `FunctionalTensor`: constructor, `eval`, `mean`, `eval_on_grid`, partial `eval`; bases as functions | C92, C93, C36 |
| C99, C100 | `magic_indices` with the three options; matrices over an ordered field, `solve` exact | Schur complement: det F[I+i, J+j] = det F[I, J] * residual(i, j); loop invariant |
| C101 | `magic_points` without J | C99, duality of the Lebesgue constant (signs) |
| C102, C103 | `interpolate`, `gram_matrix`, `projection` and its two variants | linear systems, normal equations |
| C104 | `parameter_gradient_eval` (all nodes active), `eval_diag_below`, `eval_diag_above`, `parameter_gradient_eval_diag` | the value of a tree tensor is linear in a node tensor; recurrences of below and above along the path from the node to the root |
| C105, C106 | `_solve_standard` with the square loss: orth_at_node, gradient, OLS, set_parameter, loop over nodes and iterations | C73 (orth_at_node keeps the tensor), C104, C77 (OLS is optimal), induction |
| C107, C108 | exploration strategy, model selection | levels; argmin |
| C109 | loop of `_solve_adaptation`, arbitrary local solver | loop invariant on histories |
| C110 | `make_ranks_admissible`, arbitrary shuffle | C40; the combinations are tried by increasing size |
| C111, C112 | `UserDefinedFunction.eval` point by point, `Function.store_eval` | invariant on the store: the stored rows are values at the stored points |
| C113, C114 | `partial_evaluation`, `eval_on_tensor_grid` (full grids) | scatter of columns; C46 (grid array) |
| C115, C116 | `TensorizedFunction`, `CompositionalModelFunction` | C42; bottom-up induction on the tree |
| C117, C118 | `SquareLossFunction`, test errors | sums of squares, with NumPy broadcasting |
| C119 - C123 | B-splines: Cox-de Boor recursion, derivatives, extra knots, dilated B-splines | induction on the degree; telescoping sums; product rule; translation of knots |
| C124 | `FullTensor.principal_components`, `alpha_principal_components` | C41 (truncated SVD), matricisation |
| C125 - C127 | `TensorPrincipalComponentAnalysis`: `alpha_principal_components` (adaptive and one-shot sampling), `tree_based_approximation` with empirical interpolation | invariant on the loop over the levels: the matrix `B` of a node is invertible at the selected points (magic indices, C99), hence the tensor built so far interpolates; exactness by induction from the leaves |
| C128 | `hopca`, `tucker_approximation`, `tt_approximation` | positions of the parameters; C5 (trees) |
| C129 - C131 | `CanonicalTensorLearning` (square loss, standard solver), `CanonicalTensor.parameter_gradient_eval_diag`, `FunctionalTensor.parameter_gradient_eval` for canonical tensors | the prediction is linear in each parameter, C77 gives the optimality of the least-squares step, induction over the sweep and over the iterations |
| C132 - C134 | `tree_based_tensor` of `FullTensor`, `DiagonalTensor`, `CanonicalTensor` | values of the nodes of a tree with diagonal tensors by induction from the leaves; C51 for the inactive leaves |
| C135 - C140 | `PiecewisePolynomialFunctionalBasis`, `chebyshev_points` | blocks of the rows; coefficients of polynomials by descending degree; Lagrange interpolation; change of variables in integrals; meshes by induction over the intervals |
| C141 - C144 | `TreeBasedTensor.remove_unique_children`, `squeeze`, `tensor_vector_product`, `reduce_sum` | loops over levels by invariants: the nodes that are still there form a tree with the same values (`Part`, `PVal`); contraction of the removed children; renumbering of the kept nodes |
| C145 - C148 | `FunctionalTensor.conditional_expectation`, `dot_product_expectation`, `norm`, `variance`, `variance_conditional_expectation` | the dense contraction as a partial sum over the axes of the other variables, in tree-based format by C144 (trees with one node by hand); exchange of sums |
| C149 - C152 | `FunctionalTensorPrincipalComponentAnalysis` | the loop of `_project` follows the dense mode products with the inverses of the matrices of values at the magic points (C101); the inverses cancel under a product over the dimensions; then C125, C126, C128 and C95 |
| C153 - C157 | `SubFunctionalBasis`, `FunctionalBasis.orthonormalize` | a basis is its functions and a mean that is linear on their products; the loop of Gram-Schmidt keeps orthonormality and the spans of the first columns; the Cholesky factor is defined by its characteristic property and exists by the LDL decomposition of Mathlib; witnesses for the derivatives |
| C158, C159 | `PolynomialFunctionalBasis` | moments of C89, Gauss rules of C88 (the degree is within exactness), derivatives of C85; the constructor of `FunctionalBasisArray` transposes |
| C160, C161, C164 | `FullTensorProductFunctionalBasis.tensor_product_interpolation`, `tensor_product_projection` | the mode products of the inverses (of the normal equations) are the inverse of the tensor product; uniqueness and best approximation are stated with the values of the functions; refusals |
| C162, C163 | `SparseTensorProductFunctionalBasis.tensor_product_interpolation` | unisolvence of a downward closed set by induction along the dimensions, from nodes that are unisolvent for the first functions; polynomials of degrees 0, 1, ... have such nodes; a basis that has not |
| C165 - C168 | `FunctionalTensor.eval_derivative`, `FunctionalBases.eval_derivative`, `SparseTensorProductFunctionalBasis.eval_derivative`, `FunctionalBasis.eval_jacobian`, `FunctionalBasisArray.eval_derivative`, `eval_gradient` | the mixed derivative is defined with `iteratedDeriv` of Mathlib, one coordinate after the other, in any order; the derivative of a sum of products; refusals |
| C169 | `gram_matrix_h1_0` | sum of Gram matrices; witness for every random variable |
| C170 - C173 | `UniformRandomVariable`, `NormalRandomVariable`, `RandomVariable.transfer`, `iso_probabilistic_grid`, `RandomVector` with `IndependentCopula` | the laws are measures of Mathlib (Spec/Distributions), independent of the formulas for `pdf` and `cdf`; `scipy.special.ndtri` is a parameter, shown to exist; product measures for vectors |
| C174 - C178 | `EmpiricalRandomVariable`, `EmpiricalPolynomials` | the law is a mixture of normal measures of Mathlib; the procedure of Stieltjes with the Gauss-Hermite quadrature is exact for the degrees it meets, invariant over the loop; `scipy.stats.gaussian_kde` by its documentation |
| C179, C180 | `truncated_support`, `EmpiricalRandomVariable.icdf`, `random` | probabilities of the tails from `icdf_spec`; the recursion of `icdf` and `truncated_support` by induction on the depth of the stack |
| C181 - C185 | `ProductMeasure`, `RandomVector.__eq__`, `marginal`, `transpose`, `shift` | the measures are product measures of Mathlib; the Gauss rule on monomials by C46 and C88, then on polynomials by linearity; laws compared by their moments and their supports; marginals by the measure of boxes |
| C186 - C189 | `new_rank_selection`, `unique_tol`, `enriched_edges_to_ranks_random`, `randomize_exploration_strategy` | the nodes that cannot be increased as an inductive predicate, by induction on the levels; the loop on the thresholds by induction; the enrichment by an invariant on the shape of the last node |
| C190, C191 | `TreeBasedTensor.tensor_train` | the node of each core by induction on the loop; the values of the nodes (`IsValue`) by induction on the cores; `argsort` of a permutation is its inverse |
| C192–C194 | `UnivariatePolynomials`, `CanonicalPolynomials` | Horner's scheme by induction; coefficients of iterated derivatives from Mathlib; exactness of the Gauss rules (C86, C91) |
| C195–C199 | `rank`, sparse storage, complexities, `tensor_diagonal_matrix_product`, `__rmul__` by a matrix, `is_active_dim` | the Gram matrix of the decomposition given by C72 is diagonal; any decomposition with n products factors it through n columns; sums over the nodes; C36 and Kronecker deltas; linearity of the value of the root |
| C200–C201 | `TreeBasedTensor.change_root` (node tensors) | the axes of the node tensors are labelled by the neighbours in the tree; the sum over the edges of the path does not depend on its direction (induction along the path), subtrees off the path keep their value |
| C202–C204 | `PolynomialFunctionalBasis.kron`, `FunctionalTensor.__mul__` | the Gauss rule is exact on the products that are projected, degree argument for the missing function; the sum over the Kronecker box splits into a product of sums |
| C205–C206 | `create_basis_adaptation_path`, `create_basis_adaptation_path_dmrg(_low_rank)` | induction on the loop of Kronecker products: the first matrix varies first, as in the Fortran order of the entries of the node tensor; positions of the siblings of a node |
| C207 | `FullTensor.tensordot_matrix_product_except_dim` | product with matrices (C17) then contraction; Fubini on boxes |
| C208–C209 | `parameter_gradient_eval_dmrg`, `parameter_gradient_eval_diag_dmrg`, `eval_diag_below` with excepted nodes | the lemmas of C104 for trees that differ in a whole subtree; the loops with the exclusion list of the parent compared with those of the node; permutations of axes are identities |
| C210–C211 | `_solve_dmrg_rank_adaptation`: update of the two nodes (the solution of the linear model is a parameter) | the last axis moved to the axis of the child; entries of the merged tensor are those of the product of the two matrices; C208, C209 with another rank; C41 and Cauchy–Schwarz for the error |
| C212–C215 | `nodes_permutation_cost`, `optimize_dimension_tree`, `optimize_leaves_permutations` (the random choices and `permute_nodes` are parameters; the array `ranks` modified by the cost is part of the state) | invariants of the outer loop: storage of the best tensor; distance of the replayed tensor at most `m_star tolerance / (m_perm + m_star)` with the triangle inequality; the last node of the chain of common ancestors; induction on the fuel for the loop that never ends |
| C216 | `adapt_tree` of the tree-based learning | cases of the tolerance; C212 and C213 for the optimized tensor |
| C217 | `rank_one_correction` for the square loss, with all nodes active (the initial tensor is a parameter; the theorem with the tensor of ones is a witness) | optimality of the first step against the null tensor at the node (C105), monotony of the following ones, value of a sum of tensors |
| C218, C219 | `is_in` on arrays of order at most two; `random_multi_indices` with the list given as argument as part of the result | fold over the coordinates; product of the masses of uniform laws |
| C220, C221 | `eval_at_indices`: the selections, `sub_tensor` (C36), then `eval_diag` (C94) or `squeeze` (C142); `eval_diag(dims)` is a parameter | entries of the sub-tensor of the selections; its diagonal; removal of the dimensions of size one |
| C222, C223 | `DeltaFunctionalBasis` and `UserDefinedFunctionalBasis`: constructors, `eval`, `cardinal`, `ndim`, and the generic `random`; the sample is a parameter | entrywise values; size of the reshaped matrix |
| C224, C225 | `Function.test_error` with its recursive calls, `Function.random`; the sample is a parameter, the evaluations have shape `[n]` or `[n, m]` | the running maximum is the greatest of the norms; sums of squares |
| C226, C227 | `LinearModelLearning.initialize` with its ignored exceptions; `DensityL2LossFunction` | cases on the attributes; the mean of an affine function, expansion of the square |
| C228, C229 | `DiscreteMeasure`; the uniform sample is a parameter of `random`, which uses the modelled `icdf` (C44) | extrema of folds; partial sums of the weights |
| C230, C231 | `CustomLossFunction`; the loss and the predictor are arbitrary functions which may raise | unfolding; sums over ranges |
| C232, C233 | `multivariate_functions_benchmark`; the vectors drawn for six families are parameters | formula of each function at each point; integrals over cubes by Fubini |

## Trusted base

* Lean's kernel (4.33.0) and Mathlib's definitions. No axiom is added; `AXIOMS.txt` (generated by `tools/axioms.py` with
  `#print axioms`) lists for every theorem of the manifest the axioms it depends on: a subset of `propext`,
  `Classical.choice`, `Quot.sound`. No `native_decide`, no `bv_decide`. `decide +kernel` is used in concrete witnesses only: it
  is kernel evaluation.
* The translation from Python to the model, made by hand: each definition cites the lines it models, and the comment
  of a definition says what it simplifies.
* The semantics of NumPy/SciPy primitives: index formulas of `Verif/Np/Arr.lean` and of the functions that cite
  them; oracles for the factorizations.
* Exact arithmetic instead of floating point.

## What is modelled

Completely or nearly (every public operation with an observable result):
`tools/utils.py`, `tools/multi_indices.py` (not: `sort_by_norm`, plots), `tools/grids.py` (not: random grids, plots),
`tensors/dimension_tree.py` (not: `random`, plots), `tensors/full_tensor.py` (not: random constructors, `principal_components`,
`tree_based_tensor`), `tensors/sparse_tensor.py`, `tensors/diagonal_tensor.py` and `tensors/canonical_tensor.py` (not: conversions
to tree-based format, `parameter_gradient_eval_diag`), `approximation/tools/model_selection.py`, `functions/tensorizer.py`.

In part:
* `tensors/tree_based_tensor.py`: construction, shape, ranks, `full`, `+ - * /`, matrix `__rmul__`, `kron`, `tensor_matrix_product`,
  `tensor_vector_product`, `sub_tensor`, `eval_at_indices`, `eval_diag`, `cat`, `squeeze`, `(in)activate_nodes`, `dot`,
  `dot_with_rank_one_metric`, `norm`, `orth`, `gramians`, `orth_at_node`, `singular_values`, `is_admissible_rank`, `storage`,
  `permute_leaves` (tree part), `change_root`, `add_child`/`sub_dimension_tree` of the tree. Not: `permute_nodes` (node tensors),
  `optimize_*` (random search), `parameter_gradient_eval_diag`, random constructors, flags `is_orth`/`orth_node`.
* `tools/truncator.py`: `trunc_svd`, `svd`, `hosvd`, `hsvd` of tree-based tensors.
* `functions/measures/*`: discrete measures and random variables, product measures and random vectors, standardisation,
  moments. Not: densities, sampling.
* `approximation/bases/*`: `FunctionalBasisArray`, `FunctionalBases`, full and sparse tensor product bases, with the univariate
  bases as given families of functions.
* `approximation/integration/integration_rules.py`.

The table above says, property by property, what else is modelled (learning algorithms, principal component analyses, losses,
benchmark functions, among others); the lines of `/repo` are cited beside each definition in `lean/Verif/Model`.

Not modelled: plots and displays, the random generators themselves (the samples they draw are parameters),
`LinearModelLearningCustomLoss` (tensorflow), and floating-point effects. Properties about them are not expressible here (randomness,
rounding, convergence of heuristics).

## Disagreements between the code and its documentation (witness theorems)

Each of these is a theorem of the development (suffix `_wrong`, `_unsound`, `_incomplete`, `_refused`): the statement of the property
is false of the code there, and the positive theorem carries the restriction.

* `DimensionTree.__eq__` answers True when level sizes differ (C21).
* `FullTensor.eval_at_indices` with some but not all dimensions numbers rows in C order against an F-ordered matricization (C24).
* `SparseTensor.tensor_vector_product` keeps stale data when everything is contracted or vanishes (C28).
* `DiagonalTensor.eval_diag` with a gap; rank-one metrics transposed (C30).
* `CanonicalTensor.dot` exchanges the cores (C32); `eval_diag` changes its argument (C33).
* `TreeBasedTensor.full` of order one returns the root tensor (C34); `*` ignores leaves active only in the second factor (C37);
  `dot` raises when all the sizes are equal (C38); `is_admissible_rank` attributes sizes to the wrong leaves (C40);
  `permute_leaves` with the documented numbering raises IndexError (C50).
* `MultiIndices.sort('descend')` alternates directions (C13); bounded-norm sets stop early (C12).
* `ModelSelection.lambda_path` on ties and without breakpoints (C43); `slope_heuristic` (C55).
* `DiscreteRandomVariable.icdf` for unsorted values (C44); cached moments read at the wrong positions (C45).
* `ProductMeasure`/`FunctionalBases` equality truncates (C49).
* `FunctionalBasisArray` permutes coefficients (C47); `FullTensorProductFunctionalBasis.mean` uses the other order than `eval`
  (C48); `conditional_expectation` scrambles (C48); `FunctionalBases.mean(dims, RandomVector)` pairs with the first marginals
  (C61); `keep_bases` leaves the measure (C62).
* `_select_optimal_path` selects a candidate whose leave-one-out error is nan (C80).
* The polynomials of `LebesgueMeasure(a, b)` are not orthonormal unless b - a = 2, and their derivatives, coefficients and
  moments are inconsistent with their values (C84-C86, C89); `ShiftedOrthonormalPolynomials.mean` does not shift the given
  measure and `NormalRandomVariable.shift` does not scale the mean (C89).
* `FunctionalTensor.eval(x, dims)`: wrong `fdims` unless dims is [0] (C98). Not stated as theorems in the same class:
  `dot_product_expectation`, `variance`, `std`, `norm`, `variance_conditional_expectation` call `FunctionalBases.gram_matrix`, which
  does not exist; the product of functional tensors leaves `bases.bases` a list which is then indexed with an array;
  `eval_gradient` calls `self.length()`; `eval_on_grid(x, dims)` calls `np.range`; `norm` with evaluated bases uses identity Gram matrices.
* `interpolate` with several outputs does not interpolate (C102).
* `parameter_gradient_eval` raises for an internal node when the root has an output axis of size 1, and for nodes with only children (C104).
* Rank adaptation: early stopping is not checked at the last iteration; an infinite error at the first iteration raises `AttributeError` (C109).
* `make_ranks_admissible` can return inadmissible ranks when those of `f` are not admissible (C110).
* `store_eval` scrambles matrix-valued outputs (C112); `partial_evaluation` with several fixed points or vector outputs raises (C113); `Function.__call__` with `store=True` returns a pair.
* The absolute test error for 1-d observations is not divided by the number of observations (C118); 1-d observations against 2-d predictions are broadcast (C117). With a single scalar test point `test_error` raises `UnboundLocalError`.
* B-splines with repeated knots are `nan`; at the first knot all B-splines of degree 0 vanish (left-open intervals).
* `TensorPrincipalComponentAnalysis` ignores `max_rank` when the tolerance is smaller than one: it takes the minimum of the two (C127). The option `subsampling` is only used for the leaves: the interior nodes always use magic indices.
* `CanonicalTensorLearning` with order two orthogonalises the first factor without compensation: a sweep with a random order may increase the risk (C131), and a rank larger than the first dimension gives factors with different numbers of columns. `_solve_greedy` raises `ValueError` for every rank larger than one (the test `error[k - 1] < tol` is on an array), hence so do the `"mean"` initialisation with a rank of at least three and `"greedy"`. `LinearModelLearningSquareLoss` uses `np.true` with `model_selection` and non-zero blocks (`AttributeError`).
* `CanonicalTensor.tree_based_tensor` raises `ValueError` for tensors whose dimensions are all equal (C134), which is how `TreeBasedTensorLearning` uses it with the canonical initialization.
* `PiecewisePolynomialFunctionalBasis`: the functions have squared norm 1/2 although `is_orthonormal` is set (C137), the derivatives are wrong (C138), `mean()` always raises `ValueError` (`np.concatenate` of the number 0), `singularityhp_adapted` fails without singularity (C140).
* `TreeBasedTensor.squeeze`: dimensions that are not of size one are accepted silently when all the dimensions are given (C143); `remove_unique_children` raises `IndexError` on a tree with one node (C141).
* `FunctionalTensor`: `dot_product_expectation`, `norm`, `variance`, `variance_conditional_expectation` raise `AttributeError` (`FunctionalBases.gram_matrix` does not exist, C147); boolean masks are misread by `conditional_expectation` (C148).
* `SubFunctionalBasis.eval_derivative(n, x)` calls `underlying_basis.eval_derivative(x, n)`: order and points are exchanged (sub_functional_basis.py l.143; C157).
* `SubFunctionalBasis.eval_jacobian` contracts the columns of the matrix instead of its rows (l.183; C157).
* `PolynomialFunctionalBasis.derivative` returns the transposed coefficients (C159); `gram_matrix_h1_0`, `FunctionalBases.derivative` and `FunctionalTensor.derivative` use it.
* `FullTensorProductFunctionalBasis.tensor_product_interpolation` refuses every tensor: `isinstance` with three arguments (C161).
* `SparseTensorProductFunctionalBasis.tensor_product_interpolation` may have a singular system, because the magic points of a dimension are chosen for the whole basis (C163).
* `FullTensorProductFunctionalBasis.tensor_product_projection` refuses rules with different numbers of points (C164).
* `FunctionalTensor.eval_gradient` always raises AttributeError (C166); `eval_jacobian` of a basis of polynomials always raises TypeError (C168); `gram_matrix_h1_0` is wrong (C169).
* `RandomVector.pdf` and `cdf` return 0 for points with too many components instead of refusing them (C173).
* `EmpiricalRandomVariable.variance()` is not the variance of its density (C175), and `cdf` is not the integral of `pdf`: the bandwidth is scaled twice (C176).
* `EmpiricalRandomVariable.icdf`, `random` and `truncated_support` recurse without end (C180).
* `ProductMeasure.__eq__` compares with `zip`: a measure equals its extensions (C183).
* `new_rank_selection` with `rank_one_correction=False` raises `UnboundLocalError` (C186); `enriched_edges_to_ranks_random` enriches the wrong nodes, by an offset of one (C188); `randomize_exploration_strategy` of a tree-based learning always raises `ValueError` (C189).
* `tensor_train(cores, dims)` with a list of cores raises `TypeError` (C191).
* The generic `dn_polyval(n, ind, x)` raises `ValueError` when `n` is larger than the largest degree (C193).
* `M * x` sets `ranks[root]` to the number of columns of `M` (C198); `is_active_dim(d)` raises `IndexError` for an integer (C199).
* `TreeBasedTensor.change_root` raises on every tensor whose root has an output axis (C201).
* `PolynomialFunctionalBasis.kron` never contains the product of the two functions of highest degree and its result mostly cannot be evaluated (C202); `f * g` with several outputs returns f_e g_0 (C203).
* `parameter_gradient_eval_dmrg` (C208, C209) raises ValueError for functions with an output axis of size one (parent not the root) or with several outputs (parent the root); with `dmrg_low_rank` it raises for every function with an output axis unless the axis has size one and the parent is the root, because the order of the whole gradient is used as an axis of a factor.
* The DMRG update (C210) refuses every vector of coefficients for a function with several outputs when the parent is not the root: the gradient has an output axis and the matrix of coefficients has not (`dmrgUpdate_raises`).
* `nodes_permutation_cost` writes the sizes of the inactive leaves in `self.ranks` (C214, `permutationCost_modifies_ranks`), in the order of the dimensions instead of the order of the nodes (`costRanks_order`).
* `optimize_dimension_tree` never returns on a tree whose nodes other than the root are its sons (C215, `optimizeTree_never`).
* `adapt_tree` raises an exception without tolerance in the options, test error and cross-validation error (C216, `adaptTree_raises`).
* `rank_one_correction` of a function that interpolates the data adds the tensor of ones to it (C217, `rankOneCorrection_increases`).
* `is_in([a, b], x)` for a vector `x` tests the first entry only (C218, `isIn_vector_wrong`).
* `random_multi_indices` modifies a list of lists given as argument, and refuses it at the second call (C219, `randomMultiIndices_twice`).
* `TreeBasedTensor.eval_at_indices(point, dims)` also removes the dimensions of size one which are not in `dims` (C221, `evalAtIndices_point_wrong`).
* `DeltaFunctionalBasis.cardinal()` returns the dimension of the values and `random(n)` raises an exception (C222, `delta_cardinal_wrong`, `delta_random_wrong`); without measure `ndim()` is one (`delta_ndim_wrong`).
* `Function.test_error` raises `UnboundLocalError` for one number as test point (C224, `testError_one_wrong`).
* `Function.random(n, measure)` tests the attribute `measure` instead of the argument (C225, `random_given_wrong`, `random_other_wrong`).
* `LinearModelLearning.initialize` ignores every exception, including its own `ValueError` (C226, `prepare_missing_wrong`, `prepare_test_wrong`).
* `DiscreteMeasure.random` raises `ValueError` for values in a dimension other than one (C229, `random_wrong`).
* `CustomLossFunction` broadcasts observations of shape `n` with predictions of shape `n x 1` (C230, `risk_column_wrong`) and ignores its `error_type` and the exceptions of the predictor (C231).
* `multivariate_functions_benchmark`: six of the documented names fail or give another shape (C232).
* Observed and not stated as theorems: `LinearModelLearningDensityL2` is built with a `SquareLossFunction`, and its `solve` with `test_error` calls `sol.norm()` on an array (`AttributeError`); `interpolation_points_feature_map` calls the function `greedy_algorithml2`, which does not exist; `TreeBasedTensor.tensordot_matrix_product_except_dim` always raises TypeError (the array dim2ind is called); `EmpiricalPolynomials(array)` raises AttributeError (it reads `self.sample`, never set); comparing two `EmpiricalRandomVariable` raises ValueError (truth value of an array); `remove_unique_children` overwrites the tensors and the adjacency matrix of its argument; `eval_at_indices` with several dimensions and one index calls `squeeze()` without dimensions, so it drops the other dimensions of size one too; `LinearModelLearningSquareLoss.solve` ignores (or fails on) `weights`;
  'residuals' errors are not square-rooted while the cross-validation errors are; `Truncator.hsvd` sets `is_orth=True` on its result although the node tensors are
  not orthonormal, so that later `norm()`/`gramians()` calls are wrong from depth two on; `singular_values` at the root is `[1]`,
  not the norm; `hosvd`/`hsvd` overwrite `max_rank` of the truncator.

## Seeded bugs

`tools/mutate.py` applies edits to a scratch copy and rebuilds; `seeded/LOG.jsonl` records each attempt, the theorems that fail
and the theorems that were tightened because they did not.
