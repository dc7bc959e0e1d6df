#!/usr/bin/env python3
"""Writes /verif/properties.jsonl from the list below (kept here so that it is easy to extend)."""
import json, os
P = []
def p(title, statement, quantifier, why, *anchors):
    P.append(dict(id="C%02d" % (len(P)+1), title=title, statement=statement, quantifier=quantifier,
                  why_tests_cant=why, anchors=list(anchors)))
U="tensap/tools/utils.py"; MI="tensap/tools/multi_indices.py"; DT="tensap/tensor_algebra/tensors/dimension_tree.py"
FT="tensap/tensor_algebra/tensors/full_tensor.py"; ST="tensap/tensor_algebra/tensors/sparse_tensor.py"
DG="tensap/tensor_algebra/tensors/diagonal_tensor.py"; CT="tensap/tensor_algebra/tensors/canonical_tensor.py"
TB="tensap/tensor_algebra/tensors/tree_based_tensor.py"; TR="tensap/tensor_algebra/tools/truncator.py"
TZ="tensap/functions/tensorizer.py"; MS="tensap/approximation/tools/model_selection.py"
DM="tensap/functions/measures/discrete_measure.py"
DR="tensap/functions/measures/discrete_random_variable.py"; RV="tensap/functions/measures/random_variable.py"
GR="tensap/tools/grids.py"; IR="tensap/approximation/integration/integration_rules.py"
FBA="tensap/approximation/bases/functional_basis_array.py"
FTP="tensap/approximation/bases/full_tensor_product_functional_basis.py"
STP="tensap/approximation/bases/sparse_tensor_product_functional_basis.py"
FBS="tensap/approximation/bases/functional_bases.py"
OP="tensap/functions/polynomials/orthonormal_polynomials.py"
PO="tensap/functions/polynomials/polynomials.py"
NRV="tensap/functions/measures/normal_random_variable.py"
URV="tensap/functions/measures/uniform_random_variable.py"
LM="tensap/functions/measures/lebesgue_measure.py"
FTN="tensap/functions/functional_tensor.py"
MGI="tensap/linear_algebra/magic_indices.py"
FB="tensap/approximation/bases/functional_basis.py"
TL="tensap/approximation/tensor_approximation/tensor_learning/tensor_learning.py"
TBL="tensap/approximation/tensor_approximation/tensor_learning/tree_based_tensor_learning.py"
FN="tensap/functions/function.py"
UDF="tensap/functions/user_defined_function.py"
TZF="tensap/functions/tensorized_function.py"
CMF="tensap/functions/compositional_model_function.py"
LF="tensap/approximation/learning/loss_functions.py"
BSP="tensap/approximation/bases/BSplines_functional_basis.py"
PCA="tensap/approximation/tensor_approximation/principal_component_analysis/tensor_principal_component_analysis.py"
CTL="tensap/approximation/tensor_approximation/tensor_learning/canonical_tensor_learning.py"
PPF="tensap/approximation/bases/piecewise_polynomial_functional_basis.py"
CHP="tensap/tools/chebyshev_points.py"
FPCA="tensap/approximation/tensor_approximation/principal_component_analysis/functional_tensor_principal_component_analysis.py"
SFB="tensap/approximation/bases/sub_functional_basis.py"
PFB="tensap/approximation/bases/polynomial_functional_basis.py"
RVE="tensap/functions/measures/random_vector.py"
COP="tensap/functions/measures/copulas.py"
EMP="tensap/functions/measures/empirical_random_variable.py"
LS="tensap/approximation/learning/linear_model_learning_square_loss.py"
LD="tensap/approximation/learning/linear_model_learning_density_l2.py"

p("Base-b digit conversion is a bijection",
  "For every base b and digit count d, integer2baseb followed by baseb2integer returns the original integer for every integer in [0, b**d), baseb2integer followed by integer2baseb returns the original digit row for every row of d digits below b, the digits are written most significant first, and integers or digits out of range are refused with an error rather than wrapped. With the digit count left out, d is the least number of digits that can hold the largest integer.",
  "all bases b>=1, all d, all integers and digit rows, in range or out of it",
  "the domain (b, d, i) is unbounded; a test only samples a few bases and lengths and would not see a digit-order error that cancels in both directions",
  U+":integer2baseb", U+":baseb2integer")
p("Linear indices and subscripts are inverse and column-major",
  "sub2ind(shape) and ind2sub(shape, .) are mutually inverse on the box of valid subscripts and on range(prod(shape)); the first subscript varies fastest; out-of-range subscripts or indices are errors.",
  "all shapes (any order, any sizes), all subscripts and all linear indices",
  "unbounded order and sizes; order-of-storage errors only show for non-square shapes",
  MI+":MultiIndices.sub2ind", MI+":MultiIndices.ind2sub")
p("product_set is exactly the Cartesian product",
  "product_set(L) contains a multi-index iff every component belongs to the corresponding list, has prod(len) rows, has no duplicate row when the lists have none, and enumerates the first component fastest.",
  "all lists of integer arrays, of any length and content",
  "cardinality grows exponentially in the dimension; tests can only look at tiny products",
  MI+":MultiIndices.product_set")
p("bounded_by is exactly the box",
  "bounded_by(m, m0) returns, without repetition, exactly the multi-indices i with m0 <= i_k <= m_k for all k, and its rows are in the column-major order used by sub2ind and by the tensor-product grids.",
  "all bounds m of any length and all lower bounds m0",
  "unbounded dimension and bounds",
  MI+":MultiIndices.bounded_by")
p("add_indices is a duplicate-free union",
  "I.add_indices(J) contains exactly the rows of I and J, each once, rows of I first in their original order, and adding the same set again changes nothing.",
  "all pairs of multi-index sets of the same dimension, with or without repeated rows",
  "depends on every pattern of repetitions and overlaps",
  MI+":MultiIndices.add_indices")
p("remove, keep and intersect act as set operations",
  "remove_indices(J) removes exactly the rows that are in J and keeps the order of the others; intersect_indices(J) returns exactly the common rows; remove_indices(k) / keep_indices(k) with row numbers select exactly the complementary / designated rows; remove and intersect partition I.",
  "all multi-index sets I, J and all row-number lists",
  "depends on every overlap pattern",
  MI+":MultiIndices.remove_indices", MI+":MultiIndices.intersect_indices", MI+":MultiIndices.keep_indices")
p("get_margin is exactly the margin",
  "I.get_margin() returns, without repetition, exactly the multi-indices that are not in I and that are obtained from an element of I by adding one to one component; it is empty only if I is empty or the dimension is zero.",
  "all finite multi-index sets in any dimension",
  "the neighbour enumeration uses a flattened 3-way array; an indexing slip shows only for particular (n, d)",
  MI+":MultiIndices.get_margin")
p("get_reduced_margin gives exactly the admissible enrichments",
  "For a downward closed I, a multi-index belongs to I.get_reduced_margin() iff it is not in I, is a neighbour of I, and adding it to I keeps the set downward closed; hence adding any subset of the reduced margin keeps I downward closed, so adaptive enrichment always stays in downward closed sets.",
  "all finite downward closed sets in any dimension, and all enrichment histories",
  "adaptive histories are unbounded",
  MI+":MultiIndices.get_reduced_margin", MI+":MultiIndices.get_margin")
p("get_maximal_indices gives exactly the maximal elements",
  "On a downward closed set I, get_maximal_indices() returns exactly the elements of I that have no other element of I above them componentwise, and I is the union of the boxes below them.",
  "all finite downward closed sets",
  "requires quantifying over all sets and all comparable pairs",
  MI+":MultiIndices.get_maximal_indices")
p("is_downward_closed decides downward closedness",
  "is_downward_closed() terminates on every set of multi-indices with nonnegative components and returns True exactly when each multi-index that is componentwise below (and above the lower bound m) an element of the set is in the set.",
  "all finite sets of multi-indices and all lower bounds m",
  "the loop skips elements already covered by an earlier box; correctness of the skip, and termination, need an induction over all sets",
  MI+":MultiIndices.is_downward_closed")
p("with_bounded_norm(d, 1, m) is the total-degree set",
  "with_bounded_norm(d, 1, m) contains exactly the multi-indices of dimension d whose sum is at most m, each once.",
  "all dimensions d and all degrees m",
  "set size is binomial(m+d, d): tests cannot enumerate",
  MI+":MultiIndices.with_bounded_norm")
p("Bounded-norm index sets are complete",
  "with_bounded_norm(d, p, m), low_order_interactions-type sets, weighted_hyperbolic_cross_set(d, m, w) and hyperbolic_cross_set(d, m), which are grown margin by margin, contain exactly the multi-indices that satisfy the defining inequality.",
  "all dimensions, exponents, weights and bounds",
  "the growth loop's stopping test is wrong only for particular weights or dimensions; completeness must hold for all of them",
  MI+":MultiIndices.with_bounded_norm", MI+":MultiIndices.hyperbolic_cross_set", MI+":MultiIndices.weighted_hyperbolic_cross_set")
p("sort orders rows lexicographically",
  "I.sort(columns, mode) returns a permutation of the rows of I, ordered lexicographically by the listed columns, ascending for mode 'ascend' and descending for mode 'descend', together with the permutation used.",
  "all multi-index sets, column lists and modes",
  "tie behaviour in the composed stable sorts depends on the whole data",
  MI+":MultiIndices.sort")
p("envelope is the least monotone majorant",
  "For any list of multi-indices and any values u (one per multi-index), envelope returns a sequence that dominates |u|, is nonincreasing with respect to the componentwise order of the multi-indices, and is the smallest such sequence.",
  "all value vectors of any length",
  "extremality quantifies over all other majorants",
  MI+":MultiIndices.envelope")
p("fast_intersect and fast_setdiff are set operations",
  "For duplicate-free integer arrays, fast_intersect(a, b) is the sorted array of the common elements and fast_setdiff(a, b) is the elements of a not in b in the order of a.",
  "all pairs of integer arrays",
  "sort-based intersection is right only without duplicates; must hold for all arrays",
  U+":fast_intersect", U+":fast_setdiff")
p("Tree constructors yield valid dimension trees",
  "DimensionTree.trivial(d), linear(d) and balanced(d) return trees whose every node but one has exactly one parent, whose leaves are in bijection with the d dimensions, whose nodes all are reachable from the root, and (linear, balanced) whose internal nodes all have exactly two children; linear(d) nests: each internal node separates one dimension.",
  "all orders d>=1 (d>=2 for linear and balanced)",
  "arithmetic in the node-number formulas must be right for every d",
  DT+":DimensionTree.trivial", DT+":DimensionTree.linear", DT+":DimensionTree.balanced")
p("Derived tree attributes are mutually consistent",
  "For every valid tree, parent, children, child_number, sibling, level, root, is_leaf and internal_nodes describe the same tree: j is a child of i iff i is the parent of j, child j occupies position child_number[j] among the children of its parent, the root is the only node without parent and has level 0, and each other node has level one more than its parent.",
  "all adjacency matrices of rooted trees, any node numbering",
  "must hold for any numbering of nodes, not just those of the constructors",
  DT+":DimensionTree._precompute_attributes", DT+":DimensionTree.parent", DT+":DimensionTree.child", DT+":DimensionTree.child_number")
p("Node dimension sets partition along the tree",
  "For every valid tree, the dims of a node is the disjoint union of the dims of its children, the dims of the leaf for dimension k is {k}, the root has all dimensions, and no dimension is lost or duplicated.",
  "all valid trees with any leaf numbering",
  "bottom-up level loop must be right for unbalanced trees of any depth",
  DT+":DimensionTree.update_dims_from_leaves")
p("ascendants and descendants are the transitive parent relations",
  "ascendants(i) lists exactly the proper ancestors of i from parent to root, descendants(i) lists exactly the proper descendants, each once, and j is in descendants(i) iff i is in ascendants(j).",
  "all valid trees and nodes",
  "depth unbounded",
  DT+":DimensionTree.ascendants", DT+":DimensionTree.descendants")
p("Tree permute and ipermute are inverse",
  "permute(sigma) followed by ipermute(sigma), in either order, restores the association of leaves to dimensions, and permute attaches to leaf i's dimension exactly the relabelled one; the tree shape is not changed.",
  "all trees and all permutations of the dimensions",
  "unbounded number of permutations; an inverse/forward mix-up is invisible on involutions",
  DT+":DimensionTree.permute", DT+":DimensionTree.ipermute")
p("Tree equality is faithful",
  "tree1 == tree2 is True exactly when the two trees have the same family of dimension subsets level by level (equality up to node numbering).",
  "all pairs of trees",
  "negative cases are unbounded; tests use a few equal trees",
  DT+":DimensionTree.__eq__")
p("FullTensor transpose and reshape are permutations of entries",
  "transpose(dims) sends entry (i_0..i_{d-1}) of the result to the entry of the argument with subscripts permuted by dims, itranspose(dims) is its inverse on both sides, reshape keeps the column-major enumeration (reshape to the old shape restores the tensor), and matricize(dims1, dims2) groups exactly the designated subscripts as rows and the others as columns in column-major order.",
  "all orders, shapes, permutations and dimension groupings",
  "unbounded order; inverse/forward mix-ups are invisible for involutions or square shapes",
  FT+":FullTensor.transpose", FT+":FullTensor.itranspose", FT+":FullTensor.reshape", FT+":FullTensor.matricize")
p("FullTensor mode products follow the multilinear formula",
  "tensor_matrix_product(matrices, dims) replaces subscript dims[k] by a sum against row i of matrices[k] and keeps the position of all the subscripts; tensor_vector_product is the contraction of these subscripts; products along different modes commute; successive products along the same mode are the product by the matrix product.",
  "all tensors over any commutative ring, all dims lists, all matrices of matching sizes",
  "unbounded order; axis bookkeeping (contract, append, move back) must be right for every position",
  FT+":FullTensor.tensor_matrix_product", FT+":FullTensor.tensor_vector_product", FT+":FullTensor.tensordot")
p("FullTensor evaluation at indices returns the designated entries",
  "eval_at_indices(indices, dims) returns, for each row of indices, the entries (or slices, when dims are only some of the dimensions) of the tensor at these subscripts.",
  "all tensors, index arrays and subsets of dimensions",
  "a storage-order mismatch shows only for partial evaluation along two or more dimensions with non-symmetric indices",
  FT+":FullTensor.eval_at_indices", FT+":FullTensor.eval_diag")
p("FullTensor kron, cat and sub_tensor follow their index formulas",
  "kron multiplies entries with subscript i*n+j, cat along dims places the blocks on the diagonal positions and zeros elsewhere, sub_tensor selects exactly the listed subscripts in the listed order, and kron followed by selection of the diagonal subscripts 0, n+1, 2(n+1), ... is the elementwise product.",
  "all tensors of equal order, all shapes, all dims",
  "unbounded order and sizes",
  FT+":FullTensor.kron", FT+":FullTensor.cat", FT+":FullTensor.sub_tensor")
p("Sparse and full formats represent the same tensor",
  "x.sparse().full() equals x for every full tensor, s.full().sparse() represents the same entries as s without explicit zeros, and reshape, transpose and itranspose of a sparse tensor agree with those of its full version.",
  "all tensors of any order, and all sparse tensors with distinct indices",
  "unbounded order and sizes",
  ST+":SparseTensor.full", FT+":FullTensor.sparse", ST+":SparseTensor.transpose", ST+":SparseTensor.reshape")
p("Sparse arithmetic agrees with dense arithmetic",
  "For sparse tensors x, y of the same shape, (x+y).full() = x.full()+y.full(), (x*y).full() is the elementwise product, x.dot(y) = x.full().dot(y.full()), and results have distinct indices again.",
  "all pairs of sparse tensors with distinct indices, any overlap of the supports",
  "all overlap patterns of supports",
  ST+":SparseTensor.__add__", ST+":SparseTensor.__mul__", ST+":SparseTensor.dot")
p("Sparse contraction with vectors agrees with dense contraction",
  "s.tensor_vector_product(vectors, dims) represents s.full().tensor_vector_product(vectors, dims) for every choice of contracted dimensions.",
  "all sparse tensors, vectors and dims lists, including full contractions",
  "the failing case (full contraction) is only one of the branches",
  ST+":SparseTensor.tensor_vector_product")
p("Diagonal tensors agree with their full version",
  "Addition, negation, subtraction, product, dot, norm, kron, cat, contraction with vectors, evaluation at indices of diagonal tensors return the same as the operation on the full tensors.",
  "all diagonal tensors of any order and rank",
  "unbounded order and rank",
  DG+":DiagonalTensor.full", DG+":DiagonalTensor.__add__", DG+":DiagonalTensor.kron", DG+":DiagonalTensor.dot", DG+":DiagonalTensor.eval_at_indices", DG+":DiagonalTensor.tensor_vector_product")
p("Diagonal eval_diag and rank-one metrics agree with the full version",
  "eval_diag(dims) of a diagonal tensor merges exactly the dimensions in dims, and dot_with_rank_one_metric(y, matrices) equals the dense scalar product of x with y multiplied by matrices along each dimension.",
  "all diagonal tensors, dims lists and matrices",
  "failing cases are non-contiguous dims, non-symmetric or non-square matrices",
  DG+":DiagonalTensor.eval_diag", DG+":DiagonalTensor.dot_with_rank_one_metric")
p("Canonical tensor operations agree with their full version",
  "full() of the sum, opposite, difference, matrix and vector contractions of canonical tensors is the sum, opposite, ... of the full() of the operands; entry (i_1..i_d) of full() is the sum over terms of the products of the factor entries.",
  "all canonical tensors of any order, rank and shape",
  "unbounded order and rank",
  CT+":CanonicalTensor.full", CT+":CanonicalTensor.__add__", CT+":CanonicalTensor.__neg__", CT+":CanonicalTensor.tensor_matrix_product", CT+":CanonicalTensor.tensor_vector_product")
p("Canonical dot is the dense scalar product",
  "x.dot(y) of two canonical tensors equals the scalar product of x.full() and y.full(), and x.norm()**2 = x.dot(x).",
  "all pairs of canonical tensors of the same shape, any ranks",
  "an error that is invisible for x=y (symmetric Gram matrices) needs arbitrary pairs",
  CT+":CanonicalTensor.dot", CT+":CanonicalTensor.norm", DG+":DiagonalTensor.dot_with_rank_one_metric")
p("Read-only queries do not change the tensor",
  "Evaluating a canonical tensor's diagonal (eval_diag) leaves the tensor unchanged, so that repeating the query returns the same values.",
  "all canonical tensors and all histories of queries",
  "needs histories of calls; a single call returns the right value",
  CT+":CanonicalTensor.eval_diag")
p("Tree-based full() is the hierarchical multilinear formula",
  "Entry (i_1..i_d) of full() of a tree-based tensor is the sum over all rank indices of the product of node tensors' entries along the tree, for any tree, any active-leaf pattern and any ranks, and dimension k of the result is the dimension attached to leaf k of the tree.",
  "all trees, ranks, active-node patterns and node tensors",
  "unbounded trees; the level loop reorders axes at each contraction",
  TB+":TreeBasedTensor.full")
p("Tree-based arithmetic agrees with dense arithmetic",
  "For tree-based tensors on the same tree with the same node numbering, full() of x+y, -x, x-y, c*x is the corresponding operation on the full tensors, whatever the ranks; ranks add up.",
  "all trees, ranks, node tensors and scalars",
  "unbounded trees",
  TB+":TreeBasedTensor.__add__", TB+":TreeBasedTensor.__neg__", TB+":TreeBasedTensor.__sub__", TB+":TreeBasedTensor.__mul__")
p("Tree-based mode products and contractions agree with dense ones",
  "full() of tensor_matrix_product(matrices, dims) is the dense mode product, for active and inactive leaves.",
  "all trees, ranks, node tensors and matrices",
  "unbounded trees",
  TB+":TreeBasedTensor.tensor_matrix_product", TB+":TreeBasedTensor.tensor_vector_product")
p("Tree-based Kronecker and elementwise products agree with dense ones",
  "full() of kron(x, y) is the dense Kronecker product and full() of x*y is the elementwise product, with node ranks multiplied.",
  "all trees, ranks and node tensors",
  "unbounded trees",
  TB+":TreeBasedTensor.kron", TB+":TreeBasedTensor.__mul__")
p("Tree-based scalar product and norm are the dense ones",
  "x.dot(y) computed by node-wise contractions equals the scalar product of the full tensors.",
  "all pairs of tree-based tensors on one tree, any ranks",
  "unbounded trees",
  TB+":TreeBasedTensor.dot", TB+":TreeBasedTensor.norm")
p("Orthogonalisation does not change the represented tensor",
  "orth() and orth_at_node(n) return a tensor with the same full(), in which the designated nodes are orthonormal, for any exact QR factorisation.",
  "all tree-based tensors, all nodes",
  "unbounded trees; sequences of gauge changes",
  TB+":TreeBasedTensor.orth", TB+":TreeBasedTensor.orth_at_node")
p("Rank admissibility is decided correctly",
  "is_admissible_rank(ranks) answers True exactly when each node's rank is at most the product of the ranks of the nodes around it (children, or parent and siblings; mode sizes for inactive leaves).",
  "all trees, leaf numberings, active patterns and rank vectors",
  "the failing case needs a leaf numbering that is not increasing in the dimension and inactive leaves",
  TB+":TreeBasedTensor.is_admissible_rank")
p("SVD truncation keeps the least sufficient rank",
  "trunc_svd with tolerance tol keeps the least rank whose discarded singular values have relative l2 norm below tol (all of them if there is none, as for a zero matrix), never more than max_rank, at least one; without maximal rank the truncation error is then at most tol relatively, and hosvd / hsvd share the tolerance over the nodes so that the total relative error is at most tol.",
  "all nonincreasing singular value sequences, tolerances and maximal ranks",
  "off-by-one in rank selection shows only at threshold cases",
  TR+":Truncator.trunc_svd", TR+":Truncator.hosvd", TR+":Truncator.hsvd")
p("Tensorisation of a variable is a bijection",
  "map followed by inverse_map returns the point for every point of the domain, inverse_map followed by map returns (i_1..i_L, y) for digits below b and y in [0,1), for each ordering type, in any dimension; the last point of the domain is kept inside.",
  "all resolutions, bases, dimensions, ordering types and points",
  "boundary points (multiples of b**-L, right end) are null sets",
  TZ+":Tensorizer.map", TZ+":Tensorizer.inverse_map")
p("Penalised model selection follows the lower envelope",
  "m_lambda(l) minimises risk + l * complexity; lambda_path returns increasing l values and the models minimising on each interval between them.",
  "all lists of complexities and risks and all l",
  "ties and dominated models are special configurations",
  MS+":ModelSelection.m_lambda", MS+":ModelSelection.lambda_path")
p("Discrete cdf and quantile function form a Galois connection",
  "For a discrete random variable, icdf(p) <= x iff p <= cdf(x), icdf(p) is a value of the variable for p in (0,1], cdf is nondecreasing with values in [0,1].",
  "all value and probability lists, all p and x",
  "threshold cases and unsorted values",
  DR+":DiscreteRandomVariable.cdf", DR+":DiscreteRandomVariable.icdf")
p("Moments do not depend on earlier queries",
  "moment(ind) returns the raw moments of the orders in ind whatever moments were requested before.",
  "all random variables and all histories of moment requests",
  "needs sequences of calls; each single call on a fresh object is right",
  RV+":RandomVariable.moment")
p("Tensor grids, weights and indices use one ordering",
  "The rows of FullTensorGrid.array(), the weights of the tensorised integration rule and the column-major multi-indices are in the same order, so that the tensorised rule integrates each product function to the product of the 1-d rules' results.",
  "all lists of 1-d grids and rules of any sizes, all product functions",
  "order mismatches are invisible for equal or symmetric 1-d rules",
  GR+":FullTensorGrid.array", IR+":FullTensorProductIntegrationRule.weights_on_grid")
p("Arrays of basis functions keep their coefficients",
  "FunctionalBasisArray(data, basis, shape) stores data such that output component j of the function is the expansion with the coefficients given for j, and unary/binary arithmetic acts coefficientwise.",
  "all coefficient arrays, shapes and bases, and chains of operations",
  "a storage-order scramble is invisible for scalar-valued functions",
  FBA+":FunctionalBasisArray.__init__", FBA+":FunctionalBasisArray.__add__", FBA+":FunctionalBasisArray.eval")
p("Tensor product basis evaluations, means and indices use one ordering",
  "Column k of eval(x) of a full tensor-product basis is the product of 1-d basis functions with the k-th multi-index of its index set, and entry k of mean() is the mean of this same function.",
  "all tuples of 1-d bases",
  "order mismatches are invisible for equal 1-d bases",
  FTP+":FullTensorProductFunctionalBasis.eval", FTP+":FullTensorProductFunctionalBasis.mean", STP+":SparseTensorProductFunctionalBasis.eval")
p("Comparisons of product objects are faithful",
  "Two product measures or two collections of bases compare equal only if they have the same number of components and the components are equal pairwise.",
  "all pairs of lists of components",
  "length mismatch is a negative case",
  "tensap/functions/measures/product_measure.py:ProductMeasure.__eq__", FBS+":FunctionalBases.__eq__")
p("permute_leaves realises the requested permutation",
  "permute_leaves(perm) terminates for every permutation perm of the dimensions, decomposes it in at most d - 1 exchanges of two leaves, and returns a tensor, equal to the original one up to the tolerance, whose tree is the original one with the leaf of dimension perm[k] at the place of the leaf of dimension k.",
  "all permutations of any size",
  "number of permutations is factorial",
  TB+":TreeBasedTensor.permute_leaves")
p("Changing the active leaves does not change the tensor",
  "activate_nodes(nodes) and inactivate_nodes(nodes) return tensors that represent the same full tensor; nodes that are not leaves, or already in the requested state, are refused or left as documented.",
  "all tree-based tensors of any order, ranks and active patterns, and all sets of leaves",
  "the interaction with other leaves and the root depends on the whole pattern of active nodes",
  TB+":TreeBasedTensor.activate_nodes", TB+":TreeBasedTensor.inactivate_nodes")
p("A discrete random variable is a probability law",
  "The constructor accepts exactly the lists of nonnegative weights, one per value, and stores the weights divided by their sum (uniform weights by default).",
  "all lists of values and weights of positive sum",
  "lengths and sums are unbounded",
  DR+":DiscreteRandomVariable.__init__")
p("Standardised discrete variables are centred and reduced",
  "get_standard_random_variable() returns a variable with the same probabilities, of mean zero and variance one.",
  "all discrete laws of nonzero variance",
  "algebraic identity over all laws",
  DR+":DiscreteRandomVariable.get_standard_random_variable", DR+":DiscreteRandomVariable.mean", DR+":DiscreteRandomVariable.var")
p("Discretisation of a random variable is a probability law",
  "discretize_support(x) returns the values x with nonnegative probabilities of sum one, and its distribution function at x[i] is the one of the variable at the middle of x[i] and x[i+1].",
  "all distribution functions and all increasing arrays x of any length",
  "telescoping over any number of points",
  RV+":RandomVariable.discretize_support")
p("The slope heuristic selects at the largest complexity jump",
  "slope_heuristic() returns lambda_hat, gap_factor times a breakpoint of the path at which the complexity of the selected model drops most, and m_hat, a model of least penalised risk at lambda_hat.",
  "all lists of complexities and risks that have a path of breakpoints",
  "index alignment between the path, its middles and the gaps",
  MS+":ModelSelection.slope_heuristic")
p("Composite rules integrate interval by interval",
  "IntegrationRule.gauss_legendre_composite(knots, n) integrates any function to the sum of its integrals by the rules of the intervals between consecutive sorted knots; a function that every interval rule integrates exactly is integrated exactly between the smallest and the largest knot, in whatever order the knots are given.",
  "all lists of knots in any order, numbers of points per interval, and integrands",
  "telescoping over any number of intervals",
  IR+":IntegrationRule.gauss_legendre_composite", "tensap/functions/measures/lebesgue_measure.py:LebesgueMeasure.gauss_integration_rule")
p("Gauss rules of product measures are tensor products",
  "ProductMeasure.gauss_integration_rule(n) uses n[i] points of the Gauss rule of measure i in direction i (the same number everywhere for a scalar n; another number of numbers is refused), and integrates a product of functions to the product of the one-dimensional integrals; IntegrationRule.tensorize(d) integrates f(x_1)...f(x_d) to the d-th power.",
  "all lists of measures, numbers of points and product integrands",
  "any dimension and sizes",
  "tensap/functions/measures/product_measure.py:ProductMeasure.gauss_integration_rule", IR+":IntegrationRule.tensorize")
p("Mean and variance of an expansion are those of its values",
  "For a FunctionalBasisArray on a basis whose means are exact, mean() is the mean of the evaluations; on an orthonormal basis variance() is the variance of the evaluations and dot(g, 0) is the scalar product of the evaluations, and a basis that is not orthonormal is refused by variance(); get_coefficients() are the coefficients of the evaluations on the basis.",
  "all coefficient arrays, output shapes, bases and quadratures",
  "identities over all coefficients",
  FBA+":FunctionalBasisArray.mean", FBA+":FunctionalBasisArray.variance", FBA+":FunctionalBasisArray.eval_with_bases_evals")
p("Adaptation paths are increasing families of basis functions",
  "The columns of adaptation_path() are strictly increasing sets of basis functions, level sets of the norm of the multi-indices (or the first k+1 functions for a 1-d basis), the first is not empty and the last contains every function.",
  "all index sets and norms",
  "sizes and ties are unbounded",
  STP+":SparseTensorProductFunctionalBasis.adaptation_path", "tensap/approximation/bases/functional_basis.py:FunctionalBasis.adaptation_path")
p("Families of bases give each basis its own variables",
  "FunctionalBases.eval(x, dims) evaluates basis dims[k] at the k-th block of columns of x, whose width is the number of variables of that basis.",
  "all families of bases with any numbers of variables, all selections dims",
  "offset arithmetic over any number of blocks",
  FBS+":FunctionalBases.eval")
p("Means of a family of bases are taken under the matching marginals",
  "FunctionalBases.mean(dims, random_vector) returns, for each k, the mean of basis dims[k] under the marginal dims[k] of the random vector.",
  "all families, selections of dimensions and random vectors",
  "depends on the alignment of two index lists",
  FBS+":FunctionalBases.mean")
p("Selecting bases selects their measure",
  "keep_bases, remove_bases and transpose return a family whose bases are the selected ones in the requested order and whose measure is the product of their measures.",
  "all families and selections",
  "two attributes must stay consistent for every selection",
  FBS+":FunctionalBases.keep_bases", FBS+":FunctionalBases.remove_bases", FBS+":FunctionalBases.transpose")
p("Selecting dimensions of multi-indices projects the set",
  "keep_dims(dims) returns the distinct projections of the multi-indices on dims in order of first occurrence; remove_dims is keep_dims of the other dimensions; projections of downward closed sets are downward closed; a dimension out of range is refused by keep_dims.",
  "all sets of multi-indices and lists of dimensions",
  "closure property over all sets",
  MI+":MultiIndices.keep_dims", MI+":MultiIndices.remove_dims")
p("Orthogonalisation of a dense tensor along a dimension",
  "FullTensor.orth(dim) returns q and r such that multiplying q by r along dim gives back the tensor, and the slices of q along dim are orthonormal, for any exact QR factorisation.",
  "all tensors with non-empty dimensions, any order, any dim",
  "index permutations at any order and any dim",
  FT+":FullTensor.orth")
p("Truncation of dense tensors",
  "Truncator.truncate and Truncator.hosvd of a dense tensor return a tensor of the same shape whose relative distance to the input in Frobenius norm is at most the tolerance when no maximal rank is given; in every case the squared error is at most the sum over the dimensions of the squares of the discarded singular values, the factor matrices have orthonormal columns, and the ranks respect the maximal ranks.",
  "all real tensors of order at least two with non-empty dimensions, all tolerances, all maximal ranks (one or one per dimension), any exact SVD",
  "real matrices of any size and tensors of any order",
  TR+":Truncator.hosvd", TR+":Truncator.truncate", TR+":Truncator.svd")
p("add_child adds one node and keeps a valid tree",
  "add_child(nod) returns a valid tree with one more node, a son of nod; all other edges and the root are unchanged; if nod was a leaf the new node takes its dimension, otherwise it gets a new last dimension.",
  "all dimension trees and all nodes",
  "trees of any size and shape",
  DT+":DimensionTree.add_child")
p("change_root moves the root and keeps the undirected tree",
  "change_root(nod) returns a valid tree rooted at nod in which the original nodes are joined by the same edges, only those between nod and the former root being reversed; if nod was a leaf, a new node takes its dimension; the returned list contains exactly the nodes of the path and their sons.",
  "all dimension trees whose root has at least two sons, all nodes",
  "trees of any size and depth",
  DT+":DimensionTree.change_root")
p("sub_dimension_tree extracts an isomorphic subtree",
  "sub_dimension_tree(root) returns a valid tree isomorphic, through the returned list of nodes, to the subtree below root; the isomorphism keeps the order of the sons of each node, and the dimensions of the extracted tree are dims[root - 1] in this order.",
  "all dimension trees and all nodes",
  "trees of any size; the order of the sons depends on the numbering of the nodes",
  DT+":DimensionTree.sub_dimension_tree", DT+":DimensionTree.descendants")
p("node_with_dims finds the nodes with the given dimensions",
  "node_with_dims(dims) returns exactly the nodes whose set of dimensions is dims, whatever the order in which they are listed.",
  "all dimension trees and lists of dimensions",
  "trees of any size",
  DT+":DimensionTree.node_with_dims")
p("Higher-order SVD truncation of a tree-based tensor keeps its shape and respects tolerance and maximal ranks",
  "Let z = truncator.hsvd(x) for a well-formed TreeBasedTensor x, with a truncator without thresholding and max_rank infinite, one positive number, or one positive number per node. Then z has the tree, shape and active nodes of x, its rank at every node is between 1 and the rank of x and at most the maximal rank of the node; the squared Frobenius distance between x.full() and z.full() is at most the sum over the active non-root nodes of the discarded singular values of the Gram matrices returned by x.gramians(); and without maximal rank ||x - z|| <= tolerance * ||x||.",
  "every well-formed tree-based tensor (any tree, any depth, any ranks, inactive leaves, vector-valued output), every tolerance >= 0 and every list of maximal ranks, with any exact QR factorization and singular value decomposition",
  "the bound must hold for every tensor, tree and tolerance; a test observes one tensor and one tolerance, and the bound is attained only in special configurations",
  TR+":Truncator.hsvd", TR+":Truncator.trunc_svd", TB+":TreeBasedTensor.gramians", TB+":TreeBasedTensor.orth")
p("Gram matrices of a tree-based tensor are the scalar products of the outer factors",
  "Let (g, y) = x.gramians() for a well-formed real TreeBasedTensor x. y.full() equals x.full(). For every active node a other than the root, g[a] is a square matrix whose size is between 1 and the rank of x at a, and the full tensor is a sum over that size of products of orthonormal functions of the dimensions of a and of functions of the other dimensions (and of the output) whose matrix of scalar products is g[a]. g at the root is [[1]], and there is no matrix for inactive nodes. The singular values of g[a] are the squared norms of the terms of a decomposition whose two families are both orthogonal.",
  "every well-formed tree-based tensor (any tree, depth, ranks, inactive leaves, vector-valued output), every node, any exact QR factorization",
  "the algorithm propagates matrices from the root through arbitrarily many levels; a test checks one tree",
  TB+":TreeBasedTensor.gramians", TB+":TreeBasedTensor.orth")
p("Singular values of a tree-based tensor are the singular values of its matricizations",
  "Let sv = x.singular_values(). For every active node a other than the root, sv[a] is a nonincreasing list of nonnegative numbers, of length between 1 and the rank of x at a, and the full tensor is a sum of products of orthonormal functions of the dimensions of a and of pairwise orthogonal functions of the other dimensions whose norms are the numbers of the list: these are the singular values of the matricization of the tensor at a. For inactive nodes there is no list.",
  "every well-formed real tree-based tensor, every active node, any exact QR factorization and singular value decomposition",
  "the statement relates every node of every tree to the matricization of the full tensor, which tests cannot build for all sizes",
  TB+":TreeBasedTensor.singular_values", TB+":TreeBasedTensor.gramians")
p("Orthogonalisation at a node keeps the tensor and moves its norm to that node",
  "z = x.orth_at_node(a) for an active node a other than the root has the tree, shape, active nodes and full tensor of x and ranks at most those of x; the tensors of the active non-root nodes other than a and its parent have orthonormal slices along their last axis. If the tensor is not zero, x.full() is a sum over the rank of a of products of the functions represented by node a of z and of orthonormal functions of the other dimensions, and the Frobenius norm of the tensor of node a equals the norm of x. orth_at_node(root) is orth(), and a node that is not active raises ValueError.",
  "every well-formed real tree-based tensor, every node of every tree, with any exact QR, SVD, rank, pseudo-inverse and inverse",
  "the rank of the Gram matrix may be deficient at any node of any tree; a test with generic tensors never takes the deficient branch",
  TB+":TreeBasedTensor.orth_at_node", TB+":TreeBasedTensor.gramians")
p("Truncated SVD of a dense tensor in tree-based format: structure, orthogonality and error",
  "Truncator.hsvd(FullTensor, tree, is_active_node) returns a tree-based tensor with this tree and these active nodes, of the shape of the tensor; the tensors of the active nodes other than the root have orthonormal slices along their last axis and their ranks respect the maximal ranks; the error is orthogonal to the result (||x - z||^2 = ||x||^2 - ||z||^2), and without maximal rank ||x - z|| <= tolerance ||x||.",
  "every dense tensor of nonempty shape, every valid tree with as many dimensions (or one less: rank axis of the root), every choice of inactive leaves, every tolerance and list of maximal ranks, with any exact SVD",
  "trees, shapes and activity patterns are unbounded and the accumulated error of successive truncations depends on all of them",
  TR+":Truncator.hsvd", TR+":Truncator.trunc_svd")
p("Truncated SVD in tensor-train format",
  "Truncator.ttsvd(x) of a dense tensor of order at least two returns a tree-based tensor with the linear tree in which exactly the leaves of the dimensions after the first are inactive, of the shape of x, with orthonormal node tensors except the root, ranks within the maximal ranks, error orthogonal to the result and, without maximal rank, relative error at most the tolerance.",
  "every dense tensor of order at least two with nonempty shape, every tolerance and list of maximal ranks, with any exact SVD",
  "the order and the shape are unbounded and the guarantee is on the accumulated error",
  TR+":Truncator.ttsvd", TR+":Truncator.hsvd")
p("Storage complexity",
  "TreeBasedTensor.storage() is the sum over the active leaves of dimension times rank, plus the sum over the internal nodes of the product of the ranks of the children (the dimension for an inactive leaf) times the rank of the node.",
  "every well-formed tree-based tensor on every tree",
  "the formula must hold for all trees, ranks and activity patterns",
  TB+":TreeBasedTensor.storage")
p("Ordinary least squares minimises the residual",
  "LinearModelLearningSquareLoss.solve without regularisation nor basis adaptation returns coefficients that minimise the sum of the squared residuals on the training samples, with either linear solver, also for rank-deficient matrices and with more features than samples; without cross-validation by folds it does not raise; with error_estimation_type 'residuals' the reported error is the mean squared residual divided by the mean of the squared observations.",
  "every feature matrix of every size and rank, every vector of observations, both linear solvers, any exact solve/lstsq/inv/pinv/qr",
  "sizes are unbounded and the fallback branches (singular systems) are not taken by generic data",
  LS+":LinearModelLearningSquareLoss._solve_ols", LS+":LinearModelLearningSquareLoss.solve")
p("The fast leave-one-out error is the error of refitting without each sample",
  "With error_estimation_type 'leave_out' (or 'k_fold' with as many folds as samples), the residual reported for a sample is its prediction residual by the least-squares model refitted without that sample, and the error is sqrt(mean of their squares / mean of the squared observations), multiplied before the square root by N/(N-P)*(1+trace((A^T A)^-1)) if the correction is requested and the factor is not ill-conditioned; with fewer than P+1 samples the error is infinite.",
  "every feature matrix such that any N-1 samples determine the coefficients, every nonzero vector of observations, both linear solvers",
  "a test compares a few fits; the identity must hold for all matrices",
  LS+":LinearModelLearningSquareLoss._compute_cv_error", LS+":LinearModelLearningSquareLoss._solve_ols")
p("The fast k-fold error is the error of refitting without each fold",
  "With error_estimation_type 'k_fold', the residual reported for a sample is its prediction residual by the least-squares model refitted without the samples of its fold; the error is computed as for leave-one-out from the average over the folds of the mean squared residual of the fold.",
  "every partition into folds, every feature matrix such that the samples outside each fold determine the coefficients, every nonzero vector of observations, both linear solvers",
  "the folds are random and their number is unbounded",
  LS+":LinearModelLearningSquareLoss._compute_cv_error")
p("Basis adaptation selects the candidate of smallest cross-validation error",
  "_select_optimal_path (used by basis adaptation, by default along the nested bases of the first features) returns coefficients that vanish outside a candidate of the path and minimise the sum of squared residuals among such coefficients; the cross-validation error of this candidate is the smallest of the path (the first one in case of ties); zero, repeated and too large candidates are ignored; stop_if_error_increase does not change the result; without candidate the result is the ordinary least-squares fit.",
  "every path of feature patterns, every matrix and observations, both linear solvers",
  "the number of candidates is unbounded; undefined errors (nan) only occur on special data",
  LS+":LinearModelLearningSquareLoss._select_optimal_path", LS+":LinearModelLearningSquareLoss._solve_basis_adaptation")
p("Density estimation: coefficients and leave-one-out risk",
  "LinearModelLearningDensityL2 returns the coefficients that minimise the empirical risk (mean over the samples of ||g||^2 - 2 g.a + 2 g.b), and the reported leave-one-out error is the mean over the samples of the contrast, on each sample, of the estimate computed without it.",
  "every matrix of basis evaluations with at least two samples, with or without vector b",
  "closed formulas must agree with the definition for all inputs",
  LD+":LinearModelLearningDensityL2._solve_standard")
p("Density estimation: sparse and path selection",
  "With regularisation the result is the estimate restricted to the k largest coefficients (in absolute value), with k of smallest leave-one-out risk; with basis adaptation it is the estimate restricted to the candidate of smallest leave-one-out risk; the reported error is that risk, and the restricted estimate minimises the empirical risk among the coefficients with the same support.",
  "every matrix of basis evaluations with at least two samples, every path, every sorting permutation",
  "sizes and paths are unbounded and argsort may break ties arbitrarily",
  LD+":LinearModelLearningDensityL2._solve_regularized", LD+":LinearModelLearningDensityL2._select_optimal_path")
p("Orthonormal polynomial families evaluate polynomials of the announced degrees",
  "orthonormal_polynomials() of a uniform or normal random variable or of a Lebesgue measure on an interval gives a family whose polyval(ind, x) returns, for every list of indices in any order and with repetitions, the values at x of polynomials p_i of degree exactly i that do not depend on the other indices asked for.",
  "every interval, mean and standard deviation, every list of indices of any size, every point",
  "the degree is unbounded and the values come from a recurrence",
  OP+":OrthonormalPolynomials.polyval", OP+":ShiftedOrthonormalPolynomials.polyval", URV+":UniformRandomVariable.orthonormal_polynomials", NRV+":NormalRandomVariable.orthonormal_polynomials", LM+":LebesgueMeasure.orthonormal_polynomials")
p("The polynomials are orthonormal for their measure",
  "For every pair of indices, the integral of the product of the two polynomials that polyval evaluates is 1 if the indices are equal and 0 otherwise.",
  "every measure with a density of the library, all pairs of degrees",
  "infinitely many degrees and measures; quadratures used in tests are themselves computed from the polynomials",
  OP+":HermitePolynomials", OP+":LegendrePolynomials", OP+":LegendrePolynomialsLebesgue", OP+":ShiftedOrthonormalPolynomials")
p("Derivatives of polynomials",
  "dn_polyval(n, ind, x) returns the derivatives of order n at x of the functions evaluated by polyval, and d_polyval the derivatives of order one.",
  "every family, every order of derivation (also larger than the degrees), every list of indices, every point",
  "orders and degrees are unbounded; the scaling of shifted polynomials must be applied n times",
  OP+":OrthonormalPolynomials.dn_polyval", OP+":ShiftedOrthonormalPolynomials.dn_polyval")
p("Coefficients of polynomials",
  "poly_coeff(ind) returns the coefficients of the polynomials that polyval evaluates.",
  "every family, every list of indices",
  "degrees are unbounded and two different recurrences must agree",
  OP+":OrthonormalPolynomials.poly_coeff")
p("Roots of orthonormal polynomials",
  "roots(n) returns the n zeros of the polynomial n of polyval in increasing order: they are real and simple and there is no other.",
  "every measure, every degree, any exact eigenvalue decomposition",
  "degrees are unbounded; completeness of the list cannot be observed by evaluating",
  OP+":OrthonormalPolynomials.roots", OP+":ShiftedOrthonormalPolynomials.roots")
p("Gauss rules are exact up to degree 2n-1",
  "gauss_integration_rule(n) of a uniform or normal random variable or of the Lebesgue measure on an interval has n distinct points in increasing order and n positive weights whose sum is the mass, and integrates exactly every polynomial of degree at most 2n-1; moment(ind) gives the exact moments.",
  "every measure, every number of points, every polynomial of degree at most 2n-1, any exact eigenvalue decomposition",
  "quantifies over all polynomials and all numbers of points",
  RV+":RandomVariable.gauss_integration_rule", LM+":LebesgueMeasure.gauss_integration_rule", RV+":RandomVariable.moment")
p("Moments and means of the polynomials",
  "moment(ind, measure) returns the integrals of the products of the polynomials of each row of ind for the measure (by default that of the polynomials), mean(ind, measure) their means, and one() the coefficient of the constant function 1.",
  "every family, every array of indices with any number of columns, every measure",
  "products of any number of polynomials of any degrees, shortcuts for one and two columns must agree with the general computation",
  OP+":OrthonormalPolynomials.moment", OP+":ShiftedOrthonormalPolynomials.moment", OP+":ShiftedOrthonormalPolynomials.mean", PO+":UnivariatePolynomials.moment", PO+":UnivariatePolynomials.mean", OP+":OrthonormalPolynomials.one")
p("Polynomials, Gauss rules and moments of discrete measures",
  "For a discrete measure with N distinct points and positive weights, DiscretePolynomials evaluates polynomials of degrees 0..N-1 that are orthonormal for the measure, and raises IndexError beyond; for a discrete random variable dn_polyval gives their derivatives, the Gauss rule with n <= N points integrates exactly the polynomials of degree at most 2n-1 and has the N values as points if n = N, and moment(ind) gives the exact moments of orders at most 2N-1 and raises IndexError beyond.",
  "every finite list of distinct points in any order, all positive weights",
  "the number of points is unbounded and the loop stops according to a numerical orthogonality test",
  OP+":DiscretePolynomials._precompute_recurrence_monic", OP+":DiscretePolynomials.recurrence_monic", RV+":RandomVariable.gauss_integration_rule")
p("Recurrence coefficients and norms of the monic polynomials",
  "recurrence_monic(n) returns the coefficients of a three-term recurrence whose solutions are the monic orthogonal polynomials of the measure, and their norms.",
  "Hermite, Legendre and Legendre-Lebesgue polynomials, every n",
  "closed formulas with factorials must hold for every degree",
  OP+":HermitePolynomials.recurrence_monic", OP+":LegendrePolynomials.recurrence_monic", OP+":LegendrePolynomialsLebesgue.recurrence_monic")
p("Diagonal of a matrix product, dense tensors",
  "x.tensor_matrix_product_eval_diag(matrices, dims) of a dense tensor gives the tensor whose first axis is the common row index k and whose other axes are the dimensions not in dims in their order, with entry sum over the contracted indices of x[...] times the product of the matrices at (k, index): the diagonal of tensor_matrix_product, for any distinct dims in any order, and for all dimensions without dims.",
  "every dense tensor, every nonempty list of distinct dimensions in any order, every matrices with the right numbers of columns and a common number of rows",
  "order, sizes and the order of dims are unbounded; the loop contracts axes whose position moves",
  FT+":FullTensor.tensor_matrix_product_eval_diag", FT+":FullTensor.tensordot_eval_diag")
p("Diagonal of a matrix product, tree-based tensors",
  "x.tensor_matrix_product_eval_diag(matrices) of a tree-based tensor is the diagonal of the matrix product of x.full(): entry k is the sum over all indices of x.full()[i_1..i_d] times the product of the matrices[d][k, i_d].",
  "every dimension tree, every pattern of active and inactive leaves, every ranks, every matrices with n rows",
  "recursion over an arbitrary tree with mixed active and inactive children",
  TB+":TreeBasedTensor.tensor_matrix_product_eval_diag")
p("Diagonal of a tree-based tensor",
  "x.eval_diag() of a tree-based tensor whose dimensions all have size n returns the vector of the x.full()[k, ..., k].",
  "every dimension tree, every pattern of active and inactive leaves, every ranks",
  "recursion over an arbitrary tree",
  TB+":TreeBasedTensor.eval_diag")
p("Evaluation of a functional tensor",
  "FunctionalTensor(tensor, bases).eval(x) returns for each row of x, whose columns are split according to the numbers of variables of the bases, the sum over the indices of the entry of the tensor times the product of the basis functions.",
  "dense and tree-based tensors of any order, any bases with any numbers of variables, any number of points",
  "unbounded order, tree and numbers of variables",
  FTN+":FunctionalTensor.eval", FTN+":FunctionalTensor.eval_with_bases_evals", FBS+":FunctionalBases.eval")
p("Mean of a functional tensor",
  "mean() returns the contraction of the tensor with the means of the bases; whenever the means of the bases are computed by quadratures, it is the average of the function over the product quadrature.",
  "dense and tree-based tensors, any bases and measures, any quadratures",
  "exchange of sums over a product of any number of variables",
  FTN+":FunctionalTensor.mean")
p("Evaluation of a functional tensor on a grid",
  "eval_on_grid(x) returns a tensor, in the format of the functional tensor, whose entry at an index is the value of the function at the corresponding point of the product grid.",
  "dense and tree-based tensors, any bases, nonempty grids",
  "unbounded order and sizes",
  FTN+":FunctionalTensor.eval_on_grid")
p("Partial evaluation of a functional tensor",
  "eval(x, dims) returns the functional tensor of the remaining variables with one value per point: its tensor has the points on one axis and the remaining dimensions on the others, and its fdims designate the axes of the remaining dimensions.",
  "every dense tensor, every list of dimensions, every points",
  "positions of axes after the contraction depend on order and dims",
  FTN+":FunctionalTensor.eval", FTN+":FunctionalTensor.eval_with_bases_evals")
p("Magic indices, option left_right",
  "magic_indices(F, n) returns, for n at most the rank of F, n distinct row indices and n distinct column indices such that F[I, J] is invertible and each pair is the first position (by rows) of the greatest entry in absolute value of F - G, G being the only matrix of rank k that coincides with F on the k preceding rows and columns; for n = rank, G = F; for n > rank it raises LinAlgError; the indices for n are the first ones for n + 1.",
  "every matrix of every size and rank, every n",
  "greedy loop of unbounded length; invertibility along the loop is a Schur complement argument",
  MGI+":magic_indices")
p("Magic indices, options left and right",
  "magic_indices(F, n, 'left') returns J = 0..n-1 and n distinct row indices with F[I, J] invertible, each one the first greatest entry in absolute value of the residual of the next column, if and only if the first n columns are linearly independent; 'right' does the same on rows.",
  "every matrix, every n",
  "as above; quantifies over all linear combinations",
  MGI+":magic_indices")
p("Magic points are unisolvent",
  "basis.magic_points(x) returns as many distinct points of x as basis functions, on which interpolation has exactly one solution for all data, and output['lebesgue_constant'] is the greatest value on x of the functions of the space bounded by 1 at the magic points; it raises if the basis functions are dependent on x or if there are too few points.",
  "every basis and every set of points",
  "quantifies over all functions of the space",
  FB+":FunctionalBasis.magic_points")
p("Interpolation reproduces the data",
  "basis.interpolate(y, x) returns the function of the space that takes the values y at the points x (columns of y: outputs), and raises if the matrix of evaluations is singular.",
  "every basis, every unisolvent set of points, every data with any number of outputs",
  "quantifies over all data; the storage of the coefficients depends on their shape",
  FB+":FunctionalBasis.interpolate", FBA+":FunctionalBasisArray.__init__")
p("Projections are best approximations",
  "basis.projection(fun, G) returns a function of the space that minimises the distance to fun in the norm of the quadrature G (quasi-projection for orthonormal bases, least squares otherwise), and reproduces functions of the space; gram_matrix(G) is the matrix of the inner products of the basis functions for G.",
  "every basis, every quadrature with nonnegative weights, every function with one output",
  "quantifies over all functions of the space",
  FB+":FunctionalBasis.projection", FB+":FunctionalBasis.quasi_projection", FB+":FunctionalBasis.least_squares_projection", FB+":FunctionalBasis.gram_matrix")
p("Gradient of a functional tensor with respect to a node tensor",
  "f.parameter_gradient_eval(alpha) of a function in tree-based format returns the array g such that, whatever the tensor put at node alpha (same shape), the values of the function at the points are the contractions of the rows of g with this tensor, with the output axis of the root last.",
  "every tree, node, ranks, bases and set of points",
  "quantifies over all trees and all replacement tensors",
  FTN+":FunctionalTensor.parameter_gradient_eval", TB+":TreeBasedTensor.parameter_gradient_eval_diag", TB+":TreeBasedTensor.eval_diag_below", TB+":TreeBasedTensor.eval_diag_above")
p("One step of alternating minimization is optimal",
  "One step of the alternating minimization with the square loss (orthogonalise at the node, gradient, ordinary least squares, set the parameter) never fails and never increases the sum of squared errors; the function obtained is the best one among those that differ by the tensor of this node; if the solution is null, the function is unchanged and no tensor at the node is better than zero.",
  "every tree without only children, every node, every tensor with active nodes, every data set",
  "quantifies over all tensors at the node",
  TL+":TensorLearning._solve_standard", TBL+":TreeBasedTensorLearning.prepare_alternating_minimization_system", TBL+":TreeBasedTensorLearning.set_parameter", LS+":LinearModelLearningSquareLoss.solve")
p("Alternating minimization never increases the empirical risk",
  "TreeBasedTensorLearning.solve without rank adaptation terminates without exception within max_iterations; the sum of squared errors is non-increasing along the initial function and the iterates; the returned function is the last iterate; tree, shape and outputs are preserved.",
  "every initial function as in the previous property, every (random) order of the nodes, every stopping test and number of iterations",
  "all schedules of the nodes and unbounded numbers of iterations",
  TL+":TensorLearning._solve_standard")
p("Exploration strategy",
  "The exploration strategy lists every active node exactly once, by increasing level, so that no node comes after one of its descendants.",
  "every valid tree and every set of active nodes",
  "all trees",
  TBL+":TreeBasedTensorLearning._exploration_strategy")
p("Model selection in tensor learning returns the best iterate",
  "With model_selection, solve() returns the iterate with the smallest recorded error, the first one in case of ties.",
  "every list of iterates and errors",
  "all lists",
  TL+":TensorLearning.solve")
p("Rank adaptation returns an accepted iterate and a consistent history",
  "solve() with rank adaptation performs at most max_iterations local solves; the histories of iterates, errors and test errors are those of the functions computed, and the returned function is the last one; no recorded function has an infinite error; with early stopping every recorded function but the first and the last ones has an error at most early_stopping_factor times the best previous error.",
  "every local solver, every choice of the new ranks, every option",
  "all histories of the adaptive algorithm",
  TL+":TensorLearning._solve_adaptation")
p("Admissible rank increases",
  "make_ranks_admissible(f, rank), for f with admissible ranks, returns admissible ranks, each one being the asked rank (capped by the size of a leaf, zero for inactive nodes) or the rank of f, with the exact list of the changed nodes, and no admissible choice changes more nodes.",
  "every tree, ranks, asked ranks, and every shuffling",
  "combinatorial search over subsets of nodes, random order",
  TBL+":TreeBasedTensorLearning.make_ranks_admissible", TB+":TreeBasedTensor.is_admissible_rank")
p("User-defined functions are evaluated point by point",
  "UserDefinedFunction.eval(x) with evaluation_at_multiple_points = False returns the array whose k-th slice is the value of fun at the k-th point, in the same order and layout, for scalar, vector and array outputs.",
  "every function, output shape and list of points",
  "all functions and shapes",
  UDF+":UserDefinedFunction.eval")
p("Storing evaluations is transparent",
  "With store = True, whatever the sequence of calls, each call of store_eval returns the values of the function at the given points, in the order of the points, and the function is evaluated only at points that are not stored.",
  "every sequence of calls, every function",
  "unbounded histories of calls with overlapping sets of points",
  FN+":Function.store_eval")
p("Partial evaluation",
  "f.partial_evaluation(not_alpha, x)(y) is the value of f at the point whose coordinates not_alpha are those of x and whose other coordinates, in increasing order, are those of y, for all points x and y.",
  "every function, set of variables and points",
  "all functions and subsets of variables",
  FN+":Function.partial_evaluation")
p("Evaluation on a tensor grid",
  "f.eval_on_tensor_grid(G) on a full tensor grid returns the array whose entry of subscripts (i_1,...,i_d) is the value of f at the point (G_1[i_1],...,G_d[i_d]), with the output axes last.",
  "every function, grid and output shape",
  "all grids and functions",
  FN+":Function.eval_on_tensor_grid", GR+":FullTensorGrid.array")
p("Tensorized functions have the values of the function",
  "The tensorized function evaluated at the code of a point is the value of the function at this point, and at any code z the value of the function at inverse_map(z).",
  "every function, base, resolution and point of the unit cube",
  "all functions, resolutions and points",
  TZF+":TensorizedFunction.eval", TZ+":Tensorizer.tensorize")
p("Compositional functions follow the tree",
  "CompositionalModelFunction.eval(x) is the value at the root of the unique assignment in which leaves carry the variables of their dimensions and each interior node the value of its function at the values of its children in order.",
  "every valid tree, every functions and point",
  "all trees",
  CMF+":CompositionalModelFunction.eval")
p("Relative test error",
  "relative_test_error of predictions against observations of the same shape is the square root of the sum of the squared errors divided by the sum of the squared observations; it is zero if and only if the predictions are exact (for observations not all zero).",
  "every predictions and observations",
  "all data sets",
  LF+":SquareLossFunction.relative_test_error", LF+":SquareLossFunction.eval", LF+":LossFunction.risk_estimation")
p("Absolute test error",
  "test_error with the square loss is the square root of the mean over the sample of the squared error (summed over the outputs).",
  "every predictions and observations, scalar or vector outputs",
  "all data sets",
  LF+":SquareLossFunction.test_error", LF+":SquareLossFunction.eval", LF+":LossFunction.risk_estimation")
p("Positivity and local support of B-splines",
  "On increasing knots the B-spline number i of degree d is nonnegative, vanishes outside of the interval from knot i (excluded) to knot i+d+1, and is positive inside; eval returns cardinal() functions.",
  "every increasing sequence of knots, degree and real point",
  "all real points and knots",
  BSP+":BSplinesFunctionalBasis.eval", BSP+":BSplinesFunctionalBasis.eval_sequence", BSP+":BSplinesFunctionalBasis.cardinal")
p("B-splines form a partition of unity",
  "The values of the B-splines of degree d sum to 1 at every point between knot d (excluded) and knot n-1-d, where n is the number of knots.",
  "every increasing sequence of knots, degree and point of this interval",
  "all real points and knots",
  BSP+":BSplinesFunctionalBasis.eval")
p("Derivatives of B-splines",
  "eval_derivative(n, x) is the derivative of order n of eval at x, at every point that is not a knot.",
  "every knots, degree, order and real point that is not a knot",
  "a statement on limits",
  BSP+":BSplinesFunctionalBasis.eval_derivative")
p("B-splines with extra knots cover the given interval",
  "with_extra_knots(t, m) extends increasing knots to increasing knots that contain them; the basis has (number of intervals) + m functions, which sum to 1 on the whole interval of the given knots (first knot excluded).",
  "every increasing sequence of at least two knots, every degree",
  "all knots and points",
  BSP+":BSplinesFunctionalBasis.with_extra_knots")
p("Dilated B-splines",
  "indices_with_level_bounded_by(L) lists exactly once the pairs (level l at most L, local index from -m to b^l - 1); the functions of level L scaled by b^(-L/2) sum to 1 on (0,1]; eval_derivative is the derivative of eval wherever b^l x is not an integer.",
  "every degree, dilation factor, level and real point",
  "all levels and real points",
  BSP+":DilatedBSplines.eval", BSP+":DilatedBSplines.eval_derivative", BSP+":DilatedBSplines.indices_with_level_bounded_by", BSP+":DilatedBSplines.indices_with_level")
p("Principal components of matrices and tensors",
  "principal_components(p) of a matrix and alpha_principal_components(alpha, p) of a tensor return orthonormal vectors and the singular values; for p smaller than 1 the relative error of the projection in Frobenius norm is at most p; for p at least 1 there are min(p, number of rows) components.",
  "every matrix or tensor, every alpha and parameter",
  "all real matrices and tolerances",
  FT+":FullTensor.principal_components", FT+":FullTensor.alpha_principal_components")
p("The PCA approximation interpolates the function",
  "tree_based_approximation(fun, shape, tree, is_active_node) returns a well-formed tensor of the given tree and shape whose entries are equal to the values of fun at the points of the output grid of the root, which are as many as the product of the ranks of the children of the root, whatever samples are drawn.",
  "every function, shape, valid tree, activity, tolerances and ranks, and every outcome of the random draws",
  "the random draws and the functions are unbounded",
  PCA+":TensorPrincipalComponentAnalysis.tree_based_approximation", PCA+":TensorPrincipalComponentAnalysis.alpha_principal_components")
p("The PCA approximation recovers low-rank tensors",
  "tree_based_approximation is exact, i.e. every entry of the returned tensor is the value of the function, when each node either has tolerance zero (all samples kept), or a prescribed rank at least the alpha-rank of the function and samples whose fibers generate the range.",
  "every function, tree, shape, tolerances, ranks and draws meeting the condition",
  "all functions and draws",
  PCA+":TensorPrincipalComponentAnalysis.tree_based_approximation")
p("The PCA approximation respects max_rank",
  "The rank of each node of the tensor returned by tree_based_approximation is at most the attribute max_rank.",
  "every function, tree, tolerance and maximal rank",
  "all functions and draws",
  PCA+":TensorPrincipalComponentAnalysis.tree_based_approximation", PCA+":TensorPrincipalComponentAnalysis.hopca")
p("HOPCA, Tucker and tensor-train approximations",
  "hopca returns for each dimension orthonormal components, at most as many as the parameter if it is a rank; tucker_approximation and tt_approximation are the tree-based approximations for the trivial and the linear tree, in which the k-th entry of an array of tolerances (or ranks) is used at the k-th dimension, respectively at the node of the first k+1 dimensions.",
  "every function, shape, parameters and draws",
  "all functions and draws",
  PCA+":TensorPrincipalComponentAnalysis.hopca", PCA+":TensorPrincipalComponentAnalysis.tucker_approximation", PCA+":TensorPrincipalComponentAnalysis.tt_approximation")
p("Gradient of a canonical tensor with respect to a parameter",
  "For a function whose coefficients are a canonical tensor, parameter_gradient_eval(mu) contracted with any other factor mu and core (or with any other core, for mu = order + 1) gives the values at the points of the function with this parameter instead.",
  "every canonical tensor of order at least two, bases, points and parameter",
  "all real tensors and evaluations",
  CT+":CanonicalTensor.parameter_gradient_eval_diag", FTN+":FunctionalTensor.parameter_gradient_eval")
p("One step of the canonical alternating minimization is optimal",
  "Each step of CanonicalTensorLearning with the square loss keeps the shape and the rank, changes only the chosen parameter and the core, and its empirical risk is at most the risk for any other value of this parameter (a factor and the core, the core alone, or a column and its coefficient with one_by_one_factor); the step for the first factor of a tensor of order two gives a factor with the same range as an optimal one. With one_by_one_factor the exploration visits each column of each factor inner_loops times.",
  "every canonical tensor, data, bases, parameter and factorisations",
  "all real data and tensors",
  CTL+":CanonicalTensorLearning.prepare_alternating_minimization_system", CTL+":CanonicalTensorLearning.set_parameter")
p("Canonical alternating minimization does not increase the risk",
  "The empirical risks of the initial canonical tensor and of the successive iterates of the alternating minimization with the square loss are nonincreasing, for the default and for random exploration orders; the iterates keep the shape and the rank.",
  "every initial tensor, data, bases, exploration order, stopping rule and number of iterations",
  "unbounded number of iterations and random orders",
  CTL+":CanonicalTensorLearning", TL+":TensorLearning._solve_standard")
p("Conversion of a dense tensor to tree-based format",
  "FullTensor.tree_based_tensor() returns a tree-based tensor on the trivial tree whose full() is the tensor.",
  "every dense tensor of order at least two without empty dimension",
  "all orders, shapes and entries",
  FT+":FullTensor.tree_based_tensor", TB+":TreeBasedTensor.full")
p("Conversion of a diagonal tensor to tree-based format",
  "DiagonalTensor.tree_based_tensor(tree, is_active_node) returns a tree-based tensor on the given tree (a linear tree with inactive leaves by default) with the given active leaves whose full() is the diagonal tensor; it raises ValueError if an internal node is not active.",
  "every diagonal tensor of order at least two, every valid tree of this order and choice of active nodes",
  "all trees and activities",
  DG+":DiagonalTensor.tree_based_tensor")
p("Conversion of a canonical tensor to tree-based format",
  "CanonicalTensor.tree_based_tensor(tree, is_active_node) returns a tree-based tensor on the given tree with the given active leaves, whose active nodes have the canonical rank and whose full() is the canonical tensor.",
  "every canonical tensor of order at least two, every valid tree of this order and choice of active leaves",
  "all trees and activities",
  CT+":CanonicalTensor.tree_based_tensor")
p("Element that contains a point",
  "PiecewisePolynomialFunctionalBasis.element_number(x) is the element that contains x, elements being closed on the left and open on the right; the first element for points on the left of the interval, the last one for points on its right.",
  "every strictly increasing list of points and every real x",
  "a continuum of points and all meshes",
  PPF+":PiecewisePolynomialFunctionalBasis.element_number")
p("Piecewise polynomials: evaluation and basis",
  "eval(x) has cardinal() columns; the functions of the element of x take the values of the reference polynomials mapped to the element, the others vanish; eval(x, indices) selects columns and raises IndexError for a column that does not exist; every piecewise polynomial of the given degrees is one and only one combination of the functions.",
  "every mesh, every list of degrees, every point, every list of indices, every family of polynomials",
  "all meshes and polynomials; existence and uniqueness",
  PPF+":PiecewisePolynomialFunctionalBasis.eval", PPF+":PiecewisePolynomialFunctionalBasis.cardinal")
p("Piecewise polynomials: orthonormality",
  "The functions are orthonormal for the Lebesgue measure on the interval, as is_orthonormal says.",
  "every mesh and degrees, every pair of functions",
  "an integral over a continuum for every mesh",
  PPF+":PiecewisePolynomialFunctionalBasis.__init__", PPF+":PiecewisePolynomialFunctionalBasis.eval")
p("Piecewise polynomials: derivatives",
  "eval_derivative(k, x) gives the derivatives of order k of the functions of eval inside the elements.",
  "every mesh, order and point",
  "derivatives at a continuum of points",
  PPF+":PiecewisePolynomialFunctionalBasis.eval_derivative")
p("Piecewise polynomials: interpolation points",
  "interpolation_points() gives cardinal() points, degree + 1 different ones in the interior of each element, and interpolation at these points is well posed: for all values there is one and only one combination of the functions that takes them.",
  "every mesh and degrees, every list of values",
  "all meshes and values; existence and uniqueness",
  PPF+":PiecewisePolynomialFunctionalBasis.interpolation_points", CHP+":chebyshev_points")
p("Meshes of piecewise polynomials",
  "np(a, b, n, p) is the uniform partition in n elements; hp(a, b, h, p) the one with the fewest elements of length at most h; singularityhp_adapted(a, b, s, h) is a partition of [a, b] with one degree per element that contains the singularities, with degree 0 and length at most h (b - a) next to them.",
  "every interval, size, list of singularities in the interval, 0 < h < 1 for the last one",
  "all real parameters and all lists of singularities",
  PPF+":PiecewisePolynomialFunctionalBasis.hp", PPF+":PiecewisePolynomialFunctionalBasis.np", PPF+":PiecewisePolynomialFunctionalBasis.singularityhp_adapted")
p("Removal of nodes with one child",
  "TreeBasedTensor.remove_unique_children() returns a tensor with the same entries and the same shape, on a tree that has no node with exactly one child and whose nodes stand for the same sets of dimensions.",
  "every tree-based tensor of order at least two, on every tree, with or without active leaves",
  "all trees, ranks and entries",
  TB+":TreeBasedTensor.remove_unique_children")
p("squeeze of a tree-based tensor",
  "squeeze(dims), for dimensions of size one and with remaining dimensions, returns the tensor without these axes, on the tree restricted to the remaining dimensions (the nodes stand for the nonempty intersections of the sets of dimensions with the remaining ones, and no node has exactly one child); with one remaining dimension the tree has one node. squeeze() removes all the dimensions of size one.",
  "every tree-based tensor of order at least two, every list of dimensions of size one that leaves a dimension",
  "all trees, ranks, entries and choices of dimensions",
  TB+":TreeBasedTensor.squeeze")
p("squeeze refuses dimensions that are not of size one",
  "squeeze(dims) raises ValueError when a dimension of dims is not of size one, as numpy.squeeze.",
  "every tree-based tensor and every list of dimensions",
  "all tensors and lists of dimensions",
  TB+":TreeBasedTensor.squeeze")
p("tensor_vector_product and reduce_sum of a tree-based tensor",
  "tensor_vector_product(vectors, dims) represents the contraction of the full tensor with the vectors along dims, and reduce_sum(dims) the sums of its entries along dims: as a tree-based tensor when dimensions remain (with one node when there is only one), as an array when none remains.",
  "every tree-based tensor of order at least two, distinct dimensions in any order and vectors of the right sizes",
  "all trees, ranks, entries, vectors and choices of dimensions",
  TB+":TreeBasedTensor.tensor_vector_product", TB+":TreeBasedTensor.reduce_sum", TB+":TreeBasedTensor.squeeze")
p("Conditional expectation of a functional tensor",
  "conditional_expectation(dims) returns a functional tensor in the bases of the dimensions dims (in increasing order) whose value at a point is the contraction of the coefficients with the basis functions of these dimensions at the point and with the means of the other bases; whenever these means are computed by quadratures it is the average of the function over the product quadrature of the other variables. Without dimensions it is the mean.",
  "dense and tree-based tensors, any bases and quadratures, every list of distinct dimensions, every points",
  "unbounded order; trees; exchange of sums over a product of any number of variables",
  FTN+":FunctionalTensor.conditional_expectation", TB+":TreeBasedTensor.tensor_vector_product", FBS+":FunctionalBases.keep_bases", FBS+":FunctionalBases.mean")
p("Law of total expectation",
  "The mean of conditional_expectation(dims) is the mean of the function.",
  "dense and tree-based tensors, any bases and measures, every list of distinct dimensions",
  "unbounded order and trees",
  FTN+":FunctionalTensor.conditional_expectation", FTN+":FunctionalTensor.mean")
p("Inner products, norm and variance of functional tensors",
  "dot_product_expectation(g) is the mean of the product of the functions, norm() the square root of the one of the function with itself, variance() the mean of the square minus the square of the mean, variance_conditional_expectation(alpha) the variances of the conditional expectations.",
  "dense and tree-based tensors, any bases",
  "unbounded order",
  FTN+":FunctionalTensor.dot_product_expectation", FTN+":FunctionalTensor.norm", FTN+":FunctionalTensor.variance", FTN+":FunctionalTensor.variance_conditional_expectation", FBS+":FunctionalBases.gram_matrices")
p("Conditional expectation with a boolean mask",
  "conditional_expectation(mask) with an array of booleans is conditional_expectation(dims), dims being the positions of True.",
  "every functional tensor and every mask",
  "all masks",
  FTN+":FunctionalTensor.conditional_expectation")
p("Functional PCA: projection by interpolation on the magic points",
  "For bases whose functions are linearly independent on the candidate points, the grid of the functional PCA has for each basis as many points as functions, on which interpolation is possible, and the projection of a tree-based tensor is the function of the tensor product space whose values at the grid points are the entries of the tensor (active leaves, inactive leaves); if the entries are the values of a function of the space, it has its coefficients. Dependent bases and other projection types are refused.",
  "all bases, candidate points, trees and well-formed tree-based tensors",
  "any dimension, tree and size; an inverse in each dimension",
  FPCA+":FunctionalTensorPrincipalComponentAnalysis._prepare", FPCA+":FunctionalTensorPrincipalComponentAnalysis._project", FPCA+":FunctionalTensorPrincipalComponentAnalysis._projection_operators", FBS+":FunctionalBases.interpolation_points")
p("Functional PCA interpolates the function",
  "tree_based_approximation(fun, tree, is_active_node) returns a function of the tensor product space that is equal to fun at the points of the grid whose subscripts are in the output grid of the root, whatever samples are drawn; tucker_approximation and tt_approximation are this approximation for the trivial and linear trees.",
  "every function, bases, candidate points, tree, active leaves, tolerances, ranks and random samples accepted by the code",
  "all random draws, all trees, unbounded dimension",
  FPCA+":FunctionalTensorPrincipalComponentAnalysis.tree_based_approximation", FPCA+":FunctionalTensorPrincipalComponentAnalysis.tucker_approximation", FPCA+":FunctionalTensorPrincipalComponentAnalysis.tt_approximation")
p("Functional PCA is exact on functions of the space",
  "If fun is in the tensor product space and each node has either a zero tolerance (no adaptive sampling, sampling factor at least one) or a rank at least that of fun with samples that generate its functions, the result of tree_based_approximation evaluates to fun at every point.",
  "all bases, functions of the space, trees, samples and evaluation points",
  "holds at all points, not only at those of the grid",
  FPCA+":FunctionalTensorPrincipalComponentAnalysis.tree_based_approximation", FTN+":FunctionalTensor.eval")
p("Functional HOPCA",
  "hopca(fun) returns for each basis functions of the same space, at least one and at most the minimum of the tolerance and of the maximal rank when it is at least one, whose vectors of values at the interpolation points are orthonormal.",
  "every function, bases, candidate points, parameters and random samples accepted by the code",
  "all draws and functions",
  FPCA+":FunctionalTensorPrincipalComponentAnalysis.hopca", SFB+":SubFunctionalBasis.eval")
p("Evaluation, mean and Gram matrix of a sub-basis",
  "SubFunctionalBasis(basis, B) has one function per column of B, the combination of the functions of the underlying basis with this column as coefficients: eval(x), eval(x, indices) (negative indices count from the end), mean() and gram_matrix() are the values, means and Gram matrix of these functions.",
  "all underlying bases, matrices of coefficients, points, indices, and every mean that is linear on the functions involved",
  "any basis, any number of functions and points",
  SFB+":SubFunctionalBasis.eval", SFB+":SubFunctionalBasis.mean", SFB+":SubFunctionalBasis.gram_matrix", SFB+":SubFunctionalBasis.cardinal")
p("A sub-basis marked orthonormal is orthonormal",
  "A sub-basis of an orthonormal basis is marked orthonormal exactly if it has a function and the distance of its Gram matrix to the identity, relative to the norm of the identity, is below 1e-15; a sub-basis of a basis that is not marked is never marked.",
  "all underlying bases and matrices of coefficients",
  "a threshold on a norm, for all matrices",
  SFB+":SubFunctionalBasis.__init__")
p("Orthonormalisation of a sub-basis",
  "orthonormalize() of a sub-basis of an orthonormal basis with linearly independent columns returns a sub-basis of the same basis that is marked orthonormal, has orthonormal functions, and whose first j functions span the same space as the first j given functions, for every j. It refuses an underlying basis that is not marked orthonormal.",
  "all orthonormal bases, all matrices with linearly independent columns, all j",
  "an iteration over the columns, of any number and size",
  SFB+":SubFunctionalBasis.orthonormalize")
p("Orthonormalisation of a basis",
  "orthonormalize() of a basis with linearly independent functions returns a basis marked orthonormal, with as many orthonormal functions, the first j of which span the same space as the first j given functions, for every j; it raises an exception if the functions are linearly dependent.",
  "all bases whose gram_matrix() is their Gram matrix for a linear mean",
  "a matrix factorisation of any size",
  FB+":FunctionalBasis.orthonormalize")
p("Derivatives of a sub-basis",
  "eval_derivative(n, x) and eval_jacobian(x) of a sub-basis return the derivatives of its functions: the combinations, with the columns of its matrix, of the derivatives of the functions of the underlying basis.",
  "all sub-bases, orders and points",
  "any matrix, order and number of points",
  SFB+":SubFunctionalBasis.eval_derivative", SFB+":SubFunctionalBasis.eval_jacobian")
p("Bases of polynomials",
  "PolynomialFunctionalBasis evaluates the orthonormal polynomials of the given indices; mean() and gram_matrix() are their means and Gram matrix; it is orthonormal exactly if the indices are distinct; one() returns the coefficients of the constant function 1, or raises an exception if the index 0 is absent.",
  "all uniform and normal random variables, all lists of indices, all points",
  "unbounded degrees",
  PFB+":PolynomialFunctionalBasis.eval", PFB+":PolynomialFunctionalBasis.gram_matrix", PFB+":PolynomialFunctionalBasis.mean", PFB+":PolynomialFunctionalBasis.one")
p("Derivative of a basis of polynomials",
  "derivative(k) of the basis of the polynomials of degrees at most m returns a basis whose functions are the derivatives of order k of the polynomials.",
  "all uniform and normal random variables, degrees and orders",
  "unbounded degrees and orders; a Gauss rule that must be exact",
  PFB+":PolynomialFunctionalBasis.derivative", FB+":FunctionalBasis.quasi_projection", FBA+":FunctionalBasisArray.sub_functional_basis")
p("Interpolation on a full tensor product basis",
  "FullTensorProductFunctionalBasis.tensor_product_interpolation(fun, grid) returns the only function of the tensor product space that has the values of fun at the points of the product grid it returns, which has as many points as the space has dimensions, all among the given candidates; number_of_evaluations is this number of points; a function of the space is reproduced at all points.",
  "all numbers of dimensions, bases, candidate points from which the basis functions are independent, and functions",
  "any number of dimensions and functions",
  FTP+":FullTensorProductFunctionalBasis.tensor_product_interpolation", FBS+":FunctionalBases.interpolation_points", FBS+":FunctionalBases.tensor_product_interpolation")
p("Interpolation from a tensor of values",
  "tensor_product_interpolation accepts, instead of a function, a tensor whose entries are the values of the function on the product grid, and returns the interpolation of these values.",
  "all bases, grids and tensors of the shape of the grid",
  "any shape",
  FTP+":FullTensorProductFunctionalBasis.tensor_product_interpolation")
p("Interpolation on a sparse tensor product basis of polynomials",
  "For bases of polynomials of degrees 0, 1, ... and a downward closed set of multi-indices, SparseTensorProductFunctionalBasis.tensor_product_interpolation(fun, grid) returns the only function of the sparse space with the values of fun at the points of the sparse grid it returns; there are as many points and evaluations as multi-indices; a function of the sparse space is reproduced at all points.",
  "all numbers of dimensions, polynomials, downward closed sets, candidate points (at least as many distinct ones as functions in each dimension) and functions",
  "induction on the multi-indices, of any number and size",
  STP+":SparseTensorProductFunctionalBasis.tensor_product_interpolation", GR+":SparseTensorGrid.array", FB+":FunctionalBasis.interpolate")
p("Interpolation on a sparse tensor product basis",
  "For every downward closed set of multi-indices and all bases with linearly independent functions, the sparse interpolation is accepted and has the values of fun at the points of the sparse grid.",
  "all bases, downward closed sets and functions",
  "any bases and sets",
  STP+":SparseTensorProductFunctionalBasis.tensor_product_interpolation", FB+":FunctionalBasis.magic_points")
p("Projection on a full tensor product basis",
  "FullTensorProductFunctionalBasis.tensor_product_projection(fun, I) returns the orthogonal projection of fun onto the tensor product space for the discrete inner product of the tensor product integration rule I: the error is orthogonal to the space, no function of the space is closer to fun for nonnegative weights, a function of the space is reproduced; another kind of rule raises an exception.",
  "all numbers of dimensions, bases, tensor product rules for which the bases are independent, and functions",
  "any number of dimensions, points and functions",
  FTP+":FullTensorProductFunctionalBasis.tensor_product_projection")
p("Derivatives of a functional tensor",
  "eval_derivative(n, x) of a FunctionalTensor returns the mixed partial derivatives of orders n, at the points x, of the function that eval evaluates, in whatever order the derivatives are taken; a list n that has not one order per basis raises AssertionError.",
  "all numbers of dimensions, full and tree-based tensors, bases of smooth functions of one variable, orders and points",
  "any tensor, number of dimensions and orders",
  FTN+":FunctionalTensor.eval_derivative", FBS+":FunctionalBases.eval_derivative")
p("Gradient of a functional tensor",
  "eval_gradient(x) of a FunctionalTensor returns the partial derivatives of the function at the points x.",
  "all functional tensors and points",
  "any tensor and number of dimensions",
  FTN+":FunctionalTensor.eval_gradient")
p("Derivatives on sparse tensor product bases",
  "eval_derivative(n, x) and eval_jacobian(x) of a SparseTensorProductFunctionalBasis return the mixed and the first partial derivatives of its functions; eval_derivative(n, x) and eval_gradient(x) of a FunctionalBasisArray on such a basis return those of the functions that eval evaluates, with one axis for the variables before the axes of the outputs, which are dropped for a single output.",
  "all numbers of dimensions, sets of multi-indices, bases of smooth functions of one variable, coefficients, shapes of the outputs and points",
  "any number of dimensions and functions",
  STP+":SparseTensorProductFunctionalBasis.eval_derivative", FB+":FunctionalBasis.eval_jacobian", FBA+":FunctionalBasisArray.eval_derivative", FBA+":FunctionalBasisArray.eval_gradient")
p("Jacobian of a basis of polynomials",
  "eval_jacobian(x) of a PolynomialFunctionalBasis, and eval_gradient(x) of a function on this basis, return the derivatives.",
  "all uniform and normal random variables, indices and points",
  "any indices and points",
  FB+":FunctionalBasis.eval_jacobian", PFB+":PolynomialFunctionalBasis.eval_derivative")
p("Gram matrix of the gradients",
  "gram_matrix_h1_0() of a sparse tensor product basis of polynomials returns the means of the scalar products of the gradients of its functions.",
  "all measures, degrees and sets of multi-indices",
  "any number of dimensions and degrees",
  STP+":SparseTensorProductFunctionalBasis.gram_matrix_h1_0", STP+":SparseTensorProductFunctionalBasis.derivative")
p("Density, distribution function and moments of uniform and normal variables",
  "For UniformRandomVariable(inf, sup) and NormalRandomVariable(mu, sigma), pdf is a nonnegative function whose integral over every event is the probability of the event, cdf(x) is the probability of the values at most x, mean() and variance() are the mean and the variance of the law, and std() is the square root of the variance.",
  "all intervals, means and positive standard deviations, all points",
  "integrals over all events, for real parameters",
  URV+":UniformRandomVariable.pdf", NRV+":NormalRandomVariable.pdf", URV+":UniformRandomVariable.cdf", NRV+":NormalRandomVariable.cdf", RV+":RandomVariable.mean", RV+":RandomVariable.variance", RV+":RandomVariable.std")
p("Quantiles and transfer between random variables",
  "icdf(p) is the quantile function: for 0 < p <= 1 it is at most y exactly when p <= cdf(y), it lies in the support, cdf(icdf(p)) = p for p < 1, and nan is returned for p outside [0, 1]. X.transfer(Y, x) never returns nan, keeps the distribution function, and the transferred values of a variable with the law of X have the law of Y.",
  "all pairs of uniform and normal random variables, probabilities and points",
  "an equality of laws, for real parameters",
  URV+":UniformRandomVariable.icdf", NRV+":NormalRandomVariable.icdf", RV+":RandomVariable.transfer")
p("Isoprobabilistic grids",
  "iso_probabilistic_grid(n) of a random variable returns n + 1 increasing points, from the minimum to the maximum of the support, that cut it in n cells of probability 1/n, and for 0 < p < 1 in cells of probability at most p. For a RandomVector with independent components the cells of the tensor grid have the same probability, the inverse of their number, with one number of cells for each component or a single one for all; for p < 1 the probability is at most p; any other number of arguments raises ValueError.",
  "all uniform and normal random variables, numbers of components, numbers of cells and probabilities",
  "any number of cells and components",
  RV+":RandomVariable.iso_probabilistic_grid", RVE+":RandomVector.iso_probabilistic_grid")
p("Random vectors with independent components",
  "For a RandomVector of uniform and normal random variables with the independent copula, pdf is the density of the product law, cdf(x) is the probability that every component is at most that of x, mean() and variance() are those of the components, and transfer(Y, .) transports the product law to that of Y and raises AssertionError if the sizes differ. A point with too few components raises IndexError; with too many components pdf and cdf return 0.",
  "all numbers of components, uniform and normal random variables and points",
  "integrals over all events, any number of components",
  RVE+":RandomVector.pdf", RVE+":RandomVector.cdf", RVE+":RandomVector.mean", RVE+":RandomVector.variance", RVE+":RandomVector.transfer", COP+":IndependentCopula")
p("Density and shifts of an empirical random variable",
  "For an EmpiricalRandomVariable built on a sample that is not constant, pdf is a probability density, that of the mixture with equal weights of the normal laws centred at the sample with standard deviation bandwidth (Scott's rule); shift(b, s) is the variable s X + b; get_standard_random_variable() is (X - mean) / std.",
  "all samples that are not constant, all shifts and scalings",
  "an equality of laws, for samples of any size",
  EMP+":EmpiricalRandomVariable.pdf", EMP+":EmpiricalRandomVariable.shift", EMP+":EmpiricalRandomVariable.get_standard_random_variable")
p("Moments of an empirical random variable",
  "mean() and variance() of an EmpiricalRandomVariable are the mean and the variance of its law, of density pdf.",
  "all samples that are not constant",
  "samples of any size",
  EMP+":EmpiricalRandomVariable.random_variable_statistics")
p("Distribution function of an empirical random variable",
  "cdf(x) of an EmpiricalRandomVariable is the probability of the values at most x, the integral of pdf.",
  "all samples that are not constant and points",
  "samples of any size, an integral",
  EMP+":EmpiricalRandomVariable.cdf")
p("Integration rule of an empirical random variable",
  "integration_rule(n) of an EmpiricalRandomVariable has n points for each point of the sample and positive weights of sum 1, and integrates exactly the polynomials of degree at most 2n - 1 for the density pdf.",
  "all samples that are not constant and n > 0",
  "samples of any size and polynomials of any degree",
  EMP+":EmpiricalRandomVariable.integration_rule")
p("Orthonormal polynomials of an empirical random variable",
  "orthonormal_polynomials() of an EmpiricalRandomVariable with N points evaluates polynomials of degrees 0 to N - 1 (0 to n with an argument n) that are orthonormal for the density pdf, and raises IndexError beyond; gauss_integration_rule(n) with n <= N has n distinct increasing points and positive weights and is exact for the degrees at most 2n - 1, and raises IndexError beyond; moment(ind) returns the exact moments for the orders at most 2N - 1.",
  "all samples that are not constant, degrees and numbers of points",
  "samples of any size and polynomials of any degree",
  OP+":EmpiricalPolynomials", EMP+":EmpiricalRandomVariable.orthonormal_polynomials", RV+":RandomVariable.gauss_integration_rule", RV+":RandomVariable.moment")
p("Truncated support",
  "truncated_support(p) of a uniform or normal random variable is a bounded interval inside the support whose probability is at least p, with two tails of the same probability; it is exactly p for a normal variable.",
  "all uniform and normal laws and 0 < p < 1",
  "a probability, for all real parameters",
  RV+":RandomVariable.truncated_support")
p("Quantiles of an empirical random variable",
  "icdf(q) of an EmpiricalRandomVariable, 0 < q < 1, is a point where cdf is q; random(n) draws a sample from it and truncated_support(p) is a bounded interval of probability p.",
  "all samples that are not constant, 0 < q < 1",
  "samples of any size and all levels",
  EMP+":EmpiricalRandomVariable.icdf", EMP+":EmpiricalRandomVariable.random", RV+":RandomVariable.truncated_support")
p("Gauss rule of a product measure",
  "gauss_integration_rule(n) of a ProductMeasure of uniform and normal random variables and Lebesgue measures on intervals, with n_i points in direction i (one number is used in all directions, another number of numbers raises ValueError), has the product of the n_i points and positive weights, and integrates exactly for the product measure every polynomial of degree at most 2 n_i - 1 in the variable i.",
  "all product measures, numbers of points and polynomials in several variables",
  "any number of factors and points, all polynomials of bounded partial degrees",
  "tensap/functions/measures/product_measure.py:ProductMeasure.gauss_integration_rule", IR+":FullTensorProductIntegrationRule")
p("Comparison of random variables and vectors",
  "Two uniform or normal random variables, and two RandomVectors of them, compare equal with == exactly when they have the same law; vectors of different sizes are different.",
  "all random variables and vectors",
  "all real parameters and sizes; an equality of laws",
  RV+":RandomVariable.__eq__", "tensap/functions/measures/random_vector.py:RandomVector.__eq__")
p("Comparison of product measures",
  "Two ProductMeasures compare equal with == exactly when they have the same factors.",
  "all product measures",
  "any numbers of factors",
  "tensap/functions/measures/product_measure.py:ProductMeasure.__eq__")
p("Shifts of measures",
  "For s > 0, shift(b, s) of a uniform random variable X is the law of s X + b; of the Lebesgue measure on an interval it is the Lebesgue measure on its image by x -> s x + b; of a normal random variable of mean m it is the law of s (X - m) + m + b, as documented, hence that of s X + b exactly when s = 1 or m = 0. get_standard_random_variable() is the affine image with support [-1, 1], or with mean 0 and standard deviation 1.",
  "all parameters, shifts and positive scalings",
  "an equality of laws for all real parameters",
  URV+":UniformRandomVariable.shift", NRV+":NormalRandomVariable.shift", LM+":LebesgueMeasure.shift")
p("Marginals, permutations and mass of product laws",
  "marginal(ind) of a RandomVector or ProductMeasure of random variables is the law of the components ind, in this order, and transpose(perm) that of the permuted vector; an index outside raises IndexError; mass() of a product measure is the measure of the whole space.",
  "all vectors of uniform and normal variables, all lists of distinct nonnegative indices",
  "any sizes and indices; an equality of laws",
  "tensap/functions/measures/random_vector.py:RandomVector.marginal", "tensap/functions/measures/random_vector.py:RandomVector.transpose", "tensap/functions/measures/product_measure.py:ProductMeasure.mass")
p("Selection of the ranks to increase",
  "new_rank_selection(f) of a TreeBasedTensorLearning returns the ranks of f increased by one for the enriched nodes and no others. An enriched node is not the root, an inactive leaf or an active leaf with a square tensor, its smallest singular value (in the corrected tensor) is not almost zero, and its rank can be increased (it is not the product of the ranks of its children, none of which can be increased). The new ranks are admissible, or nothing changes; a candidate with a smallest singular value at least that of an enriched node is enriched; those with a value at least theta times the largest are all enriched, unless nothing changes.",
  "all well-formed tree-based tensors, singular values, ranks and nonnegative theta",
  "all trees and singular values",
  TBL+":TreeBasedTensorLearning.new_rank_selection")
p("Values distinct up to a tolerance",
  "unique_tol(inp, tol) of positive values returns values of the input in increasing order, each more than 1 + tol times those before it, and every value of the input is at most 1 + tol times a value returned below it.",
  "all lists of positive values (and nan) and nonnegative tolerances",
  "all lists of real numbers",
  TBL+":TreeBasedTensorLearning.unique_tol")
p("Random enrichment of the edges",
  "enriched_edges_to_ranks_random(f, new_rank) returns a tensor with the ranks new_rank.",
  "all well-formed tree-based tensors and admissible ranks at least those of f",
  "all trees, ranks and random draws",
  TBL+":TreeBasedTensorLearning.enriched_edges_to_ranks_random")
p("Random exploration of the parameters",
  "randomize_exploration_strategy() returns an order in which every parameter is visited exactly once; for a canonical tensor the core is the last.",
  "all tensors and random draws",
  "all trees, orders and random permutations",
  TBL+":TreeBasedTensorLearning.randomize_exploration_strategy", CTL+":CanonicalTensorLearning.randomize_exploration_strategy")
p("Tensor trains",
  "TreeBasedTensor.tensor_train(cores) of d >= 2 cores of compatible positive sizes (n_1 x r_1, r_1 x n_2 x r_2, ..., r_{d-1} x n_d, the last one possibly with an output axis) is a well-formed tensor on the linear tree, of shape n_1 x ... x n_d, and full()[i_1, ..., i_d] is the product of the slices i_k of the cores.",
  "all numbers of cores, sizes, entries and subscripts",
  "any number of cores and any entries",
  TB+":TreeBasedTensor.tensor_train")
p("Tensor trains with given dimensions",
  "TreeBasedTensor.tensor_train(cores, dims), for a list or an array of cores and a permutation dims, uses the core i for the dimension dims[i].",
  "all lists and arrays of cores, all permutations",
  "any number of cores, all permutations",
  TB+":TreeBasedTensor.tensor_train")
p("Polynomials given by their coefficients",
  "For polynomials whose poly_coeff(ind) gives the coefficients (Hermite, Legendre, canonical), the generic polyval(ind, x) gives their values, d_poly_coef(ind) and dn_poly_coeff(n, ind), n at most the largest degree, give the coefficients of the derivatives of order 1 and n.",
  "all families of polynomials, indices, points and orders of differentiation",
  "all degrees, orders and points",
  "tensap/functions/polynomials/polynomials.py:UnivariatePolynomials.polyval", "tensap/functions/polynomials/polynomials.py:UnivariatePolynomials.d_poly_coef", "tensap/functions/polynomials/polynomials.py:UnivariatePolynomials.dn_poly_coeff", "tensap/functions/polynomials/polynomials.py:CanonicalPolynomials.poly_coeff")
p("Derivatives of any order of polynomials given by their coefficients",
  "The generic dn_polyval(n, ind, x) gives the values at x of the derivatives of order n of the polynomials ind.",
  "all families of polynomials, indices, points and orders of differentiation",
  "all degrees, orders and points",
  "tensap/functions/polynomials/polynomials.py:UnivariatePolynomials.dn_polyval", "tensap/functions/polynomials/polynomials.py:UnivariatePolynomials.d_polyval")
p("Canonical polynomials",
  "CanonicalPolynomials.polyval(ind, x) gives the powers x ** ind, d_polyval their derivatives; moment(ind, measure) gives the integrals of the products of powers for a Normal, Uniform or Lebesgue measure, mean(ind, measure) their quotients by the mass of the measure; the measure of the polynomials is used if none is given, and without a measure they raise.",
  "all indices, points and such measures",
  "all degrees and all measures of the families",
  "tensap/functions/polynomials/polynomials.py:CanonicalPolynomials.d_polyval", "tensap/functions/polynomials/polynomials.py:UnivariatePolynomials.moment", "tensap/functions/polynomials/polynomials.py:UnivariatePolynomials.mean")
p("Tree-based rank of a tensor",
  "The property rank of a tree-based tensor gives, for each active node other than the root, the rank of the full tensor with respect to the dimensions of the node: the least number of products of a function of the subscripts of these dimensions and of a function of the other subscripts whose sum is the tensor. It is at most the representation rank (ranks), and 0 for the inactive nodes.",
  "all tree-based tensors with real entries, all trees and ranks",
  "any tensor: minimality ranges over all decompositions",
  TB+":TreeBasedTensor.rank", TB+":TreeBasedTensor.representation_rank")
p("Sparse storage and complexities",
  "sparse_storage() <= sparse_leaves_storage() <= storage(), with equality with the third if no entry of the leaves is zero, with the first if no entry of the internal nodes is; ModelSelection.complexity_tree_based_tensor of type standard is the storage, grassman and stiefel subtract the sums of r^2 and r(r+1)/2 over the ranks, so that grassman <= stiefel <= standard, and 0 <= grassman for admissible ranks with one output; other types raise ValueError.",
  "all tree-based tensors",
  "all trees and ranks",
  TB+":TreeBasedTensor.sparse_leaves_storage", TB+":TreeBasedTensor.sparse_storage", MS+":ModelSelection.complexity_tree_based_tensor")
p("Products by diagonal matrices",
  "TreeBasedTensor.tensor_diagonal_matrix_product(matrices, dims) multiplies each entry of the full tensor by the product of the diagonal entries at its subscripts, and keeps the shape.",
  "all tree-based tensors, distinct dimensions, diagonals of the right sizes",
  "all sizes and entries",
  TB+":TreeBasedTensor.tensor_diagonal_matrix_product")
p("Left multiplication by a matrix",
  "M * x, for a tree-based tensor x with c > 1 outputs and a matrix M with c columns, is the tensor whose outputs are the combinations of those of x by the rows of M, and its attribute ranks is that of the node tensors; other matrices raise ValueError.",
  "all tree-based tensors and matrices",
  "all sizes and entries",
  TB+":TreeBasedTensor.__rmul__")
p("Activity of dimensions",
  "is_active_dim(dim), for a dimension or an array of dimensions, tells whether the leaves of these dimensions are active.",
  "all tree-based tensors and dimensions",
  "all trees",
  TB+":TreeBasedTensor.is_active_dim")
p("Changing the root of a tree-based tensor",
  "For a tree-based tensor without output axis whose root has at least two sons, and an active node, change_root(node) returns a valid tensor on the tree tree.change_root(node), with root node and with the same shape and the same entries. The rank of each edge of the path from the node to the former root is kept, moved to its other end; the other ranks are unchanged. An inactive node raises AssertionError.",
  "all tree-based tensors with entries in a commutative semiring, all trees and active nodes (leaves and internal nodes)",
  "all trees, ranks, nodes and entries",
  TB+":TreeBasedTensor.change_root", DT+":DimensionTree.change_root")
p("Changing the root of a tree-based tensor with several outputs",
  "If the root has an output axis, change_root(node) adds a leaf for this axis and returns a tensor of order one more with the same entries.",
  "all tree-based tensors whose root has an output axis",
  "all trees and nodes",
  TB+":TreeBasedTensor.change_root")
p("Product of polynomial bases",
  "The Kronecker product p.kron(q) of two bases of orthonormal polynomials of a measure is a basis of the products p_i q_j: for every pair (i, j) it has a function equal to p_i q_j.",
  "all orthonormal polynomials of a probability measure, all families of degrees",
  "all measures, degrees and points",
  PFB+":PolynomialFunctionalBasis.kron")
p("Product of functional tensors",
  "f * g is the function whose value at x is f(x) g(x), output by output for functions with several outputs, when self.bases.kron(g.bases) is the basis of the products. Different numbers of outputs raise ValueError.",
  "all functional tensors on a dense or tree-based tensor with entries in a commutative semiring, all bases and points",
  "all formats, ranks, bases, entries and points",
  FTN+":FunctionalTensor.__mul__")
p("Product of a functional tensor by a number",
  "f * s is the function whose value at x is s f(x).",
  "all functional tensors on a dense or tree-based tensor with entries in a commutative semiring, all numbers, bases and points",
  "all formats, ranks, bases, entries and points",
  FTN+":FunctionalTensor.__mul__")
p("Basis adaptation path of a node",
  "In the alternating minimization with basis adaptation, the path built for a node has one row per entry of its tensor, in the order of the columns of the design matrix, and one column per choice of a set of basis functions for each axis that is a dimension of the tensor; a column keeps an entry exactly when each such subscript is in its set. Hence coefficients supported in a column give a node tensor whose nonzero entries are at kept subscripts.",
  "all well-formed tree-based tensors, active nodes (leaves, internal nodes, root), families of sets of basis functions",
  "all trees, ranks, activities and sets",
  TBL+":TreeBasedTensorLearning.create_basis_adaptation_path", TBL+":TreeBasedTensorLearning.set_parameter")
p("Basis adaptation path of a merged node",
  "In the DMRG algorithm, the path built for a node merged with its parent has one row per entry of the merged tensor, whose axes are those of the node, then those of its parent without it in the same order, then the rank axis of the parent; a column keeps an entry exactly when all its subscripts along dimensions are in the chosen sets. In the low-rank variant, the two factors get their own paths.",
  "all well-formed tree-based tensors, active nodes other than the root, families of sets of basis functions",
  "all trees, ranks, activities and sets",
  TBL+":TreeBasedTensorLearning.create_basis_adaptation_path_dmrg", TBL+":TreeBasedTensorLearning.create_basis_adaptation_path_dmrg_low_rank")
p("Contraction along all dimensions but one with matrices",
  "For two full tensors of the same order and one matrix per dimension, tensordot_matrix_product_except_dim(y, matrices, d) returns the matrix whose entry (i, j) is the sum, over the subscripts of x and of y along the other dimensions, of the products of the entries of x and y (with i and j along d) and of the entries of the matrices. The matrix of dimension d is not used; a wrong number of matrices is refused.",
  "all full tensors of the same order, dimensions and matrices of compatible sizes",
  "all orders, sizes and entries",
  FT+":FullTensor.tensordot_matrix_product_except_dim")
p("Gradient with respect to a merged node",
  "For a function in tree-based format and a node alpha other than the root, parameter_gradient_eval_dmrg(alpha) returns an array with one row per point, then the axes of the tensor obtained by merging alpha with its parent gamma (axes of alpha without its rank, of gamma without alpha, then the rank of gamma and the output axis of the function when gamma is not the root). Whatever the tensors put at alpha and gamma, the value of the function at point k is the contraction of row k with the merged tensor: the learning problem of the DMRG algorithm is linear.",
  "all well-formed tree-based tensors, bases evaluations, nodes other than the root, tensors of the two nodes",
  "all trees, ranks, points and parameters",
  FTN+":FunctionalTensor.parameter_gradient_eval_dmrg", TB+":TreeBasedTensor.parameter_gradient_eval_diag_dmrg", TB+":TreeBasedTensor.eval_diag_below", TB+":TreeBasedTensor.eval_diag_above")
p("Factors of the gradient with respect to a merged node",
  "With dmrg_type='dmrg_low_rank', parameter_gradient_eval_dmrg(alpha) returns two factors, one for alpha without its rank and one for the other axes of its parent; the value of the function at point k is the contraction of the product of the rows k of the factors with the merged tensor, whatever the tensors of the two nodes.",
  "all well-formed tree-based tensors, bases evaluations, nodes other than the root, tensors of the two nodes",
  "all trees, ranks, points and parameters",
  FTN+":FunctionalTensor.parameter_gradient_eval_dmrg", TB+":TreeBasedTensor.parameter_gradient_eval_diag_dmrg")
p("Update of a merged node in the DMRG learning algorithm",
  "In the DMRG variant of tree-based learning with rank adaptation, the coefficients of the least-squares problem posed on the merged node are truncated and split into new tensors of alpha and its parent: the tensor keeps its tree, its other nodes and its sizes, its new rank is at most the maximal rank, and the new function takes at every training point the value of the model with the truncated coefficients. Without maximal rank this value differs from that of the model by at most the tolerance times the norms of the coefficients and of the row of the design matrix.",
  "all well-formed tree-based tensors, bases evaluations, nodes other than the root, coefficients, truncators without thresholding",
  "all trees, ranks, coefficients and tolerances; the error bound is a universal inequality",
  TBL+":TreeBasedTensorLearning._solve_dmrg_rank_adaptation", TR+":Truncator.truncate")
p("Update of a merged node from a low-rank function",
  "With the type 'dmrg_low_rank', the low-rank function of two variables learned on the two factors of the gradient is put in the tensors of alpha and its parent: the tensor stays well formed, the rank of alpha is that of the learned function, and the new function takes at every training point the value of the learned function.",
  "all well-formed tree-based tensors, bases evaluations, nodes other than the root, functions learned on the factors",
  "all trees, ranks and learned functions",
  TBL+":TreeBasedTensorLearning._solve_dmrg_rank_adaptation")
p("Optimization of the tree never increases the storage",
  "Whatever the random choices, optimize_dimension_tree and optimize_leaves_permutations return the tensor itself, or a tensor of strictly smaller storage whose ranks are admissible.",
  "all tensors without inactive internal node, random choices, tolerances, numbers of iterations, results of the exchanges of nodes",
  "the routines are random: the claim is about every sequence of choices",
  TB+":TreeBasedTensor.optimize_dimension_tree", TB+":TreeBasedTensor.optimize_leaves_permutations")
p("Optimization of the tree respects the tolerance",
  "If each exchange of two nodes respects the tolerance it is given, relative to the norm of its argument, and does not increase the norm, then whatever the random choices the tensor returned by optimize_dimension_tree and optimize_leaves_permutations is at a relative distance at most the tolerance of the initial tensor (the tolerances of the exchanges of several iterations accumulate to no more).",
  "all tensors, tolerances, random choices and numbers of iterations",
  "the bound is on a sum of errors over every history of accepted and rejected iterations",
  TB+":TreeBasedTensor.optimize_dimension_tree", TB+":TreeBasedTensor.optimize_leaves_permutations")
p("Cost of the exchange of two nodes",
  "nodes_permutation_cost(alpha) is zero exactly at the nodes whose exchange with alpha is impossible or without effect (ancestors, descendants, itself, siblings); elsewhere it is the product of the rank of the deepest common ancestor and of the ranks of all the nodes hanging from the paths to the two nodes, where the rank of an inactive leaf is its size. Hence the nodes drawn can be exchanged.",
  "all valid trees, positive ranks, pairs of nodes",
  "all trees and pairs of nodes",
  TB+":TreeBasedTensor.nodes_permutation_cost", TB+":TreeBasedTensor.permute_nodes")
p("Termination of the optimization of the tree",
  "optimize_dimension_tree terminates for every tensor and every sequence of random choices.",
  "all tensors, numbers of iterations and random choices",
  "termination for every sequence of random choices",
  TB+":TreeBasedTensor.optimize_dimension_tree")
p("Adaptation of the dimension tree during learning",
  "adapt_tree leaves the function and the tree unchanged, or replaces the tensor by one of strictly smaller storage, takes its tree and reports it; the function then changes by at most the tolerance used, relative to its norm, which is the tolerance of the options, else the test error, else the cross-validation error.",
  "all functions in tree-based format, options, errors and random choices",
  "all tensors and sequences of random choices",
  TBL+":TreeBasedTensorLearning.adapt_tree")
p("Rank-one correction does not increase the training risk",
  "With the square loss, the rank-one correction of a function never fails and returns the function plus another one (or the other one alone when there is no function), and its sum of squared errors at the training points is at most that of the function.",
  "all functions, data, bases, orders of the nodes, results of the linear solvers",
  "the inequality is on a composition of minimizations over every training set",
  TBL+":TreeBasedTensorLearning.rank_one_correction")
p("Membership in a box",
  "is_in(B, x) returns one boolean per point, true exactly when the point is in the closed box of extreme points B[0] and B[1]; points with fewer coordinates than the box are refused. For an interval, a vector x of numbers is a set of points.",
  "all boxes, dimensions and sets of points",
  "all boxes and points",
  "tensap/functions/sets/is_in.py:is_in")
p("Random multi-indices",
  "random_multi_indices(shape) returns a random vector with independent components with the uniform law on the multi-indices of the box (or of the product of the given lists), and does not modify its argument.",
  "all lists of positive sizes, or of lists of distinct values",
  "a law on all multi-indices, and the effect of repeated calls",
  "tensap/functions/measures/random_multi_indices.py:random_multi_indices")
p("Evaluation of a tree-based tensor at multi-indices",
  "eval_at_indices(I) of a tree-based tensor returns, for each row of I (or each column, when the number of columns is not the order), in the given order and with repetitions, the entry of the represented tensor at this multi-index; matrices of another size are refused.",
  "all tree-based tensors (any tree, active or inactive leaves, rank axis at the root) and all nonempty lists of multi-indices",
  "all trees, ranks and lists of points",
  TB+":TreeBasedTensor.eval_at_indices")
p("Evaluation of a tree-based tensor at indices of some dimensions",
  "eval_at_indices(I, dims) with one dimension returns the tensor restricted to the given subscripts of this dimension; with one point in several dimensions it returns the tensor in the other dimensions (the entry when there is none).",
  "all tree-based tensors, dimensions and points",
  "all trees and sets of dimensions",
  TB+":TreeBasedTensor.eval_at_indices")
p("Basis of indicator functions",
  "DeltaFunctionalBasis(values): eval(x) returns the matrix whose entry (i, mu) is 1 if the i-th point is the mu-th value and 0 otherwise; cardinal() is the number of values, ndim() their dimension, and random(n) returns the evaluations at a random sample.",
  "all finite sets of values in all dimensions and all points",
  "all values and points",
  "tensap/approximation/bases/delta_functional_basis.py:DeltaFunctionalBasis")
p("Basis of given functions",
  "UserDefinedFunctionalBasis(h): eval(x) returns the matrix whose column mu is given by the values of the mu-th function at the points, a constant being accepted and an array of another size refused; cardinal() is the number of functions, ndim() is input_dim, by default the dimension of the measure; random(n) returns the evaluations at the sample, with the sample.",
  "all lists of functions and all points",
  "all functions and points",
  "tensap/approximation/bases/user_defined_functional_basis.py:UserDefinedFunctionalBasis","tensap/approximation/bases/functional_basis.py:FunctionalBasis.random")
p("Test error of a function",
  "f.test_error(g, n, measure) returns the relative l2 and linf errors of f, with reference g (a function or evaluations), at the test points n, or at a sample of n points of the measure (by default the one of f, otherwise the one of g); the l2 error is zero exactly when f and g agree at the points (g not zero); evaluations whose number is not the number of points are refused.",
  "all functions with values of any size, all sets of test points and samples",
  "all functions, points and samples",
  FN+":Function.test_error")
p("Random evaluations of a function",
  "f.random(n, measure) returns the evaluations of f at n points drawn from the given probability measure, by default the measure of f, with the points; without a probability measure it raises ValueError.",
  "all functions, measures and samples",
  "all measures, given or not",
  FN+":Function.random")
p("Preparation of a linear learning problem",
  "LinearModelLearning.initialize() evaluates the basis at the training inputs, and at the test inputs when the test error is required, keeps the evaluations that are given, disables the test error when it cannot be computed, and refuses missing inputs.",
  "all bases, data (lists or arrays) and given evaluations",
  "all combinations of given attributes",
  "tensap/approximation/learning/linear_model_learning.py:LinearModelLearning.initialize")
p("Loss function for density estimation",
  "DensityL2LossFunction: the risk of f on a sample is the squared norm of f minus twice the mean of f on the sample, f being a function or its evaluations with its norm; its expectation for a sample of density p is the squared distance of f to p up to a constant; test_error is the risk.",
  "all functions, samples, norms; all densities on finite sets",
  "all samples and an expectation over samples",
  "tensap/approximation/learning/loss_functions.py:DensityL2LossFunction")
p("Discrete measures",
  "DiscreteMeasure(values, weights): the weights are one by default, a wrong number of weights is refused, mass() is their sum, ndim() the dimension of the values, support() the least and greatest coordinates of the values, and two measures are equal exactly when they have the same values and weights.",
  "all finite sets of values in all dimensions, all weights",
  "all values and weights",
  "tensap/functions/measures/discrete_measure.py:DiscreteMeasure")
p("Sampling of a discrete measure",
  "DiscreteMeasure.random(n) returns n of the values, each one drawn with a probability proportional to its weight, for values in any dimension.",
  "all discrete measures with nonnegative weights, not all zero, and all uniform samples",
  "all measures, a law on the values",
  "tensap/functions/measures/discrete_measure.py:DiscreteMeasure.random","tensap/functions/measures/discrete_random_variable.py:DiscreteRandomVariable.icdf")
p("Risk of a custom loss",
  "CustomLossFunction: eval applies the loss given by the user to the observations and to the predictions of an object with eval, of a callable or of an array, and to zero predictions for the reference; the risk of a loss applied entry by entry is its mean over the observations, and is zero exactly for exact predictions when the loss vanishes only there.",
  "all losses, predictors, observations and predictions with any number of samples",
  "all losses and sample sizes",
  "tensap/approximation/learning/loss_functions.py:CustomLossFunction")
p("Test error of a custom loss",
  "CustomLossFunction.test_error returns the risk or the error function of the user, of the type given by error_type; relative_test_error is refused without a function; an exception of the predictor is not hidden.",
  "all custom losses, predictors and samples",
  "all predictors and losses",
  "tensap/approximation/learning/loss_functions.py:CustomLossFunction.test_error")
p("Benchmark functions",
  "multivariate_functions_benchmark(case): each documented name gives a function and the random vector of its variables; at any set of points the function has one value per point, given by the formula of the benchmark at this point only.",
  "all documented names, all parameters, all finite sets of points",
  "all points, dimensions and coefficients",
  "tensap/functions/multivariate_functions_benchmark.py:multivariate_functions_benchmark")
p("Means of benchmark functions",
  "The function of Sobol and the function polynomial of multivariate_functions_benchmark have the mean one for the returned random vector, in any dimension and for all coefficients of Sobol's function other than minus one.",
  "all dimensions and coefficients",
  "integrals over cubes of every dimension",
  "tensap/functions/multivariate_functions_benchmark.py:multivariate_functions_benchmark")
os.chdir(os.path.dirname(os.path.dirname(os.path.abspath(__file__))))
with open("properties.jsonl","w") as f:
    for x in P: f.write(json.dumps(x)+"\n")
print(len(P))
