{"id": "C01", "title": "Base-b digit conversion is a bijection", "statement": "For every base b and digit count d, integer2baseb followed by baseb2integer returns the original integer for every integer in [0, b**d), baseb2integer followed by integer2baseb returns the original digit row for every row of d digits below b, the digits are written most significant first, and integers or digits out of range are refused with an error rather than wrapped. With the digit count left out, d is the least number of digits that can hold the largest integer.", "quantifier": "all bases b>=1, all d, all integers and digit rows, in range or out of it", "why_tests_cant": "the domain (b, d, i) is unbounded; a test only samples a few bases and lengths and would not see a digit-order error that cancels in both directions", "anchors": ["tensap/tools/utils.py:integer2baseb", "tensap/tools/utils.py:baseb2integer"]}
{"id": "C02", "title": "Linear indices and subscripts are inverse and column-major", "statement": "sub2ind(shape) and ind2sub(shape, .) are mutually inverse on the box of valid subscripts and on range(prod(shape)); the first subscript varies fastest; out-of-range subscripts or indices are errors.", "quantifier": "all shapes (any order, any sizes), all subscripts and all linear indices", "why_tests_cant": "unbounded order and sizes; order-of-storage errors only show for non-square shapes", "anchors": ["tensap/tools/multi_indices.py:MultiIndices.sub2ind", "tensap/tools/multi_indices.py:MultiIndices.ind2sub"]}
{"id": "C03", "title": "product_set is exactly the Cartesian product", "statement": "product_set(L) contains a multi-index iff every component belongs to the corresponding list, has prod(len) rows, has no duplicate row when the lists have none, and enumerates the first component fastest.", "quantifier": "all lists of integer arrays, of any length and content", "why_tests_cant": "cardinality grows exponentially in the dimension; tests can only look at tiny products", "anchors": ["tensap/tools/multi_indices.py:MultiIndices.product_set"]}
{"id": "C04", "title": "bounded_by is exactly the box", "statement": "bounded_by(m, m0) returns, without repetition, exactly the multi-indices i with m0 <= i_k <= m_k for all k, and its rows are in the column-major order used by sub2ind and by the tensor-product grids.", "quantifier": "all bounds m of any length and all lower bounds m0", "why_tests_cant": "unbounded dimension and bounds", "anchors": ["tensap/tools/multi_indices.py:MultiIndices.bounded_by"]}
{"id": "C05", "title": "add_indices is a duplicate-free union", "statement": "I.add_indices(J) contains exactly the rows of I and J, each once, rows of I first in their original order, and adding the same set again changes nothing.", "quantifier": "all pairs of multi-index sets of the same dimension, with or without repeated rows", "why_tests_cant": "depends on every pattern of repetitions and overlaps", "anchors": ["tensap/tools/multi_indices.py:MultiIndices.add_indices"]}
{"id": "C06", "title": "remove, keep and intersect act as set operations", "statement": "remove_indices(J) removes exactly the rows that are in J and keeps the order of the others; intersect_indices(J) returns exactly the common rows; remove_indices(k) / keep_indices(k) with row numbers select exactly the complementary / designated rows; remove and intersect partition I.", "quantifier": "all multi-index sets I, J and all row-number lists", "why_tests_cant": "depends on every overlap pattern", "anchors": ["tensap/tools/multi_indices.py:MultiIndices.remove_indices", "tensap/tools/multi_indices.py:MultiIndices.intersect_indices", "tensap/tools/multi_indices.py:MultiIndices.keep_indices"]}
{"id": "C07", "title": "get_margin is exactly the margin", "statement": "I.get_margin() returns, without repetition, exactly the multi-indices that are not in I and that are obtained from an element of I by adding one to one component; it is empty only if I is empty or the dimension is zero.", "quantifier": "all finite multi-index sets in any dimension", "why_tests_cant": "the neighbour enumeration uses a flattened 3-way array; an indexing slip shows only for particular (n, d)", "anchors": ["tensap/tools/multi_indices.py:MultiIndices.get_margin"]}
{"id": "C08", "title": "get_reduced_margin gives exactly the admissible enrichments", "statement": "For a downward closed I, a multi-index belongs to I.get_reduced_margin() iff it is not in I, is a neighbour of I, and adding it to I keeps the set downward closed; hence adding any subset of the reduced margin keeps I downward closed, so adaptive enrichment always stays in downward closed sets.", "quantifier": "all finite downward closed sets in any dimension, and all enrichment histories", "why_tests_cant": "adaptive histories are unbounded", "anchors": ["tensap/tools/multi_indices.py:MultiIndices.get_reduced_margin", "tensap/tools/multi_indices.py:MultiIndices.get_margin"]}
{"id": "C09", "title": "get_maximal_indices gives exactly the maximal elements", "statement": "On a downward closed set I, get_maximal_indices() returns exactly the elements of I that have no other element of I above them componentwise, and I is the union of the boxes below them.", "quantifier": "all finite downward closed sets", "why_tests_cant": "requires quantifying over all sets and all comparable pairs", "anchors": ["tensap/tools/multi_indices.py:MultiIndices.get_maximal_indices"]}
{"id": "C10", "title": "is_downward_closed decides downward closedness", "statement": "is_downward_closed() terminates on every set of multi-indices with nonnegative components and returns True exactly when each multi-index that is componentwise below (and above the lower bound m) an element of the set is in the set.", "quantifier": "all finite sets of multi-indices and all lower bounds m", "why_tests_cant": "the loop skips elements already covered by an earlier box; correctness of the skip, and termination, need an induction over all sets", "anchors": ["tensap/tools/multi_indices.py:MultiIndices.is_downward_closed"]}
{"id": "C11", "title": "with_bounded_norm(d, 1, m) is the total-degree set", "statement": "with_bounded_norm(d, 1, m) contains exactly the multi-indices of dimension d whose sum is at most m, each once.", "quantifier": "all dimensions d and all degrees m", "why_tests_cant": "set size is binomial(m+d, d): tests cannot enumerate", "anchors": ["tensap/tools/multi_indices.py:MultiIndices.with_bounded_norm"]}
{"id": "C12", "title": "Bounded-norm index sets are complete", "statement": "with_bounded_norm(d, p, m), low_order_interactions-type sets, weighted_hyperbolic_cross_set(d, m, w) and hyperbolic_cross_set(d, m), which are grown margin by margin, contain exactly the multi-indices that satisfy the defining inequality.", "quantifier": "all dimensions, exponents, weights and bounds", "why_tests_cant": "the growth loop's stopping test is wrong only for particular weights or dimensions; completeness must hold for all of them", "anchors": ["tensap/tools/multi_indices.py:MultiIndices.with_bounded_norm", "tensap/tools/multi_indices.py:MultiIndices.hyperbolic_cross_set", "tensap/tools/multi_indices.py:MultiIndices.weighted_hyperbolic_cross_set"]}
{"id": "C13", "title": "sort orders rows lexicographically", "statement": "I.sort(columns, mode) returns a permutation of the rows of I, ordered lexicographically by the listed columns, ascending for mode 'ascend' and descending for mode 'descend', together with the permutation used.", "quantifier": "all multi-index sets, column lists and modes", "why_tests_cant": "tie behaviour in the composed stable sorts depends on the whole data", "anchors": ["tensap/tools/multi_indices.py:MultiIndices.sort"]}
{"id": "C14", "title": "envelope is the least monotone majorant", "statement": "For any list of multi-indices and any values u (one per multi-index), envelope returns a sequence that dominates |u|, is nonincreasing with respect to the componentwise order of the multi-indices, and is the smallest such sequence.", "quantifier": "all value vectors of any length", "why_tests_cant": "extremality quantifies over all other majorants", "anchors": ["tensap/tools/multi_indices.py:MultiIndices.envelope"]}
{"id": "C15", "title": "fast_intersect and fast_setdiff are set operations", "statement": "For duplicate-free integer arrays, fast_intersect(a, b) is the sorted array of the common elements and fast_setdiff(a, b) is the elements of a not in b in the order of a.", "quantifier": "all pairs of integer arrays", "why_tests_cant": "sort-based intersection is right only without duplicates; must hold for all arrays", "anchors": ["tensap/tools/utils.py:fast_intersect", "tensap/tools/utils.py:fast_setdiff"]}
{"id": "C16", "title": "Tree constructors yield valid dimension trees", "statement": "DimensionTree.trivial(d), linear(d) and balanced(d) return trees whose every node but one has exactly one parent, whose leaves are in bijection with the d dimensions, whose nodes all are reachable from the root, and (linear, balanced) whose internal nodes all have exactly two children; linear(d) nests: each internal node separates one dimension.", "quantifier": "all orders d>=1 (d>=2 for linear and balanced)", "why_tests_cant": "arithmetic in the node-number formulas must be right for every d", "anchors": ["tensap/tensor_algebra/tensors/dimension_tree.py:DimensionTree.trivial", "tensap/tensor_algebra/tensors/dimension_tree.py:DimensionTree.linear", "tensap/tensor_algebra/tensors/dimension_tree.py:DimensionTree.balanced"]}
{"id": "C17", "title": "Derived tree attributes are mutually consistent", "statement": "For every valid tree, parent, children, child_number, sibling, level, root, is_leaf and internal_nodes describe the same tree: j is a child of i iff i is the parent of j, child j occupies position child_number[j] among the children of its parent, the root is the only node without parent and has level 0, and each other node has level one more than its parent.", "quantifier": "all adjacency matrices of rooted trees, any node numbering", "why_tests_cant": "must hold for any numbering of nodes, not just those of the constructors", "anchors": ["tensap/tensor_algebra/tensors/dimension_tree.py:DimensionTree._precompute_attributes", "tensap/tensor_algebra/tensors/dimension_tree.py:DimensionTree.parent", "tensap/tensor_algebra/tensors/dimension_tree.py:DimensionTree.child", "tensap/tensor_algebra/tensors/dimension_tree.py:DimensionTree.child_number"]}
{"id": "C18", "title": "Node dimension sets partition along the tree", "statement": "For every valid tree, the dims of a node is the disjoint union of the dims of its children, the dims of the leaf for dimension k is {k}, the root has all dimensions, and no dimension is lost or duplicated.", "quantifier": "all valid trees with any leaf numbering", "why_tests_cant": "bottom-up level loop must be right for unbalanced trees of any depth", "anchors": ["tensap/tensor_algebra/tensors/dimension_tree.py:DimensionTree.update_dims_from_leaves"]}
{"id": "C19", "title": "ascendants and descendants are the transitive parent relations", "statement": "ascendants(i) lists exactly the proper ancestors of i from parent to root, descendants(i) lists exactly the proper descendants, each once, and j is in descendants(i) iff i is in ascendants(j).", "quantifier": "all valid trees and nodes", "why_tests_cant": "depth unbounded", "anchors": ["tensap/tensor_algebra/tensors/dimension_tree.py:DimensionTree.ascendants", "tensap/tensor_algebra/tensors/dimension_tree.py:DimensionTree.descendants"]}
{"id": "C20", "title": "Tree permute and ipermute are inverse", "statement": "permute(sigma) followed by ipermute(sigma), in either order, restores the association of leaves to dimensions, and permute attaches to leaf i's dimension exactly the relabelled one; the tree shape is not changed.", "quantifier": "all trees and all permutations of the dimensions", "why_tests_cant": "unbounded number of permutations; an inverse/forward mix-up is invisible on involutions", "anchors": ["tensap/tensor_algebra/tensors/dimension_tree.py:DimensionTree.permute", "tensap/tensor_algebra/tensors/dimension_tree.py:DimensionTree.ipermute"]}
{"id": "C21", "title": "Tree equality is faithful", "statement": "tree1 == tree2 is True exactly when the two trees have the same family of dimension subsets level by level (equality up to node numbering).", "quantifier": "all pairs of trees", "why_tests_cant": "negative cases are unbounded; tests use a few equal trees", "anchors": ["tensap/tensor_algebra/tensors/dimension_tree.py:DimensionTree.__eq__"]}
{"id": "C22", "title": "FullTensor transpose and reshape are permutations of entries", "statement": "transpose(dims) sends entry (i_0..i_{d-1}) of the result to the entry of the argument with subscripts permuted by dims, itranspose(dims) is its inverse on both sides, reshape keeps the column-major enumeration (reshape to the old shape restores the tensor), and matricize(dims1, dims2) groups exactly the designated subscripts as rows and the others as columns in column-major order.", "quantifier": "all orders, shapes, permutations and dimension groupings", "why_tests_cant": "unbounded order; inverse/forward mix-ups are invisible for involutions or square shapes", "anchors": ["tensap/tensor_algebra/tensors/full_tensor.py:FullTensor.transpose", "tensap/tensor_algebra/tensors/full_tensor.py:FullTensor.itranspose", "tensap/tensor_algebra/tensors/full_tensor.py:FullTensor.reshape", "tensap/tensor_algebra/tensors/full_tensor.py:FullTensor.matricize"]}
{"id": "C23", "title": "FullTensor mode products follow the multilinear formula", "statement": "tensor_matrix_product(matrices, dims) replaces subscript dims[k] by a sum against row i of matrices[k] and keeps the position of all the subscripts; tensor_vector_product is the contraction of these subscripts; products along different modes commute; successive products along the same mode are the product by the matrix product.", "quantifier": "all tensors over any commutative ring, all dims lists, all matrices of matching sizes", "why_tests_cant": "unbounded order; axis bookkeeping (contract, append, move back) must be right for every position", "anchors": ["tensap/tensor_algebra/tensors/full_tensor.py:FullTensor.tensor_matrix_product", "tensap/tensor_algebra/tensors/full_tensor.py:FullTensor.tensor_vector_product", "tensap/tensor_algebra/tensors/full_tensor.py:FullTensor.tensordot"]}
{"id": "C24", "title": "FullTensor evaluation at indices returns the designated entries", "statement": "eval_at_indices(indices, dims) returns, for each row of indices, the entries (or slices, when dims are only some of the dimensions) of the tensor at these subscripts.", "quantifier": "all tensors, index arrays and subsets of dimensions", "why_tests_cant": "a storage-order mismatch shows only for partial evaluation along two or more dimensions with non-symmetric indices", "anchors": ["tensap/tensor_algebra/tensors/full_tensor.py:FullTensor.eval_at_indices", "tensap/tensor_algebra/tensors/full_tensor.py:FullTensor.eval_diag"]}
{"id": "C25", "title": "FullTensor kron, cat and sub_tensor follow their index formulas", "statement": "kron multiplies entries with subscript i*n+j, cat along dims places the blocks on the diagonal positions and zeros elsewhere, sub_tensor selects exactly the listed subscripts in the listed order, and kron followed by selection of the diagonal subscripts 0, n+1, 2(n+1), ... is the elementwise product.", "quantifier": "all tensors of equal order, all shapes, all dims", "why_tests_cant": "unbounded order and sizes", "anchors": ["tensap/tensor_algebra/tensors/full_tensor.py:FullTensor.kron", "tensap/tensor_algebra/tensors/full_tensor.py:FullTensor.cat", "tensap/tensor_algebra/tensors/full_tensor.py:FullTensor.sub_tensor"]}
{"id": "C26", "title": "Sparse and full formats represent the same tensor", "statement": "x.sparse().full() equals x for every full tensor, s.full().sparse() represents the same entries as s without explicit zeros, and reshape, transpose and itranspose of a sparse tensor agree with those of its full version.", "quantifier": "all tensors of any order, and all sparse tensors with distinct indices", "why_tests_cant": "unbounded order and sizes", "anchors": ["tensap/tensor_algebra/tensors/sparse_tensor.py:SparseTensor.full", "tensap/tensor_algebra/tensors/full_tensor.py:FullTensor.sparse", "tensap/tensor_algebra/tensors/sparse_tensor.py:SparseTensor.transpose", "tensap/tensor_algebra/tensors/sparse_tensor.py:SparseTensor.reshape"]}
{"id": "C27", "title": "Sparse arithmetic agrees with dense arithmetic", "statement": "For sparse tensors x, y of the same shape, (x+y).full() = x.full()+y.full(), (x*y).full() is the elementwise product, x.dot(y) = x.full().dot(y.full()), and results have distinct indices again.", "quantifier": "all pairs of sparse tensors with distinct indices, any overlap of the supports", "why_tests_cant": "all overlap patterns of supports", "anchors": ["tensap/tensor_algebra/tensors/sparse_tensor.py:SparseTensor.__add__", "tensap/tensor_algebra/tensors/sparse_tensor.py:SparseTensor.__mul__", "tensap/tensor_algebra/tensors/sparse_tensor.py:SparseTensor.dot"]}
{"id": "C28", "title": "Sparse contraction with vectors agrees with dense contraction", "statement": "s.tensor_vector_product(vectors, dims) represents s.full().tensor_vector_product(vectors, dims) for every choice of contracted dimensions.", "quantifier": "all sparse tensors, vectors and dims lists, including full contractions", "why_tests_cant": "the failing case (full contraction) is only one of the branches", "anchors": ["tensap/tensor_algebra/tensors/sparse_tensor.py:SparseTensor.tensor_vector_product"]}
{"id": "C29", "title": "Diagonal tensors agree with their full version", "statement": "Addition, negation, subtraction, product, dot, norm, kron, cat, contraction with vectors, evaluation at indices of diagonal tensors return the same as the operation on the full tensors.", "quantifier": "all diagonal tensors of any order and rank", "why_tests_cant": "unbounded order and rank", "anchors": ["tensap/tensor_algebra/tensors/diagonal_tensor.py:DiagonalTensor.full", "tensap/tensor_algebra/tensors/diagonal_tensor.py:DiagonalTensor.__add__", "tensap/tensor_algebra/tensors/diagonal_tensor.py:DiagonalTensor.kron", "tensap/tensor_algebra/tensors/diagonal_tensor.py:DiagonalTensor.dot", "tensap/tensor_algebra/tensors/diagonal_tensor.py:DiagonalTensor.eval_at_indices", "tensap/tensor_algebra/tensors/diagonal_tensor.py:DiagonalTensor.tensor_vector_product"]}
{"id": "C30", "title": "Diagonal eval_diag and rank-one metrics agree with the full version", "statement": "eval_diag(dims) of a diagonal tensor merges exactly the dimensions in dims, and dot_with_rank_one_metric(y, matrices) equals the dense scalar product of x with y multiplied by matrices along each dimension.", "quantifier": "all diagonal tensors, dims lists and matrices", "why_tests_cant": "failing cases are non-contiguous dims, non-symmetric or non-square matrices", "anchors": ["tensap/tensor_algebra/tensors/diagonal_tensor.py:DiagonalTensor.eval_diag", "tensap/tensor_algebra/tensors/diagonal_tensor.py:DiagonalTensor.dot_with_rank_one_metric"]}
{"id": "C31", "title": "Canonical tensor operations agree with their full version", "statement": "full() of the sum, opposite, difference, matrix and vector contractions of canonical tensors is the sum, opposite, ... of the full() of the operands; entry (i_1..i_d) of full() is the sum over terms of the products of the factor entries.", "quantifier": "all canonical tensors of any order, rank and shape", "why_tests_cant": "unbounded order and rank", "anchors": ["tensap/tensor_algebra/tensors/canonical_tensor.py:CanonicalTensor.full", "tensap/tensor_algebra/tensors/canonical_tensor.py:CanonicalTensor.__add__", "tensap/tensor_algebra/tensors/canonical_tensor.py:CanonicalTensor.__neg__", "tensap/tensor_algebra/tensors/canonical_tensor.py:CanonicalTensor.tensor_matrix_product", "tensap/tensor_algebra/tensors/canonical_tensor.py:CanonicalTensor.tensor_vector_product"]}
{"id": "C32", "title": "Canonical dot is the dense scalar product", "statement": "x.dot(y) of two canonical tensors equals the scalar product of x.full() and y.full(), and x.norm()**2 = x.dot(x).", "quantifier": "all pairs of canonical tensors of the same shape, any ranks", "why_tests_cant": "an error that is invisible for x=y (symmetric Gram matrices) needs arbitrary pairs", "anchors": ["tensap/tensor_algebra/tensors/canonical_tensor.py:CanonicalTensor.dot", "tensap/tensor_algebra/tensors/canonical_tensor.py:CanonicalTensor.norm", "tensap/tensor_algebra/tensors/diagonal_tensor.py:DiagonalTensor.dot_with_rank_one_metric"]}
{"id": "C33", "title": "Read-only queries do not change the tensor", "statement": "Evaluating a canonical tensor's diagonal (eval_diag) leaves the tensor unchanged, so that repeating the query returns the same values.", "quantifier": "all canonical tensors and all histories of queries", "why_tests_cant": "needs histories of calls; a single call returns the right value", "anchors": ["tensap/tensor_algebra/tensors/canonical_tensor.py:CanonicalTensor.eval_diag"]}
{"id": "C34", "title": "Tree-based full() is the hierarchical multilinear formula", "statement": "Entry (i_1..i_d) of full() of a tree-based tensor is the sum over all rank indices of the product of node tensors' entries along the tree, for any tree, any active-leaf pattern and any ranks, and dimension k of the result is the dimension attached to leaf k of the tree.", "quantifier": "all trees, ranks, active-node patterns and node tensors", "why_tests_cant": "unbounded trees; the level loop reorders axes at each contraction", "anchors": ["tensap/tensor_algebra/tensors/tree_based_tensor.py:TreeBasedTensor.full"]}
{"id": "C35", "title": "Tree-based arithmetic agrees with dense arithmetic", "statement": "For tree-based tensors on the same tree with the same node numbering, full() of x+y, -x, x-y, c*x is the corresponding operation on the full tensors, whatever the ranks; ranks add up.", "quantifier": "all trees, ranks, node tensors and scalars", "why_tests_cant": "unbounded trees", "anchors": ["tensap/tensor_algebra/tensors/tree_based_tensor.py:TreeBasedTensor.__add__", "tensap/tensor_algebra/tensors/tree_based_tensor.py:TreeBasedTensor.__neg__", "tensap/tensor_algebra/tensors/tree_based_tensor.py:TreeBasedTensor.__sub__", "tensap/tensor_algebra/tensors/tree_based_tensor.py:TreeBasedTensor.__mul__"]}
{"id": "C36", "title": "Tree-based mode products and contractions agree with dense ones", "statement": "full() of tensor_matrix_product(matrices, dims) is the dense mode product, for active and inactive leaves.", "quantifier": "all trees, ranks, node tensors and matrices", "why_tests_cant": "unbounded trees", "anchors": ["tensap/tensor_algebra/tensors/tree_based_tensor.py:TreeBasedTensor.tensor_matrix_product", "tensap/tensor_algebra/tensors/tree_based_tensor.py:TreeBasedTensor.tensor_vector_product"]}
{"id": "C37", "title": "Tree-based Kronecker and elementwise products agree with dense ones", "statement": "full() of kron(x, y) is the dense Kronecker product and full() of x*y is the elementwise product, with node ranks multiplied.", "quantifier": "all trees, ranks and node tensors", "why_tests_cant": "unbounded trees", "anchors": ["tensap/tensor_algebra/tensors/tree_based_tensor.py:TreeBasedTensor.kron", "tensap/tensor_algebra/tensors/tree_based_tensor.py:TreeBasedTensor.__mul__"]}
{"id": "C38", "title": "Tree-based scalar product and norm are the dense ones", "statement": "x.dot(y) computed by node-wise contractions equals the scalar product of the full tensors.", "quantifier": "all pairs of tree-based tensors on one tree, any ranks", "why_tests_cant": "unbounded trees", "anchors": ["tensap/tensor_algebra/tensors/tree_based_tensor.py:TreeBasedTensor.dot", "tensap/tensor_algebra/tensors/tree_based_tensor.py:TreeBasedTensor.norm"]}
{"id": "C39", "title": "Orthogonalisation does not change the represented tensor", "statement": "orth() and orth_at_node(n) return a tensor with the same full(), in which the designated nodes are orthonormal, for any exact QR factorisation.", "quantifier": "all tree-based tensors, all nodes", "why_tests_cant": "unbounded trees; sequences of gauge changes", "anchors": ["tensap/tensor_algebra/tensors/tree_based_tensor.py:TreeBasedTensor.orth", "tensap/tensor_algebra/tensors/tree_based_tensor.py:TreeBasedTensor.orth_at_node"]}
{"id": "C40", "title": "Rank admissibility is decided correctly", "statement": "is_admissible_rank(ranks) answers True exactly when each node's rank is at most the product of the ranks of the nodes around it (children, or parent and siblings; mode sizes for inactive leaves).", "quantifier": "all trees, leaf numberings, active patterns and rank vectors", "why_tests_cant": "the failing case needs a leaf numbering that is not increasing in the dimension and inactive leaves", "anchors": ["tensap/tensor_algebra/tensors/tree_based_tensor.py:TreeBasedTensor.is_admissible_rank"]}
{"id": "C41", "title": "SVD truncation keeps the least sufficient rank", "statement": "trunc_svd with tolerance tol keeps the least rank whose discarded singular values have relative l2 norm below tol (all of them if there is none, as for a zero matrix), never more than max_rank, at least one; without maximal rank the truncation error is then at most tol relatively, and hosvd / hsvd share the tolerance over the nodes so that the total relative error is at most tol.", "quantifier": "all nonincreasing singular value sequences, tolerances and maximal ranks", "why_tests_cant": "off-by-one in rank selection shows only at threshold cases", "anchors": ["tensap/tensor_algebra/tools/truncator.py:Truncator.trunc_svd", "tensap/tensor_algebra/tools/truncator.py:Truncator.hosvd", "tensap/tensor_algebra/tools/truncator.py:Truncator.hsvd"]}
{"id": "C42", "title": "Tensorisation of a variable is a bijection", "statement": "map followed by inverse_map returns the point for every point of the domain, inverse_map followed by map returns (i_1..i_L, y) for digits below b and y in [0,1), for each ordering type, in any dimension; the last point of the domain is kept inside.", "quantifier": "all resolutions, bases, dimensions, ordering types and points", "why_tests_cant": "boundary points (multiples of b**-L, right end) are null sets", "anchors": ["tensap/functions/tensorizer.py:Tensorizer.map", "tensap/functions/tensorizer.py:Tensorizer.inverse_map"]}
{"id": "C43", "title": "Penalised model selection follows the lower envelope", "statement": "m_lambda(l) minimises risk + l * complexity; lambda_path returns increasing l values and the models minimising on each interval between them.", "quantifier": "all lists of complexities and risks and all l", "why_tests_cant": "ties and dominated models are special configurations", "anchors": ["tensap/approximation/tools/model_selection.py:ModelSelection.m_lambda", "tensap/approximation/tools/model_selection.py:ModelSelection.lambda_path"]}
{"id": "C44", "title": "Discrete cdf and quantile function form a Galois connection", "statement": "For a discrete random variable, icdf(p) <= x iff p <= cdf(x), icdf(p) is a value of the variable for p in (0,1], cdf is nondecreasing with values in [0,1].", "quantifier": "all value and probability lists, all p and x", "why_tests_cant": "threshold cases and unsorted values", "anchors": ["tensap/functions/measures/discrete_random_variable.py:DiscreteRandomVariable.cdf", "tensap/functions/measures/discrete_random_variable.py:DiscreteRandomVariable.icdf"]}
{"id": "C45", "title": "Moments do not depend on earlier queries", "statement": "moment(ind) returns the raw moments of the orders in ind whatever moments were requested before.", "quantifier": "all random variables and all histories of moment requests", "why_tests_cant": "needs sequences of calls; each single call on a fresh object is right", "anchors": ["tensap/functions/measures/random_variable.py:RandomVariable.moment"]}
{"id": "C46", "title": "Tensor grids, weights and indices use one ordering", "statement": "The rows of FullTensorGrid.array(), the weights of the tensorised integration rule and the column-major multi-indices are in the same order, so that the tensorised rule integrates each product function to the product of the 1-d rules' results.", "quantifier": "all lists of 1-d grids and rules of any sizes, all product functions", "why_tests_cant": "order mismatches are invisible for equal or symmetric 1-d rules", "anchors": ["tensap/tools/grids.py:FullTensorGrid.array", "tensap/approximation/integration/integration_rules.py:FullTensorProductIntegrationRule.weights_on_grid"]}
{"id": "C47", "title": "Arrays of basis functions keep their coefficients", "statement": "FunctionalBasisArray(data, basis, shape) stores data such that output component j of the function is the expansion with the coefficients given for j, and unary/binary arithmetic acts coefficientwise.", "quantifier": "all coefficient arrays, shapes and bases, and chains of operations", "why_tests_cant": "a storage-order scramble is invisible for scalar-valued functions", "anchors": ["tensap/approximation/bases/functional_basis_array.py:FunctionalBasisArray.__init__", "tensap/approximation/bases/functional_basis_array.py:FunctionalBasisArray.__add__", "tensap/approximation/bases/functional_basis_array.py:FunctionalBasisArray.eval"]}
{"id": "C48", "title": "Tensor product basis evaluations, means and indices use one ordering", "statement": "Column k of eval(x) of a full tensor-product basis is the product of 1-d basis functions with the k-th multi-index of its index set, and entry k of mean() is the mean of this same function.", "quantifier": "all tuples of 1-d bases", "why_tests_cant": "order mismatches are invisible for equal 1-d bases", "anchors": ["tensap/approximation/bases/full_tensor_product_functional_basis.py:FullTensorProductFunctionalBasis.eval", "tensap/approximation/bases/full_tensor_product_functional_basis.py:FullTensorProductFunctionalBasis.mean", "tensap/approximation/bases/sparse_tensor_product_functional_basis.py:SparseTensorProductFunctionalBasis.eval"]}
{"id": "C49", "title": "Comparisons of product objects are faithful", "statement": "Two product measures or two collections of bases compare equal only if they have the same number of components and the components are equal pairwise.", "quantifier": "all pairs of lists of components", "why_tests_cant": "length mismatch is a negative case", "anchors": ["tensap/functions/measures/product_measure.py:ProductMeasure.__eq__", "tensap/approximation/bases/functional_bases.py:FunctionalBases.__eq__"]}
{"id": "C50", "title": "permute_leaves realises the requested permutation", "statement": "permute_leaves(perm) terminates for every permutation perm of the dimensions, decomposes it in at most d - 1 exchanges of two leaves, and returns a tensor, equal to the original one up to the tolerance, whose tree is the original one with the leaf of dimension perm[k] at the place of the leaf of dimension k.", "quantifier": "all permutations of any size", "why_tests_cant": "number of permutations is factorial", "anchors": ["tensap/tensor_algebra/tensors/tree_based_tensor.py:TreeBasedTensor.permute_leaves"]}
{"id": "C51", "title": "Changing the active leaves does not change the tensor", "statement": "activate_nodes(nodes) and inactivate_nodes(nodes) return tensors that represent the same full tensor; nodes that are not leaves, or already in the requested state, are refused or left as documented.", "quantifier": "all tree-based tensors of any order, ranks and active patterns, and all sets of leaves", "why_tests_cant": "the interaction with other leaves and the root depends on the whole pattern of active nodes", "anchors": ["tensap/tensor_algebra/tensors/tree_based_tensor.py:TreeBasedTensor.activate_nodes", "tensap/tensor_algebra/tensors/tree_based_tensor.py:TreeBasedTensor.inactivate_nodes"]}
{"id": "C52", "title": "A discrete random variable is a probability law", "statement": "The constructor accepts exactly the lists of nonnegative weights, one per value, and stores the weights divided by their sum (uniform weights by default).", "quantifier": "all lists of values and weights of positive sum", "why_tests_cant": "lengths and sums are unbounded", "anchors": ["tensap/functions/measures/discrete_random_variable.py:DiscreteRandomVariable.__init__"]}
{"id": "C53", "title": "Standardised discrete variables are centred and reduced", "statement": "get_standard_random_variable() returns a variable with the same probabilities, of mean zero and variance one.", "quantifier": "all discrete laws of nonzero variance", "why_tests_cant": "algebraic identity over all laws", "anchors": ["tensap/functions/measures/discrete_random_variable.py:DiscreteRandomVariable.get_standard_random_variable", "tensap/functions/measures/discrete_random_variable.py:DiscreteRandomVariable.mean", "tensap/functions/measures/discrete_random_variable.py:DiscreteRandomVariable.var"]}
{"id": "C54", "title": "Discretisation of a random variable is a probability law", "statement": "discretize_support(x) returns the values x with nonnegative probabilities of sum one, and its distribution function at x[i] is the one of the variable at the middle of x[i] and x[i+1].", "quantifier": "all distribution functions and all increasing arrays x of any length", "why_tests_cant": "telescoping over any number of points", "anchors": ["tensap/functions/measures/random_variable.py:RandomVariable.discretize_support"]}
{"id": "C55", "title": "The slope heuristic selects at the largest complexity jump", "statement": "slope_heuristic() returns lambda_hat, gap_factor times a breakpoint of the path at which the complexity of the selected model drops most, and m_hat, a model of least penalised risk at lambda_hat.", "quantifier": "all lists of complexities and risks that have a path of breakpoints", "why_tests_cant": "index alignment between the path, its middles and the gaps", "anchors": ["tensap/approximation/tools/model_selection.py:ModelSelection.slope_heuristic"]}
{"id": "C56", "title": "Composite rules integrate interval by interval", "statement": "IntegrationRule.gauss_legendre_composite(knots, n) integrates any function to the sum of its integrals by the rules of the intervals between consecutive sorted knots; a function that every interval rule integrates exactly is integrated exactly between the smallest and the largest knot, in whatever order the knots are given.", "quantifier": "all lists of knots in any order, numbers of points per interval, and integrands", "why_tests_cant": "telescoping over any number of intervals", "anchors": ["tensap/approximation/integration/integration_rules.py:IntegrationRule.gauss_legendre_composite", "tensap/functions/measures/lebesgue_measure.py:LebesgueMeasure.gauss_integration_rule"]}
{"id": "C57", "title": "Gauss rules of product measures are tensor products", "statement": "ProductMeasure.gauss_integration_rule(n) uses n[i] points of the Gauss rule of measure i in direction i (the same number everywhere for a scalar n; another number of numbers is refused), and integrates a product of functions to the product of the one-dimensional integrals; IntegrationRule.tensorize(d) integrates f(x_1)...f(x_d) to the d-th power.", "quantifier": "all lists of measures, numbers of points and product integrands", "why_tests_cant": "any dimension and sizes", "anchors": ["tensap/functions/measures/product_measure.py:ProductMeasure.gauss_integration_rule", "tensap/approximation/integration/integration_rules.py:IntegrationRule.tensorize"]}
{"id": "C58", "title": "Mean and variance of an expansion are those of its values", "statement": "For a FunctionalBasisArray on a basis whose means are exact, mean() is the mean of the evaluations; on an orthonormal basis variance() is the variance of the evaluations and dot(g, 0) is the scalar product of the evaluations, and a basis that is not orthonormal is refused by variance(); get_coefficients() are the coefficients of the evaluations on the basis.", "quantifier": "all coefficient arrays, output shapes, bases and quadratures", "why_tests_cant": "identities over all coefficients", "anchors": ["tensap/approximation/bases/functional_basis_array.py:FunctionalBasisArray.mean", "tensap/approximation/bases/functional_basis_array.py:FunctionalBasisArray.variance", "tensap/approximation/bases/functional_basis_array.py:FunctionalBasisArray.eval_with_bases_evals"]}
{"id": "C59", "title": "Adaptation paths are increasing families of basis functions", "statement": "The columns of adaptation_path() are strictly increasing sets of basis functions, level sets of the norm of the multi-indices (or the first k+1 functions for a 1-d basis), the first is not empty and the last contains every function.", "quantifier": "all index sets and norms", "why_tests_cant": "sizes and ties are unbounded", "anchors": ["tensap/approximation/bases/sparse_tensor_product_functional_basis.py:SparseTensorProductFunctionalBasis.adaptation_path", "tensap/approximation/bases/functional_basis.py:FunctionalBasis.adaptation_path"]}
{"id": "C60", "title": "Families of bases give each basis its own variables", "statement": "FunctionalBases.eval(x, dims) evaluates basis dims[k] at the k-th block of columns of x, whose width is the number of variables of that basis.", "quantifier": "all families of bases with any numbers of variables, all selections dims", "why_tests_cant": "offset arithmetic over any number of blocks", "anchors": ["tensap/approximation/bases/functional_bases.py:FunctionalBases.eval"]}
{"id": "C61", "title": "Means of a family of bases are taken under the matching marginals", "statement": "FunctionalBases.mean(dims, random_vector) returns, for each k, the mean of basis dims[k] under the marginal dims[k] of the random vector.", "quantifier": "all families, selections of dimensions and random vectors", "why_tests_cant": "depends on the alignment of two index lists", "anchors": ["tensap/approximation/bases/functional_bases.py:FunctionalBases.mean"]}
{"id": "C62", "title": "Selecting bases selects their measure", "statement": "keep_bases, remove_bases and transpose return a family whose bases are the selected ones in the requested order and whose measure is the product of their measures.", "quantifier": "all families and selections", "why_tests_cant": "two attributes must stay consistent for every selection", "anchors": ["tensap/approximation/bases/functional_bases.py:FunctionalBases.keep_bases", "tensap/approximation/bases/functional_bases.py:FunctionalBases.remove_bases", "tensap/approximation/bases/functional_bases.py:FunctionalBases.transpose"]}
{"id": "C63", "title": "Selecting dimensions of multi-indices projects the set", "statement": "keep_dims(dims) returns the distinct projections of the multi-indices on dims in order of first occurrence; remove_dims is keep_dims of the other dimensions; projections of downward closed sets are downward closed; a dimension out of range is refused by keep_dims.", "quantifier": "all sets of multi-indices and lists of dimensions", "why_tests_cant": "closure property over all sets", "anchors": ["tensap/tools/multi_indices.py:MultiIndices.keep_dims", "tensap/tools/multi_indices.py:MultiIndices.remove_dims"]}
{"id": "C64", "title": "Orthogonalisation of a dense tensor along a dimension", "statement": "FullTensor.orth(dim) returns q and r such that multiplying q by r along dim gives back the tensor, and the slices of q along dim are orthonormal, for any exact QR factorisation.", "quantifier": "all tensors with non-empty dimensions, any order, any dim", "why_tests_cant": "index permutations at any order and any dim", "anchors": ["tensap/tensor_algebra/tensors/full_tensor.py:FullTensor.orth"]}
{"id": "C65", "title": "Truncation of dense tensors", "statement": "Truncator.truncate and Truncator.hosvd of a dense tensor return a tensor of the same shape whose relative distance to the input in Frobenius norm is at most the tolerance when no maximal rank is given; in every case the squared error is at most the sum over the dimensions of the squares of the discarded singular values, the factor matrices have orthonormal columns, and the ranks respect the maximal ranks.", "quantifier": "all real tensors of order at least two with non-empty dimensions, all tolerances, all maximal ranks (one or one per dimension), any exact SVD", "why_tests_cant": "real matrices of any size and tensors of any order", "anchors": ["tensap/tensor_algebra/tools/truncator.py:Truncator.hosvd", "tensap/tensor_algebra/tools/truncator.py:Truncator.truncate", "tensap/tensor_algebra/tools/truncator.py:Truncator.svd"]}
{"id": "C66", "title": "add_child adds one node and keeps a valid tree", "statement": "add_child(nod) returns a valid tree with one more node, a son of nod; all other edges and the root are unchanged; if nod was a leaf the new node takes its dimension, otherwise it gets a new last dimension.", "quantifier": "all dimension trees and all nodes", "why_tests_cant": "trees of any size and shape", "anchors": ["tensap/tensor_algebra/tensors/dimension_tree.py:DimensionTree.add_child"]}
{"id": "C67", "title": "change_root moves the root and keeps the undirected tree", "statement": "change_root(nod) returns a valid tree rooted at nod in which the original nodes are joined by the same edges, only those between nod and the former root being reversed; if nod was a leaf, a new node takes its dimension; the returned list contains exactly the nodes of the path and their sons.", "quantifier": "all dimension trees whose root has at least two sons, all nodes", "why_tests_cant": "trees of any size and depth", "anchors": ["tensap/tensor_algebra/tensors/dimension_tree.py:DimensionTree.change_root"]}
{"id": "C68", "title": "sub_dimension_tree extracts an isomorphic subtree", "statement": "sub_dimension_tree(root) returns a valid tree isomorphic, through the returned list of nodes, to the subtree below root; the isomorphism keeps the order of the sons of each node, and the dimensions of the extracted tree are dims[root - 1] in this order.", "quantifier": "all dimension trees and all nodes", "why_tests_cant": "trees of any size; the order of the sons depends on the numbering of the nodes", "anchors": ["tensap/tensor_algebra/tensors/dimension_tree.py:DimensionTree.sub_dimension_tree", "tensap/tensor_algebra/tensors/dimension_tree.py:DimensionTree.descendants"]}
{"id": "C69", "title": "node_with_dims finds the nodes with the given dimensions", "statement": "node_with_dims(dims) returns exactly the nodes whose set of dimensions is dims, whatever the order in which they are listed.", "quantifier": "all dimension trees and lists of dimensions", "why_tests_cant": "trees of any size", "anchors": ["tensap/tensor_algebra/tensors/dimension_tree.py:DimensionTree.node_with_dims"]}
{"id": "C70", "title": "Higher-order SVD truncation of a tree-based tensor keeps its shape and respects tolerance and maximal ranks", "statement": "Let z = truncator.hsvd(x) for a well-formed TreeBasedTensor x, with a truncator without thresholding and max_rank infinite, one positive number, or one positive number per node. Then z has the tree, shape and active nodes of x, its rank at every node is between 1 and the rank of x and at most the maximal rank of the node; the squared Frobenius distance between x.full() and z.full() is at most the sum over the active non-root nodes of the discarded singular values of the Gram matrices returned by x.gramians(); and without maximal rank ||x - z|| <= tolerance * ||x||.", "quantifier": "every well-formed tree-based tensor (any tree, any depth, any ranks, inactive leaves, vector-valued output), every tolerance >= 0 and every list of maximal ranks, with any exact QR factorization and singular value decomposition", "why_tests_cant": "the bound must hold for every tensor, tree and tolerance; a test observes one tensor and one tolerance, and the bound is attained only in special configurations", "anchors": ["tensap/tensor_algebra/tools/truncator.py:Truncator.hsvd", "tensap/tensor_algebra/tools/truncator.py:Truncator.trunc_svd", "tensap/tensor_algebra/tensors/tree_based_tensor.py:TreeBasedTensor.gramians", "tensap/tensor_algebra/tensors/tree_based_tensor.py:TreeBasedTensor.orth"]}
{"id": "C71", "title": "Gram matrices of a tree-based tensor are the scalar products of the outer factors", "statement": "Let (g, y) = x.gramians() for a well-formed real TreeBasedTensor x. y.full() equals x.full(). For every active node a other than the root, g[a] is a square matrix whose size is between 1 and the rank of x at a, and the full tensor is a sum over that size of products of orthonormal functions of the dimensions of a and of functions of the other dimensions (and of the output) whose matrix of scalar products is g[a]. g at the root is [[1]], and there is no matrix for inactive nodes. The singular values of g[a] are the squared norms of the terms of a decomposition whose two families are both orthogonal.", "quantifier": "every well-formed tree-based tensor (any tree, depth, ranks, inactive leaves, vector-valued output), every node, any exact QR factorization", "why_tests_cant": "the algorithm propagates matrices from the root through arbitrarily many levels; a test checks one tree", "anchors": ["tensap/tensor_algebra/tensors/tree_based_tensor.py:TreeBasedTensor.gramians", "tensap/tensor_algebra/tensors/tree_based_tensor.py:TreeBasedTensor.orth"]}
{"id": "C72", "title": "Singular values of a tree-based tensor are the singular values of its matricizations", "statement": "Let sv = x.singular_values(). For every active node a other than the root, sv[a] is a nonincreasing list of nonnegative numbers, of length between 1 and the rank of x at a, and the full tensor is a sum of products of orthonormal functions of the dimensions of a and of pairwise orthogonal functions of the other dimensions whose norms are the numbers of the list: these are the singular values of the matricization of the tensor at a. For inactive nodes there is no list.", "quantifier": "every well-formed real tree-based tensor, every active node, any exact QR factorization and singular value decomposition", "why_tests_cant": "the statement relates every node of every tree to the matricization of the full tensor, which tests cannot build for all sizes", "anchors": ["tensap/tensor_algebra/tensors/tree_based_tensor.py:TreeBasedTensor.singular_values", "tensap/tensor_algebra/tensors/tree_based_tensor.py:TreeBasedTensor.gramians"]}
{"id": "C73", "title": "Orthogonalisation at a node keeps the tensor and moves its norm to that node", "statement": "z = x.orth_at_node(a) for an active node a other than the root has the tree, shape, active nodes and full tensor of x and ranks at most those of x; the tensors of the active non-root nodes other than a and its parent have orthonormal slices along their last axis. If the tensor is not zero, x.full() is a sum over the rank of a of products of the functions represented by node a of z and of orthonormal functions of the other dimensions, and the Frobenius norm of the tensor of node a equals the norm of x. orth_at_node(root) is orth(), and a node that is not active raises ValueError.", "quantifier": "every well-formed real tree-based tensor, every node of every tree, with any exact QR, SVD, rank, pseudo-inverse and inverse", "why_tests_cant": "the rank of the Gram matrix may be deficient at any node of any tree; a test with generic tensors never takes the deficient branch", "anchors": ["tensap/tensor_algebra/tensors/tree_based_tensor.py:TreeBasedTensor.orth_at_node", "tensap/tensor_algebra/tensors/tree_based_tensor.py:TreeBasedTensor.gramians"]}
{"id": "C74", "title": "Truncated SVD of a dense tensor in tree-based format: structure, orthogonality and error", "statement": "Truncator.hsvd(FullTensor, tree, is_active_node) returns a tree-based tensor with this tree and these active nodes, of the shape of the tensor; the tensors of the active nodes other than the root have orthonormal slices along their last axis and their ranks respect the maximal ranks; the error is orthogonal to the result (||x - z||^2 = ||x||^2 - ||z||^2), and without maximal rank ||x - z|| <= tolerance ||x||.", "quantifier": "every dense tensor of nonempty shape, every valid tree with as many dimensions (or one less: rank axis of the root), every choice of inactive leaves, every tolerance and list of maximal ranks, with any exact SVD", "why_tests_cant": "trees, shapes and activity patterns are unbounded and the accumulated error of successive truncations depends on all of them", "anchors": ["tensap/tensor_algebra/tools/truncator.py:Truncator.hsvd", "tensap/tensor_algebra/tools/truncator.py:Truncator.trunc_svd"]}
{"id": "C75", "title": "Truncated SVD in tensor-train format", "statement": "Truncator.ttsvd(x) of a dense tensor of order at least two returns a tree-based tensor with the linear tree in which exactly the leaves of the dimensions after the first are inactive, of the shape of x, with orthonormal node tensors except the root, ranks within the maximal ranks, error orthogonal to the result and, without maximal rank, relative error at most the tolerance.", "quantifier": "every dense tensor of order at least two with nonempty shape, every tolerance and list of maximal ranks, with any exact SVD", "why_tests_cant": "the order and the shape are unbounded and the guarantee is on the accumulated error", "anchors": ["tensap/tensor_algebra/tools/truncator.py:Truncator.ttsvd", "tensap/tensor_algebra/tools/truncator.py:Truncator.hsvd"]}
{"id": "C76", "title": "Storage complexity", "statement": "TreeBasedTensor.storage() is the sum over the active leaves of dimension times rank, plus the sum over the internal nodes of the product of the ranks of the children (the dimension for an inactive leaf) times the rank of the node.", "quantifier": "every well-formed tree-based tensor on every tree", "why_tests_cant": "the formula must hold for all trees, ranks and activity patterns", "anchors": ["tensap/tensor_algebra/tensors/tree_based_tensor.py:TreeBasedTensor.storage"]}
{"id": "C77", "title": "Ordinary least squares minimises the residual", "statement": "LinearModelLearningSquareLoss.solve without regularisation nor basis adaptation returns coefficients that minimise the sum of the squared residuals on the training samples, with either linear solver, also for rank-deficient matrices and with more features than samples; without cross-validation by folds it does not raise; with error_estimation_type 'residuals' the reported error is the mean squared residual divided by the mean of the squared observations.", "quantifier": "every feature matrix of every size and rank, every vector of observations, both linear solvers, any exact solve/lstsq/inv/pinv/qr", "why_tests_cant": "sizes are unbounded and the fallback branches (singular systems) are not taken by generic data", "anchors": ["tensap/approximation/learning/linear_model_learning_square_loss.py:LinearModelLearningSquareLoss._solve_ols", "tensap/approximation/learning/linear_model_learning_square_loss.py:LinearModelLearningSquareLoss.solve"]}
{"id": "C78", "title": "The fast leave-one-out error is the error of refitting without each sample", "statement": "With error_estimation_type 'leave_out' (or 'k_fold' with as many folds as samples), the residual reported for a sample is its prediction residual by the least-squares model refitted without that sample, and the error is sqrt(mean of their squares / mean of the squared observations), multiplied before the square root by N/(N-P)*(1+trace((A^T A)^-1)) if the correction is requested and the factor is not ill-conditioned; with fewer than P+1 samples the error is infinite.", "quantifier": "every feature matrix such that any N-1 samples determine the coefficients, every nonzero vector of observations, both linear solvers", "why_tests_cant": "a test compares a few fits; the identity must hold for all matrices", "anchors": ["tensap/approximation/learning/linear_model_learning_square_loss.py:LinearModelLearningSquareLoss._compute_cv_error", "tensap/approximation/learning/linear_model_learning_square_loss.py:LinearModelLearningSquareLoss._solve_ols"]}
{"id": "C79", "title": "The fast k-fold error is the error of refitting without each fold", "statement": "With error_estimation_type 'k_fold', the residual reported for a sample is its prediction residual by the least-squares model refitted without the samples of its fold; the error is computed as for leave-one-out from the average over the folds of the mean squared residual of the fold.", "quantifier": "every partition into folds, every feature matrix such that the samples outside each fold determine the coefficients, every nonzero vector of observations, both linear solvers", "why_tests_cant": "the folds are random and their number is unbounded", "anchors": ["tensap/approximation/learning/linear_model_learning_square_loss.py:LinearModelLearningSquareLoss._compute_cv_error"]}
{"id": "C80", "title": "Basis adaptation selects the candidate of smallest cross-validation error", "statement": "_select_optimal_path (used by basis adaptation, by default along the nested bases of the first features) returns coefficients that vanish outside a candidate of the path and minimise the sum of squared residuals among such coefficients; the cross-validation error of this candidate is the smallest of the path (the first one in case of ties); zero, repeated and too large candidates are ignored; stop_if_error_increase does not change the result; without candidate the result is the ordinary least-squares fit.", "quantifier": "every path of feature patterns, every matrix and observations, both linear solvers", "why_tests_cant": "the number of candidates is unbounded; undefined errors (nan) only occur on special data", "anchors": ["tensap/approximation/learning/linear_model_learning_square_loss.py:LinearModelLearningSquareLoss._select_optimal_path", "tensap/approximation/learning/linear_model_learning_square_loss.py:LinearModelLearningSquareLoss._solve_basis_adaptation"]}
{"id": "C81", "title": "Density estimation: coefficients and leave-one-out risk", "statement": "LinearModelLearningDensityL2 returns the coefficients that minimise the empirical risk (mean over the samples of ||g||^2 - 2 g.a + 2 g.b), and the reported leave-one-out error is the mean over the samples of the contrast, on each sample, of the estimate computed without it.", "quantifier": "every matrix of basis evaluations with at least two samples, with or without vector b", "why_tests_cant": "closed formulas must agree with the definition for all inputs", "anchors": ["tensap/approximation/learning/linear_model_learning_density_l2.py:LinearModelLearningDensityL2._solve_standard"]}
{"id": "C82", "title": "Density estimation: sparse and path selection", "statement": "With regularisation the result is the estimate restricted to the k largest coefficients (in absolute value), with k of smallest leave-one-out risk; with basis adaptation it is the estimate restricted to the candidate of smallest leave-one-out risk; the reported error is that risk, and the restricted estimate minimises the empirical risk among the coefficients with the same support.", "quantifier": "every matrix of basis evaluations with at least two samples, every path, every sorting permutation", "why_tests_cant": "sizes and paths are unbounded and argsort may break ties arbitrarily", "anchors": ["tensap/approximation/learning/linear_model_learning_density_l2.py:LinearModelLearningDensityL2._solve_regularized", "tensap/approximation/learning/linear_model_learning_density_l2.py:LinearModelLearningDensityL2._select_optimal_path"]}
{"id": "C83", "title": "Orthonormal polynomial families evaluate polynomials of the announced degrees", "statement": "orthonormal_polynomials() of a uniform or normal random variable or of a Lebesgue measure on an interval gives a family whose polyval(ind, x) returns, for every list of indices in any order and with repetitions, the values at x of polynomials p_i of degree exactly i that do not depend on the other indices asked for.", "quantifier": "every interval, mean and standard deviation, every list of indices of any size, every point", "why_tests_cant": "the degree is unbounded and the values come from a recurrence", "anchors": ["tensap/functions/polynomials/orthonormal_polynomials.py:OrthonormalPolynomials.polyval", "tensap/functions/polynomials/orthonormal_polynomials.py:ShiftedOrthonormalPolynomials.polyval", "tensap/functions/measures/uniform_random_variable.py:UniformRandomVariable.orthonormal_polynomials", "tensap/functions/measures/normal_random_variable.py:NormalRandomVariable.orthonormal_polynomials", "tensap/functions/measures/lebesgue_measure.py:LebesgueMeasure.orthonormal_polynomials"]}
{"id": "C84", "title": "The polynomials are orthonormal for their measure", "statement": "For every pair of indices, the integral of the product of the two polynomials that polyval evaluates is 1 if the indices are equal and 0 otherwise.", "quantifier": "every measure with a density of the library, all pairs of degrees", "why_tests_cant": "infinitely many degrees and measures; quadratures used in tests are themselves computed from the polynomials", "anchors": ["tensap/functions/polynomials/orthonormal_polynomials.py:HermitePolynomials", "tensap/functions/polynomials/orthonormal_polynomials.py:LegendrePolynomials", "tensap/functions/polynomials/orthonormal_polynomials.py:LegendrePolynomialsLebesgue", "tensap/functions/polynomials/orthonormal_polynomials.py:ShiftedOrthonormalPolynomials"]}
{"id": "C85", "title": "Derivatives of polynomials", "statement": "dn_polyval(n, ind, x) returns the derivatives of order n at x of the functions evaluated by polyval, and d_polyval the derivatives of order one.", "quantifier": "every family, every order of derivation (also larger than the degrees), every list of indices, every point", "why_tests_cant": "orders and degrees are unbounded; the scaling of shifted polynomials must be applied n times", "anchors": ["tensap/functions/polynomials/orthonormal_polynomials.py:OrthonormalPolynomials.dn_polyval", "tensap/functions/polynomials/orthonormal_polynomials.py:ShiftedOrthonormalPolynomials.dn_polyval"]}
{"id": "C86", "title": "Coefficients of polynomials", "statement": "poly_coeff(ind) returns the coefficients of the polynomials that polyval evaluates.", "quantifier": "every family, every list of indices", "why_tests_cant": "degrees are unbounded and two different recurrences must agree", "anchors": ["tensap/functions/polynomials/orthonormal_polynomials.py:OrthonormalPolynomials.poly_coeff"]}
{"id": "C87", "title": "Roots of orthonormal polynomials", "statement": "roots(n) returns the n zeros of the polynomial n of polyval in increasing order: they are real and simple and there is no other.", "quantifier": "every measure, every degree, any exact eigenvalue decomposition", "why_tests_cant": "degrees are unbounded; completeness of the list cannot be observed by evaluating", "anchors": ["tensap/functions/polynomials/orthonormal_polynomials.py:OrthonormalPolynomials.roots", "tensap/functions/polynomials/orthonormal_polynomials.py:ShiftedOrthonormalPolynomials.roots"]}
{"id": "C88", "title": "Gauss rules are exact up to degree 2n-1", "statement": "gauss_integration_rule(n) of a uniform or normal random variable or of the Lebesgue measure on an interval has n distinct points in increasing order and n positive weights whose sum is the mass, and integrates exactly every polynomial of degree at most 2n-1; moment(ind) gives the exact moments.", "quantifier": "every measure, every number of points, every polynomial of degree at most 2n-1, any exact eigenvalue decomposition", "why_tests_cant": "quantifies over all polynomials and all numbers of points", "anchors": ["tensap/functions/measures/random_variable.py:RandomVariable.gauss_integration_rule", "tensap/functions/measures/lebesgue_measure.py:LebesgueMeasure.gauss_integration_rule", "tensap/functions/measures/random_variable.py:RandomVariable.moment"]}
{"id": "C89", "title": "Moments and means of the polynomials", "statement": "moment(ind, measure) returns the integrals of the products of the polynomials of each row of ind for the measure (by default that of the polynomials), mean(ind, measure) their means, and one() the coefficient of the constant function 1.", "quantifier": "every family, every array of indices with any number of columns, every measure", "why_tests_cant": "products of any number of polynomials of any degrees, shortcuts for one and two columns must agree with the general computation", "anchors": ["tensap/functions/polynomials/orthonormal_polynomials.py:OrthonormalPolynomials.moment", "tensap/functions/polynomials/orthonormal_polynomials.py:ShiftedOrthonormalPolynomials.moment", "tensap/functions/polynomials/orthonormal_polynomials.py:ShiftedOrthonormalPolynomials.mean", "tensap/functions/polynomials/polynomials.py:UnivariatePolynomials.moment", "tensap/functions/polynomials/polynomials.py:UnivariatePolynomials.mean", "tensap/functions/polynomials/orthonormal_polynomials.py:OrthonormalPolynomials.one"]}
{"id": "C90", "title": "Polynomials, Gauss rules and moments of discrete measures", "statement": "For a discrete measure with N distinct points and positive weights, DiscretePolynomials evaluates polynomials of degrees 0..N-1 that are orthonormal for the measure, and raises IndexError beyond; for a discrete random variable dn_polyval gives their derivatives, the Gauss rule with n <= N points integrates exactly the polynomials of degree at most 2n-1 and has the N values as points if n = N, and moment(ind) gives the exact moments of orders at most 2N-1 and raises IndexError beyond.", "quantifier": "every finite list of distinct points in any order, all positive weights", "why_tests_cant": "the number of points is unbounded and the loop stops according to a numerical orthogonality test", "anchors": ["tensap/functions/polynomials/orthonormal_polynomials.py:DiscretePolynomials._precompute_recurrence_monic", "tensap/functions/polynomials/orthonormal_polynomials.py:DiscretePolynomials.recurrence_monic", "tensap/functions/measures/random_variable.py:RandomVariable.gauss_integration_rule"]}
{"id": "C91", "title": "Recurrence coefficients and norms of the monic polynomials", "statement": "recurrence_monic(n) returns the coefficients of a three-term recurrence whose solutions are the monic orthogonal polynomials of the measure, and their norms.", "quantifier": "Hermite, Legendre and Legendre-Lebesgue polynomials, every n", "why_tests_cant": "closed formulas with factorials must hold for every degree", "anchors": ["tensap/functions/polynomials/orthonormal_polynomials.py:HermitePolynomials.recurrence_monic", "tensap/functions/polynomials/orthonormal_polynomials.py:LegendrePolynomials.recurrence_monic", "tensap/functions/polynomials/orthonormal_polynomials.py:LegendrePolynomialsLebesgue.recurrence_monic"]}
{"id": "C92", "title": "Diagonal of a matrix product, dense tensors", "statement": "x.tensor_matrix_product_eval_diag(matrices, dims) of a dense tensor gives the tensor whose first axis is the common row index k and whose other axes are the dimensions not in dims in their order, with entry sum over the contracted indices of x[...] times the product of the matrices at (k, index): the diagonal of tensor_matrix_product, for any distinct dims in any order, and for all dimensions without dims.", "quantifier": "every dense tensor, every nonempty list of distinct dimensions in any order, every matrices with the right numbers of columns and a common number of rows", "why_tests_cant": "order, sizes and the order of dims are unbounded; the loop contracts axes whose position moves", "anchors": ["tensap/tensor_algebra/tensors/full_tensor.py:FullTensor.tensor_matrix_product_eval_diag", "tensap/tensor_algebra/tensors/full_tensor.py:FullTensor.tensordot_eval_diag"]}
{"id": "C93", "title": "Diagonal of a matrix product, tree-based tensors", "statement": "x.tensor_matrix_product_eval_diag(matrices) of a tree-based tensor is the diagonal of the matrix product of x.full(): entry k is the sum over all indices of x.full()[i_1..i_d] times the product of the matrices[d][k, i_d].", "quantifier": "every dimension tree, every pattern of active and inactive leaves, every ranks, every matrices with n rows", "why_tests_cant": "recursion over an arbitrary tree with mixed active and inactive children", "anchors": ["tensap/tensor_algebra/tensors/tree_based_tensor.py:TreeBasedTensor.tensor_matrix_product_eval_diag"]}
{"id": "C94", "title": "Diagonal of a tree-based tensor", "statement": "x.eval_diag() of a tree-based tensor whose dimensions all have size n returns the vector of the x.full()[k, ..., k].", "quantifier": "every dimension tree, every pattern of active and inactive leaves, every ranks", "why_tests_cant": "recursion over an arbitrary tree", "anchors": ["tensap/tensor_algebra/tensors/tree_based_tensor.py:TreeBasedTensor.eval_diag"]}
{"id": "C95", "title": "Evaluation of a functional tensor", "statement": "FunctionalTensor(tensor, bases).eval(x) returns for each row of x, whose columns are split according to the numbers of variables of the bases, the sum over the indices of the entry of the tensor times the product of the basis functions.", "quantifier": "dense and tree-based tensors of any order, any bases with any numbers of variables, any number of points", "why_tests_cant": "unbounded order, tree and numbers of variables", "anchors": ["tensap/functions/functional_tensor.py:FunctionalTensor.eval", "tensap/functions/functional_tensor.py:FunctionalTensor.eval_with_bases_evals", "tensap/approximation/bases/functional_bases.py:FunctionalBases.eval"]}
{"id": "C96", "title": "Mean of a functional tensor", "statement": "mean() returns the contraction of the tensor with the means of the bases; whenever the means of the bases are computed by quadratures, it is the average of the function over the product quadrature.", "quantifier": "dense and tree-based tensors, any bases and measures, any quadratures", "why_tests_cant": "exchange of sums over a product of any number of variables", "anchors": ["tensap/functions/functional_tensor.py:FunctionalTensor.mean"]}
{"id": "C97", "title": "Evaluation of a functional tensor on a grid", "statement": "eval_on_grid(x) returns a tensor, in the format of the functional tensor, whose entry at an index is the value of the function at the corresponding point of the product grid.", "quantifier": "dense and tree-based tensors, any bases, nonempty grids", "why_tests_cant": "unbounded order and sizes", "anchors": ["tensap/functions/functional_tensor.py:FunctionalTensor.eval_on_grid"]}
{"id": "C98", "title": "Partial evaluation of a functional tensor", "statement": "eval(x, dims) returns the functional tensor of the remaining variables with one value per point: its tensor has the points on one axis and the remaining dimensions on the others, and its fdims designate the axes of the remaining dimensions.", "quantifier": "every dense tensor, every list of dimensions, every points", "why_tests_cant": "positions of axes after the contraction depend on order and dims", "anchors": ["tensap/functions/functional_tensor.py:FunctionalTensor.eval", "tensap/functions/functional_tensor.py:FunctionalTensor.eval_with_bases_evals"]}
{"id": "C99", "title": "Magic indices, option left_right", "statement": "magic_indices(F, n) returns, for n at most the rank of F, n distinct row indices and n distinct column indices such that F[I, J] is invertible and each pair is the first position (by rows) of the greatest entry in absolute value of F - G, G being the only matrix of rank k that coincides with F on the k preceding rows and columns; for n = rank, G = F; for n > rank it raises LinAlgError; the indices for n are the first ones for n + 1.", "quantifier": "every matrix of every size and rank, every n", "why_tests_cant": "greedy loop of unbounded length; invertibility along the loop is a Schur complement argument", "anchors": ["tensap/linear_algebra/magic_indices.py:magic_indices"]}
{"id": "C100", "title": "Magic indices, options left and right", "statement": "magic_indices(F, n, 'left') returns J = 0..n-1 and n distinct row indices with F[I, J] invertible, each one the first greatest entry in absolute value of the residual of the next column, if and only if the first n columns are linearly independent; 'right' does the same on rows.", "quantifier": "every matrix, every n", "why_tests_cant": "as above; quantifies over all linear combinations", "anchors": ["tensap/linear_algebra/magic_indices.py:magic_indices"]}
{"id": "C101", "title": "Magic points are unisolvent", "statement": "basis.magic_points(x) returns as many distinct points of x as basis functions, on which interpolation has exactly one solution for all data, and output['lebesgue_constant'] is the greatest value on x of the functions of the space bounded by 1 at the magic points; it raises if the basis functions are dependent on x or if there are too few points.", "quantifier": "every basis and every set of points", "why_tests_cant": "quantifies over all functions of the space", "anchors": ["tensap/approximation/bases/functional_basis.py:FunctionalBasis.magic_points"]}
{"id": "C102", "title": "Interpolation reproduces the data", "statement": "basis.interpolate(y, x) returns the function of the space that takes the values y at the points x (columns of y: outputs), and raises if the matrix of evaluations is singular.", "quantifier": "every basis, every unisolvent set of points, every data with any number of outputs", "why_tests_cant": "quantifies over all data; the storage of the coefficients depends on their shape", "anchors": ["tensap/approximation/bases/functional_basis.py:FunctionalBasis.interpolate", "tensap/approximation/bases/functional_basis_array.py:FunctionalBasisArray.__init__"]}
{"id": "C103", "title": "Projections are best approximations", "statement": "basis.projection(fun, G) returns a function of the space that minimises the distance to fun in the norm of the quadrature G (quasi-projection for orthonormal bases, least squares otherwise), and reproduces functions of the space; gram_matrix(G) is the matrix of the inner products of the basis functions for G.", "quantifier": "every basis, every quadrature with nonnegative weights, every function with one output", "why_tests_cant": "quantifies over all functions of the space", "anchors": ["tensap/approximation/bases/functional_basis.py:FunctionalBasis.projection", "tensap/approximation/bases/functional_basis.py:FunctionalBasis.quasi_projection", "tensap/approximation/bases/functional_basis.py:FunctionalBasis.least_squares_projection", "tensap/approximation/bases/functional_basis.py:FunctionalBasis.gram_matrix"]}
{"id": "C104", "title": "Gradient of a functional tensor with respect to a node tensor", "statement": "f.parameter_gradient_eval(alpha) of a function in tree-based format returns the array g such that, whatever the tensor put at node alpha (same shape), the values of the function at the points are the contractions of the rows of g with this tensor, with the output axis of the root last.", "quantifier": "every tree, node, ranks, bases and set of points", "why_tests_cant": "quantifies over all trees and all replacement tensors", "anchors": ["tensap/functions/functional_tensor.py:FunctionalTensor.parameter_gradient_eval", "tensap/tensor_algebra/tensors/tree_based_tensor.py:TreeBasedTensor.parameter_gradient_eval_diag", "tensap/tensor_algebra/tensors/tree_based_tensor.py:TreeBasedTensor.eval_diag_below", "tensap/tensor_algebra/tensors/tree_based_tensor.py:TreeBasedTensor.eval_diag_above"]}
{"id": "C105", "title": "One step of alternating minimization is optimal", "statement": "One step of the alternating minimization with the square loss (orthogonalise at the node, gradient, ordinary least squares, set the parameter) never fails and never increases the sum of squared errors; the function obtained is the best one among those that differ by the tensor of this node; if the solution is null, the function is unchanged and no tensor at the node is better than zero.", "quantifier": "every tree without only children, every node, every tensor with active nodes, every data set", "why_tests_cant": "quantifies over all tensors at the node", "anchors": ["tensap/approximation/tensor_approximation/tensor_learning/tensor_learning.py:TensorLearning._solve_standard", "tensap/approximation/tensor_approximation/tensor_learning/tree_based_tensor_learning.py:TreeBasedTensorLearning.prepare_alternating_minimization_system", "tensap/approximation/tensor_approximation/tensor_learning/tree_based_tensor_learning.py:TreeBasedTensorLearning.set_parameter", "tensap/approximation/learning/linear_model_learning_square_loss.py:LinearModelLearningSquareLoss.solve"]}
{"id": "C106", "title": "Alternating minimization never increases the empirical risk", "statement": "TreeBasedTensorLearning.solve without rank adaptation terminates without exception within max_iterations; the sum of squared errors is non-increasing along the initial function and the iterates; the returned function is the last iterate; tree, shape and outputs are preserved.", "quantifier": "every initial function as in the previous property, every (random) order of the nodes, every stopping test and number of iterations", "why_tests_cant": "all schedules of the nodes and unbounded numbers of iterations", "anchors": ["tensap/approximation/tensor_approximation/tensor_learning/tensor_learning.py:TensorLearning._solve_standard"]}
{"id": "C107", "title": "Exploration strategy", "statement": "The exploration strategy lists every active node exactly once, by increasing level, so that no node comes after one of its descendants.", "quantifier": "every valid tree and every set of active nodes", "why_tests_cant": "all trees", "anchors": ["tensap/approximation/tensor_approximation/tensor_learning/tree_based_tensor_learning.py:TreeBasedTensorLearning._exploration_strategy"]}
{"id": "C108", "title": "Model selection in tensor learning returns the best iterate", "statement": "With model_selection, solve() returns the iterate with the smallest recorded error, the first one in case of ties.", "quantifier": "every list of iterates and errors", "why_tests_cant": "all lists", "anchors": ["tensap/approximation/tensor_approximation/tensor_learning/tensor_learning.py:TensorLearning.solve"]}
{"id": "C109", "title": "Rank adaptation returns an accepted iterate and a consistent history", "statement": "solve() with rank adaptation performs at most max_iterations local solves; the histories of iterates, errors and test errors are those of the functions computed, and the returned function is the last one; no recorded function has an infinite error; with early stopping every recorded function but the first and the last ones has an error at most early_stopping_factor times the best previous error.", "quantifier": "every local solver, every choice of the new ranks, every option", "why_tests_cant": "all histories of the adaptive algorithm", "anchors": ["tensap/approximation/tensor_approximation/tensor_learning/tensor_learning.py:TensorLearning._solve_adaptation"]}
{"id": "C110", "title": "Admissible rank increases", "statement": "make_ranks_admissible(f, rank), for f with admissible ranks, returns admissible ranks, each one being the asked rank (capped by the size of a leaf, zero for inactive nodes) or the rank of f, with the exact list of the changed nodes, and no admissible choice changes more nodes.", "quantifier": "every tree, ranks, asked ranks, and every shuffling", "why_tests_cant": "combinatorial search over subsets of nodes, random order", "anchors": ["tensap/approximation/tensor_approximation/tensor_learning/tree_based_tensor_learning.py:TreeBasedTensorLearning.make_ranks_admissible", "tensap/tensor_algebra/tensors/tree_based_tensor.py:TreeBasedTensor.is_admissible_rank"]}
{"id": "C111", "title": "User-defined functions are evaluated point by point", "statement": "UserDefinedFunction.eval(x) with evaluation_at_multiple_points = False returns the array whose k-th slice is the value of fun at the k-th point, in the same order and layout, for scalar, vector and array outputs.", "quantifier": "every function, output shape and list of points", "why_tests_cant": "all functions and shapes", "anchors": ["tensap/functions/user_defined_function.py:UserDefinedFunction.eval"]}
{"id": "C112", "title": "Storing evaluations is transparent", "statement": "With store = True, whatever the sequence of calls, each call of store_eval returns the values of the function at the given points, in the order of the points, and the function is evaluated only at points that are not stored.", "quantifier": "every sequence of calls, every function", "why_tests_cant": "unbounded histories of calls with overlapping sets of points", "anchors": ["tensap/functions/function.py:Function.store_eval"]}
{"id": "C113", "title": "Partial evaluation", "statement": "f.partial_evaluation(not_alpha, x)(y) is the value of f at the point whose coordinates not_alpha are those of x and whose other coordinates, in increasing order, are those of y, for all points x and y.", "quantifier": "every function, set of variables and points", "why_tests_cant": "all functions and subsets of variables", "anchors": ["tensap/functions/function.py:Function.partial_evaluation"]}
{"id": "C114", "title": "Evaluation on a tensor grid", "statement": "f.eval_on_tensor_grid(G) on a full tensor grid returns the array whose entry of subscripts (i_1,...,i_d) is the value of f at the point (G_1[i_1],...,G_d[i_d]), with the output axes last.", "quantifier": "every function, grid and output shape", "why_tests_cant": "all grids and functions", "anchors": ["tensap/functions/function.py:Function.eval_on_tensor_grid", "tensap/tools/grids.py:FullTensorGrid.array"]}
{"id": "C115", "title": "Tensorized functions have the values of the function", "statement": "The tensorized function evaluated at the code of a point is the value of the function at this point, and at any code z the value of the function at inverse_map(z).", "quantifier": "every function, base, resolution and point of the unit cube", "why_tests_cant": "all functions, resolutions and points", "anchors": ["tensap/functions/tensorized_function.py:TensorizedFunction.eval", "tensap/functions/tensorizer.py:Tensorizer.tensorize"]}
{"id": "C116", "title": "Compositional functions follow the tree", "statement": "CompositionalModelFunction.eval(x) is the value at the root of the unique assignment in which leaves carry the variables of their dimensions and each interior node the value of its function at the values of its children in order.", "quantifier": "every valid tree, every functions and point", "why_tests_cant": "all trees", "anchors": ["tensap/functions/compositional_model_function.py:CompositionalModelFunction.eval"]}
{"id": "C117", "title": "Relative test error", "statement": "relative_test_error of predictions against observations of the same shape is the square root of the sum of the squared errors divided by the sum of the squared observations; it is zero if and only if the predictions are exact (for observations not all zero).", "quantifier": "every predictions and observations", "why_tests_cant": "all data sets", "anchors": ["tensap/approximation/learning/loss_functions.py:SquareLossFunction.relative_test_error", "tensap/approximation/learning/loss_functions.py:SquareLossFunction.eval", "tensap/approximation/learning/loss_functions.py:LossFunction.risk_estimation"]}
{"id": "C118", "title": "Absolute test error", "statement": "test_error with the square loss is the square root of the mean over the sample of the squared error (summed over the outputs).", "quantifier": "every predictions and observations, scalar or vector outputs", "why_tests_cant": "all data sets", "anchors": ["tensap/approximation/learning/loss_functions.py:SquareLossFunction.test_error", "tensap/approximation/learning/loss_functions.py:SquareLossFunction.eval", "tensap/approximation/learning/loss_functions.py:LossFunction.risk_estimation"]}
{"id": "C119", "title": "Positivity and local support of B-splines", "statement": "On increasing knots the B-spline number i of degree d is nonnegative, vanishes outside of the interval from knot i (excluded) to knot i+d+1, and is positive inside; eval returns cardinal() functions.", "quantifier": "every increasing sequence of knots, degree and real point", "why_tests_cant": "all real points and knots", "anchors": ["tensap/approximation/bases/BSplines_functional_basis.py:BSplinesFunctionalBasis.eval", "tensap/approximation/bases/BSplines_functional_basis.py:BSplinesFunctionalBasis.eval_sequence", "tensap/approximation/bases/BSplines_functional_basis.py:BSplinesFunctionalBasis.cardinal"]}
{"id": "C120", "title": "B-splines form a partition of unity", "statement": "The values of the B-splines of degree d sum to 1 at every point between knot d (excluded) and knot n-1-d, where n is the number of knots.", "quantifier": "every increasing sequence of knots, degree and point of this interval", "why_tests_cant": "all real points and knots", "anchors": ["tensap/approximation/bases/BSplines_functional_basis.py:BSplinesFunctionalBasis.eval"]}
{"id": "C121", "title": "Derivatives of B-splines", "statement": "eval_derivative(n, x) is the derivative of order n of eval at x, at every point that is not a knot.", "quantifier": "every knots, degree, order and real point that is not a knot", "why_tests_cant": "a statement on limits", "anchors": ["tensap/approximation/bases/BSplines_functional_basis.py:BSplinesFunctionalBasis.eval_derivative"]}
{"id": "C122", "title": "B-splines with extra knots cover the given interval", "statement": "with_extra_knots(t, m) extends increasing knots to increasing knots that contain them; the basis has (number of intervals) + m functions, which sum to 1 on the whole interval of the given knots (first knot excluded).", "quantifier": "every increasing sequence of at least two knots, every degree", "why_tests_cant": "all knots and points", "anchors": ["tensap/approximation/bases/BSplines_functional_basis.py:BSplinesFunctionalBasis.with_extra_knots"]}
{"id": "C123", "title": "Dilated B-splines", "statement": "indices_with_level_bounded_by(L) lists exactly once the pairs (level l at most L, local index from -m to b^l - 1); the functions of level L scaled by b^(-L/2) sum to 1 on (0,1]; eval_derivative is the derivative of eval wherever b^l x is not an integer.", "quantifier": "every degree, dilation factor, level and real point", "why_tests_cant": "all levels and real points", "anchors": ["tensap/approximation/bases/BSplines_functional_basis.py:DilatedBSplines.eval", "tensap/approximation/bases/BSplines_functional_basis.py:DilatedBSplines.eval_derivative", "tensap/approximation/bases/BSplines_functional_basis.py:DilatedBSplines.indices_with_level_bounded_by", "tensap/approximation/bases/BSplines_functional_basis.py:DilatedBSplines.indices_with_level"]}
{"id": "C124", "title": "Principal components of matrices and tensors", "statement": "principal_components(p) of a matrix and alpha_principal_components(alpha, p) of a tensor return orthonormal vectors and the singular values; for p smaller than 1 the relative error of the projection in Frobenius norm is at most p; for p at least 1 there are min(p, number of rows) components.", "quantifier": "every matrix or tensor, every alpha and parameter", "why_tests_cant": "all real matrices and tolerances", "anchors": ["tensap/tensor_algebra/tensors/full_tensor.py:FullTensor.principal_components", "tensap/tensor_algebra/tensors/full_tensor.py:FullTensor.alpha_principal_components"]}
{"id": "C125", "title": "The PCA approximation interpolates the function", "statement": "tree_based_approximation(fun, shape, tree, is_active_node) returns a well-formed tensor of the given tree and shape whose entries are equal to the values of fun at the points of the output grid of the root, which are as many as the product of the ranks of the children of the root, whatever samples are drawn.", "quantifier": "every function, shape, valid tree, activity, tolerances and ranks, and every outcome of the random draws", "why_tests_cant": "the random draws and the functions are unbounded", "anchors": ["tensap/approximation/tensor_approximation/principal_component_analysis/tensor_principal_component_analysis.py:TensorPrincipalComponentAnalysis.tree_based_approximation", "tensap/approximation/tensor_approximation/principal_component_analysis/tensor_principal_component_analysis.py:TensorPrincipalComponentAnalysis.alpha_principal_components"]}
{"id": "C126", "title": "The PCA approximation recovers low-rank tensors", "statement": "tree_based_approximation is exact, i.e. every entry of the returned tensor is the value of the function, when each node either has tolerance zero (all samples kept), or a prescribed rank at least the alpha-rank of the function and samples whose fibers generate the range.", "quantifier": "every function, tree, shape, tolerances, ranks and draws meeting the condition", "why_tests_cant": "all functions and draws", "anchors": ["tensap/approximation/tensor_approximation/principal_component_analysis/tensor_principal_component_analysis.py:TensorPrincipalComponentAnalysis.tree_based_approximation"]}
{"id": "C127", "title": "The PCA approximation respects max_rank", "statement": "The rank of each node of the tensor returned by tree_based_approximation is at most the attribute max_rank.", "quantifier": "every function, tree, tolerance and maximal rank", "why_tests_cant": "all functions and draws", "anchors": ["tensap/approximation/tensor_approximation/principal_component_analysis/tensor_principal_component_analysis.py:TensorPrincipalComponentAnalysis.tree_based_approximation", "tensap/approximation/tensor_approximation/principal_component_analysis/tensor_principal_component_analysis.py:TensorPrincipalComponentAnalysis.hopca"]}
{"id": "C128", "title": "HOPCA, Tucker and tensor-train approximations", "statement": "hopca returns for each dimension orthonormal components, at most as many as the parameter if it is a rank; tucker_approximation and tt_approximation are the tree-based approximations for the trivial and the linear tree, in which the k-th entry of an array of tolerances (or ranks) is used at the k-th dimension, respectively at the node of the first k+1 dimensions.", "quantifier": "every function, shape, parameters and draws", "why_tests_cant": "all functions and draws", "anchors": ["tensap/approximation/tensor_approximation/principal_component_analysis/tensor_principal_component_analysis.py:TensorPrincipalComponentAnalysis.hopca", "tensap/approximation/tensor_approximation/principal_component_analysis/tensor_principal_component_analysis.py:TensorPrincipalComponentAnalysis.tucker_approximation", "tensap/approximation/tensor_approximation/principal_component_analysis/tensor_principal_component_analysis.py:TensorPrincipalComponentAnalysis.tt_approximation"]}
{"id": "C129", "title": "Gradient of a canonical tensor with respect to a parameter", "statement": "For a function whose coefficients are a canonical tensor, parameter_gradient_eval(mu) contracted with any other factor mu and core (or with any other core, for mu = order + 1) gives the values at the points of the function with this parameter instead.", "quantifier": "every canonical tensor of order at least two, bases, points and parameter", "why_tests_cant": "all real tensors and evaluations", "anchors": ["tensap/tensor_algebra/tensors/canonical_tensor.py:CanonicalTensor.parameter_gradient_eval_diag", "tensap/functions/functional_tensor.py:FunctionalTensor.parameter_gradient_eval"]}
{"id": "C130", "title": "One step of the canonical alternating minimization is optimal", "statement": "Each step of CanonicalTensorLearning with the square loss keeps the shape and the rank, changes only the chosen parameter and the core, and its empirical risk is at most the risk for any other value of this parameter (a factor and the core, the core alone, or a column and its coefficient with one_by_one_factor); the step for the first factor of a tensor of order two gives a factor with the same range as an optimal one. With one_by_one_factor the exploration visits each column of each factor inner_loops times.", "quantifier": "every canonical tensor, data, bases, parameter and factorisations", "why_tests_cant": "all real data and tensors", "anchors": ["tensap/approximation/tensor_approximation/tensor_learning/canonical_tensor_learning.py:CanonicalTensorLearning.prepare_alternating_minimization_system", "tensap/approximation/tensor_approximation/tensor_learning/canonical_tensor_learning.py:CanonicalTensorLearning.set_parameter"]}
{"id": "C131", "title": "Canonical alternating minimization does not increase the risk", "statement": "The empirical risks of the initial canonical tensor and of the successive iterates of the alternating minimization with the square loss are nonincreasing, for the default and for random exploration orders; the iterates keep the shape and the rank.", "quantifier": "every initial tensor, data, bases, exploration order, stopping rule and number of iterations", "why_tests_cant": "unbounded number of iterations and random orders", "anchors": ["tensap/approximation/tensor_approximation/tensor_learning/canonical_tensor_learning.py:CanonicalTensorLearning", "tensap/approximation/tensor_approximation/tensor_learning/tensor_learning.py:TensorLearning._solve_standard"]}
{"id": "C132", "title": "Conversion of a dense tensor to tree-based format", "statement": "FullTensor.tree_based_tensor() returns a tree-based tensor on the trivial tree whose full() is the tensor.", "quantifier": "every dense tensor of order at least two without empty dimension", "why_tests_cant": "all orders, shapes and entries", "anchors": ["tensap/tensor_algebra/tensors/full_tensor.py:FullTensor.tree_based_tensor", "tensap/tensor_algebra/tensors/tree_based_tensor.py:TreeBasedTensor.full"]}
{"id": "C133", "title": "Conversion of a diagonal tensor to tree-based format", "statement": "DiagonalTensor.tree_based_tensor(tree, is_active_node) returns a tree-based tensor on the given tree (a linear tree with inactive leaves by default) with the given active leaves whose full() is the diagonal tensor; it raises ValueError if an internal node is not active.", "quantifier": "every diagonal tensor of order at least two, every valid tree of this order and choice of active nodes", "why_tests_cant": "all trees and activities", "anchors": ["tensap/tensor_algebra/tensors/diagonal_tensor.py:DiagonalTensor.tree_based_tensor"]}
{"id": "C134", "title": "Conversion of a canonical tensor to tree-based format", "statement": "CanonicalTensor.tree_based_tensor(tree, is_active_node) returns a tree-based tensor on the given tree with the given active leaves, whose active nodes have the canonical rank and whose full() is the canonical tensor.", "quantifier": "every canonical tensor of order at least two, every valid tree of this order and choice of active leaves", "why_tests_cant": "all trees and activities", "anchors": ["tensap/tensor_algebra/tensors/canonical_tensor.py:CanonicalTensor.tree_based_tensor"]}
{"id": "C135", "title": "Element that contains a point", "statement": "PiecewisePolynomialFunctionalBasis.element_number(x) is the element that contains x, elements being closed on the left and open on the right; the first element for points on the left of the interval, the last one for points on its right.", "quantifier": "every strictly increasing list of points and every real x", "why_tests_cant": "a continuum of points and all meshes", "anchors": ["tensap/approximation/bases/piecewise_polynomial_functional_basis.py:PiecewisePolynomialFunctionalBasis.element_number"]}
{"id": "C136", "title": "Piecewise polynomials: evaluation and basis", "statement": "eval(x) has cardinal() columns; the functions of the element of x take the values of the reference polynomials mapped to the element, the others vanish; eval(x, indices) selects columns and raises IndexError for a column that does not exist; every piecewise polynomial of the given degrees is one and only one combination of the functions.", "quantifier": "every mesh, every list of degrees, every point, every list of indices, every family of polynomials", "why_tests_cant": "all meshes and polynomials; existence and uniqueness", "anchors": ["tensap/approximation/bases/piecewise_polynomial_functional_basis.py:PiecewisePolynomialFunctionalBasis.eval", "tensap/approximation/bases/piecewise_polynomial_functional_basis.py:PiecewisePolynomialFunctionalBasis.cardinal"]}
{"id": "C137", "title": "Piecewise polynomials: orthonormality", "statement": "The functions are orthonormal for the Lebesgue measure on the interval, as is_orthonormal says.", "quantifier": "every mesh and degrees, every pair of functions", "why_tests_cant": "an integral over a continuum for every mesh", "anchors": ["tensap/approximation/bases/piecewise_polynomial_functional_basis.py:PiecewisePolynomialFunctionalBasis.__init__", "tensap/approximation/bases/piecewise_polynomial_functional_basis.py:PiecewisePolynomialFunctionalBasis.eval"]}
{"id": "C138", "title": "Piecewise polynomials: derivatives", "statement": "eval_derivative(k, x) gives the derivatives of order k of the functions of eval inside the elements.", "quantifier": "every mesh, order and point", "why_tests_cant": "derivatives at a continuum of points", "anchors": ["tensap/approximation/bases/piecewise_polynomial_functional_basis.py:PiecewisePolynomialFunctionalBasis.eval_derivative"]}
{"id": "C139", "title": "Piecewise polynomials: interpolation points", "statement": "interpolation_points() gives cardinal() points, degree + 1 different ones in the interior of each element, and interpolation at these points is well posed: for all values there is one and only one combination of the functions that takes them.", "quantifier": "every mesh and degrees, every list of values", "why_tests_cant": "all meshes and values; existence and uniqueness", "anchors": ["tensap/approximation/bases/piecewise_polynomial_functional_basis.py:PiecewisePolynomialFunctionalBasis.interpolation_points", "tensap/tools/chebyshev_points.py:chebyshev_points"]}
{"id": "C140", "title": "Meshes of piecewise polynomials", "statement": "np(a, b, n, p) is the uniform partition in n elements; hp(a, b, h, p) the one with the fewest elements of length at most h; singularityhp_adapted(a, b, s, h) is a partition of [a, b] with one degree per element that contains the singularities, with degree 0 and length at most h (b - a) next to them.", "quantifier": "every interval, size, list of singularities in the interval, 0 < h < 1 for the last one", "why_tests_cant": "all real parameters and all lists of singularities", "anchors": ["tensap/approximation/bases/piecewise_polynomial_functional_basis.py:PiecewisePolynomialFunctionalBasis.hp", "tensap/approximation/bases/piecewise_polynomial_functional_basis.py:PiecewisePolynomialFunctionalBasis.np", "tensap/approximation/bases/piecewise_polynomial_functional_basis.py:PiecewisePolynomialFunctionalBasis.singularityhp_adapted"]}
{"id": "C141", "title": "Removal of nodes with one child", "statement": "TreeBasedTensor.remove_unique_children() returns a tensor with the same entries and the same shape, on a tree that has no node with exactly one child and whose nodes stand for the same sets of dimensions.", "quantifier": "every tree-based tensor of order at least two, on every tree, with or without active leaves", "why_tests_cant": "all trees, ranks and entries", "anchors": ["tensap/tensor_algebra/tensors/tree_based_tensor.py:TreeBasedTensor.remove_unique_children"]}
{"id": "C142", "title": "squeeze of a tree-based tensor", "statement": "squeeze(dims), for dimensions of size one and with remaining dimensions, returns the tensor without these axes, on the tree restricted to the remaining dimensions (the nodes stand for the nonempty intersections of the sets of dimensions with the remaining ones, and no node has exactly one child); with one remaining dimension the tree has one node. squeeze() removes all the dimensions of size one.", "quantifier": "every tree-based tensor of order at least two, every list of dimensions of size one that leaves a dimension", "why_tests_cant": "all trees, ranks, entries and choices of dimensions", "anchors": ["tensap/tensor_algebra/tensors/tree_based_tensor.py:TreeBasedTensor.squeeze"]}
{"id": "C143", "title": "squeeze refuses dimensions that are not of size one", "statement": "squeeze(dims) raises ValueError when a dimension of dims is not of size one, as numpy.squeeze.", "quantifier": "every tree-based tensor and every list of dimensions", "why_tests_cant": "all tensors and lists of dimensions", "anchors": ["tensap/tensor_algebra/tensors/tree_based_tensor.py:TreeBasedTensor.squeeze"]}
{"id": "C144", "title": "tensor_vector_product and reduce_sum of a tree-based tensor", "statement": "tensor_vector_product(vectors, dims) represents the contraction of the full tensor with the vectors along dims, and reduce_sum(dims) the sums of its entries along dims: as a tree-based tensor when dimensions remain (with one node when there is only one), as an array when none remains.", "quantifier": "every tree-based tensor of order at least two, distinct dimensions in any order and vectors of the right sizes", "why_tests_cant": "all trees, ranks, entries, vectors and choices of dimensions", "anchors": ["tensap/tensor_algebra/tensors/tree_based_tensor.py:TreeBasedTensor.tensor_vector_product", "tensap/tensor_algebra/tensors/tree_based_tensor.py:TreeBasedTensor.reduce_sum", "tensap/tensor_algebra/tensors/tree_based_tensor.py:TreeBasedTensor.squeeze"]}
{"id": "C145", "title": "Conditional expectation of a functional tensor", "statement": "conditional_expectation(dims) returns a functional tensor in the bases of the dimensions dims (in increasing order) whose value at a point is the contraction of the coefficients with the basis functions of these dimensions at the point and with the means of the other bases; whenever these means are computed by quadratures it is the average of the function over the product quadrature of the other variables. Without dimensions it is the mean.", "quantifier": "dense and tree-based tensors, any bases and quadratures, every list of distinct dimensions, every points", "why_tests_cant": "unbounded order; trees; exchange of sums over a product of any number of variables", "anchors": ["tensap/functions/functional_tensor.py:FunctionalTensor.conditional_expectation", "tensap/tensor_algebra/tensors/tree_based_tensor.py:TreeBasedTensor.tensor_vector_product", "tensap/approximation/bases/functional_bases.py:FunctionalBases.keep_bases", "tensap/approximation/bases/functional_bases.py:FunctionalBases.mean"]}
{"id": "C146", "title": "Law of total expectation", "statement": "The mean of conditional_expectation(dims) is the mean of the function.", "quantifier": "dense and tree-based tensors, any bases and measures, every list of distinct dimensions", "why_tests_cant": "unbounded order and trees", "anchors": ["tensap/functions/functional_tensor.py:FunctionalTensor.conditional_expectation", "tensap/functions/functional_tensor.py:FunctionalTensor.mean"]}
{"id": "C147", "title": "Inner products, norm and variance of functional tensors", "statement": "dot_product_expectation(g) is the mean of the product of the functions, norm() the square root of the one of the function with itself, variance() the mean of the square minus the square of the mean, variance_conditional_expectation(alpha) the variances of the conditional expectations.", "quantifier": "dense and tree-based tensors, any bases", "why_tests_cant": "unbounded order", "anchors": ["tensap/functions/functional_tensor.py:FunctionalTensor.dot_product_expectation", "tensap/functions/functional_tensor.py:FunctionalTensor.norm", "tensap/functions/functional_tensor.py:FunctionalTensor.variance", "tensap/functions/functional_tensor.py:FunctionalTensor.variance_conditional_expectation", "tensap/approximation/bases/functional_bases.py:FunctionalBases.gram_matrices"]}
{"id": "C148", "title": "Conditional expectation with a boolean mask", "statement": "conditional_expectation(mask) with an array of booleans is conditional_expectation(dims), dims being the positions of True.", "quantifier": "every functional tensor and every mask", "why_tests_cant": "all masks", "anchors": ["tensap/functions/functional_tensor.py:FunctionalTensor.conditional_expectation"]}
{"id": "C149", "title": "Functional PCA: projection by interpolation on the magic points", "statement": "For bases whose functions are linearly independent on the candidate points, the grid of the functional PCA has for each basis as many points as functions, on which interpolation is possible, and the projection of a tree-based tensor is the function of the tensor product space whose values at the grid points are the entries of the tensor (active leaves, inactive leaves); if the entries are the values of a function of the space, it has its coefficients. Dependent bases and other projection types are refused.", "quantifier": "all bases, candidate points, trees and well-formed tree-based tensors", "why_tests_cant": "any dimension, tree and size; an inverse in each dimension", "anchors": ["tensap/approximation/tensor_approximation/principal_component_analysis/functional_tensor_principal_component_analysis.py:FunctionalTensorPrincipalComponentAnalysis._prepare", "tensap/approximation/tensor_approximation/principal_component_analysis/functional_tensor_principal_component_analysis.py:FunctionalTensorPrincipalComponentAnalysis._project", "tensap/approximation/tensor_approximation/principal_component_analysis/functional_tensor_principal_component_analysis.py:FunctionalTensorPrincipalComponentAnalysis._projection_operators", "tensap/approximation/bases/functional_bases.py:FunctionalBases.interpolation_points"]}
{"id": "C150", "title": "Functional PCA interpolates the function", "statement": "tree_based_approximation(fun, tree, is_active_node) returns a function of the tensor product space that is equal to fun at the points of the grid whose subscripts are in the output grid of the root, whatever samples are drawn; tucker_approximation and tt_approximation are this approximation for the trivial and linear trees.", "quantifier": "every function, bases, candidate points, tree, active leaves, tolerances, ranks and random samples accepted by the code", "why_tests_cant": "all random draws, all trees, unbounded dimension", "anchors": ["tensap/approximation/tensor_approximation/principal_component_analysis/functional_tensor_principal_component_analysis.py:FunctionalTensorPrincipalComponentAnalysis.tree_based_approximation", "tensap/approximation/tensor_approximation/principal_component_analysis/functional_tensor_principal_component_analysis.py:FunctionalTensorPrincipalComponentAnalysis.tucker_approximation", "tensap/approximation/tensor_approximation/principal_component_analysis/functional_tensor_principal_component_analysis.py:FunctionalTensorPrincipalComponentAnalysis.tt_approximation"]}
{"id": "C151", "title": "Functional PCA is exact on functions of the space", "statement": "If fun is in the tensor product space and each node has either a zero tolerance (no adaptive sampling, sampling factor at least one) or a rank at least that of fun with samples that generate its functions, the result of tree_based_approximation evaluates to fun at every point.", "quantifier": "all bases, functions of the space, trees, samples and evaluation points", "why_tests_cant": "holds at all points, not only at those of the grid", "anchors": ["tensap/approximation/tensor_approximation/principal_component_analysis/functional_tensor_principal_component_analysis.py:FunctionalTensorPrincipalComponentAnalysis.tree_based_approximation", "tensap/functions/functional_tensor.py:FunctionalTensor.eval"]}
{"id": "C152", "title": "Functional HOPCA", "statement": "hopca(fun) returns for each basis functions of the same space, at least one and at most the minimum of the tolerance and of the maximal rank when it is at least one, whose vectors of values at the interpolation points are orthonormal.", "quantifier": "every function, bases, candidate points, parameters and random samples accepted by the code", "why_tests_cant": "all draws and functions", "anchors": ["tensap/approximation/tensor_approximation/principal_component_analysis/functional_tensor_principal_component_analysis.py:FunctionalTensorPrincipalComponentAnalysis.hopca", "tensap/approximation/bases/sub_functional_basis.py:SubFunctionalBasis.eval"]}
{"id": "C153", "title": "Evaluation, mean and Gram matrix of a sub-basis", "statement": "SubFunctionalBasis(basis, B) has one function per column of B, the combination of the functions of the underlying basis with this column as coefficients: eval(x), eval(x, indices) (negative indices count from the end), mean() and gram_matrix() are the values, means and Gram matrix of these functions.", "quantifier": "all underlying bases, matrices of coefficients, points, indices, and every mean that is linear on the functions involved", "why_tests_cant": "any basis, any number of functions and points", "anchors": ["tensap/approximation/bases/sub_functional_basis.py:SubFunctionalBasis.eval", "tensap/approximation/bases/sub_functional_basis.py:SubFunctionalBasis.mean", "tensap/approximation/bases/sub_functional_basis.py:SubFunctionalBasis.gram_matrix", "tensap/approximation/bases/sub_functional_basis.py:SubFunctionalBasis.cardinal"]}
{"id": "C154", "title": "A sub-basis marked orthonormal is orthonormal", "statement": "A sub-basis of an orthonormal basis is marked orthonormal exactly if it has a function and the distance of its Gram matrix to the identity, relative to the norm of the identity, is below 1e-15; a sub-basis of a basis that is not marked is never marked.", "quantifier": "all underlying bases and matrices of coefficients", "why_tests_cant": "a threshold on a norm, for all matrices", "anchors": ["tensap/approximation/bases/sub_functional_basis.py:SubFunctionalBasis.__init__"]}
{"id": "C155", "title": "Orthonormalisation of a sub-basis", "statement": "orthonormalize() of a sub-basis of an orthonormal basis with linearly independent columns returns a sub-basis of the same basis that is marked orthonormal, has orthonormal functions, and whose first j functions span the same space as the first j given functions, for every j. It refuses an underlying basis that is not marked orthonormal.", "quantifier": "all orthonormal bases, all matrices with linearly independent columns, all j", "why_tests_cant": "an iteration over the columns, of any number and size", "anchors": ["tensap/approximation/bases/sub_functional_basis.py:SubFunctionalBasis.orthonormalize"]}
{"id": "C156", "title": "Orthonormalisation of a basis", "statement": "orthonormalize() of a basis with linearly independent functions returns a basis marked orthonormal, with as many orthonormal functions, the first j of which span the same space as the first j given functions, for every j; it raises an exception if the functions are linearly dependent.", "quantifier": "all bases whose gram_matrix() is their Gram matrix for a linear mean", "why_tests_cant": "a matrix factorisation of any size", "anchors": ["tensap/approximation/bases/functional_basis.py:FunctionalBasis.orthonormalize"]}
{"id": "C157", "title": "Derivatives of a sub-basis", "statement": "eval_derivative(n, x) and eval_jacobian(x) of a sub-basis return the derivatives of its functions: the combinations, with the columns of its matrix, of the derivatives of the functions of the underlying basis.", "quantifier": "all sub-bases, orders and points", "why_tests_cant": "any matrix, order and number of points", "anchors": ["tensap/approximation/bases/sub_functional_basis.py:SubFunctionalBasis.eval_derivative", "tensap/approximation/bases/sub_functional_basis.py:SubFunctionalBasis.eval_jacobian"]}
{"id": "C158", "title": "Bases of polynomials", "statement": "PolynomialFunctionalBasis evaluates the orthonormal polynomials of the given indices; mean() and gram_matrix() are their means and Gram matrix; it is orthonormal exactly if the indices are distinct; one() returns the coefficients of the constant function 1, or raises an exception if the index 0 is absent.", "quantifier": "all uniform and normal random variables, all lists of indices, all points", "why_tests_cant": "unbounded degrees", "anchors": ["tensap/approximation/bases/polynomial_functional_basis.py:PolynomialFunctionalBasis.eval", "tensap/approximation/bases/polynomial_functional_basis.py:PolynomialFunctionalBasis.gram_matrix", "tensap/approximation/bases/polynomial_functional_basis.py:PolynomialFunctionalBasis.mean", "tensap/approximation/bases/polynomial_functional_basis.py:PolynomialFunctionalBasis.one"]}
{"id": "C159", "title": "Derivative of a basis of polynomials", "statement": "derivative(k) of the basis of the polynomials of degrees at most m returns a basis whose functions are the derivatives of order k of the polynomials.", "quantifier": "all uniform and normal random variables, degrees and orders", "why_tests_cant": "unbounded degrees and orders; a Gauss rule that must be exact", "anchors": ["tensap/approximation/bases/polynomial_functional_basis.py:PolynomialFunctionalBasis.derivative", "tensap/approximation/bases/functional_basis.py:FunctionalBasis.quasi_projection", "tensap/approximation/bases/functional_basis_array.py:FunctionalBasisArray.sub_functional_basis"]}
{"id": "C160", "title": "Interpolation on a full tensor product basis", "statement": "FullTensorProductFunctionalBasis.tensor_product_interpolation(fun, grid) returns the only function of the tensor product space that has the values of fun at the points of the product grid it returns, which has as many points as the space has dimensions, all among the given candidates; number_of_evaluations is this number of points; a function of the space is reproduced at all points.", "quantifier": "all numbers of dimensions, bases, candidate points from which the basis functions are independent, and functions", "why_tests_cant": "any number of dimensions and functions", "anchors": ["tensap/approximation/bases/full_tensor_product_functional_basis.py:FullTensorProductFunctionalBasis.tensor_product_interpolation", "tensap/approximation/bases/functional_bases.py:FunctionalBases.interpolation_points", "tensap/approximation/bases/functional_bases.py:FunctionalBases.tensor_product_interpolation"]}
{"id": "C161", "title": "Interpolation from a tensor of values", "statement": "tensor_product_interpolation accepts, instead of a function, a tensor whose entries are the values of the function on the product grid, and returns the interpolation of these values.", "quantifier": "all bases, grids and tensors of the shape of the grid", "why_tests_cant": "any shape", "anchors": ["tensap/approximation/bases/full_tensor_product_functional_basis.py:FullTensorProductFunctionalBasis.tensor_product_interpolation"]}
{"id": "C162", "title": "Interpolation on a sparse tensor product basis of polynomials", "statement": "For bases of polynomials of degrees 0, 1, ... and a downward closed set of multi-indices, SparseTensorProductFunctionalBasis.tensor_product_interpolation(fun, grid) returns the only function of the sparse space with the values of fun at the points of the sparse grid it returns; there are as many points and evaluations as multi-indices; a function of the sparse space is reproduced at all points.", "quantifier": "all numbers of dimensions, polynomials, downward closed sets, candidate points (at least as many distinct ones as functions in each dimension) and functions", "why_tests_cant": "induction on the multi-indices, of any number and size", "anchors": ["tensap/approximation/bases/sparse_tensor_product_functional_basis.py:SparseTensorProductFunctionalBasis.tensor_product_interpolation", "tensap/tools/grids.py:SparseTensorGrid.array", "tensap/approximation/bases/functional_basis.py:FunctionalBasis.interpolate"]}
{"id": "C163", "title": "Interpolation on a sparse tensor product basis", "statement": "For every downward closed set of multi-indices and all bases with linearly independent functions, the sparse interpolation is accepted and has the values of fun at the points of the sparse grid.", "quantifier": "all bases, downward closed sets and functions", "why_tests_cant": "any bases and sets", "anchors": ["tensap/approximation/bases/sparse_tensor_product_functional_basis.py:SparseTensorProductFunctionalBasis.tensor_product_interpolation", "tensap/approximation/bases/functional_basis.py:FunctionalBasis.magic_points"]}
{"id": "C164", "title": "Projection on a full tensor product basis", "statement": "FullTensorProductFunctionalBasis.tensor_product_projection(fun, I) returns the orthogonal projection of fun onto the tensor product space for the discrete inner product of the tensor product integration rule I: the error is orthogonal to the space, no function of the space is closer to fun for nonnegative weights, a function of the space is reproduced; another kind of rule raises an exception.", "quantifier": "all numbers of dimensions, bases, tensor product rules for which the bases are independent, and functions", "why_tests_cant": "any number of dimensions, points and functions", "anchors": ["tensap/approximation/bases/full_tensor_product_functional_basis.py:FullTensorProductFunctionalBasis.tensor_product_projection"]}
{"id": "C165", "title": "Derivatives of a functional tensor", "statement": "eval_derivative(n, x) of a FunctionalTensor returns the mixed partial derivatives of orders n, at the points x, of the function that eval evaluates, in whatever order the derivatives are taken; a list n that has not one order per basis raises AssertionError.", "quantifier": "all numbers of dimensions, full and tree-based tensors, bases of smooth functions of one variable, orders and points", "why_tests_cant": "any tensor, number of dimensions and orders", "anchors": ["tensap/functions/functional_tensor.py:FunctionalTensor.eval_derivative", "tensap/approximation/bases/functional_bases.py:FunctionalBases.eval_derivative"]}
{"id": "C166", "title": "Gradient of a functional tensor", "statement": "eval_gradient(x) of a FunctionalTensor returns the partial derivatives of the function at the points x.", "quantifier": "all functional tensors and points", "why_tests_cant": "any tensor and number of dimensions", "anchors": ["tensap/functions/functional_tensor.py:FunctionalTensor.eval_gradient"]}
{"id": "C167", "title": "Derivatives on sparse tensor product bases", "statement": "eval_derivative(n, x) and eval_jacobian(x) of a SparseTensorProductFunctionalBasis return the mixed and the first partial derivatives of its functions; eval_derivative(n, x) and eval_gradient(x) of a FunctionalBasisArray on such a basis return those of the functions that eval evaluates, with one axis for the variables before the axes of the outputs, which are dropped for a single output.", "quantifier": "all numbers of dimensions, sets of multi-indices, bases of smooth functions of one variable, coefficients, shapes of the outputs and points", "why_tests_cant": "any number of dimensions and functions", "anchors": ["tensap/approximation/bases/sparse_tensor_product_functional_basis.py:SparseTensorProductFunctionalBasis.eval_derivative", "tensap/approximation/bases/functional_basis.py:FunctionalBasis.eval_jacobian", "tensap/approximation/bases/functional_basis_array.py:FunctionalBasisArray.eval_derivative", "tensap/approximation/bases/functional_basis_array.py:FunctionalBasisArray.eval_gradient"]}
{"id": "C168", "title": "Jacobian of a basis of polynomials", "statement": "eval_jacobian(x) of a PolynomialFunctionalBasis, and eval_gradient(x) of a function on this basis, return the derivatives.", "quantifier": "all uniform and normal random variables, indices and points", "why_tests_cant": "any indices and points", "anchors": ["tensap/approximation/bases/functional_basis.py:FunctionalBasis.eval_jacobian", "tensap/approximation/bases/polynomial_functional_basis.py:PolynomialFunctionalBasis.eval_derivative"]}
{"id": "C169", "title": "Gram matrix of the gradients", "statement": "gram_matrix_h1_0() of a sparse tensor product basis of polynomials returns the means of the scalar products of the gradients of its functions.", "quantifier": "all measures, degrees and sets of multi-indices", "why_tests_cant": "any number of dimensions and degrees", "anchors": ["tensap/approximation/bases/sparse_tensor_product_functional_basis.py:SparseTensorProductFunctionalBasis.gram_matrix_h1_0", "tensap/approximation/bases/sparse_tensor_product_functional_basis.py:SparseTensorProductFunctionalBasis.derivative"]}
{"id": "C170", "title": "Density, distribution function and moments of uniform and normal variables", "statement": "For UniformRandomVariable(inf, sup) and NormalRandomVariable(mu, sigma), pdf is a nonnegative function whose integral over every event is the probability of the event, cdf(x) is the probability of the values at most x, mean() and variance() are the mean and the variance of the law, and std() is the square root of the variance.", "quantifier": "all intervals, means and positive standard deviations, all points", "why_tests_cant": "integrals over all events, for real parameters", "anchors": ["tensap/functions/measures/uniform_random_variable.py:UniformRandomVariable.pdf", "tensap/functions/measures/normal_random_variable.py:NormalRandomVariable.pdf", "tensap/functions/measures/uniform_random_variable.py:UniformRandomVariable.cdf", "tensap/functions/measures/normal_random_variable.py:NormalRandomVariable.cdf", "tensap/functions/measures/random_variable.py:RandomVariable.mean", "tensap/functions/measures/random_variable.py:RandomVariable.variance", "tensap/functions/measures/random_variable.py:RandomVariable.std"]}
{"id": "C171", "title": "Quantiles and transfer between random variables", "statement": "icdf(p) is the quantile function: for 0 < p <= 1 it is at most y exactly when p <= cdf(y), it lies in the support, cdf(icdf(p)) = p for p < 1, and nan is returned for p outside [0, 1]. X.transfer(Y, x) never returns nan, keeps the distribution function, and the transferred values of a variable with the law of X have the law of Y.", "quantifier": "all pairs of uniform and normal random variables, probabilities and points", "why_tests_cant": "an equality of laws, for real parameters", "anchors": ["tensap/functions/measures/uniform_random_variable.py:UniformRandomVariable.icdf", "tensap/functions/measures/normal_random_variable.py:NormalRandomVariable.icdf", "tensap/functions/measures/random_variable.py:RandomVariable.transfer"]}
{"id": "C172", "title": "Isoprobabilistic grids", "statement": "iso_probabilistic_grid(n) of a random variable returns n + 1 increasing points, from the minimum to the maximum of the support, that cut it in n cells of probability 1/n, and for 0 < p < 1 in cells of probability at most p. For a RandomVector with independent components the cells of the tensor grid have the same probability, the inverse of their number, with one number of cells for each component or a single one for all; for p < 1 the probability is at most p; any other number of arguments raises ValueError.", "quantifier": "all uniform and normal random variables, numbers of components, numbers of cells and probabilities", "why_tests_cant": "any number of cells and components", "anchors": ["tensap/functions/measures/random_variable.py:RandomVariable.iso_probabilistic_grid", "tensap/functions/measures/random_vector.py:RandomVector.iso_probabilistic_grid"]}
{"id": "C173", "title": "Random vectors with independent components", "statement": "For a RandomVector of uniform and normal random variables with the independent copula, pdf is the density of the product law, cdf(x) is the probability that every component is at most that of x, mean() and variance() are those of the components, and transfer(Y, .) transports the product law to that of Y and raises AssertionError if the sizes differ. A point with too few components raises IndexError; with too many components pdf and cdf return 0.", "quantifier": "all numbers of components, uniform and normal random variables and points", "why_tests_cant": "integrals over all events, any number of components", "anchors": ["tensap/functions/measures/random_vector.py:RandomVector.pdf", "tensap/functions/measures/random_vector.py:RandomVector.cdf", "tensap/functions/measures/random_vector.py:RandomVector.mean", "tensap/functions/measures/random_vector.py:RandomVector.variance", "tensap/functions/measures/random_vector.py:RandomVector.transfer", "tensap/functions/measures/copulas.py:IndependentCopula"]}
{"id": "C174", "title": "Density and shifts of an empirical random variable", "statement": "For an EmpiricalRandomVariable built on a sample that is not constant, pdf is a probability density, that of the mixture with equal weights of the normal laws centred at the sample with standard deviation bandwidth (Scott's rule); shift(b, s) is the variable s X + b; get_standard_random_variable() is (X - mean) / std.", "quantifier": "all samples that are not constant, all shifts and scalings", "why_tests_cant": "an equality of laws, for samples of any size", "anchors": ["tensap/functions/measures/empirical_random_variable.py:EmpiricalRandomVariable.pdf", "tensap/functions/measures/empirical_random_variable.py:EmpiricalRandomVariable.shift", "tensap/functions/measures/empirical_random_variable.py:EmpiricalRandomVariable.get_standard_random_variable"]}
{"id": "C175", "title": "Moments of an empirical random variable", "statement": "mean() and variance() of an EmpiricalRandomVariable are the mean and the variance of its law, of density pdf.", "quantifier": "all samples that are not constant", "why_tests_cant": "samples of any size", "anchors": ["tensap/functions/measures/empirical_random_variable.py:EmpiricalRandomVariable.random_variable_statistics"]}
{"id": "C176", "title": "Distribution function of an empirical random variable", "statement": "cdf(x) of an EmpiricalRandomVariable is the probability of the values at most x, the integral of pdf.", "quantifier": "all samples that are not constant and points", "why_tests_cant": "samples of any size, an integral", "anchors": ["tensap/functions/measures/empirical_random_variable.py:EmpiricalRandomVariable.cdf"]}
{"id": "C177", "title": "Integration rule of an empirical random variable", "statement": "integration_rule(n) of an EmpiricalRandomVariable has n points for each point of the sample and positive weights of sum 1, and integrates exactly the polynomials of degree at most 2n - 1 for the density pdf.", "quantifier": "all samples that are not constant and n > 0", "why_tests_cant": "samples of any size and polynomials of any degree", "anchors": ["tensap/functions/measures/empirical_random_variable.py:EmpiricalRandomVariable.integration_rule"]}
{"id": "C178", "title": "Orthonormal polynomials of an empirical random variable", "statement": "orthonormal_polynomials() of an EmpiricalRandomVariable with N points evaluates polynomials of degrees 0 to N - 1 (0 to n with an argument n) that are orthonormal for the density pdf, and raises IndexError beyond; gauss_integration_rule(n) with n <= N has n distinct increasing points and positive weights and is exact for the degrees at most 2n - 1, and raises IndexError beyond; moment(ind) returns the exact moments for the orders at most 2N - 1.", "quantifier": "all samples that are not constant, degrees and numbers of points", "why_tests_cant": "samples of any size and polynomials of any degree", "anchors": ["tensap/functions/polynomials/orthonormal_polynomials.py:EmpiricalPolynomials", "tensap/functions/measures/empirical_random_variable.py:EmpiricalRandomVariable.orthonormal_polynomials", "tensap/functions/measures/random_variable.py:RandomVariable.gauss_integration_rule", "tensap/functions/measures/random_variable.py:RandomVariable.moment"]}
{"id": "C179", "title": "Truncated support", "statement": "truncated_support(p) of a uniform or normal random variable is a bounded interval inside the support whose probability is at least p, with two tails of the same probability; it is exactly p for a normal variable.", "quantifier": "all uniform and normal laws and 0 < p < 1", "why_tests_cant": "a probability, for all real parameters", "anchors": ["tensap/functions/measures/random_variable.py:RandomVariable.truncated_support"]}
{"id": "C180", "title": "Quantiles of an empirical random variable", "statement": "icdf(q) of an EmpiricalRandomVariable, 0 < q < 1, is a point where cdf is q; random(n) draws a sample from it and truncated_support(p) is a bounded interval of probability p.", "quantifier": "all samples that are not constant, 0 < q < 1", "why_tests_cant": "samples of any size and all levels", "anchors": ["tensap/functions/measures/empirical_random_variable.py:EmpiricalRandomVariable.icdf", "tensap/functions/measures/empirical_random_variable.py:EmpiricalRandomVariable.random", "tensap/functions/measures/random_variable.py:RandomVariable.truncated_support"]}
{"id": "C181", "title": "Gauss rule of a product measure", "statement": "gauss_integration_rule(n) of a ProductMeasure of uniform and normal random variables and Lebesgue measures on intervals, with n_i points in direction i (one number is used in all directions, another number of numbers raises ValueError), has the product of the n_i points and positive weights, and integrates exactly for the product measure every polynomial of degree at most 2 n_i - 1 in the variable i.", "quantifier": "all product measures, numbers of points and polynomials in several variables", "why_tests_cant": "any number of factors and points, all polynomials of bounded partial degrees", "anchors": ["tensap/functions/measures/product_measure.py:ProductMeasure.gauss_integration_rule", "tensap/approximation/integration/integration_rules.py:FullTensorProductIntegrationRule"]}
{"id": "C182", "title": "Comparison of random variables and vectors", "statement": "Two uniform or normal random variables, and two RandomVectors of them, compare equal with == exactly when they have the same law; vectors of different sizes are different.", "quantifier": "all random variables and vectors", "why_tests_cant": "all real parameters and sizes; an equality of laws", "anchors": ["tensap/functions/measures/random_variable.py:RandomVariable.__eq__", "tensap/functions/measures/random_vector.py:RandomVector.__eq__"]}
{"id": "C183", "title": "Comparison of product measures", "statement": "Two ProductMeasures compare equal with == exactly when they have the same factors.", "quantifier": "all product measures", "why_tests_cant": "any numbers of factors", "anchors": ["tensap/functions/measures/product_measure.py:ProductMeasure.__eq__"]}
{"id": "C184", "title": "Shifts of measures", "statement": "For s > 0, shift(b, s) of a uniform random variable X is the law of s X + b; of the Lebesgue measure on an interval it is the Lebesgue measure on its image by x -> s x + b; of a normal random variable of mean m it is the law of s (X - m) + m + b, as documented, hence that of s X + b exactly when s = 1 or m = 0. get_standard_random_variable() is the affine image with support [-1, 1], or with mean 0 and standard deviation 1.", "quantifier": "all parameters, shifts and positive scalings", "why_tests_cant": "an equality of laws for all real parameters", "anchors": ["tensap/functions/measures/uniform_random_variable.py:UniformRandomVariable.shift", "tensap/functions/measures/normal_random_variable.py:NormalRandomVariable.shift", "tensap/functions/measures/lebesgue_measure.py:LebesgueMeasure.shift"]}
{"id": "C185", "title": "Marginals, permutations and mass of product laws", "statement": "marginal(ind) of a RandomVector or ProductMeasure of random variables is the law of the components ind, in this order, and transpose(perm) that of the permuted vector; an index outside raises IndexError; mass() of a product measure is the measure of the whole space.", "quantifier": "all vectors of uniform and normal variables, all lists of distinct nonnegative indices", "why_tests_cant": "any sizes and indices; an equality of laws", "anchors": ["tensap/functions/measures/random_vector.py:RandomVector.marginal", "tensap/functions/measures/random_vector.py:RandomVector.transpose", "tensap/functions/measures/product_measure.py:ProductMeasure.mass"]}
{"id": "C186", "title": "Selection of the ranks to increase", "statement": "new_rank_selection(f) of a TreeBasedTensorLearning returns the ranks of f increased by one for the enriched nodes and no others. An enriched node is not the root, an inactive leaf or an active leaf with a square tensor, its smallest singular value (in the corrected tensor) is not almost zero, and its rank can be increased (it is not the product of the ranks of its children, none of which can be increased). The new ranks are admissible, or nothing changes; a candidate with a smallest singular value at least that of an enriched node is enriched; those with a value at least theta times the largest are all enriched, unless nothing changes.", "quantifier": "all well-formed tree-based tensors, singular values, ranks and nonnegative theta", "why_tests_cant": "all trees and singular values", "anchors": ["tensap/approximation/tensor_approximation/tensor_learning/tree_based_tensor_learning.py:TreeBasedTensorLearning.new_rank_selection"]}
{"id": "C187", "title": "Values distinct up to a tolerance", "statement": "unique_tol(inp, tol) of positive values returns values of the input in increasing order, each more than 1 + tol times those before it, and every value of the input is at most 1 + tol times a value returned below it.", "quantifier": "all lists of positive values (and nan) and nonnegative tolerances", "why_tests_cant": "all lists of real numbers", "anchors": ["tensap/approximation/tensor_approximation/tensor_learning/tree_based_tensor_learning.py:TreeBasedTensorLearning.unique_tol"]}
{"id": "C188", "title": "Random enrichment of the edges", "statement": "enriched_edges_to_ranks_random(f, new_rank) returns a tensor with the ranks new_rank.", "quantifier": "all well-formed tree-based tensors and admissible ranks at least those of f", "why_tests_cant": "all trees, ranks and random draws", "anchors": ["tensap/approximation/tensor_approximation/tensor_learning/tree_based_tensor_learning.py:TreeBasedTensorLearning.enriched_edges_to_ranks_random"]}
{"id": "C189", "title": "Random exploration of the parameters", "statement": "randomize_exploration_strategy() returns an order in which every parameter is visited exactly once; for a canonical tensor the core is the last.", "quantifier": "all tensors and random draws", "why_tests_cant": "all trees, orders and random permutations", "anchors": ["tensap/approximation/tensor_approximation/tensor_learning/tree_based_tensor_learning.py:TreeBasedTensorLearning.randomize_exploration_strategy", "tensap/approximation/tensor_approximation/tensor_learning/canonical_tensor_learning.py:CanonicalTensorLearning.randomize_exploration_strategy"]}
{"id": "C190", "title": "Tensor trains", "statement": "TreeBasedTensor.tensor_train(cores) of d >= 2 cores of compatible positive sizes (n_1 x r_1, r_1 x n_2 x r_2, ..., r_{d-1} x n_d, the last one possibly with an output axis) is a well-formed tensor on the linear tree, of shape n_1 x ... x n_d, and full()[i_1, ..., i_d] is the product of the slices i_k of the cores.", "quantifier": "all numbers of cores, sizes, entries and subscripts", "why_tests_cant": "any number of cores and any entries", "anchors": ["tensap/tensor_algebra/tensors/tree_based_tensor.py:TreeBasedTensor.tensor_train"]}
{"id": "C191", "title": "Tensor trains with given dimensions", "statement": "TreeBasedTensor.tensor_train(cores, dims), for a list or an array of cores and a permutation dims, uses the core i for the dimension dims[i].", "quantifier": "all lists and arrays of cores, all permutations", "why_tests_cant": "any number of cores, all permutations", "anchors": ["tensap/tensor_algebra/tensors/tree_based_tensor.py:TreeBasedTensor.tensor_train"]}
{"id": "C192", "title": "Polynomials given by their coefficients", "statement": "For polynomials whose poly_coeff(ind) gives the coefficients (Hermite, Legendre, canonical), the generic polyval(ind, x) gives their values, d_poly_coef(ind) and dn_poly_coeff(n, ind), n at most the largest degree, give the coefficients of the derivatives of order 1 and n.", "quantifier": "all families of polynomials, indices, points and orders of differentiation", "why_tests_cant": "all degrees, orders and points", "anchors": ["tensap/functions/polynomials/polynomials.py:UnivariatePolynomials.polyval", "tensap/functions/polynomials/polynomials.py:UnivariatePolynomials.d_poly_coef", "tensap/functions/polynomials/polynomials.py:UnivariatePolynomials.dn_poly_coeff", "tensap/functions/polynomials/polynomials.py:CanonicalPolynomials.poly_coeff"]}
{"id": "C193", "title": "Derivatives of any order of polynomials given by their coefficients", "statement": "The generic dn_polyval(n, ind, x) gives the values at x of the derivatives of order n of the polynomials ind.", "quantifier": "all families of polynomials, indices, points and orders of differentiation", "why_tests_cant": "all degrees, orders and points", "anchors": ["tensap/functions/polynomials/polynomials.py:UnivariatePolynomials.dn_polyval", "tensap/functions/polynomials/polynomials.py:UnivariatePolynomials.d_polyval"]}
{"id": "C194", "title": "Canonical polynomials", "statement": "CanonicalPolynomials.polyval(ind, x) gives the powers x ** ind, d_polyval their derivatives; moment(ind, measure) gives the integrals of the products of powers for a Normal, Uniform or Lebesgue measure, mean(ind, measure) their quotients by the mass of the measure; the measure of the polynomials is used if none is given, and without a measure they raise.", "quantifier": "all indices, points and such measures", "why_tests_cant": "all degrees and all measures of the families", "anchors": ["tensap/functions/polynomials/polynomials.py:CanonicalPolynomials.d_polyval", "tensap/functions/polynomials/polynomials.py:UnivariatePolynomials.moment", "tensap/functions/polynomials/polynomials.py:UnivariatePolynomials.mean"]}
{"id": "C195", "title": "Tree-based rank of a tensor", "statement": "The property rank of a tree-based tensor gives, for each active node other than the root, the rank of the full tensor with respect to the dimensions of the node: the least number of products of a function of the subscripts of these dimensions and of a function of the other subscripts whose sum is the tensor. It is at most the representation rank (ranks), and 0 for the inactive nodes.", "quantifier": "all tree-based tensors with real entries, all trees and ranks", "why_tests_cant": "any tensor: minimality ranges over all decompositions", "anchors": ["tensap/tensor_algebra/tensors/tree_based_tensor.py:TreeBasedTensor.rank", "tensap/tensor_algebra/tensors/tree_based_tensor.py:TreeBasedTensor.representation_rank"]}
{"id": "C196", "title": "Sparse storage and complexities", "statement": "sparse_storage() <= sparse_leaves_storage() <= storage(), with equality with the third if no entry of the leaves is zero, with the first if no entry of the internal nodes is; ModelSelection.complexity_tree_based_tensor of type standard is the storage, grassman and stiefel subtract the sums of r^2 and r(r+1)/2 over the ranks, so that grassman <= stiefel <= standard, and 0 <= grassman for admissible ranks with one output; other types raise ValueError.", "quantifier": "all tree-based tensors", "why_tests_cant": "all trees and ranks", "anchors": ["tensap/tensor_algebra/tensors/tree_based_tensor.py:TreeBasedTensor.sparse_leaves_storage", "tensap/tensor_algebra/tensors/tree_based_tensor.py:TreeBasedTensor.sparse_storage", "tensap/approximation/tools/model_selection.py:ModelSelection.complexity_tree_based_tensor"]}
{"id": "C197", "title": "Products by diagonal matrices", "statement": "TreeBasedTensor.tensor_diagonal_matrix_product(matrices, dims) multiplies each entry of the full tensor by the product of the diagonal entries at its subscripts, and keeps the shape.", "quantifier": "all tree-based tensors, distinct dimensions, diagonals of the right sizes", "why_tests_cant": "all sizes and entries", "anchors": ["tensap/tensor_algebra/tensors/tree_based_tensor.py:TreeBasedTensor.tensor_diagonal_matrix_product"]}
{"id": "C198", "title": "Left multiplication by a matrix", "statement": "M * x, for a tree-based tensor x with c > 1 outputs and a matrix M with c columns, is the tensor whose outputs are the combinations of those of x by the rows of M, and its attribute ranks is that of the node tensors; other matrices raise ValueError.", "quantifier": "all tree-based tensors and matrices", "why_tests_cant": "all sizes and entries", "anchors": ["tensap/tensor_algebra/tensors/tree_based_tensor.py:TreeBasedTensor.__rmul__"]}
{"id": "C199", "title": "Activity of dimensions", "statement": "is_active_dim(dim), for a dimension or an array of dimensions, tells whether the leaves of these dimensions are active.", "quantifier": "all tree-based tensors and dimensions", "why_tests_cant": "all trees", "anchors": ["tensap/tensor_algebra/tensors/tree_based_tensor.py:TreeBasedTensor.is_active_dim"]}
{"id": "C200", "title": "Changing the root of a tree-based tensor", "statement": "For a tree-based tensor without output axis whose root has at least two sons, and an active node, change_root(node) returns a valid tensor on the tree tree.change_root(node), with root node and with the same shape and the same entries. The rank of each edge of the path from the node to the former root is kept, moved to its other end; the other ranks are unchanged. An inactive node raises AssertionError.", "quantifier": "all tree-based tensors with entries in a commutative semiring, all trees and active nodes (leaves and internal nodes)", "why_tests_cant": "all trees, ranks, nodes and entries", "anchors": ["tensap/tensor_algebra/tensors/tree_based_tensor.py:TreeBasedTensor.change_root", "tensap/tensor_algebra/tensors/dimension_tree.py:DimensionTree.change_root"]}
{"id": "C201", "title": "Changing the root of a tree-based tensor with several outputs", "statement": "If the root has an output axis, change_root(node) adds a leaf for this axis and returns a tensor of order one more with the same entries.", "quantifier": "all tree-based tensors whose root has an output axis", "why_tests_cant": "all trees and nodes", "anchors": ["tensap/tensor_algebra/tensors/tree_based_tensor.py:TreeBasedTensor.change_root"]}
{"id": "C202", "title": "Product of polynomial bases", "statement": "The Kronecker product p.kron(q) of two bases of orthonormal polynomials of a measure is a basis of the products p_i q_j: for every pair (i, j) it has a function equal to p_i q_j.", "quantifier": "all orthonormal polynomials of a probability measure, all families of degrees", "why_tests_cant": "all measures, degrees and points", "anchors": ["tensap/approximation/bases/polynomial_functional_basis.py:PolynomialFunctionalBasis.kron"]}
{"id": "C203", "title": "Product of functional tensors", "statement": "f * g is the function whose value at x is f(x) g(x), output by output for functions with several outputs, when self.bases.kron(g.bases) is the basis of the products. Different numbers of outputs raise ValueError.", "quantifier": "all functional tensors on a dense or tree-based tensor with entries in a commutative semiring, all bases and points", "why_tests_cant": "all formats, ranks, bases, entries and points", "anchors": ["tensap/functions/functional_tensor.py:FunctionalTensor.__mul__"]}
{"id": "C204", "title": "Product of a functional tensor by a number", "statement": "f * s is the function whose value at x is s f(x).", "quantifier": "all functional tensors on a dense or tree-based tensor with entries in a commutative semiring, all numbers, bases and points", "why_tests_cant": "all formats, ranks, bases, entries and points", "anchors": ["tensap/functions/functional_tensor.py:FunctionalTensor.__mul__"]}
{"id": "C205", "title": "Basis adaptation path of a node", "statement": "In the alternating minimization with basis adaptation, the path built for a node has one row per entry of its tensor, in the order of the columns of the design matrix, and one column per choice of a set of basis functions for each axis that is a dimension of the tensor; a column keeps an entry exactly when each such subscript is in its set. Hence coefficients supported in a column give a node tensor whose nonzero entries are at kept subscripts.", "quantifier": "all well-formed tree-based tensors, active nodes (leaves, internal nodes, root), families of sets of basis functions", "why_tests_cant": "all trees, ranks, activities and sets", "anchors": ["tensap/approximation/tensor_approximation/tensor_learning/tree_based_tensor_learning.py:TreeBasedTensorLearning.create_basis_adaptation_path", "tensap/approximation/tensor_approximation/tensor_learning/tree_based_tensor_learning.py:TreeBasedTensorLearning.set_parameter"]}
{"id": "C206", "title": "Basis adaptation path of a merged node", "statement": "In the DMRG algorithm, the path built for a node merged with its parent has one row per entry of the merged tensor, whose axes are those of the node, then those of its parent without it in the same order, then the rank axis of the parent; a column keeps an entry exactly when all its subscripts along dimensions are in the chosen sets. In the low-rank variant, the two factors get their own paths.", "quantifier": "all well-formed tree-based tensors, active nodes other than the root, families of sets of basis functions", "why_tests_cant": "all trees, ranks, activities and sets", "anchors": ["tensap/approximation/tensor_approximation/tensor_learning/tree_based_tensor_learning.py:TreeBasedTensorLearning.create_basis_adaptation_path_dmrg", "tensap/approximation/tensor_approximation/tensor_learning/tree_based_tensor_learning.py:TreeBasedTensorLearning.create_basis_adaptation_path_dmrg_low_rank"]}
{"id": "C207", "title": "Contraction along all dimensions but one with matrices", "statement": "For two full tensors of the same order and one matrix per dimension, tensordot_matrix_product_except_dim(y, matrices, d) returns the matrix whose entry (i, j) is the sum, over the subscripts of x and of y along the other dimensions, of the products of the entries of x and y (with i and j along d) and of the entries of the matrices. The matrix of dimension d is not used; a wrong number of matrices is refused.", "quantifier": "all full tensors of the same order, dimensions and matrices of compatible sizes", "why_tests_cant": "all orders, sizes and entries", "anchors": ["tensap/tensor_algebra/tensors/full_tensor.py:FullTensor.tensordot_matrix_product_except_dim"]}
{"id": "C208", "title": "Gradient with respect to a merged node", "statement": "For a function in tree-based format and a node alpha other than the root, parameter_gradient_eval_dmrg(alpha) returns an array with one row per point, then the axes of the tensor obtained by merging alpha with its parent gamma (axes of alpha without its rank, of gamma without alpha, then the rank of gamma and the output axis of the function when gamma is not the root). Whatever the tensors put at alpha and gamma, the value of the function at point k is the contraction of row k with the merged tensor: the learning problem of the DMRG algorithm is linear.", "quantifier": "all well-formed tree-based tensors, bases evaluations, nodes other than the root, tensors of the two nodes", "why_tests_cant": "all trees, ranks, points and parameters", "anchors": ["tensap/functions/functional_tensor.py:FunctionalTensor.parameter_gradient_eval_dmrg", "tensap/tensor_algebra/tensors/tree_based_tensor.py:TreeBasedTensor.parameter_gradient_eval_diag_dmrg", "tensap/tensor_algebra/tensors/tree_based_tensor.py:TreeBasedTensor.eval_diag_below", "tensap/tensor_algebra/tensors/tree_based_tensor.py:TreeBasedTensor.eval_diag_above"]}
{"id": "C209", "title": "Factors of the gradient with respect to a merged node", "statement": "With dmrg_type='dmrg_low_rank', parameter_gradient_eval_dmrg(alpha) returns two factors, one for alpha without its rank and one for the other axes of its parent; the value of the function at point k is the contraction of the product of the rows k of the factors with the merged tensor, whatever the tensors of the two nodes.", "quantifier": "all well-formed tree-based tensors, bases evaluations, nodes other than the root, tensors of the two nodes", "why_tests_cant": "all trees, ranks, points and parameters", "anchors": ["tensap/functions/functional_tensor.py:FunctionalTensor.parameter_gradient_eval_dmrg", "tensap/tensor_algebra/tensors/tree_based_tensor.py:TreeBasedTensor.parameter_gradient_eval_diag_dmrg"]}
{"id": "C210", "title": "Update of a merged node in the DMRG learning algorithm", "statement": "In the DMRG variant of tree-based learning with rank adaptation, the coefficients of the least-squares problem posed on the merged node are truncated and split into new tensors of alpha and its parent: the tensor keeps its tree, its other nodes and its sizes, its new rank is at most the maximal rank, and the new function takes at every training point the value of the model with the truncated coefficients. Without maximal rank this value differs from that of the model by at most the tolerance times the norms of the coefficients and of the row of the design matrix.", "quantifier": "all well-formed tree-based tensors, bases evaluations, nodes other than the root, coefficients, truncators without thresholding", "why_tests_cant": "all trees, ranks, coefficients and tolerances; the error bound is a universal inequality", "anchors": ["tensap/approximation/tensor_approximation/tensor_learning/tree_based_tensor_learning.py:TreeBasedTensorLearning._solve_dmrg_rank_adaptation", "tensap/tensor_algebra/tools/truncator.py:Truncator.truncate"]}
{"id": "C211", "title": "Update of a merged node from a low-rank function", "statement": "With the type 'dmrg_low_rank', the low-rank function of two variables learned on the two factors of the gradient is put in the tensors of alpha and its parent: the tensor stays well formed, the rank of alpha is that of the learned function, and the new function takes at every training point the value of the learned function.", "quantifier": "all well-formed tree-based tensors, bases evaluations, nodes other than the root, functions learned on the factors", "why_tests_cant": "all trees, ranks and learned functions", "anchors": ["tensap/approximation/tensor_approximation/tensor_learning/tree_based_tensor_learning.py:TreeBasedTensorLearning._solve_dmrg_rank_adaptation"]}
{"id": "C212", "title": "Optimization of the tree never increases the storage", "statement": "Whatever the random choices, optimize_dimension_tree and optimize_leaves_permutations return the tensor itself, or a tensor of strictly smaller storage whose ranks are admissible.", "quantifier": "all tensors without inactive internal node, random choices, tolerances, numbers of iterations, results of the exchanges of nodes", "why_tests_cant": "the routines are random: the claim is about every sequence of choices", "anchors": ["tensap/tensor_algebra/tensors/tree_based_tensor.py:TreeBasedTensor.optimize_dimension_tree", "tensap/tensor_algebra/tensors/tree_based_tensor.py:TreeBasedTensor.optimize_leaves_permutations"]}
{"id": "C213", "title": "Optimization of the tree respects the tolerance", "statement": "If each exchange of two nodes respects the tolerance it is given, relative to the norm of its argument, and does not increase the norm, then whatever the random choices the tensor returned by optimize_dimension_tree and optimize_leaves_permutations is at a relative distance at most the tolerance of the initial tensor (the tolerances of the exchanges of several iterations accumulate to no more).", "quantifier": "all tensors, tolerances, random choices and numbers of iterations", "why_tests_cant": "the bound is on a sum of errors over every history of accepted and rejected iterations", "anchors": ["tensap/tensor_algebra/tensors/tree_based_tensor.py:TreeBasedTensor.optimize_dimension_tree", "tensap/tensor_algebra/tensors/tree_based_tensor.py:TreeBasedTensor.optimize_leaves_permutations"]}
{"id": "C214", "title": "Cost of the exchange of two nodes", "statement": "nodes_permutation_cost(alpha) is zero exactly at the nodes whose exchange with alpha is impossible or without effect (ancestors, descendants, itself, siblings); elsewhere it is the product of the rank of the deepest common ancestor and of the ranks of all the nodes hanging from the paths to the two nodes, where the rank of an inactive leaf is its size. Hence the nodes drawn can be exchanged.", "quantifier": "all valid trees, positive ranks, pairs of nodes", "why_tests_cant": "all trees and pairs of nodes", "anchors": ["tensap/tensor_algebra/tensors/tree_based_tensor.py:TreeBasedTensor.nodes_permutation_cost", "tensap/tensor_algebra/tensors/tree_based_tensor.py:TreeBasedTensor.permute_nodes"]}
{"id": "C215", "title": "Termination of the optimization of the tree", "statement": "optimize_dimension_tree terminates for every tensor and every sequence of random choices.", "quantifier": "all tensors, numbers of iterations and random choices", "why_tests_cant": "termination for every sequence of random choices", "anchors": ["tensap/tensor_algebra/tensors/tree_based_tensor.py:TreeBasedTensor.optimize_dimension_tree"]}
{"id": "C216", "title": "Adaptation of the dimension tree during learning", "statement": "adapt_tree leaves the function and the tree unchanged, or replaces the tensor by one of strictly smaller storage, takes its tree and reports it; the function then changes by at most the tolerance used, relative to its norm, which is the tolerance of the options, else the test error, else the cross-validation error.", "quantifier": "all functions in tree-based format, options, errors and random choices", "why_tests_cant": "all tensors and sequences of random choices", "anchors": ["tensap/approximation/tensor_approximation/tensor_learning/tree_based_tensor_learning.py:TreeBasedTensorLearning.adapt_tree"]}
{"id": "C217", "title": "Rank-one correction does not increase the training risk", "statement": "With the square loss, the rank-one correction of a function never fails and returns the function plus another one (or the other one alone when there is no function), and its sum of squared errors at the training points is at most that of the function.", "quantifier": "all functions, data, bases, orders of the nodes, results of the linear solvers", "why_tests_cant": "the inequality is on a composition of minimizations over every training set", "anchors": ["tensap/approximation/tensor_approximation/tensor_learning/tree_based_tensor_learning.py:TreeBasedTensorLearning.rank_one_correction"]}
{"id": "C218", "title": "Membership in a box", "statement": "is_in(B, x) returns one boolean per point, true exactly when the point is in the closed box of extreme points B[0] and B[1]; points with fewer coordinates than the box are refused. For an interval, a vector x of numbers is a set of points.", "quantifier": "all boxes, dimensions and sets of points", "why_tests_cant": "all boxes and points", "anchors": ["tensap/functions/sets/is_in.py:is_in"]}
{"id": "C219", "title": "Random multi-indices", "statement": "random_multi_indices(shape) returns a random vector with independent components with the uniform law on the multi-indices of the box (or of the product of the given lists), and does not modify its argument.", "quantifier": "all lists of positive sizes, or of lists of distinct values", "why_tests_cant": "a law on all multi-indices, and the effect of repeated calls", "anchors": ["tensap/functions/measures/random_multi_indices.py:random_multi_indices"]}
{"id": "C220", "title": "Evaluation of a tree-based tensor at multi-indices", "statement": "eval_at_indices(I) of a tree-based tensor returns, for each row of I (or each column, when the number of columns is not the order), in the given order and with repetitions, the entry of the represented tensor at this multi-index; matrices of another size are refused.", "quantifier": "all tree-based tensors (any tree, active or inactive leaves, rank axis at the root) and all nonempty lists of multi-indices", "why_tests_cant": "all trees, ranks and lists of points", "anchors": ["tensap/tensor_algebra/tensors/tree_based_tensor.py:TreeBasedTensor.eval_at_indices"]}
{"id": "C221", "title": "Evaluation of a tree-based tensor at indices of some dimensions", "statement": "eval_at_indices(I, dims) with one dimension returns the tensor restricted to the given subscripts of this dimension; with one point in several dimensions it returns the tensor in the other dimensions (the entry when there is none).", "quantifier": "all tree-based tensors, dimensions and points", "why_tests_cant": "all trees and sets of dimensions", "anchors": ["tensap/tensor_algebra/tensors/tree_based_tensor.py:TreeBasedTensor.eval_at_indices"]}
{"id": "C222", "title": "Basis of indicator functions", "statement": "DeltaFunctionalBasis(values): eval(x) returns the matrix whose entry (i, mu) is 1 if the i-th point is the mu-th value and 0 otherwise; cardinal() is the number of values, ndim() their dimension, and random(n) returns the evaluations at a random sample.", "quantifier": "all finite sets of values in all dimensions and all points", "why_tests_cant": "all values and points", "anchors": ["tensap/approximation/bases/delta_functional_basis.py:DeltaFunctionalBasis"]}
{"id": "C223", "title": "Basis of given functions", "statement": "UserDefinedFunctionalBasis(h): eval(x) returns the matrix whose column mu is given by the values of the mu-th function at the points, a constant being accepted and an array of another size refused; cardinal() is the number of functions, ndim() is input_dim, by default the dimension of the measure; random(n) returns the evaluations at the sample, with the sample.", "quantifier": "all lists of functions and all points", "why_tests_cant": "all functions and points", "anchors": ["tensap/approximation/bases/user_defined_functional_basis.py:UserDefinedFunctionalBasis", "tensap/approximation/bases/functional_basis.py:FunctionalBasis.random"]}
{"id": "C224", "title": "Test error of a function", "statement": "f.test_error(g, n, measure) returns the relative l2 and linf errors of f, with reference g (a function or evaluations), at the test points n, or at a sample of n points of the measure (by default the one of f, otherwise the one of g); the l2 error is zero exactly when f and g agree at the points (g not zero); evaluations whose number is not the number of points are refused.", "quantifier": "all functions with values of any size, all sets of test points and samples", "why_tests_cant": "all functions, points and samples", "anchors": ["tensap/functions/function.py:Function.test_error"]}
{"id": "C225", "title": "Random evaluations of a function", "statement": "f.random(n, measure) returns the evaluations of f at n points drawn from the given probability measure, by default the measure of f, with the points; without a probability measure it raises ValueError.", "quantifier": "all functions, measures and samples", "why_tests_cant": "all measures, given or not", "anchors": ["tensap/functions/function.py:Function.random"]}
{"id": "C226", "title": "Preparation of a linear learning problem", "statement": "LinearModelLearning.initialize() evaluates the basis at the training inputs, and at the test inputs when the test error is required, keeps the evaluations that are given, disables the test error when it cannot be computed, and refuses missing inputs.", "quantifier": "all bases, data (lists or arrays) and given evaluations", "why_tests_cant": "all combinations of given attributes", "anchors": ["tensap/approximation/learning/linear_model_learning.py:LinearModelLearning.initialize"]}
{"id": "C227", "title": "Loss function for density estimation", "statement": "DensityL2LossFunction: the risk of f on a sample is the squared norm of f minus twice the mean of f on the sample, f being a function or its evaluations with its norm; its expectation for a sample of density p is the squared distance of f to p up to a constant; test_error is the risk.", "quantifier": "all functions, samples, norms; all densities on finite sets", "why_tests_cant": "all samples and an expectation over samples", "anchors": ["tensap/approximation/learning/loss_functions.py:DensityL2LossFunction"]}
{"id": "C228", "title": "Discrete measures", "statement": "DiscreteMeasure(values, weights): the weights are one by default, a wrong number of weights is refused, mass() is their sum, ndim() the dimension of the values, support() the least and greatest coordinates of the values, and two measures are equal exactly when they have the same values and weights.", "quantifier": "all finite sets of values in all dimensions, all weights", "why_tests_cant": "all values and weights", "anchors": ["tensap/functions/measures/discrete_measure.py:DiscreteMeasure"]}
{"id": "C229", "title": "Sampling of a discrete measure", "statement": "DiscreteMeasure.random(n) returns n of the values, each one drawn with a probability proportional to its weight, for values in any dimension.", "quantifier": "all discrete measures with nonnegative weights, not all zero, and all uniform samples", "why_tests_cant": "all measures, a law on the values", "anchors": ["tensap/functions/measures/discrete_measure.py:DiscreteMeasure.random", "tensap/functions/measures/discrete_random_variable.py:DiscreteRandomVariable.icdf"]}
{"id": "C230", "title": "Risk of a custom loss", "statement": "CustomLossFunction: eval applies the loss given by the user to the observations and to the predictions of an object with eval, of a callable or of an array, and to zero predictions for the reference; the risk of a loss applied entry by entry is its mean over the observations, and is zero exactly for exact predictions when the loss vanishes only there.", "quantifier": "all losses, predictors, observations and predictions with any number of samples", "why_tests_cant": "all losses and sample sizes", "anchors": ["tensap/approximation/learning/loss_functions.py:CustomLossFunction"]}
{"id": "C231", "title": "Test error of a custom loss", "statement": "CustomLossFunction.test_error returns the risk or the error function of the user, of the type given by error_type; relative_test_error is refused without a function; an exception of the predictor is not hidden.", "quantifier": "all custom losses, predictors and samples", "why_tests_cant": "all predictors and losses", "anchors": ["tensap/approximation/learning/loss_functions.py:CustomLossFunction.test_error"]}
{"id": "C232", "title": "Benchmark functions", "statement": "multivariate_functions_benchmark(case): each documented name gives a function and the random vector of its variables; at any set of points the function has one value per point, given by the formula of the benchmark at this point only.", "quantifier": "all documented names, all parameters, all finite sets of points", "why_tests_cant": "all points, dimensions and coefficients", "anchors": ["tensap/functions/multivariate_functions_benchmark.py:multivariate_functions_benchmark"]}
{"id": "C233", "title": "Means of benchmark functions", "statement": "The function of Sobol and the function polynomial of multivariate_functions_benchmark have the mean one for the returned random vector, in any dimension and for all coefficients of Sobol's function other than minus one.", "quantifier": "all dimensions and coefficients", "why_tests_cant": "integrals over cubes of every dimension", "anchors": ["tensap/functions/multivariate_functions_benchmark.py:multivariate_functions_benchmark"]}
