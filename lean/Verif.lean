import Verif.Np
import Verif.Model.Utils
import Verif.Model.MultiIndices
import Verif.Lemmas.MultiIndices
import Verif.Props.Utils
import Verif.Props.MultiIndices
import Verif.Props.MultiIndicesSets
import Verif.Props.MultiIndicesGrow
import Verif.Props.MultiIndicesSort
import Verif.Model.DimensionTree
import Verif.Spec.Tree
import Verif.Lemmas.DimensionTree
import Verif.Props.DimensionTree
import Verif.Props.DimensionTreeEq
import Verif.Props.DimensionTreeCtor
import Verif.Np.Arr
import Verif.Model.FullTensor
import Verif.Lemmas.Arr
import Verif.Spec.Tensor
import Verif.Lemmas.Merge
import Verif.Props.FullTensor
import Verif.Props.FullTensorEval
import Verif.Props.FullTensorIndex
import Verif.Model.SparseTensor
import Verif.Lemmas.Sparse
import Verif.Props.Sparse
import Verif.Props.SparseContract
import Verif.Model.DiagonalTensor
import Verif.Model.CanonicalTensor
import Verif.Lemmas.Entries
import Verif.Props.Diagonal
import Verif.Props.Canonical
import Verif.Props.CanonicalContract
import Verif.Model.TreeBasedTensor
import Verif.Model.TreeBasedOps
import Verif.Spec.TreeTensor
import Verif.Lemmas.BottomUp
import Verif.Lemmas.TreeTensor
import Verif.Lemmas.TreeValue
import Verif.Lemmas.TreeLeaf
import Verif.Props.TreeFull
import Verif.Props.TreeModes
import Verif.Lemmas.Shaped
import Verif.Props.TreeArith
import Verif.Props.TreeActivate
import Verif.Props.TreeKron
import Verif.Props.TreeWitness
import Verif.Model.Tensorizer
import Verif.Props.Tensorizer
import Verif.Model.ModelSelection
import Verif.Props.ModelSelection
import Verif.Model.Measures
import Verif.Props.Measures
import Verif.Model.Grids
import Verif.Props.Grids
import Verif.Model.Bases
import Verif.Props.BasisArray
import Verif.Props.TensorBases
import Verif.Props.MultiIndicesDims
import Verif.Lemmas.Gram
import Verif.Lemmas.Gauge
import Verif.Lemmas.QRExists
import Verif.Model.TreeDot
import Verif.Model.Orth
import Verif.Props.TreeDot
import Verif.Props.FullTensorOrth
import Verif.Props.TreeOrth
import Verif.Props.TreeOrthWitness
import Verif.Model.Truncator
import Verif.Props.Truncator
import Verif.Lemmas.SvdExists
import Verif.Lemmas.Projection
import Verif.Model.Hosvd
import Verif.Lemmas.TruncLeft
import Verif.Lemmas.Matricize
import Verif.Props.Hosvd
import Verif.Props.TreeInactivate
import Verif.Model.TreeSurgery
import Verif.Props.TreePermute
import Verif.Props.TreeSurgery
import Verif.Model.TreeRanks
import Verif.Props.TreeRanks
import Verif.Model.Gramians
import Verif.Model.Hsvd
import Verif.Props.Hsvd
import Verif.Props.Gramians
import Verif.Model.OrthAtNode
import Verif.Props.OrthAtNode
import Verif.Model.HsvdDense
import Verif.Props.HsvdDense
import Verif.Model.LeastSquares
import Verif.Spec.LeastSquares
import Verif.Props.LeastSquares
import Verif.Props.CrossValidation
import Verif.Props.BasisAdaptation
import Verif.Props.LeastSquaresExists
import Verif.Model.DensityL2
import Verif.Props.DensityL2
import Verif.Model.Polynomials
import Verif.Spec.Polynomials
import Verif.Props.Polynomials
import Verif.Props.GaussRules
import Verif.Props.PolyMoments
import Verif.Props.DiscretePolynomials
import Verif.Model.TreeEval
import Verif.Model.FunctionalTensor
import Verif.Props.EvalDiag
import Verif.Props.TreeEval
import Verif.Props.TreeEvalDiag
import Verif.Props.FunctionalTensor
import Verif.Model.Magic
import Verif.Model.BasisProjection
import Verif.Props.Magic
import Verif.Props.BasisProjection
import Verif.Spec.Regression
import Verif.Lemmas.TreeLinear
import Verif.Model.ParamGradient
import Verif.Props.ParamGradient
import Verif.Model.AlternatingMinimization
import Verif.Props.AlternatingMinimization
import Verif.Model.RankAdaptation
import Verif.Props.RankAdaptation
import Verif.Model.RanksAdmissible
import Verif.Props.RanksAdmissible
import Verif.Model.Functions
import Verif.Props.Functions
import Verif.Model.Losses
import Verif.Props.Losses
import Verif.Model.BSplines
import Verif.Props.BSplines
import Verif.Model.Pca
import Verif.Props.Pca
import Verif.Model.CanonicalLearning
import Verif.Props.CanonicalLearning
import Verif.Model.TreeConvert
import Verif.Props.TreeConvert
import Verif.Model.PiecewisePolynomials
import Verif.Spec.PiecewisePolynomials
import Verif.Lemmas.PiecewisePolynomials
import Verif.Props.PiecewisePolynomials
import Verif.Props.PiecewiseMesh
import Verif.Model.TreeSqueeze
import Verif.Lemmas.TreePart
import Verif.Lemmas.TreeMerge
import Verif.Lemmas.TreeSqueeze
import Verif.Props.TreeUnique
import Verif.Props.TreeSqueeze
import Verif.Props.TreeSqueezeFull
import Verif.Props.TreeVector
import Verif.Model.CondExp
import Verif.Props.CondExp
import Verif.Model.FunctionalPca
import Verif.Props.FunctionalPca
import Verif.Model.SubBasis
import Verif.Props.SubBasis
import Verif.Props.PolyBasis
import Verif.Model.TensorInterp
import Verif.Props.TensorInterp
import Verif.Props.SparseInterp
import Verif.Props.TensorProjection
import Verif.Model.Derivatives
import Verif.Props.Derivatives
import Verif.Model.GramH1
import Verif.Props.GramH1
import Verif.Model.Distributions
import Verif.Spec.Distributions
import Verif.Props.Distributions
import Verif.Props.RandomVectors
import Verif.Model.Empirical
import Verif.Spec.Empirical
import Verif.Props.Empirical
import Verif.Props.EmpiricalPolynomials
import Verif.Model.TruncatedSupport
import Verif.Props.TruncatedSupport
import Verif.Model.ProductMeasure
import Verif.Spec.ProductMeasure
import Verif.Props.ProductMeasure
import Verif.Model.RankSelection
import Verif.Spec.RankSelection
import Verif.Props.RankSelection
import Verif.Model.TensorTrain
import Verif.Spec.TensorTrain
import Verif.Props.TensorTrain
import Verif.Model.CanonicalPolynomials
import Verif.Props.CanonicalPolynomials
import Verif.Model.TreeMisc
import Verif.Spec.AlphaRank
import Verif.Props.TreeMisc
import Verif.Model.ChangeRoot
import Verif.Props.ChangeRoot
import Verif.Model.FunctionalProduct
import Verif.Props.PolyKron
import Verif.Props.FunctionalProduct
import Verif.Model.AdaptationPath
import Verif.Spec.AdaptationPath
import Verif.Props.AdaptationPath
import Verif.Model.TensordotExcept
import Verif.Props.TensordotExcept
import Verif.Model.ParamGradientDmrg
import Verif.Spec.ParamGradientDmrg
import Verif.Lemmas.DmrgBelow
import Verif.Props.ParamGradientDmrg
import Verif.Model.DmrgUpdate
import Verif.Lemmas.DmrgUpdate
import Verif.Props.DmrgUpdate
import Verif.Model.OptimizeTree
import Verif.Spec.OptimizeTree
import Verif.Props.OptimizeTree
import Verif.Model.AdaptTree
import Verif.Props.AdaptTree
import Verif.Model.RankOneCorrection
import Verif.Props.RankOneCorrection
import Verif.Model.Sets
import Verif.Props.Sets
import Verif.Model.TreeAtIndices
import Verif.Props.TreeAtIndices
import Verif.Model.ExplicitBases
import Verif.Props.ExplicitBases
import Verif.Model.TestError
import Verif.Props.TestError
import Verif.Model.LearningSetup
import Verif.Props.LearningSetup
import Verif.Model.DiscreteMeasure
import Verif.Props.DiscreteMeasure
import Verif.Model.CustomLoss
import Verif.Props.CustomLoss
import Verif.Model.Benchmark
import Verif.Props.Benchmark
