import Verif.Lemmas.Analytic
import Verif.Lemmas.Apriori
import Verif.Lemmas.AprioriObject
import Verif.Lemmas.Argsort
import Verif.Lemmas.Batches
import Verif.Lemmas.Cholesky
import Verif.Lemmas.Combinations
import Verif.Lemmas.Copies
import Verif.Lemmas.CopiesFits
import Verif.Lemmas.DMat
import Verif.Lemmas.Data
import Verif.Lemmas.DecisionTree
import Verif.Lemmas.DecisionTreeFit
import Verif.Lemmas.DecisionTreeMap
import Verif.Lemmas.DecisionTreeObject
import Verif.Lemmas.DecisionTreeRounded
import Verif.Lemmas.DecisionTreeSim
import Verif.Lemmas.Decompositions
import Verif.Lemmas.Descent
import Verif.Lemmas.Drift
import Verif.Lemmas.EM
import Verif.Lemmas.ExtraFeature
import Verif.Lemmas.ExtraFeatureFits
import Verif.Lemmas.Extreme
import Verif.Lemmas.GMM
import Verif.Lemmas.GMMFit
import Verif.Lemmas.HashTree
import Verif.Lemmas.Hinge
import Verif.Lemmas.Hoeffding
import Verif.Lemmas.Impurity
import Verif.Lemmas.KDBox
import Verif.Lemmas.KDBuild
import Verif.Lemmas.KDFinal
import Verif.Lemmas.KDNear
import Verif.Lemmas.KDQuery
import Verif.Lemmas.KDSort
import Verif.Lemmas.KDWalk
import Verif.Lemmas.KMeans
import Verif.Lemmas.KMeansRecovery
import Verif.Lemmas.KMeansSymmetry
import Verif.Lemmas.KSmallest
import Verif.Lemmas.LBFGS
import Verif.Lemmas.LassoStability
import Verif.Lemmas.LinAlg
import Verif.Lemmas.LineSearch
import Verif.Lemmas.LinearFit
import Verif.Lemmas.LinearModel
import Verif.Lemmas.Lists
import Verif.Lemmas.Liveness
import Verif.Lemmas.LogStability
import Verif.Lemmas.LogisticMinimum
import Verif.Lemmas.Loss
import Verif.Lemmas.LowRank
import Verif.Lemmas.MapRes
import Verif.Lemmas.Metric
import Verif.Lemmas.NaiveBayes
import Verif.Lemmas.NaiveBayesLikelihood
import Verif.Lemmas.NaiveBayesObject
import Verif.Lemmas.Objects
import Verif.Lemmas.OptimizerObject
import Verif.Lemmas.PCA
import Verif.Lemmas.PCAObject
import Verif.Lemmas.Perceptron
import Verif.Lemmas.PlusPlus
import Verif.Lemmas.PlusPlusGroups
import Verif.Lemmas.Reduced
import Verif.Lemmas.Regions
import Verif.Lemmas.Rounding
import Verif.Lemmas.Rows
import Verif.Lemmas.Rules
import Verif.Lemmas.SCD
import Verif.Lemmas.SGD
import Verif.Lemmas.Sampling
import Verif.Lemmas.Saturation
import Verif.Lemmas.SgdNoise
import Verif.Lemmas.SgdStability
import Verif.Lemmas.Simulation
import Verif.Lemmas.SoftmaxDescent
import Verif.Lemmas.SoftmaxLoss
import Verif.Lemmas.SoftmaxMinimum
import Verif.Lemmas.SoftmaxSmooth
import Verif.Lemmas.Sort2D
import Verif.Lemmas.Stats
import Verif.Lemmas.SvdFlip
import Verif.Lemmas.SvdStability
import Verif.Lemmas.SvdUnique
import Verif.Lemmas.Symmetry
import Verif.Lemmas.Text
import Verif.Lemmas.TransactionEncoder
import Verif.Lemmas.TruncatedSVD
import Verif.Lemmas.VecOps
import Verif.Model.Analytic
import Verif.Model.Apriori
import Verif.Model.AprioriObject
import Verif.Model.Argsort
import Verif.Model.Combinations
import Verif.Model.Data
import Verif.Model.DecisionTree
import Verif.Model.DecisionTreeObject
import Verif.Model.DecisionTreeRounded
import Verif.Model.Defaults
import Verif.Model.Eigen
import Verif.Model.EstimatorObject
import Verif.Model.GMM
import Verif.Model.GMMObject
import Verif.Model.HashTree
import Verif.Model.Impurity
import Verif.Model.KDTree
import Verif.Model.KMeans
import Verif.Model.KMeansObject
import Verif.Model.KMeansRounded
import Verif.Model.LBFGS
import Verif.Model.LinAlg
import Verif.Model.LinearFit
import Verif.Model.LinearModel
import Verif.Model.LogisticObject
import Verif.Model.Loss
import Verif.Model.MatOps
import Verif.Model.Metric
import Verif.Model.NaiveBayes
import Verif.Model.NaiveBayesObject
import Verif.Model.Neighbors
import Verif.Model.Norm
import Verif.Model.Objects
import Verif.Model.Ops
import Verif.Model.OptimizerObject
import Verif.Model.PCA
import Verif.Model.PCAObject
import Verif.Model.PQueue
import Verif.Model.Random
import Verif.Model.RandomMat
import Verif.Model.Res
import Verif.Model.Rounding
import Verif.Model.Rows
import Verif.Model.SGD
import Verif.Model.Saturation
import Verif.Model.SaturationNB
import Verif.Model.Seeds
import Verif.Model.Sort2D
import Verif.Model.Spectral
import Verif.Model.Stats
import Verif.Model.SvdFlip
import Verif.Model.Text
import Verif.Model.TransactionEncoder
import Verif.Model.TruncatedSVD
import Verif.Model.TruncatedSVDObject
import Verif.Model.VecOps
import Verif.Props.Analytic
import Verif.Props.Apriori
import Verif.Props.AprioriObject
import Verif.Props.AprioriRelations
import Verif.Props.Argsort
import Verif.Props.Armijo
import Verif.Props.Batches
import Verif.Props.ClassExact
import Verif.Props.ClassMissing
import Verif.Props.Combinations
import Verif.Props.CoordinateRate
import Verif.Props.Copies
import Verif.Props.Data
import Verif.Props.DecisionTree
import Verif.Props.DecisionTreeInvariance
import Verif.Props.DecisionTreeMore
import Verif.Props.DecisionTreeObject
import Verif.Props.DecisionTreeRounding
import Verif.Props.Defaults
import Verif.Props.Descent
import Verif.Props.Drift
import Verif.Props.EstimatorObject
import Verif.Props.ExtraFeature
import Verif.Props.FiniteChoice
import Verif.Props.GMM
import Verif.Props.GMMErrors
import Verif.Props.GMMMonotone
import Verif.Props.GMMObject
import Verif.Props.GMMSymmetry
import Verif.Props.GradientTail
import Verif.Props.Greedy
import Verif.Props.HashTree
import Verif.Props.Hinge
import Verif.Props.HoldOut
import Verif.Props.HoldOutTail
import Verif.Props.Huber
import Verif.Props.Impurity
import Verif.Props.KDAgreement
import Verif.Props.KDBalance
import Verif.Props.KDRounding
import Verif.Props.KDStability
import Verif.Props.KDTree
import Verif.Props.KMeans
import Verif.Props.KMeansObject
import Verif.Props.KMeansRecovery
import Verif.Props.KMeansRounding
import Verif.Props.KMeansStuck
import Verif.Props.KMeansSymmetry
import Verif.Props.LBFGS
import Verif.Props.LBFGSConverges
import Verif.Props.LBFGSDescent
import Verif.Props.LBFGSLosses
import Verif.Props.LBFGSPath
import Verif.Props.LBFGSRate
import Verif.Props.LBFGSRun
import Verif.Props.LBFGSStop
import Verif.Props.Lasso
import Verif.Props.LassoStability
import Verif.Props.LinAlg
import Verif.Props.LineSearch
import Verif.Props.LinearAnswers
import Verif.Props.LinearFit
import Verif.Props.LinearInvariance
import Verif.Props.LinearModel
import Verif.Props.LinearPredict
import Verif.Props.LinearStatistics
import Verif.Props.Liveness
import Verif.Props.LoadAgain
import Verif.Props.LogStability
import Verif.Props.LogisticMinimum
import Verif.Props.LogisticObject
import Verif.Props.Loss
import Verif.Props.LowRank
import Verif.Props.MatOps
import Verif.Props.Metric
import Verif.Props.NaiveBayes
import Verif.Props.NaiveBayesInvariance
import Verif.Props.NaiveBayesLikelihood
import Verif.Props.NaiveBayesObject
import Verif.Props.Neighbors
import Verif.Props.Objects
import Verif.Props.Ops
import Verif.Props.OptimizerObject
import Verif.Props.PCA
import Verif.Props.PCACov
import Verif.Props.PCAObject
import Verif.Props.PCASymmetry
import Verif.Props.Perceptron
import Verif.Props.PlusPlus
import Verif.Props.PlusPlusGroups
import Verif.Props.Random
import Verif.Props.RandomGroups
import Verif.Props.RandomMat
import Verif.Props.Reduced
import Verif.Props.Regions
import Verif.Props.RidgeGeneralises
import Verif.Props.Rounding
import Verif.Props.Rows
import Verif.Props.RuleOrder
import Verif.Props.SCD
import Verif.Props.SGD
import Verif.Props.Sampling
import Verif.Props.Saturation
import Verif.Props.SaturationNB
import Verif.Props.Seeds
import Verif.Props.SgdNoise
import Verif.Props.SgdStability
import Verif.Props.Softmax
import Verif.Props.SoftmaxBatch
import Verif.Props.SoftmaxDescent
import Verif.Props.SoftmaxMinimum
import Verif.Props.SoftmaxTwo
import Verif.Props.SolversAgree
import Verif.Props.Sort2D
import Verif.Props.Spectral
import Verif.Props.SplitPriors
import Verif.Props.Stability
import Verif.Props.Stats
import Verif.Props.SvdFlip
import Verif.Props.SvdStability
import Verif.Props.Symmetry
import Verif.Props.Text
import Verif.Props.TransactionEncoder
import Verif.Props.TreeFit
import Verif.Props.TruncatedSVD
import Verif.Props.TruncatedSVDObject
import Verif.Props.VecOps
import Verif.Spec.Analytic
import Verif.Spec.AprioriObject
import Verif.Spec.Armijo
import Verif.Spec.Batches
import Verif.Spec.Copies
import Verif.Spec.Counting
import Verif.Spec.DecisionTree
import Verif.Spec.DecisionTreeObject
import Verif.Spec.Descent
import Verif.Spec.Drift
import Verif.Spec.EstimatorObject
import Verif.Spec.ExtraFeature
import Verif.Spec.Extreme
import Verif.Spec.FirstOccurrence
import Verif.Spec.GMM
import Verif.Spec.GMMObject
import Verif.Spec.GMMSymmetry
import Verif.Spec.HoldOut
import Verif.Spec.Impurity
import Verif.Spec.Itemsets
import Verif.Spec.KMeans
import Verif.Spec.KMeansObject
import Verif.Spec.KMeansRecovery
import Verif.Spec.LBFGS
import Verif.Spec.Lasso
import Verif.Spec.LassoStability
import Verif.Spec.LinAlg
import Verif.Spec.LinearAnswers
import Verif.Spec.LinearModel
import Verif.Spec.LogStability
import Verif.Spec.LogisticMinimum
import Verif.Spec.LogisticObject
import Verif.Spec.Loss
import Verif.Spec.LowRank
import Verif.Spec.Metric
import Verif.Spec.NaiveBayes
import Verif.Spec.NaiveBayesLikelihood
import Verif.Spec.NaiveBayesObject
import Verif.Spec.Nearest
import Verif.Spec.Neighbours
import Verif.Spec.Objects
import Verif.Spec.OptimizerObject
import Verif.Spec.Order
import Verif.Spec.PCA
import Verif.Spec.PCAObject
import Verif.Spec.PCASymmetry
import Verif.Spec.Perceptron
import Verif.Spec.PlusPlus
import Verif.Spec.PlusPlusGroups
import Verif.Spec.Random
import Verif.Spec.Reduced
import Verif.Spec.Regions
import Verif.Spec.RidgeGeneralises
import Verif.Spec.RuleOrder
import Verif.Spec.SGD
import Verif.Spec.Sampling
import Verif.Spec.Selections
import Verif.Spec.SgdNoise
import Verif.Spec.SgdStability
import Verif.Spec.Similarity
import Verif.Spec.SoftmaxDescent
import Verif.Spec.SoftmaxMinimum
import Verif.Spec.SoftmaxTwo
import Verif.Spec.SolversAgree
import Verif.Spec.Sorting
import Verif.Spec.Spectral
import Verif.Spec.Stability
import Verif.Spec.Stats
import Verif.Spec.SvdFlip
import Verif.Spec.SvdStability
import Verif.Spec.Symmetry
import Verif.Spec.Text
import Verif.Spec.TreeFit
import Verif.Spec.TruncatedSVDObject
