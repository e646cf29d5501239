import Verif.Lemmas.AgDeriv
import Verif.Lemmas.AgJac
import Verif.Lemmas.Arr
import Verif.Lemmas.Blank
import Verif.Lemmas.Chol
import Verif.Lemmas.Deriv
import Verif.Lemmas.Deriv2
import Verif.Lemmas.Deriv3
import Verif.Lemmas.Deriv4
import Verif.Lemmas.Dict
import Verif.Lemmas.Dict2
import Verif.Lemmas.Dict3
import Verif.Lemmas.Dict4
import Verif.Lemmas.Dict5
import Verif.Lemmas.Dict6
import Verif.Lemmas.DirichletDist
import Verif.Lemmas.DirichletMoments
import Verif.Lemmas.Einsum
import Verif.Lemmas.Embed
import Verif.Lemmas.ExScalar
import Verif.Lemmas.Families
import Verif.Lemmas.Flt
import Verif.Lemmas.FullRank
import Verif.Lemmas.GammaDist
import Verif.Lemmas.GaussKL
import Verif.Lemmas.Gibbs
import Verif.Lemmas.Heap
import Verif.Lemmas.Heap2
import Verif.Lemmas.Heap3
import Verif.Lemmas.Heap4
import Verif.Lemmas.Heap5
import Verif.Lemmas.Heap6
import Verif.Lemmas.HeapCg
import Verif.Lemmas.HeapHeld
import Verif.Lemmas.HeapObj
import Verif.Lemmas.HeapOpt
import Verif.Lemmas.HeapPSens
import Verif.Lemmas.HeapPSensSim
import Verif.Lemmas.HeapSens
import Verif.Lemmas.HeapTaylor
import Verif.Lemmas.HeapTwo
import Verif.Lemmas.IterD
import Verif.Lemmas.Ld
import Verif.Lemmas.Leaf
import Verif.Lemmas.Leaf2
import Verif.Lemmas.LegalVec
import Verif.Lemmas.Mle
import Verif.Lemmas.MleHess
import Verif.Lemmas.MleNear
import Verif.Lemmas.MvnDensity
import Verif.Lemmas.NdArr
import Verif.Lemmas.NormalDist
import Verif.Lemmas.Optimum
import Verif.Lemmas.OptimumSmooth
import Verif.Lemmas.Reach
import Verif.Lemmas.RelEntropy
import Verif.Lemmas.Round
import Verif.Lemmas.Round10
import Verif.Lemmas.Round2
import Verif.Lemmas.Round3
import Verif.Lemmas.Round4
import Verif.Lemmas.Round5
import Verif.Lemmas.Round6
import Verif.Lemmas.Round7
import Verif.Lemmas.Round8
import Verif.Lemmas.Round9
import Verif.Lemmas.Sens
import Verif.Lemmas.Subspace
import Verif.Lemmas.SymMat
import Verif.Lemmas.TaylorArr
import Verif.Lemmas.TaylorObj
import Verif.Lemmas.Terms
import Verif.Lemmas.Terms2
import Verif.Lemmas.Terms3
import Verif.Lemmas.Terms4
import Verif.Lemmas.Terms5
import Verif.Lemmas.Terms6
import Verif.Lemmas.Threads
import Verif.Lemmas.WishartCongr
import Verif.Lemmas.WishartDist
import Verif.Lemmas.WishartInt
import Verif.Lemmas.WishartMoments
import Verif.Lemmas.WishartStep
import Verif.Model.Access
import Verif.Model.Arr
import Verif.Model.Autograd
import Verif.Model.Bounds
import Verif.Model.CallArgs
import Verif.Model.ConjugateGradient
import Verif.Model.Coo
import Verif.Model.Dict
import Verif.Model.Example
import Verif.Model.ExampleSens
import Verif.Model.ExpFam
import Verif.Model.Export
import Verif.Model.Families
import Verif.Model.Flt
import Verif.Model.Heap
import Verif.Model.HeapCg
import Verif.Model.HeapObj
import Verif.Model.HeapOpt
import Verif.Model.HeapPSens
import Verif.Model.HeapSens
import Verif.Model.HeapTaylor
import Verif.Model.HeapTwo
import Verif.Model.Interrupt
import Verif.Model.InterruptSens
import Verif.Model.InterruptTwo
import Verif.Model.Ld
import Verif.Model.Leaf
import Verif.Model.LinAlg
import Verif.Model.Modeling
import Verif.Model.NdArr
import Verif.Model.NonFinite
import Verif.Model.Objective
import Verif.Model.OptPrint
import Verif.Model.OptUtils
import Verif.Model.Print
import Verif.Model.PrintTerms
import Verif.Model.Py
import Verif.Model.Regression
import Verif.Model.Round
import Verif.Model.RoundLogistic
import Verif.Model.RoundNormal
import Verif.Model.RoundPosDef
import Verif.Model.Sensitivity
import Verif.Model.Simplex
import Verif.Model.Solve
import Verif.Model.Sparse
import Verif.Model.SparsePrecond
import Verif.Model.SparseProduct
import Verif.Model.Subspace
import Verif.Model.Taylor
import Verif.Model.Threads
import Verif.Model.ThreadsDeriv
import Verif.Model.ThreadsTwo
import Verif.Model.Timer
import Verif.Model.Verbose
import Verif.Props.Access
import Verif.Props.Batches
import Verif.Props.Bounds
import Verif.Props.CgSolver
import Verif.Props.Conjugate
import Verif.Props.Constant
import Verif.Props.Converter
import Verif.Props.ConverterChain
import Verif.Props.ConverterRaise
import Verif.Props.ConvexLegal
import Verif.Props.ConvexObjective
import Verif.Props.Coordinates
import Verif.Props.Covariance
import Verif.Props.DataWeights
import Verif.Props.DeltaMethod
import Verif.Props.Deriv
import Verif.Props.Dict
import Verif.Props.DictDeriv
import Verif.Props.Directions
import Verif.Props.Dirichlet
import Verif.Props.DirichletMoments
import Verif.Props.Draws
import Verif.Props.DrawsLimit
import Verif.Props.EvidenceBound
import Verif.Props.Example
import Verif.Props.ExampleSens
import Verif.Props.Export
import Verif.Props.ExtraArgs
import Verif.Props.FailedRebase
import Verif.Props.FullRank
import Verif.Props.Gamma
import Verif.Props.Grouping
import Verif.Props.Heap
import Verif.Props.HeapCg
import Verif.Props.HeapObj
import Verif.Props.HeapOpt
import Verif.Props.HeapPSens
import Verif.Props.HeapSens
import Verif.Props.HeapTaylor
import Verif.Props.HeapTwo
import Verif.Props.HvpLinear
import Verif.Props.HyperChain
import Verif.Props.IndexParam
import Verif.Props.Inexact
import Verif.Props.Interrupt
import Verif.Props.InterruptPush
import Verif.Props.InterruptSens
import Verif.Props.InterruptTwo
import Verif.Props.InvSqrt
import Verif.Props.Ld
import Verif.Props.Leaf
import Verif.Props.LegalSmooth
import Verif.Props.LegalValues
import Verif.Props.LocalHessians
import Verif.Props.LocalMin
import Verif.Props.LogDet
import Verif.Props.LogOdds
import Verif.Props.LogitNormal
import Verif.Props.Masks
import Verif.Props.Matrices
import Verif.Props.MeanFieldEvidence
import Verif.Props.Minimize
import Verif.Props.Multinoulli
import Verif.Props.Mvn
import Verif.Props.MvnArray
import Verif.Props.MvnDensity
import Verif.Props.NonFinite
import Verif.Props.Normal
import Verif.Props.NormalPosterior
import Verif.Props.ObjDeriv
import Verif.Props.Objective
import Verif.Props.OptPrint
import Verif.Props.Order
import Verif.Props.OrderNested
import Verif.Props.OrderObjective
import Verif.Props.OrderTaylor
import Verif.Props.OutputError
import Verif.Props.PolynomialExact
import Verif.Props.Precond
import Verif.Props.PrecondHessian
import Verif.Props.Print
import Verif.Props.PrintTerms
import Verif.Props.PriorOptimum
import Verif.Props.Priors
import Verif.Props.QuadraticExact
import Verif.Props.QuadraticPart
import Verif.Props.Quadrature
import Verif.Props.RegCoords
import Verif.Props.Regression
import Verif.Props.RegressionVb
import Verif.Props.Reparam
import Verif.Props.Repeated
import Verif.Props.Repeated2
import Verif.Props.Round
import Verif.Props.Round2
import Verif.Props.Round3
import Verif.Props.Round4
import Verif.Props.RoundEntropy
import Verif.Props.RoundLogistic
import Verif.Props.RoundMoments
import Verif.Props.RoundNormal
import Verif.Props.RoundPosDef
import Verif.Props.SensAgree
import Verif.Props.Sensitivity
import Verif.Props.Simplex
import Verif.Props.Sparse
import Verif.Props.SparsePrecond
import Verif.Props.SparseProduct
import Verif.Props.Stationary
import Verif.Props.Subspace
import Verif.Props.SubspaceIsometry
import Verif.Props.Taylor
import Verif.Props.TaylorError
import Verif.Props.TaylorFlags
import Verif.Props.TaylorTerms
import Verif.Props.Threads
import Verif.Props.ThreadsConv
import Verif.Props.ThreadsDeriv
import Verif.Props.ThreadsTwo
import Verif.Props.Timer
import Verif.Props.TwoObjective
import Verif.Props.Verbose
import Verif.Props.View
import Verif.Props.Wishart
import Verif.Props.WishartDist
import Verif.Spec.Coordinates
import Verif.Spec.Cross
import Verif.Spec.Deriv
import Verif.Spec.Dict
import Verif.Spec.Dirichlet
import Verif.Spec.Example
import Verif.Spec.Export
import Verif.Spec.Families
import Verif.Spec.Heap
import Verif.Spec.HeapCg
import Verif.Spec.HeapObj
import Verif.Spec.HeapPSens
import Verif.Spec.HeapSens
import Verif.Spec.HeapTaylor
import Verif.Spec.HeapTwo
import Verif.Spec.Interrupt
import Verif.Spec.Leaf
import Verif.Spec.LegalVec
import Verif.Spec.Masks
import Verif.Spec.Matrix
import Verif.Spec.Multinoulli
import Verif.Spec.Objective
import Verif.Spec.Optimum
import Verif.Spec.Order
import Verif.Spec.OrderNested
import Verif.Spec.Regression
import Verif.Spec.Round
import Verif.Spec.RoundLogistic
import Verif.Spec.RoundPosDef
import Verif.Spec.Stationary
import Verif.Spec.Wishart
