import Verif.Backend.Arrays
import Verif.Backend.Autograd
import Verif.Backend.Convert
import Verif.Backend.Criterion
import Verif.Backend.Elem
import Verif.Backend.Errors
import Verif.Backend.Linear
import Verif.Backend.PropsArrays
import Verif.Backend.PropsAutograd
import Verif.Backend.PropsConvert
import Verif.Backend.PropsCriterion
import Verif.Backend.PropsElem
import Verif.Backend.PropsErrors
import Verif.Backend.PropsLinear
import Verif.Backend.PropsRandom
import Verif.Backend.PropsReduce
import Verif.Backend.Random
import Verif.Backend.Reduce
import Verif.Config.Log
import Verif.Config.Model
import Verif.Config.Package
import Verif.Config.Props
import Verif.Config.PropsLog
import Verif.Config.PropsPackage
import Verif.Core.Backward
import Verif.Core.BackwardPriors
import Verif.Core.Contract
import Verif.Core.FisherObject
import Verif.Core.FisherTorch
import Verif.Core.Indices
import Verif.Core.Init
import Verif.Core.InitLoader
import Verif.Core.Lemmas
import Verif.Core.Model
import Verif.Core.Noisy
import Verif.Core.Object
import Verif.Core.PropsAccumulate
import Verif.Core.PropsAccumulateLinear
import Verif.Core.PropsBackward
import Verif.Core.PropsBackwardPriors
import Verif.Core.PropsBatchProper
import Verif.Core.PropsCalib
import Verif.Core.PropsChain
import Verif.Core.PropsChainReml
import Verif.Core.PropsConsistent
import Verif.Core.PropsCramerRao
import Verif.Core.PropsEfficient
import Verif.Core.PropsFdError
import Verif.Core.PropsFill
import Verif.Core.PropsFisher
import Verif.Core.PropsFisherMore
import Verif.Core.PropsFisherObject
import Verif.Core.PropsFisherScore
import Verif.Core.PropsFisherTorch
import Verif.Core.PropsGaussLimit
import Verif.Core.PropsGls
import Verif.Core.PropsGuess
import Verif.Core.PropsGuessLimit
import Verif.Core.PropsGuessMean
import Verif.Core.PropsIdent
import Verif.Core.PropsIndices
import Verif.Core.PropsInexact
import Verif.Core.PropsInit
import Verif.Core.PropsInitLoader
import Verif.Core.PropsInnovations
import Verif.Core.PropsInputs
import Verif.Core.PropsKriging
import Verif.Core.PropsLaw
import Verif.Core.PropsLikelihood
import Verif.Core.PropsLoo
import Verif.Core.PropsMaternGP
import Verif.Core.PropsMove
import Verif.Core.PropsMoveCrit
import Verif.Core.PropsNoisy
import Verif.Core.PropsNormLeast
import Verif.Core.PropsNugget
import Verif.Core.PropsObject
import Verif.Core.PropsPathAverages
import Verif.Core.PropsPaths
import Verif.Core.PropsPostLaw
import Verif.Core.PropsPredict
import Verif.Core.PropsProper
import Verif.Core.PropsRecursive
import Verif.Core.PropsRemapExists
import Verif.Core.PropsRidge
import Verif.Core.PropsShapes
import Verif.Core.PropsSmooth
import Verif.Core.PropsTarget
import Verif.Core.PropsUpdate
import Verif.Core.PropsVague
import Verif.Core.PropsWellPosed
import Verif.Core.Shapes
import Verif.Core.Spec
import Verif.Core.Validate
import Verif.Data.Batch
import Verif.Data.Generated
import Verif.Data.Lemmas
import Verif.Data.Lemmas2
import Verif.Data.LemmasFold
import Verif.Data.Model
import Verif.Data.PropsBatch
import Verif.Data.PropsDataset
import Verif.Data.PropsFold
import Verif.Data.PropsGenerated
import Verif.Data.PropsLoader
import Verif.Data.PropsQuantile
import Verif.Data.PropsSample
import Verif.Data.PropsScaler
import Verif.Data.PropsSlices
import Verif.Data.PropsStats
import Verif.Data.Spec
import Verif.Data.Stats
import Verif.Diag.ParamStats
import Verif.Diag.Performance
import Verif.Diag.PropsParamStats
import Verif.Diag.PropsPerformance
import Verif.Diag.PropsReport
import Verif.Diag.PropsUn1d
import Verif.Diag.Report
import Verif.Diag.Un1d
import Verif.FltOps
import Verif.Kernel.GaussPD
import Verif.Kernel.MaternInt
import Verif.Kernel.Model
import Verif.Kernel.Priors
import Verif.Kernel.PropsBessel
import Verif.Kernel.PropsCov
import Verif.Kernel.PropsGap
import Verif.Kernel.PropsGaussPrior
import Verif.Kernel.PropsMatern
import Verif.Kernel.PropsMaternPD
import Verif.Kernel.PropsPriors
import Verif.Kernel.PropsRegularity
import Verif.Kernel.PropsRemap
import Verif.Kernel.PropsSelect
import Verif.Kernel.PropsSelectMore
import Verif.Kernel.Remap
import Verif.Kernel.Select
import Verif.Kernel.SelectMore
import Verif.Mcmc.Demo
import Verif.Mcmc.KnnCov
import Verif.Mcmc.MH
import Verif.Mcmc.MHHelpers
import Verif.Mcmc.Nuts
import Verif.Mcmc.NutsEdge
import Verif.Mcmc.Posterior
import Verif.Mcmc.PropsDemo
import Verif.Mcmc.PropsKnnCov
import Verif.Mcmc.PropsMH
import Verif.Mcmc.PropsMHAdaptFalse
import Verif.Mcmc.PropsMHConverge
import Verif.Mcmc.PropsMHDiag
import Verif.Mcmc.PropsMHFrozen
import Verif.Mcmc.PropsMHFrozenRun
import Verif.Mcmc.PropsMHHelpers
import Verif.Mcmc.PropsMHMemory
import Verif.Mcmc.PropsMHRhat
import Verif.Mcmc.PropsMHRun
import Verif.Mcmc.PropsMHTotal
import Verif.Mcmc.PropsMHTune
import Verif.Mcmc.PropsNuts
import Verif.Mcmc.PropsNutsAdapt
import Verif.Mcmc.PropsNutsDual
import Verif.Mcmc.PropsNutsEdge
import Verif.Mcmc.PropsNutsEnergy
import Verif.Mcmc.PropsNutsLaw
import Verif.Mcmc.PropsNutsNormal
import Verif.Mcmc.PropsNutsRev
import Verif.Mcmc.PropsNutsTree
import Verif.Mcmc.PropsPosterior
import Verif.Mcmc.PropsPosteriorMH
import Verif.Mcmc.PropsPosteriorNuts
import Verif.Mcmc.PropsPosteriorSMC
import Verif.Mcmc.PropsPosteriorSVGD
import Verif.Mcmc.PropsResampleLaw
import Verif.Mcmc.PropsSMC
import Verif.Mcmc.PropsSMCAdaptRun
import Verif.Mcmc.PropsSMCAdaptive
import Verif.Mcmc.PropsSMCConsistent
import Verif.Mcmc.PropsSMCLog
import Verif.Mcmc.PropsSMCMove
import Verif.Mcmc.PropsSMCRun
import Verif.Mcmc.PropsSMCSearch
import Verif.Mcmc.PropsSMCUniform
import Verif.Mcmc.PropsSMCWeights
import Verif.Mcmc.PropsSVGD
import Verif.Mcmc.PropsSVGDAscent
import Verif.Mcmc.PropsSVGDEdge
import Verif.Mcmc.PropsSVGDFail
import Verif.Mcmc.PropsSVGDRun
import Verif.Mcmc.PropsSVGDSample
import Verif.Mcmc.PropsSVGDScale
import Verif.Mcmc.PropsSVGDStein
import Verif.Mcmc.PropsSVGDStep
import Verif.Mcmc.PropsSubsetLimit
import Verif.Mcmc.SMC
import Verif.Mcmc.SMCLog
import Verif.Mcmc.SVGD
import Verif.Misc.DataFrame
import Verif.Misc.Designs
import Verif.Misc.GaussCdf
import Verif.Misc.PropsDesigns
import Verif.Misc.PropsFrame
import Verif.Misc.PropsFrameOps
import Verif.Misc.PropsFtos
import Verif.Misc.PropsGrid
import Verif.Misc.PropsScore
import Verif.Misc.PropsScoreArrays
import Verif.Misc.PropsScoreE
import Verif.Misc.PropsScoreT
import Verif.Misc.PropsTestFunctions
import Verif.Misc.Score
import Verif.Misc.ScoreArrays
import Verif.Misc.TestFunctions
import Verif.Num
import Verif.Param.Heap
import Verif.Param.Lemmas
import Verif.Param.Model
import Verif.Param.Props
import Verif.Param.PropsHeap
import Verif.Param.PropsRepr
import Verif.Param.Repr
import Verif.Plot.Model
import Verif.Plot.PropsCriteria
import Verif.Plot.PropsMap
import Verif.Plot.PropsSections
import Verif.Plot.Quantiles
import Verif.Py
import Verif.PyLemmas
