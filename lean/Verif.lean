import Verif.Base.Act
import Verif.Base.FMap
import Verif.Base.FMapLoop
import Verif.Base.Float32
import Verif.Base.FloatOps
import Verif.Base.Res
import Verif.Base.Rounded
import Verif.Base.XA
import Verif.Base.XE
import Verif.Base.XR
import Verif.Lemmas.Annealing
import Verif.Lemmas.AssignmentLaw
import Verif.Lemmas.Assignments
import Verif.Lemmas.Bartlett
import Verif.Lemmas.BartlettTilt
import Verif.Lemmas.BetaBinomial
import Verif.Lemmas.BinSamples
import Verif.Lemmas.Caches
import Verif.Lemmas.ChiSquared
import Verif.Lemmas.ChiSquaredTail
import Verif.Lemmas.Cholesky
import Verif.Lemmas.Contiguous
import Verif.Lemmas.CountSeries
import Verif.Lemmas.Counts
import Verif.Lemmas.DD
import Verif.Lemmas.DDCache
import Verif.Lemmas.DDGrid
import Verif.Lemmas.DPD
import Verif.Lemmas.DPDLaws
import Verif.Lemmas.DPDMixture
import Verif.Lemmas.DPDShared
import Verif.Lemmas.DbgClustering
import Verif.Lemmas.DbgDPD
import Verif.Lemmas.Derivation
import Verif.Lemmas.DerivationProbs
import Verif.Lemmas.DirichletDraw
import Verif.Lemmas.DirichletMany
import Verif.Lemmas.Driver
import Verif.Lemmas.Enclose
import Verif.Lemmas.Exp
import Verif.Lemmas.Factor
import Verif.Lemmas.Failure
import Verif.Lemmas.FastLog
import Verif.Lemmas.Features
import Verif.Lemmas.GammaMoments
import Verif.Lemmas.GaussianForms
import Verif.Lemmas.GaussianLinear
import Verif.Lemmas.GaussianRows
import Verif.Lemmas.GibbsChain
import Verif.Lemmas.GibbsCode
import Verif.Lemmas.GibbsDraw
import Verif.Lemmas.GibbsLaw
import Verif.Lemmas.GibbsModels
import Verif.Lemmas.GibbsRun
import Verif.Lemmas.GibbsScores
import Verif.Lemmas.GibbsSets
import Verif.Lemmas.GibbsState
import Verif.Lemmas.GofSort
import Verif.Lemmas.GoodnessOfFit
import Verif.Lemmas.GramCov
import Verif.Lemmas.HalfStep
import Verif.Lemmas.Hp
import Verif.Lemmas.IdTracker
import Verif.Lemmas.IdealNumpyExists
import Verif.Lemmas.IdealRng
import Verif.Lemmas.IdealRngExists
import Verif.Lemmas.ImageExample
import Verif.Lemmas.IntToFloat
import Verif.Lemmas.LgammaCheck
import Verif.Lemmas.License
import Verif.Lemmas.LogBound
import Verif.Lemmas.LowEntropy
import Verif.Lemmas.LowEntropyLaw
import Verif.Lemmas.Mixture
import Verif.Lemmas.NICH
import Verif.Lemmas.NIW
import Verif.Lemmas.NIWGroup
import Verif.Lemmas.NIWPredictive
import Verif.Lemmas.NIWSample
import Verif.Lemmas.NIWSampleGroup
import Verif.Lemmas.NIWShapes
import Verif.Lemmas.NichMany
import Verif.Lemmas.NoDrift
import Verif.Lemmas.NormalMany
import Verif.Lemmas.NuCheck
import Verif.Lemmas.PYCache
import Verif.Lemmas.PYScores
import Verif.Lemmas.PYScoresAbs
import Verif.Lemmas.PartitionSum
import Verif.Lemmas.PearsonLimit
import Verif.Lemmas.PoissonMany
import Verif.Lemmas.Protocol
import Verif.Lemmas.PyClustering
import Verif.Lemmas.RefNiwDraws
import Verif.Lemmas.RefNiwGroup
import Verif.Lemmas.RefNiwSample
import Verif.Lemmas.RefSample
import Verif.Lemmas.Reference
import Verif.Lemmas.RoundRel
import Verif.Lemmas.SampleLoop
import Verif.Lemmas.Sampling
import Verif.Lemmas.Single
import Verif.Lemmas.SingleCell
import Verif.Lemmas.SingleDD
import Verif.Lemmas.SingleDPD
import Verif.Lemmas.SingleDraw
import Verif.Lemmas.SingleGibbsLaw
import Verif.Lemmas.SingleGibbsModels
import Verif.Lemmas.SingleGibbsRun
import Verif.Lemmas.SingleGibbsScores
import Verif.Lemmas.SingleGibbsState
import Verif.Lemmas.SingleInt
import Verif.Lemmas.SingleNich
import Verif.Lemmas.SingleNichScore
import Verif.Lemmas.SingleScores
import Verif.Lemmas.SingleWelford
import Verif.Lemmas.Sparse
import Verif.Lemmas.Special
import Verif.Lemmas.Stirling
import Verif.Lemmas.StirlingInv
import Verif.Lemmas.StirlingReal
import Verif.Lemmas.StudentDraw
import Verif.Lemmas.StudentMixture
import Verif.Lemmas.StudentT
import Verif.Lemmas.TruncatedLimit
import Verif.Lemmas.VectorMath
import Verif.Lemmas.WelfordAccuracy
import Verif.Lemmas.Wire
import Verif.Lemmas.WishartMean
import Verif.Lemmas.XRAlgebra
import Verif.Model.Allocator
import Verif.Model.BB
import Verif.Model.BNB
import Verif.Model.BetaBinomial
import Verif.Model.Close
import Verif.Model.Clustering
import Verif.Model.DD
import Verif.Model.DPD
import Verif.Model.DPDExample
import Verif.Model.Dbg
import Verif.Model.DbgClustering
import Verif.Model.DbgDPD
import Verif.Model.DbgIo
import Verif.Model.DbgRandom
import Verif.Model.Derivation
import Verif.Model.Driver
import Verif.Model.Examples
import Verif.Model.Exp
import Verif.Model.Failure
import Verif.Model.FileUtil
import Verif.Model.GP
import Verif.Model.Gibbs
import Verif.Model.GroupApi
import Verif.Model.Histogram
import Verif.Model.Hp
import Verif.Model.IdTracker
import Verif.Model.ImageExample
import Verif.Model.License
import Verif.Model.Listings
import Verif.Model.Mixins
import Verif.Model.Mixture
import Verif.Model.NICH
import Verif.Model.NIW
import Verif.Model.NIWSample
import Verif.Model.NIWShapes
import Verif.Model.Packed
import Verif.Model.Protobuf
import Verif.Model.Protocol
import Verif.Model.PyIo
import Verif.Model.PyMixture
import Verif.Model.PyRandom
import Verif.Model.Random
import Verif.Model.Repeated
import Verif.Model.SampleGroup
import Verif.Model.SampleGroupNiw
import Verif.Model.Scalar
import Verif.Model.Scores
import Verif.Model.Sequential
import Verif.Model.Single
import Verif.Model.Slave
import Verif.Model.Sparse
import Verif.Model.Special
import Verif.Model.Stirling
import Verif.Model.Stream
import Verif.Model.Util
import Verif.Model.VectorMath
import Verif.Model.Wire
import Verif.Model.WireRecords
import Verif.Props.Allocator
import Verif.Props.Annealing
import Verif.Props.AssignmentLaw
import Verif.Props.Assignments
import Verif.Props.BB
import Verif.Props.BNB
import Verif.Props.BetaBinomial
import Verif.Props.BetaBinomialNotes
import Verif.Props.BinSamples
import Verif.Props.Close
import Verif.Props.CountSums
import Verif.Props.DD
import Verif.Props.DPD
import Verif.Props.DPDMixture
import Verif.Props.DPDShared
import Verif.Props.DbgClustering
import Verif.Props.DbgDPD
import Verif.Props.DbgIo
import Verif.Props.Derivation
import Verif.Props.DerivationIncomplete
import Verif.Props.DerivationPostpred
import Verif.Props.Driver
import Verif.Props.Examples
import Verif.Props.Failure
import Verif.Props.FastExp
import Verif.Props.FileUtil
import Verif.Props.GP
import Verif.Props.Gibbs
import Verif.Props.GofLimit
import Verif.Props.GoodnessOfFit
import Verif.Props.GroupCycles
import Verif.Props.HighPrecision
import Verif.Props.HighPrecisionReal
import Verif.Props.Histogram
import Verif.Props.IdTracker
import Verif.Props.ImageExample
import Verif.Props.Init
import Verif.Props.License
import Verif.Props.Listings
import Verif.Props.LowEntropy
import Verif.Props.LowEntropyLaw
import Verif.Props.Mixins
import Verif.Props.Mixture
import Verif.Props.MixtureData
import Verif.Props.NICH
import Verif.Props.NIW
import Verif.Props.NIWShapes
import Verif.Props.NormalAccuracy
import Verif.Props.NormalStatistics
import Verif.Props.NuAccuracy
import Verif.Props.PYCache
import Verif.Props.PitmanYor
import Verif.Props.PitmanYorNeg
import Verif.Props.Protobuf
import Verif.Props.Protocol
import Verif.Props.PyClustering
import Verif.Props.PyIo
import Verif.Props.PyIoArrays
import Verif.Props.PyIoTables
import Verif.Props.PyMixture
import Verif.Props.PyRandom
import Verif.Props.RandomPartition
import Verif.Props.RandomVectors
import Verif.Props.Reference
import Verif.Props.ReferenceSamplers
import Verif.Props.ReferenceSamplersDpd
import Verif.Props.ReferenceSamplersNich
import Verif.Props.ReferenceSamplersNiw
import Verif.Props.ReferenceSparse
import Verif.Props.Repeated
import Verif.Props.SampleGroup
import Verif.Props.SampleGroupBnb
import Verif.Props.SampleGroupDpd
import Verif.Props.SampleGroupHp
import Verif.Props.SampleGroupNich
import Verif.Props.SampleGroupNiw
import Verif.Props.SamplerLaws
import Verif.Props.SamplerLawsDiscrete
import Verif.Props.SamplerLawsNiw
import Verif.Props.Samplers
import Verif.Props.Sampling
import Verif.Props.Scalar
import Verif.Props.Scorers
import Verif.Props.Sequential
import Verif.Props.SingleBNB
import Verif.Props.SingleBnbAccuracy
import Verif.Props.SingleCounts
import Verif.Props.SingleCountsAccuracy
import Verif.Props.SingleDD
import Verif.Props.SingleDPD
import Verif.Props.SingleGibbs
import Verif.Props.SingleNich
import Verif.Props.SingleNichAccuracy
import Verif.Props.SinglePitmanYor
import Verif.Props.SinglePrecision
import Verif.Props.SingleScalar
import Verif.Props.SingleScalarAccuracy
import Verif.Props.SingleScores
import Verif.Props.SmallMixture
import Verif.Props.Sparse
import Verif.Props.Special
import Verif.Props.SpecialAccuracy
import Verif.Props.Stirling
import Verif.Props.Stream
import Verif.Props.Tables
import Verif.Props.VectorMath
import Verif.Props.Wire
import Verif.Props.WirePacked
import Verif.Spec.BetaBinomial
import Verif.Spec.ChiSquared
import Verif.Spec.Clustering
import Verif.Spec.DPDMixture
import Verif.Spec.DPDShared
import Verif.Spec.DbgDPD
import Verif.Spec.DbgIo
import Verif.Spec.Derivation
import Verif.Spec.Distributions
import Verif.Spec.Driver
import Verif.Spec.Eigen
import Verif.Spec.Exp
import Verif.Spec.Failure
import Verif.Spec.Features
import Verif.Spec.FileUtil
import Verif.Spec.Gibbs
import Verif.Spec.GoodnessOfFit
import Verif.Spec.IdealNumpy
import Verif.Spec.IdealRng
import Verif.Spec.Image
import Verif.Spec.License
import Verif.Spec.Listings
import Verif.Spec.Mixins
import Verif.Spec.Mixture
import Verif.Spec.MvNormal
import Verif.Spec.NIWShapes
import Verif.Spec.Packed
import Verif.Spec.Protocol
import Verif.Spec.PyClustering
import Verif.Spec.PyIo
import Verif.Spec.Reference
import Verif.Spec.Repeated
import Verif.Spec.Sampling
import Verif.Spec.Scalar
import Verif.Spec.SingleGibbs
import Verif.Spec.Sparse
import Verif.Spec.Spread
import Verif.Spec.Stirling
import Verif.Spec.Wire
