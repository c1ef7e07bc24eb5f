import Verif.Lemmas.Banded
import Verif.Lemmas.Bargmann
import Verif.Lemmas.Batch
import Verif.Lemmas.BatchFront
import Verif.Lemmas.Bogoliubov
import Verif.Lemmas.Brs
import Verif.Lemmas.ChainRule
import Verif.Lemmas.Choi
import Verif.Lemmas.ChoiTensor
import Verif.Lemmas.Cholesky
import Verif.Lemmas.ClickScale
import Verif.Lemmas.ComplexGauss
import Verif.Lemmas.ComplexGaussSq
import Verif.Lemmas.Compress
import Verif.Lemmas.Contraction
import Verif.Lemmas.Diagonalise
import Verif.Lemmas.Dihedral
import Verif.Lemmas.Fanout
import Verif.Lemmas.FidelityCore
import Verif.Lemmas.FiniteDiff
import Verif.Lemmas.Fischer
import Verif.Lemmas.FockAmp
import Verif.Lemmas.FockFill
import Verif.Lemmas.FockPartial
import Verif.Lemmas.FockProb
import Verif.Lemmas.FockProduct
import Verif.Lemmas.FockReduce
import Verif.Lemmas.FockState
import Verif.Lemmas.FockTrace
import Verif.Lemmas.FockUnique
import Verif.Lemmas.GaussInt
import Verif.Lemmas.GaussMix
import Verif.Lemmas.GaussSeries
import Verif.Lemmas.GaussUnitary
import Verif.Lemmas.GaussUnitaryNorm
import Verif.Lemmas.GenFun
import Verif.Lemmas.Graph
import Verif.Lemmas.Gray
import Verif.Lemmas.HafFront
import Verif.Lemmas.HeisUnitary
import Verif.Lemmas.Heisenberg
import Verif.Lemmas.Hermite
import Verif.Lemmas.HermiteGrad
import Verif.Lemmas.HetChange
import Verif.Lemmas.Householder
import Verif.Lemmas.Interleave
import Verif.Lemmas.Kernel
import Verif.Lemmas.Klein
import Verif.Lemmas.LaBudde
import Verif.Lemmas.LadderWords
import Verif.Lemmas.Lhaf
import Verif.Lemmas.LhafSpec
import Verif.Lemmas.Marginals
import Verif.Lemmas.Master
import Verif.Lemmas.MatchedReps
import Verif.Lemmas.Minor
import Verif.Lemmas.Montrealer
import Verif.Lemmas.OddLoop
import Verif.Lemmas.OutcomeChain
import Verif.Lemmas.Outcomes
import Verif.Lemmas.PartialSeries
import Verif.Lemmas.PermFormulas
import Verif.Lemmas.PermL
import Verif.Lemmas.PermLoops
import Verif.Lemmas.PureAmp
import Verif.Lemmas.Purify
import Verif.Lemmas.RecHaf
import Verif.Lemmas.RefMatch
import Verif.Lemmas.RefMontrealer
import Verif.Lemmas.Rejection
import Verif.Lemmas.Series
import Verif.Lemmas.SetPartition
import Verif.Lemmas.Sieve
import Verif.Lemmas.Stopping
import Verif.Lemmas.Symplectic
import Verif.Lemmas.TotalPhotons
import Verif.Lemmas.Wick
import Verif.Model.Adjacency
import Verif.Model.AdjacencyGrad
import Verif.Model.Batch
import Verif.Model.Charpoly
import Verif.Model.ClickCumulant
import Verif.Model.Conversions
import Verif.Model.Decompositions
import Verif.Model.Distinguishable
import Verif.Model.Entanglement
import Verif.Model.Fidelity
import Verif.Model.FockGradients
import Verif.Model.FockTensors
import Verif.Model.GaussianChecks
import Verif.Model.GroupedClicks
import Verif.Model.Hafnian
import Verif.Model.HafnianApprox
import Verif.Model.HafnianCore
import Verif.Model.HafnianOther
import Verif.Model.Hermite
import Verif.Model.Loss
import Verif.Model.LowRank
import Verif.Model.Marginals
import Verif.Model.Means
import Verif.Model.Montrealer
import Verif.Model.Permanent
import Verif.Model.PermanentOther
import Verif.Model.PhotonDistributions
import Verif.Model.Random
import Verif.Model.Reference
import Verif.Model.SampleGraphs
import Verif.Model.SamplerLaws
import Verif.Model.Samples
import Verif.Model.Symplectic
import Verif.Model.Tolerance
import Verif.Model.Torontonian
import Verif.Props.Adjacency
import Verif.Props.AdjacencyFock
import Verif.Props.Batch
import Verif.Props.BlochMessiah
import Verif.Props.BornSampler
import Verif.Props.ClickCumulant
import Verif.Props.ClickGraphLaw
import Verif.Props.ClickSampleLaw
import Verif.Props.ClickScaling
import Verif.Props.Clicks
import Verif.Props.Coherent
import Verif.Props.Conversions
import Verif.Props.Cumulant
import Verif.Props.Distinguishable
import Verif.Props.Entanglement
import Verif.Props.EntropyFock
import Verif.Props.EntropySub
import Verif.Props.EntropyThermal
import Verif.Props.ExpandTensor
import Verif.Props.Expectation
import Verif.Props.FanoutBias
import Verif.Props.Fidelity
import Verif.Props.FidelityFock
import Verif.Props.FidelityGeneral
import Verif.Props.FidelityLaws
import Verif.Props.FidelityMetric
import Verif.Props.FidelityMixed
import Verif.Props.FidelityMonotone
import Verif.Props.FidelityState
import Verif.Props.FidelityTolerance
import Verif.Props.FidelityUhlmann
import Verif.Props.FidelityUnique
import Verif.Props.FockDensity
import Verif.Props.FockDensityPost
import Verif.Props.FockGates
import Verif.Props.FockGates2
import Verif.Props.FockGates3
import Verif.Props.FockMoments
import Verif.Props.FockPositive
import Verif.Props.FockProb
import Verif.Props.FockPure
import Verif.Props.FockReduced
import Verif.Props.FockState
import Verif.Props.FockTensor
import Verif.Props.FockUnitary
import Verif.Props.GateTensors
import Verif.Props.GaussianChecks
import Verif.Props.GaussianEvolution
import Verif.Props.GaussianUnitary
import Verif.Props.GroupedClicks
import Verif.Props.GroupedError
import Verif.Props.GroupedVariance
import Verif.Props.Hafnian
import Verif.Props.HafnianApprox
import Verif.Props.HafnianHelpers
import Verif.Props.HafnianOther
import Verif.Props.HafnianSamplerLaw
import Verif.Props.Hermite
import Verif.Props.Independent
import Verif.Props.Iwasawa
import Verif.Props.LinAlgExists
import Verif.Props.LoopGen
import Verif.Props.Loss
import Verif.Props.LossFock
import Verif.Props.LowRank
import Verif.Props.Marginals
import Verif.Props.Mixture
import Verif.Props.Moments
import Verif.Props.Montrealer
import Verif.Props.NegativityMonotone
import Verif.Props.NumberStatistics
import Verif.Props.OrderedMoments
import Verif.Props.ParallelHafnianLaw
import Verif.Props.ParallelSampleLaw
import Verif.Props.PassiveFock
import Verif.Props.Permanent
import Verif.Props.PermanentOther
import Verif.Props.PhotonNumber
import Verif.Props.Physical
import Verif.Props.PointProcess
import Verif.Props.PureEntanglement
import Verif.Props.Random
import Verif.Props.RandomHaar
import Verif.Props.RankOneSampler
import Verif.Props.RefMontrealer
import Verif.Props.Reference
import Verif.Props.Rescale
import Verif.Props.SampleGraphLaw
import Verif.Props.SampleStateLaw
import Verif.Props.SamplerLaws
import Verif.Props.Samples
import Verif.Props.SamplesBasic
import Verif.Props.Schedule
import Verif.Props.SignedMixture
import Verif.Props.Symplectic
import Verif.Props.SymplecticStates
import Verif.Props.Takagi
import Verif.Props.Thermal
import Verif.Props.ThermalSampler
import Verif.Props.Threshold
import Verif.Props.ThresholdFock
import Verif.Props.Torontonian
import Verif.Props.TorontonianSampler
import Verif.Props.TorontonianSamplerLaw
import Verif.Props.TotalPhotons
import Verif.Props.TraceNorm
import Verif.Props.Tvd
import Verif.Props.Wick
import Verif.Props.Williamson
import Verif.Props.WilliamsonThm
import Verif.Py
import Verif.Spec.Channels
import Verif.Spec.Clicks
import Verif.Spec.Entropy
import Verif.Spec.Fanout
import Verif.Spec.Fidelity
import Verif.Spec.FockEntropy
import Verif.Spec.FockGates
import Verif.Spec.FockState
import Verif.Spec.GaussianUnitary
import Verif.Spec.Independent
import Verif.Spec.Ladder
import Verif.Spec.LadderWords
import Verif.Spec.LinAlg
import Verif.Spec.Marginals
import Verif.Spec.Matching
import Verif.Spec.MatchingSets
import Verif.Spec.Montrealer
import Verif.Spec.Outcomes
import Verif.Spec.PhaseSpace
import Verif.Spec.Physical
import Verif.Spec.RootFinding
import Verif.Spec.Sampling
import Verif.Spec.Schedule
import Verif.Spec.Torontonian
import Verif.Spec.TraceNorm
