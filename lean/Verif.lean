import Verif.Props.Builder
import Verif.Props.Accountant
import Verif.Props.EffNoise
import Verif.Props.Calibration
import Verif.Props.InverseMonotone
import Verif.Props.PldPmf
import Verif.Props.Pld
import Verif.Props.ConnectDots
import Verif.Props.AdaptiveComposition
import Verif.Props.Advanced
import Verif.Props.LogDomain
import Verif.Props.RdpConversion
import Verif.Props.RdpGaussian
import Verif.Props.RdpRandomizedResponse
import Verif.Props.RdpLaplace
import Verif.Props.RdpTree
import Verif.Props.ForwardDiffs
import Verif.Props.SampledWithoutReplacement
import Verif.Props.RdpEndToEnd
import Verif.Props.AdditiveNoise
import Verif.Model.AdditiveNoisePld
import Verif.Spec.SampledNoise
import Verif.Proofs.Shifted
import Verif.Proofs.SampledNoise
import Verif.Proofs.NoisePldDots
import Verif.Proofs.NoisePldBuckets
import Verif.Proofs.NoisePldTails
import Verif.Proofs.AdditiveNoisePld
import Verif.Props.AdditiveNoisePld
import Verif.Model.Svt
import Verif.Spec.Svt
import Verif.Proofs.Svt
import Verif.Proofs.Svt3
import Verif.Proofs.Svt6
import Verif.Props.Svt
import Verif.Model.NoisyMax
import Verif.Spec.NoisyMax
import Verif.Proofs.NoisyMax
import Verif.Props.NoisyMax
import Verif.Model.TestRunner
import Verif.Spec.TestRunner
import Verif.Proofs.TestRunner
import Verif.Props.TestRunner
import Verif.Model.Generators
import Verif.Spec.Generators
import Verif.Proofs.Generators
import Verif.Props.Generators
import Verif.Model.Validation
import Verif.Spec.Validation
import Verif.Proofs.Validation
import Verif.Props.Validation
import Verif.Model.Testers
import Verif.Proofs.Mcdiarmid
import Verif.Spec.Testers
import Verif.Proofs.Histogram
import Verif.Proofs.Testers
import Verif.Props.Testers
import Verif.Proofs.HockeyStickTester
import Verif.Props.HockeyStickTester
import Verif.Model.InfiniteNoise
import Verif.Model.PldLibrary
import Verif.Spec.PldEvents
import Verif.Proofs.PldInfinity
import Verif.Proofs.PldEventLaws
import Verif.Proofs.PldDir
import Verif.Proofs.PldEndToEnd
import Verif.Props.PldEndToEnd
import Verif.Model.Clustering
import Verif.Spec.Clustering
import Verif.Proofs.ClusteringTree
import Verif.Props.Clustering
import Verif.Props.ClusteringBudget
import Verif.Spec.ClusteringMech
import Verif.Proofs.ClusteringMech
import Verif.Proofs.DiscreteLaplaceLaw
import Verif.Proofs.ClusteringPrivate
import Verif.Props.ClusteringPrivacy
import Verif.Proofs.LaplaceLaw
import Verif.Props.ClusteringAccounting
import Verif.Proofs.ProductDominates
import Verif.Spec.RepeatSelect
import Verif.Model.RepeatSelect
import Verif.Proofs.RenyiMono
import Verif.Proofs.RepeatSelect
import Verif.Proofs.Tnb
import Verif.Proofs.TnbRenyi
import Verif.Proofs.SignedSelect
import Verif.Proofs.PoissonRenyi
import Verif.Proofs.PoissonRenyi2
import Verif.Proofs.GammaSearch
import Verif.Proofs.TnbMean
import Verif.Proofs.GammaSearch2
import Verif.Proofs.GammaSearch3
import Verif.Proofs.SelectSound
import Verif.Props.RepeatSelect
import Verif.Proofs.RdpSelect
import Verif.Model.SmallestNoise
import Verif.Spec.SmallestNoise
import Verif.Proofs.SmallestNoise
import Verif.Proofs.SmallestNoisePure
import Verif.Proofs.SmallestNoiseGauss
import Verif.Proofs.SmallestNoiseTotal
import Verif.Proofs.SmallestNoiseSample
import Verif.Props.SmallestNoise
import Verif.Proofs.Guarantee
import Verif.Props.Guarantee
import Verif.Model.MixtureGaussian
import Verif.Spec.MixtureGaussian
import Verif.Proofs.MixtureGaussian
import Verif.Proofs.MixtureLaw
import Verif.Proofs.MixtureInverse
import Verif.Proofs.MixtureDelta
import Verif.Proofs.MixturePld
import Verif.Proofs.MixtureVec
import Verif.Proofs.MixtureFrom
import Verif.Proofs.MixtureSpec
import Verif.Proofs.MixtureBase
import Verif.Proofs.PldLibrarySound
import Verif.Props.MixtureGaussian
import Verif.Props.MixtureInt
import Verif.Proofs.MixtureBuckets
import Verif.Proofs.MixtureBucketsPmf
import Verif.Proofs.MixtureBucketsWitness
import Verif.Props.MixtureBuckets
import Verif.Model.MmdTester
import Verif.Spec.Mmd
import Verif.Proofs.Bernstein
import Verif.Proofs.MmdMean
import Verif.Proofs.MmdTester
import Verif.Props.MmdTester
import Verif.Model.RenyiTester
import Verif.Spec.RenyiValue
import Verif.Proofs.PureRenyi
import Verif.Proofs.RelativeChernoff
import Verif.Proofs.RenyiTester
import Verif.Props.RenyiTester
import Verif.Model.MeanMechanism
import Verif.Spec.MeanMechanism
import Verif.Proofs.ClassicalGaussian
import Verif.Proofs.MeanMechanism
import Verif.Props.MeanMechanism
import Verif.Model.RdpFrac
import Verif.Spec.RdpFrac
import Verif.Proofs.FracCoef
import Verif.Proofs.FracMoment
import Verif.Proofs.RdpFrac
import Verif.Proofs.RdpFracSlack
import Verif.Props.RdpFrac
import Verif.Props.RdpFracAccountant
import Verif.Spec.RdpSelectSlack
import Verif.Proofs.RdpSelectSlack
import Verif.Props.RdpFracSelect
import Verif.Proofs.NoiseNear
import Verif.Proofs.NoiseSlack
import Verif.Props.AdditiveNoiseNear
import Verif.Model.ClusteringResult
import Verif.Spec.ClusteringResult
import Verif.Proofs.ClusteringResult
import Verif.Props.ClusteringResult
import Verif.Props.CalibrationEndToEnd
import Verif.Spec.FalseAlarm
import Verif.Spec.Sampling
import Verif.Proofs.FalseAlarm
import Verif.Proofs.FalseAlarmSampling
import Verif.Model.ConstantGenerator
import Verif.Props.FalseAlarm
import Verif.Props.ConstantGenerator
import Verif.Spec.MeasurableGenerator
import Verif.Proofs.FalseAlarmMeasurable
import Verif.Props.FalseAlarmContinuous
import Verif.Model.PostProcess
import Verif.Props.PostProcess
import Verif.Spec.PldGrow
import Verif.Proofs.PldMonotone
import Verif.Proofs.PldGrow
import Verif.Props.PldMonotone
import Verif.Proofs.RdpNonneg
import Verif.Props.RdpMonotone
import Verif.Proofs.NoiseMonotone
import Verif.Proofs.NoiseMonotoneInst
import Verif.Props.NoiseMonotone
import Verif.Spec.Milder
import Verif.Proofs.RdpParam
import Verif.Proofs.RdpParamEvents
import Verif.Props.RdpParam
import Verif.Spec.PldValid
import Verif.Spec.RdpValid
import Verif.Proofs.InfiniteNoise
import Verif.Proofs.GridClose
import Verif.Proofs.PldTotal
import Verif.Proofs.RdpTotal
import Verif.Props.PldTotal
import Verif.Props.RdpTotal
import Verif.Spec.Polygon
import Verif.Proofs.Polygon
import Verif.Proofs.PolygonNoise
import Verif.Proofs.PolygonDiscrete
import Verif.Proofs.BucketRefine
import Verif.Proofs.BucketRefineContinuous
import Verif.Proofs.PolygonGaussian
import Verif.Proofs.PldOrder
import Verif.Proofs.Discretization
import Verif.Props.Discretization
import Verif.Spec.PldTight
import Verif.Proofs.PldTight
import Verif.Proofs.PldTightLaws
import Verif.Proofs.PldTightSound
import Verif.Proofs.PldTightRR
import Verif.Props.PldTight
import Verif.Proofs.CrossAccountant
import Verif.Props.CrossAccountant
import Verif.Spec.PldMilder
import Verif.Proofs.PldMilder
import Verif.Props.PldMilder
import Verif.Props.CalibrationTight
import Verif.Proofs.RdpTight
import Verif.Props.RdpTight
import Verif.Proofs.FracAccuracy
import Verif.Spec.RdpNear
import Verif.Props.RdpNear
import Verif.Proofs.RdpMilderNear
import Verif.Props.RdpMilderLibrary
import Verif.Proofs.WorUnsampled
import Verif.Props.RdpNotTight
import Verif.Model.ClusteringDemo
import Verif.Spec.ClusteringDemo
import Verif.Proofs.UniformBall
import Verif.Proofs.ClusteringDemo
import Verif.Props.ClusteringDemo
import Verif.Model.OneStepBudget
import Verif.Props.OneStepBudget
import Verif.Model.Aggregation
import Verif.Spec.Aggregation
import Verif.Proofs.Aggregation
import Verif.Props.Aggregation
import Verif.Proofs.RdpNegative
import Verif.Props.RdpNegative
import Verif.Props.ClusteringParams
import Verif.Spec.Noticeable
import Verif.Proofs.Noticeable
import Verif.Props.Noticeable
