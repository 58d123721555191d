import Verif.Props.Counter
import Verif.Props.Buckets
import Verif.Props.BucketsConc
import Verif.Props.FastCompass
import Verif.Props.Seconds
import Verif.Props.EWMA
import Verif.Props.Compass
import Verif.Props.CompassRates
import Verif.Props.CompassConc
import Verif.Props.Registry
import Verif.Props.RegistryMore
import Verif.Props.Config
import Verif.Props.MetricName
import Verif.Props.UniformReservoir
import Verif.Props.UniformFair
import Verif.Props.UniformSnapshot
import Verif.Props.UniformHeap
import Verif.Props.WeightedSnapshot
import Verif.Props.EDR
import Verif.Props.EDRConc
import Verif.Props.EDRRace
import Verif.Props.EDRStats
import Verif.Props.EDRStep
import Verif.Props.CompassPanics
import Verif.Props.BucketReservoir
import Verif.Props.CompassType
import Verif.Props.Clock
import Verif.Model.RWLock
import Verif.Model.UniformConc
import Verif.Proofs.RWLock
import Verif.Props.UniformConc
import Verif.Model.FastCompassConc
import Verif.Model.BucketReader
import Verif.Props.FastCompassConc
import Verif.Props.BucketReader
import Verif.Props.FastCompassReader
import Verif.Model.CompassUpdateConc
import Verif.Proofs.CompassUpdateConc
import Verif.Props.CompassUpdateConc
import Verif.Props.CompassFeed
import Verif.Props.LastUpdate
import Verif.Props.App
import Verif.Model.WholeCompass
import Verif.Spec.WholeCompass
import Verif.Proofs.WholeCompass
import Verif.Props.WholeCompass
import Verif.Props.WholeCompassRes
import Verif.Spec.Progress
import Verif.Proofs.Progress
import Verif.Props.Progress
import Verif.Props.WholeProgress
import Verif.Spec.Races
import Verif.Model.Accesses
import Verif.Proofs.Races
import Verif.Proofs.RacesMarks
import Verif.Proofs.RacesMore
import Verif.Props.Races
import Verif.Spec.EDRFair
import Verif.Props.EDRFair
import Verif.Model.RegistryEnum
import Verif.Props.RegistryEnum
import Verif.Spec.Alone
import Verif.Proofs.Alone
import Verif.Proofs.AloneParts
import Verif.Proofs.AloneCompass
import Verif.Proofs.AloneWhole
import Verif.Props.Alone
import Verif.Props.AloneGuarded
import Verif.Model.EWMAStandard
import Verif.Spec.EWMAIdeal
import Verif.Proofs.FloatError
import Verif.Proofs.EWMAError
import Verif.Proofs.EWMAIdeal
import Verif.Props.EWMAIdeal
import Verif.Spec.Statistics
import Verif.Proofs.StatError
import Verif.Proofs.VarianceError
import Verif.Proofs.WeightedError
import Verif.Props.Accuracy
import Verif.Props.WeightedAccuracy
import Verif.Props.PercentileAccuracy
import Verif.Props.UniformPercentile
import Verif.Spec.PerInterval
import Verif.Props.PerInterval
import Verif.Model.NameHeap
import Verif.Props.NameHeap
import Verif.Model.BucketPair
import Verif.Proofs.BucketSingle
import Verif.Proofs.BucketPair
import Verif.Props.BucketPair
import Verif.Model.WholeBucket
import Verif.Props.WholeBucket
import Verif.Props.WholeBucketAlone
import Verif.Proofs.WholeBucketSnapshot
import Verif.Props.WholeBucketSnapshot
import Verif.Props.WholeBucketProgress
import Verif.Spec.Memory
import Verif.Props.Memory
import Verif.Model.AppConc
import Verif.Props.AppConc
import Verif.Spec.Fair
import Verif.Proofs.Fair
import Verif.Props.Fair
import Verif.Props.FairWhole
import Verif.Props.FairBucket
import Verif.Spec.Stale
import Verif.Proofs.Stale
import Verif.Proofs.StaleRegistry
import Verif.Props.Stale
import Verif.Props.StaleBucket
import Verif.Props.StaleRegistry
import Verif.Props.StaleEDR
import Verif.Model.Handed
import Verif.Props.Handed
import Verif.Props.HandedCounters
import Verif.Props.HandedSlices
import Verif.Model.ConfigJson
import Verif.Props.ConfigJson
import Verif.Model.Fused
import Verif.Props.FusedEWMA
import Verif.Props.FusedUniform
import Verif.Props.FusedAccuracy
import Verif.Model.Seeded
import Verif.Props.Seeded
import Verif.Model.Signed
import Verif.Proofs.Signed
import Verif.Props.Signed
import Verif.Model.BucketCounterWild
import Verif.Proofs.BucketWild
import Verif.Props.BucketWild
import Verif.Spec.EDRFloat
import Verif.Proofs.EDRFloat
import Verif.Props.EDRFloat
import Verif.Proofs.EDRAccuracy
import Verif.Proofs.EDRAccuracyRun
import Verif.Props.EDRAccuracy
import Verif.Proofs.EDRHeld
import Verif.Props.EDRAccuracyMore
import Verif.Spec.FairApp
import Verif.Props.FairApp
import Verif.Props.Float64
import Verif.Props.CompassWild
import Verif.Props.WholeWild
import Verif.Props.EWMAWild
import Verif.Props.UniformWords
import Verif.Props.FusedBase
import Verif.Props.Layout
import Verif.Props.Construct
import Verif.Props.WholeBucketWild
import Verif.Props.AppWild
import Verif.Props.WildFair
import Verif.Props.FairAppWild
import Verif.Props.Settled
import Verif.Props.EDRDecay
import Verif.Props.EDRTop
import Verif.Props.Estimate
import Verif.Props.EDRSecond
import Verif.Props.EDRTwice
import Verif.Props.CompassEstimate
import Verif.Props.UniformConcFair
import Verif.Props.CompassDecay
import Verif.Props.AppAny
import Verif.Props.FairAppAny
import Verif.Props.Intervals
import Verif.Props.IntervalsReader
import Verif.Props.IntervalsFast
import Verif.Props.IntervalsFastReader
import Verif.Props.IntervalsFastReaderWild
import Verif.Tests.EWMATest
import Verif.Tests.CountingTest
import Verif.Tests.SnapshotTest
import Verif.Tests.ReservoirTest
import Verif.Tests.RegistryTest
