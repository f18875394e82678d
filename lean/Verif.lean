import Verif.Model.AggregatorPointers
import Verif.Model.Basic
import Verif.Model.CheckAggregator
import Verif.Model.Client
import Verif.Model.Concurrency
import Verif.Model.ConcurrentAggregators
import Verif.Model.Distribution
import Verif.Model.Double
import Verif.Model.HttpSample
import Verif.Model.LruCache
import Verif.Model.LruIterator
import Verif.Model.LruPointers
import Verif.Model.Money
import Verif.Model.OperationAggregator
import Verif.Model.Proto
import Verif.Model.QuotaAggregator
import Verif.Model.QuotaOperationAggregator
import Verif.Model.RemovedItems
import Verif.Model.ReportAggregator
import Verif.Model.Signature
import Verif.Model.ThreadTransports
import Verif.Model.Threads
import Verif.Spec.AggregatorPointers
import Verif.Spec.CheckAggregator
import Verif.Spec.Client
import Verif.Spec.Concurrency
import Verif.Spec.Distribution
import Verif.Spec.HttpSample
import Verif.Spec.LruCache
import Verif.Spec.LruPointers
import Verif.Spec.Money
import Verif.Spec.OperationAggregator
import Verif.Spec.QuotaAggregator
import Verif.Spec.QuotaTokens
import Verif.Spec.ReportAggregator
import Verif.Spec.Signature
import Verif.Spec.Threads
import Verif.Lemmas.AggregatorPointers
import Verif.Lemmas.AggregatorPointers2
import Verif.Lemmas.AggregatorPointers3
import Verif.Lemmas.AggregatorPointers4
import Verif.Lemmas.CheckAggregator
import Verif.Lemmas.ClientBooks
import Verif.Lemmas.ClientLink
import Verif.Lemmas.ClientOps
import Verif.Lemmas.ClientStep
import Verif.Lemmas.Concurrency
import Verif.Lemmas.ConcurrentAggregators
import Verif.Lemmas.ConcurrentProgress
import Verif.Lemmas.Distribution
import Verif.Lemmas.DistributionReal
import Verif.Lemmas.Double
import Verif.Lemmas.DoubleMean
import Verif.Lemmas.DoubleMerge
import Verif.Lemmas.DoubleSsd
import Verif.Lemmas.LruAgain
import Verif.Lemmas.LruAge
import Verif.Lemmas.LruBuild
import Verif.Lemmas.LruCache
import Verif.Lemmas.LruCalm
import Verif.Lemmas.LruDefer
import Verif.Lemmas.LruFate
import Verif.Lemmas.LruHistory
import Verif.Lemmas.LruQuiet
import Verif.Lemmas.LruReach
import Verif.Lemmas.LruRep
import Verif.Lemmas.LruRing
import Verif.Lemmas.LruSim
import Verif.Lemmas.LruSim2
import Verif.Lemmas.LruSim3
import Verif.Lemmas.LruSim4
import Verif.Lemmas.LruSim5
import Verif.Lemmas.LruStep
import Verif.Lemmas.Money
import Verif.Lemmas.OperationAggregator
import Verif.Lemmas.QuotaAccounts
import Verif.Lemmas.QuotaAggregator
import Verif.Lemmas.QuotaCalls
import Verif.Lemmas.QuotaHistory
import Verif.Lemmas.QuotaView
import Verif.Lemmas.ReportAggregator
import Verif.Lemmas.Signature
import Verif.Lemmas.Tame
import Verif.Lemmas.ThreadBooks
import Verif.Lemmas.ThreadCalm
import Verif.Lemmas.ThreadExec
import Verif.Lemmas.ThreadInv
import Verif.Lemmas.ThreadLinks
import Verif.Lemmas.ThreadShut
import Verif.Props.AggregatorPointers
import Verif.Props.CheckAggregator
import Verif.Props.CheckDoubles
import Verif.Props.Client
import Verif.Props.ClientTimer
import Verif.Props.Concurrency
import Verif.Props.Distribution
import Verif.Props.Double
import Verif.Props.DoubleBuckets
import Verif.Props.DoubleExponential
import Verif.Props.DoubleLimits
import Verif.Props.DoubleMean
import Verif.Props.DoubleMerge
import Verif.Props.DoubleSsd
import Verif.Props.HttpSample
import Verif.Props.LruAge
import Verif.Props.LruCache
import Verif.Props.LruDebug
import Verif.Props.LruPointers
import Verif.Props.LruQueries
import Verif.Props.Money
import Verif.Props.OperationAggregator
import Verif.Props.QuotaAggregator
import Verif.Props.QuotaExpiry
import Verif.Props.QuotaFlushAll
import Verif.Props.QuotaOperationAggregator
import Verif.Props.QuotaTimer
import Verif.Props.QuotaTokens
import Verif.Props.ReportAggregator
import Verif.Props.ReportDoubles
import Verif.Props.Signature
import Verif.Props.Summaries
import Verif.Props.ThreadAnswers
import Verif.Props.ThreadChecks
import Verif.Props.ThreadExamples
import Verif.Props.ThreadExpiry
import Verif.Props.ThreadFresh
import Verif.Props.ThreadInFlight
import Verif.Props.ThreadObjects
import Verif.Props.ThreadProgress
import Verif.Props.ThreadQuotaExpiry
import Verif.Props.ThreadQuotaTimer
import Verif.Props.ThreadQuotas
import Verif.Props.ThreadServed
import Verif.Props.ThreadStatistics
import Verif.Props.ThreadTimer
import Verif.Props.ThreadTransports
import Verif.Props.Threads
import Verif.Audit
