import Verif.Lemmas.ArithHom
import Verif.Lemmas.ConcContainers
import Verif.Lemmas.ConcObserve
import Verif.Lemmas.ConcTermination
import Verif.Lemmas.Concurrency
import Verif.Lemmas.Double
import Verif.Lemmas.Entropy
import Verif.Lemmas.EntropySkel
import Verif.Lemmas.Fame
import Verif.Lemmas.Float
import Verif.Lemmas.HistFast
import Verif.Lemmas.HistOrder
import Verif.Lemmas.HistSim
import Verif.Lemmas.Histogram
import Verif.Lemmas.Lifetime
import Verif.Lemmas.LinkedList
import Verif.Lemmas.Mean
import Verif.Lemmas.NotebookData
import Verif.Lemmas.P2
import Verif.Lemmas.P2Fresh
import Verif.Lemmas.P2Paper
import Verif.Lemmas.Print
import Verif.Lemmas.Python
import Verif.Lemmas.RingBuffer
import Verif.Lemmas.Sort
import Verif.Lemmas.Variance
import Verif.Lemmas.Window
import Verif.Model.Alias
import Verif.Model.Base
import Verif.Model.BinAssign
import Verif.Model.ConcReset
import Verif.Model.Concurrency
import Verif.Model.Containers
import Verif.Model.Entropy
import Verif.Model.Float
import Verif.Model.HistDecay
import Verif.Model.HistHeap
import Verif.Model.HistPublic
import Verif.Model.Histogram
import Verif.Model.Lifetime
import Verif.Model.LowerBound
import Verif.Model.OutOfMemory
import Verif.Model.Print
import Verif.Model.PublicCount
import Verif.Model.PublicDeque
import Verif.Model.PublicWindow
import Verif.Model.PyThreads
import Verif.Model.Python
import Verif.Model.Quantile
import Verif.Model.QuantileStrict
import Verif.Model.RealLog
import Verif.Model.Setup
import Verif.Model.Signed
import Verif.Model.Size64
import Verif.Model.Stats
import Verif.Model.TestMain
import Verif.Model.Utils
import Verif.Props.Alias
import Verif.Props.Batch
import Verif.Props.BinAssign
import Verif.Props.ConcList
import Verif.Props.ConcObserve
import Verif.Props.ConcReset
import Verif.Props.Concurrency
import Verif.Props.ConstructorMemory
import Verif.Props.Cost
import Verif.Props.Counts
import Verif.Props.DoubleFame
import Verif.Props.DoubleHist
import Verif.Props.DoubleMean
import Verif.Props.DoubleQuantile
import Verif.Props.DoubleQueries
import Verif.Props.Entropy
import Verif.Props.EntropyDrift
import Verif.Props.EntropyError
import Verif.Props.EntropyFull
import Verif.Props.EntropyMerged
import Verif.Props.EntropyPython
import Verif.Props.EntropyWindow
import Verif.Props.Fame
import Verif.Props.FameBound
import Verif.Props.FameDefault
import Verif.Props.FameFreeze
import Verif.Props.FameLaw
import Verif.Props.FameMajority
import Verif.Props.FameRange
import Verif.Props.FameTrack
import Verif.Props.HistCdf
import Verif.Props.HistDecay
import Verif.Props.HistDeque
import Verif.Props.HistDouble
import Verif.Props.HistEdit
import Verif.Props.HistHeap
import Verif.Props.HistInfinite
import Verif.Props.HistMemory
import Verif.Props.HistMerge
import Verif.Props.HistMergeDouble
import Verif.Props.HistOvercount
import Verif.Props.HistOvershoot
import Verif.Props.HistPublic
import Verif.Props.HistPublicWindow
import Verif.Props.HistQueries
import Verif.Props.HistReset
import Verif.Props.HistRolled
import Verif.Props.HistScale
import Verif.Props.HistStreams
import Verif.Props.HistTally
import Verif.Props.HistThreshold
import Verif.Props.Histogram
import Verif.Props.Ieee
import Verif.Props.IqrBound
import Verif.Props.Lifetime
import Verif.Props.LinkedList
import Verif.Props.LowerBound
import Verif.Props.Mad
import Verif.Props.MadBound
import Verif.Props.MadScale
import Verif.Props.Mean
import Verif.Props.MeanDrift
import Verif.Props.MeanError
import Verif.Props.MeanRange
import Verif.Props.Monotone
import Verif.Props.Nan
import Verif.Props.Notebook
import Verif.Props.Order
import Verif.Props.OutOfMemory
import Verif.Props.P2
import Verif.Props.P2Clear
import Verif.Props.P2Early
import Verif.Props.P2Exact
import Verif.Props.P2Infinite
import Verif.Props.P2Mirror
import Verif.Props.P2Paper
import Verif.Props.P2Ranks
import Verif.Props.Print
import Verif.Props.PublicCount
import Verif.Props.PublicCountFame
import Verif.Props.PublicCountWindowed
import Verif.Props.PublicDeque
import Verif.Props.PublicWindow
import Verif.Props.PyStatThreads
import Verif.Props.PyStats
import Verif.Props.PyThreads
import Verif.Props.Python
import Verif.Props.RingBuffer
import Verif.Props.Scaling
import Verif.Props.Setup
import Verif.Props.SetupFlags
import Verif.Props.SetupVersion
import Verif.Props.SignedZero
import Verif.Props.Size64
import Verif.Props.TestMain
import Verif.Props.TolerantDouble
import Verif.Props.UnitTests
import Verif.Props.UnitTestsEntropy
import Verif.Props.Utils
import Verif.Props.Variance
import Verif.Props.VarianceFixed
import Verif.Props.Windowed
import Verif.Props.WindowedConst
import Verif.Props.WindowedDouble
import Verif.Props.WindowedInfinite
import Verif.Props.WindowedJump
import Verif.Spec.Decimal
import Verif.Spec.Double
import Verif.Spec.Entropy
import Verif.Spec.Histogram
import Verif.Spec.P2Paper
import Verif.Spec.Quantile
import Verif.Spec.Queue
import Verif.Spec.Stats
