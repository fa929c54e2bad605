import Verif.Args.Bind
import Verif.Args.Decorators
import Verif.Args.Precondition
import Verif.Args.Props
import Verif.Cache.FailuresThreads
import Verif.Cache.LRUProps
import Verif.Cache.Metrified
import Verif.Cache.Model
import Verif.Cache.Props
import Verif.Cache.Spec
import Verif.Cache.Threads
import Verif.Conc.Bogus
import Verif.Conc.Closeable
import Verif.Conc.Condition
import Verif.Conc.Deferred
import Verif.Conc.Linear
import Verif.Conc.LockedDataset
import Verif.Conc.LockedStructure
import Verif.Conc.Monitor
import Verif.Conc.MonitorCopy
import Verif.Conc.MonitorProps
import Verif.Conc.MonitorSet
import Verif.Conc.Parallel
import Verif.Conc.ParallelThreads
import Verif.Conc.SafeSleep
import Verif.Conc.SyncPool
import Verif.Conc.Terminable
import Verif.Conc.ThreadCollection
import Verif.Conc.ThreadFuture
import Verif.Conc.Timer
import Verif.Conc.Wait
import Verif.Conc.WaitProps
import Verif.Config.Files
import Verif.Config.FromDict
import Verif.Config.Http
import Verif.Config.Model
import Verif.Config.Props
import Verif.Config.Spec
import Verif.Db.Cassandra
import Verif.Db.Transaction
import Verif.Deco.AdaptMethods
import Verif.Deco.CachedProperty
import Verif.Deco.CopyArgs
import Verif.Deco.Flow
import Verif.Deco.Forever
import Verif.Deco.Memo
import Verif.Deco.Overload
import Verif.Deco.Rethrow
import Verif.Deco.Retry
import Verif.Deco.Small
import Verif.Deco.Wraps
import Verif.Deleter.Model
import Verif.Deleter.Props
import Verif.Deleter.Spec
import Verif.Dicts.DictObject
import Verif.Dicts.Dirty
import Verif.Dicts.KeyAware
import Verif.Dicts.TwoWay
import Verif.Dicts.View
import Verif.Exn.Coded
import Verif.Exn.Dump
import Verif.Exn.Expect
import Verif.Exn.Hooks
import Verif.Exn.LogExceptions
import Verif.Expiring.Lemmas
import Verif.Expiring.Maintenance
import Verif.Expiring.Model
import Verif.Expiring.Props
import Verif.Expiring.SelfCleaningThreads
import Verif.Expiring.Spec
import Verif.Expiring.Threads
import Verif.Expiring.ThreadsEnd
import Verif.Files.Autoflush
import Verif.Files.Find
import Verif.Files.Jump
import Verif.Files.Lines
import Verif.Files.Path
import Verif.Files.Whole
import Verif.Futures.Model
import Verif.Futures.Props
import Verif.Futures.Spec
import Verif.Futures.Threads
import Verif.Futures.Wrapping
import Verif.Group.Model
import Verif.Group.OftenThreads
import Verif.Group.Props
import Verif.Group.Spec
import Verif.Group.Threads
import Verif.Heap.Ascending
import Verif.Heap.Generators
import Verif.Heap.Heapq
import Verif.Heap.HeapqCorrect
import Verif.Heap.Lemmas
import Verif.Heap.Model
import Verif.Heap.Props
import Verif.Heap.SetGenerators
import Verif.Heap.Spec
import Verif.Heap.TimeLemmas
import Verif.Ids.AllocThreads
import Verif.Ids.Model
import Verif.Ids.Props
import Verif.Ids.Spec
import Verif.Ids.Threads
import Verif.Instr.Builder
import Verif.Instr.CpuSleep
import Verif.Instr.CpuStats
import Verif.Instr.CpuThread
import Verif.Instr.ObjectSize
import Verif.Instr.PrettyPrint
import Verif.Instr.Trace
import Verif.Instr.Traceback
import Verif.LRU.Model
import Verif.LRU.Props
import Verif.LRU.Spec
import Verif.Matrix.Lemmas
import Verif.Matrix.Model
import Verif.Matrix.Props
import Verif.Matrix.Spec
import Verif.Memory.Conditions
import Verif.Memory.Dump
import Verif.Memory.Pressure
import Verif.Merge.Model
import Verif.Merge.Props
import Verif.Merge.Spec
import Verif.MergeList.Model
import Verif.MergeList.Props
import Verif.MergeSeries.Model
import Verif.MergeSeries.Props
import Verif.MergeSeries.Spec
import Verif.Meta.Docs
import Verif.Meta.NoConflict
import Verif.Metrics.Counter
import Verif.Metrics.CounterThreads
import Verif.Metrics.Cps
import Verif.Metrics.CpsThreads
import Verif.Metrics.Data
import Verif.Metrics.Embedded
import Verif.Metrics.EmbeddedThreads
import Verif.Metrics.Exporter
import Verif.Metrics.Histogram
import Verif.Metrics.HistogramThreads
import Verif.Metrics.Internal
import Verif.Metrics.Json
import Verif.Metrics.Leaves
import Verif.Metrics.Levels
import Verif.Metrics.Linkfail
import Verif.Metrics.Measure
import Verif.Metrics.Prometheus
import Verif.Metrics.Registry
import Verif.Metrics.Summary
import Verif.Metrics.SummaryThreads
import Verif.Misc.Context
import Verif.Misc.DataObject
import Verif.Misc.DeepCompare
import Verif.Misc.Imports
import Verif.Misc.JsonEncode
import Verif.Misc.Loadable
import Verif.Misc.Numbers
import Verif.Misc.Shuffle
import Verif.Misc.TaintEnv
import Verif.Misc.TaintHeap
import Verif.Misc.Tainting
import Verif.Misc.Updates
import Verif.Mixins.Enums
import Verif.Mixins.Hash
import Verif.Mixins.Immutable
import Verif.Mixins.Reprable
import Verif.Os.PidLock
import Verif.Os.Signals
import Verif.Os.Stdout
import Verif.Os.Whereis
import Verif.PQueue.Model
import Verif.PQueue.Props
import Verif.Parser.Model
import Verif.Parser.Props
import Verif.Parser.Spec
import Verif.Pool.Model
import Verif.Pool.Props
import Verif.Pool.Spec
import Verif.Pred.Build
import Verif.Pred.Exprs
import Verif.Py.Basic
import Verif.Py.Dict
import Verif.Py.Run
import Verif.Queue.Iterator
import Verif.Queue.PushIter
import Verif.Queue.Subqueue
import Verif.Schema.Basic
import Verif.Schema.FromJson
import Verif.Schema.Model
import Verif.Schema.Props
import Verif.Schema.Regexp
import Verif.Schema.Valid
import Verif.Seq.Adapters
import Verif.Seq.Choose
import Verif.Seq.Chunks
import Verif.Seq.Closing
import Verif.Seq.Helpers
import Verif.Seq.Interpolate
import Verif.Seq.Jsonify
import Verif.Seq.Multirun
import Verif.Seq.Rolling
import Verif.Seq.Slices
import Verif.Seq.Small
import Verif.Seq.Transforms
import Verif.Seq.Unique
import Verif.Seq.Walk
import Verif.Sorted.Lemmas
import Verif.Sorted.Model
import Verif.Sorted.Props
import Verif.Sorted.RankLemmas
import Verif.Sorted.SliceableDeque
import Verif.Sorted.Spec
import Verif.Struct.Optional
import Verif.Struct.Proxy
import Verif.Struct.Singleton
import Verif.Struct.SingletonThreads
import Verif.Struct.Tuples
import Verif.Syncable.ArchiveIter
import Verif.Syncable.Model
import Verif.Syncable.Props
import Verif.Syncable.Spec
import Verif.Syncable.Threads
import Verif.ThreadPool.Inv
import Verif.ThreadPool.Model
import Verif.ThreadPool.Props
import Verif.Time.Backoff
import Verif.Time.BackoffThreads
import Verif.Time.BackoffWait
import Verif.Time.Measure
import Verif.Time.Parse
import Verif.Writeback.Model
import Verif.Writeback.Props
import Verif.Writeback.Spec
import Verif.Writeback.Threads
