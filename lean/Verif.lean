import Verif.Py.Basic
import Verif.Py.Dict
import Verif.Py.Space
import Verif.Model.Progression
import Verif.Model.Pile
import Verif.Spec.OrderedMap
import Verif.Lemmas.Pile
import Verif.Props.Progression
import Verif.Spec.Slice
import Verif.Props.ProgressionApi
import Verif.Model.StreamFail
import Verif.Props.StreamFail
import Verif.Props.Pile
import Verif.Props.PileExact
import Verif.Model.Flow
import Verif.Lemmas.Flow
import Verif.Props.Flow
import Verif.Model.Graph
import Verif.Spec.Digraph
import Verif.Lemmas.Graph
import Verif.Lemmas.GraphDfs
import Verif.Lemmas.GraphKahn
import Verif.Lemmas.GraphBfs
import Verif.Props.Graph
import Verif.Props.GraphSerial
import Verif.Props.GraphCond
import Verif.Props.GraphExact
import Verif.Model.FindPathConc
import Verif.Lemmas.FindPathConc
import Verif.Props.FindPathConc
import Verif.Props.Event
import Verif.Props.PriorityQueue
import Verif.Props.Processor
import Verif.Props.ProcessorTight
import Verif.Props.ProcessorOverlap
import Verif.Props.Executor
import Verif.Props.CleanupDefault
import Verif.Props.EventBus
import Verif.Props.EventBusConc
import Verif.Props.Broadcaster
import Verif.Props.Fanout
import Verif.Props.Patterns
import Verif.Props.AsyncCall
import Verif.Props.Alcall
import Verif.Props.Lexer
import Verif.Props.Parser
import Verif.Props.ParserClose
import Verif.Props.ParserFields
import Verif.Props.Similarity
import Verif.Props.SimilarityExact
import Verif.Props.SeqMatch
import Verif.Props.LndlValue
import Verif.Props.LndlFloat
import Verif.Props.Resolver
import Verif.Props.Operable
import Verif.Props.Fuzzy
import Verif.Props.FuzzyCorrected
import Verif.Props.LndlTypes
import Verif.Props.LndlTypesExact
import Verif.Model.ToList
import Verif.Props.ToList
import Verif.Model.KeyMatch
import Verif.Props.KeyMatch
import Verif.Props.BinsFewest
import Verif.Props.Capabilities
import Verif.Model.HashDict
import Verif.Props.HashDict
import Verif.Model.Params
import Verif.Props.Params
import Verif.Model.Spec
import Verif.Props.Spec
import Verif.Props.SpecExact
import Verif.Model.FuzzyJson
import Verif.Props.FuzzyJson
import Verif.Props.FuzzyTokens
import Verif.Props.ExtractJson
import Verif.Model.ToNum
import Verif.Props.ToNum
import Verif.Model.Prune
import Verif.Props.Prune
import Verif.Props.YamlText
import Verif.Model.CallArgs
import Verif.Props.CallArgs
import Verif.Model.Element
import Verif.Props.Element
import Verif.Props.ElementExact
import Verif.Props.ElementSerial
import Verif.Props.ElementSample
import Verif.Model.ToDict
import Verif.Props.ToDict
import Verif.Props.ToDictApi
import Verif.Props.ToDictExact
import Verif.Model.Implements
import Verif.Props.Implements
import Verif.Model.JsonDefault
import Verif.Props.JsonDefault
import Verif.Model.ExcGroup
import Verif.Props.ExcGroup
import Verif.Model.LeakTracker
import Verif.Props.LeakTracker
import Verif.Model.TypeScript
import Verif.Props.TypeScript
import Verif.Model.PileConc
import Verif.Props.PileConc
import Verif.Model.PileScope
import Verif.Props.PileScope
import Verif.Lemmas.LexText
import Verif.Props.LndlText
import Verif.Model.FlowSerial
import Verif.Props.FlowSerial
import Verif.Model.ContainerKeys
import Verif.Props.ContainerKeys
import Verif.Model.Validate
import Verif.Props.Validate
import Verif.Props.ValidateExact
import Verif.Model.Json
import Verif.Props.Json
import Verif.Model.JsonDump
import Verif.Props.JsonDump
import Verif.Model.Exclude
import Verif.Props.Exclude
import Verif.Model.Deadline
import Verif.Props.Deadline
import Verif.Model.Queue
import Verif.Props.Queue
import Verif.Props.QueueClose
import Verif.Model.RunAsync
import Verif.Props.RunAsync
import Verif.Model.ParamCall
import Verif.Props.ParamCall
import Verif.Props.ParamExact
import Verif.Model.HashModel
import Verif.Props.HashModel
import Verif.Props.HashModelExact
import Verif.Props.HashModelSets
import Verif.Props.HashModelJson
import Verif.Props.BoundMethod
import Verif.Props.JsonEncode
import Verif.Props.FuzzyValid
import Verif.Model.Sentinel
import Verif.Props.Sentinel
import Verif.Model.Field
import Verif.Props.Field
import Verif.Model.Sync
import Verif.Model.PileSync
import Verif.Model.FlowSync
import Verif.Spec.Serial
import Verif.Spec.Locks
import Verif.Lemmas.Sync
import Verif.Lemmas.SyncLin
import Verif.Lemmas.PileSync
import Verif.Lemmas.SyncRG
import Verif.Lemmas.SyncGrow
import Verif.Props.Sync
import Verif.Props.SyncObjects
import Verif.Props.SyncMixed
import Verif.Props.SyncNames
import Verif.Model.Embedding
import Verif.Props.Embedding
import Verif.Model.CreatePath
import Verif.Props.CreatePath
import Verif.Props.CreatePathExact
import Verif.Props.ExactH
import Verif.Props.ExactI
import Verif.Model.ImportModule
import Verif.Props.ImportModule
import Verif.Model.Lndl
import Verif.Props.LndlEnd
import Verif.Model.EventSerial
import Verif.Props.EventSerial
import Verif.Props.EventShown
import Verif.Model.SchemaModel
import Verif.Props.SchemaModel
import Verif.Props.ElementForm
import Verif.Props.ProcessWaits
import Verif.Model.FuzzyRead
import Verif.Props.FuzzyDoc
import Verif.Props.FlowExact
import Verif.Props.SmallExact
import Verif.Model.PriorityQueueCancel
import Verif.Props.PriorityQueueCancel
import Verif.Model.HeapRaise
import Verif.Props.HeapRaise
import Verif.Props.HeapRaiseOk
import Verif.Model.ItemType
import Verif.Props.ItemType
import Verif.Model.ElementText
import Verif.Props.ElementText
import Verif.Model.LndlOutput
import Verif.Props.LndlOutput
import Verif.Props.ExactD
import Verif.Props.TypeText
import Verif.Props.Tight
import Verif.Props.ExactE
import Verif.Props.ExactF
import Verif.Props.ExactG
import Verif.Props.ExecLoop
import Verif.Props.ExecJoin
import Verif.Props.ExecLive
import Verif.Props.DenialForever
import Verif.Props.ResolveErrors
import Verif.Props.ExecSlots
import Verif.Props.CopyContainers
import Verif.Props.ProcExact
import Verif.Props.Streaming
import Verif.Props.EventSize
import Verif.Props.IsoTime
import Verif.Props.Fixtures
import Verif.Props.SimExact
import Verif.Props.AtMostOnce
import Verif.Props.ContainerText
import Verif.Props.Adapt
import Verif.Props.Nested
import Verif.Props.CallParse
import Verif.Props.Errors
import Verif.Props.EventAssign
import Verif.Props.ExecCleanup
import Verif.Props.ExecStatus
import Verif.Props.PileLoop
import Verif.Props.BroadcastConc
import Verif.Props.EdgeAssign
import Verif.Props.FlowEdit
import Verif.Props.AlcallTime
import Verif.Props.LazyInit
import Verif.Props.GraphDirect
import Verif.Props.FlowInit
import Verif.Props.LoadHeap
import Verif.Props.DumpHeap
import Verif.Props.DumpShare
import Verif.Props.Flows
import Verif.Props.Semaphore
import Verif.Props.HashModelJsonExact
import Verif.Props.EventShare
import Verif.Props.EventBusOps
import Verif.Props.Condition
import Verif.Props.FlowsSingle
import Verif.Props.EventFlag
import Verif.Props.TaskGroup
import Verif.Props.ParamsDict
import Verif.Props.SpecModify
import Verif.Props.RaceLive
import Verif.Props.ElementSorted
import Verif.Props.BroadcastRefs
import Verif.Props.JsonCached
import Verif.Props.NodeContent
import Verif.Props.PileLoadKeys
import Verif.Props.ClassTree
import Verif.Props.CreatePathConc
import Verif.Props.HashModelSelect
import Verif.Props.LazyInitLive
