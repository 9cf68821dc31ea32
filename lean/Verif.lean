import Verif.PreExit
import Verif.PreExitProps
import Verif.Forest.Model
import Verif.Forest.Spec
import Verif.Forest.Word
import Verif.Forest.Nav
import Verif.Forest.Surgery
import Verif.Forest.Ops
import Verif.Forest.Erase
import Verif.Forest.EraseRange
import Verif.Forest.Splice
import Verif.Forest.Adaptors
import Verif.Forest.Traverse
import Verif.Forest.Life
import Verif.Forest.Swap
import Verif.Forest.Copy
import Verif.Forest.Algo
import Verif.Forest.AdaptorLemmas
import Verif.Forest.FilterLemmas
import Verif.Forest.Walks
import Verif.Forest.History
import Verif.Forest.Observe
import Verif.Forest.Tree
import Verif.Forest.ReverseLemmas
import Verif.Forest.Demo
import Verif.Forest.Props1
import Verif.Forest.ReverseAny
import Verif.Forest.Props2
import Verif.Forest.Props3
import Verif.Forest.FilterRange
import Verif.ReverseUntil
import Verif.SetNext
import Verif.SetNextProps
import Verif.SerialQueue
import Verif.SerialQueueProps
import Verif.NotificationQueue
import Verif.ThreadPool
import Verif.ThreadPoolInv
import Verif.ThreadPoolProps
import Verif.ThreadPoolAwait
import Verif.ThreadPoolJoin
import Verif.PoolThreads
import Verif.PoolThreadsProps
import Verif.Timer
import Verif.ExecuteAt
import Verif.Task
import Verif.TaskProps
import Verif.Future.Shared
import Verif.Future.SharedInv
import Verif.Future.SharedProps
import Verif.Future.Ready
import Verif.Future.Order
import Verif.Future.Graph
import Verif.Future.GraphInv
import Verif.Future.GraphProps
import Verif.Future.When
import Verif.Future.WhenInv
import Verif.Future.WhenProps
import Verif.Future.WhenCancel
import Verif.Future.Await
import Verif.Future.AwaitProps
import Verif.Future.MoveOnly
import Verif.Future.MoveOnlyProps
import Verif.Future.Coroutine
import Verif.Future.CoroutineInv
import Verif.Future.CoroutineProps
import Verif.Channel.Net
import Verif.Channel.Hist
import Verif.Channel.Inv
import Verif.Channel.InvStep
import Verif.Channel.InvPop
import Verif.Channel.InvCts
import Verif.Channel.InvOwn
import Verif.Channel.InvSusp
import Verif.Channel.InvSend
import Verif.Channel.InvEnd
import Verif.Channel.InvExt
import Verif.Channel.InvAll
import Verif.Channel.Once
import Verif.Channel.Demo
import Verif.Channel.Clean
import Verif.Channel.Props
import Verif.Channel.Errors
import Verif.Channel.Term
import Verif.Channel.Counter
import Verif.Channel.CounterAny
import Verif.Channel.Any
import Verif.Channel.AnyProps
import Verif.Channel.Unlimited
import Verif.Channel.Process
import Verif.Channel.ProcessInv
import Verif.Channel.ProcessInv2
import Verif.Channel.ProcessInv3
import Verif.Channel.ProcessProps
import Verif.Channel.ProcessFun
import Verif.Channel.Fanout
import Verif.Channel.FanoutProps
import Verif.Small.Tuple
import Verif.Small.Annotate
import Verif.Small.Handles
import Verif.Small.Progress
import Verif.Channel.ProcessTimed
import Verif.Channel.ProcessRest
import Verif.Channel.ProcessLocked
import Verif.Channel.ProcessTimedProps
import Verif.Channel.Source
import Verif.Channel.SourceInv
import Verif.Channel.SourceRest
import Verif.Channel.SourceTight
import Verif.Channel.SourceProps
import Verif.Channel.Life
import Verif.Channel.LifeInv
import Verif.Channel.LifeStep
import Verif.Channel.LifeTrack
import Verif.Channel.LifeProps
import Verif.Future.Race
import Verif.Future.RaceInv
import Verif.Future.RaceStep
import Verif.Future.RaceRun
import Verif.Future.RaceProps
import Verif.Channel.Defined
import Verif.Dispatch
import Verif.DispatchInv
import Verif.DispatchProps
import Verif.Exit
import Verif.ExitProps
import Verif.WindowsTimer
import Verif.Locks
import Verif.LocksInv
import Verif.LocksProps
import Verif.Counters
import Verif.CountersProps
import Verif.Windows
import Verif.WindowsProps
import Verif.Sync.Clock
import Verif.Sync.Sound
import Verif.Sync.Serial
import Verif.Sync.SerialProps
import Verif.Sync.Pool
import Verif.Sync.PoolProps
import Verif.NoThread
import Verif.NoThreadProps
import Verif.Forest.Throw
import Verif.Forest.ThrowProps
import Verif.Forest.Concurrent
import Verif.Forest.ConcurrentProps
import Verif.Sync.When
import Verif.Sync.WhenProps
import Verif.Sync.Timer
import Verif.Sync.TimerProps
import Verif.MainExecutor
import Verif.MainExecutorProps
import Verif.Sync.Mem
import Verif.Sync.Await
import Verif.Sync.AwaitProps
import Verif.Forest.Ends
import Verif.Forest.EndsProps
import Verif.Replay.Forest
import Verif.Replay.Channel
import Verif.Replay.Process
import Verif.SerialQueueThrow
import Verif.SerialQueueThrowProps
import Verif.Channel.Refuse
import Verif.TaskTarget
import Verif.TaskTargetProps
import Verif.Future.Handle
import Verif.Future.HandleProps
import Verif.Forest.Stack
import Verif.Forest.StackLemmas
import Verif.Forest.StackProps
import Verif.Future.Determinate
import Verif.Channel.Kahn
import Verif.Forest.OwnRange
import Verif.Future.Refuse
import Verif.Future.RefuseProps
import Verif.Channel.Relay
import Verif.Channel.RelayInv
import Verif.Channel.RelayProps
import Verif.Future.JoinGraph
import Verif.Future.JoinGraphInv
import Verif.Future.JoinGraphProps
import Verif.Channel.CopyThrow
import Verif.Channel.CopyThrowProps
import Verif.Scope
import Verif.ScopeInv
import Verif.ScopeProps
import Verif.Future.Blocking
import Verif.Small.Same
import Verif.Future.WhenThrow
import Verif.Future.WhenThrowProps
import Verif.Future.Depth
import Verif.Future.DepthProps
import Verif.Future.CopyThrow
import Verif.Future.CopyThrowProps
import Verif.Forest.Stable
import Verif.Layers
import Verif.LayersInv
import Verif.LayersStep
import Verif.LayersMeasure
import Verif.LayersProps
import Verif.LayersThreads
import Verif.ChannelLayers
import Verif.ChannelLayersInv
import Verif.ChannelLayersProps
import Verif.Channel.ProcessEnd
import Verif.Channel.ProcessEndProps
import Verif.Channel.SourceEnd
import Verif.Channel.SourceEndProps
import Verif.JoinLayers
import Verif.JoinLayersInv
import Verif.JoinLayersProps
import Verif.SerialTree
import Verif.SerialTreeProps
import Verif.Sync.Channel
import Verif.Sync.ChannelProps
import Verif.Sync.Process
import Verif.Sync.ProcessFrame
import Verif.Sync.ProcessProps
import Verif.Small.Copy
import Verif.Small.AllTrue
import Verif.Small.ThreadName
import Verif.Sync.Graph
import Verif.Sync.GraphFrame
import Verif.Sync.GraphProps
import Verif.Sync.JoinGraph
import Verif.Sync.JoinGraphFrame
import Verif.Sync.JoinGraphProps
