import Verif.Common.XVal
import Verif.Safety.Model
import Verif.Safety.Spec
import Verif.Safety.Lemmas
import Verif.Safety.Props
import Verif.Core.RingBuffer
import Verif.Core.RingBufferProps
import Verif.Core.Tasks
import Verif.Core.TasksProps
import Verif.Core.Executor
import Verif.Core.ExecutorProps
import Verif.Core.ExecutorFl
import Verif.Core.MonitorFl
import Verif.Core.Statistics
import Verif.Core.StatisticsProps
import Verif.Control.TimeDomain
import Verif.Control.TimeDomainProps
import Verif.Control.Inputs
import Verif.Control.InputsProps
import Verif.Control.Algebra
import Verif.Control.AlgebraProps
import Verif.Control.Delay
import Verif.Control.DelayProps
import Verif.Control.DelayFl
import Verif.Control.Integrator
import Verif.Control.IntegratorProps
import Verif.Control.Differentiator
import Verif.Control.DifferentiatorProps
import Verif.Control.Saturation
import Verif.Control.SaturationProps
import Verif.Control.RateLimiter
import Verif.Control.RateLimiterProps
import Verif.Control.SignalChecker
import Verif.Control.SignalCheckerProps
import Verif.Control.WrapAround
import Verif.Control.WrapAroundProps
import Verif.Control.Switch
import Verif.Control.SwitchProps
import Verif.Control.Transition
import Verif.Control.TransitionProps
import Verif.Control.Trace
import Verif.Control.TraceProps
import Verif.Control.Filters
import Verif.Control.FiltersProps
import Verif.Control.Gain
import Verif.Control.GainProps
import Verif.Sequencer.Machine
import Verif.Sequencer.Micro
import Verif.Sequencer.Protocol
import Verif.Sequencer.Exceptions
import Verif.Sequencer.Nested
import Verif.Sequencer.Abort
import Verif.Sequencer.Witness
import Verif.Sequencer.Timeout
import Verif.Sequencer.Registry
import Verif.Hal.Registry
import Verif.Hal.RegistryProps
import Verif.Hal.Scale
import Verif.Hal.ScaleProps
import Verif.Control.PeripheralOutput
import Verif.Control.PeripheralOutputProps
import Verif.Control.Sources
import Verif.Control.SourcesProps
import Verif.Math.Matrix
import Verif.Math.MatrixProps
import Verif.Math.Inverse
import Verif.Math.InverseProps
import Verif.Math.Rank
import Verif.Math.RankProps
import Verif.Math.Geometry
import Verif.Math.GeometryProps
import Verif.Math.Fraction
import Verif.Math.FractionProps
import Verif.Math.Frame
import Verif.Math.FrameProps
import Verif.Control.Kalman
import Verif.Control.KalmanProps
import Verif.Planner.ConstAcc
import Verif.Planner.ConstAccProps
import Verif.Planner.ConstAccClock
import Verif.Planner.ConstAccClockProps
import Verif.Planner.ConstJerk
import Verif.Planner.ConstJerkProps
import Verif.Planner.Cubic
import Verif.Planner.CubicProps
import Verif.Control.ZTransfer
import Verif.Control.ZTransferProps
import Verif.Control.Mouse
import Verif.Control.MouseProps
import Verif.Control.Corrector
import Verif.Control.CorrectorProps
import Verif.Config.Text
import Verif.Config.TextProps
import Verif.Config.DoubleText
import Verif.Config.DoubleTextProps
import Verif.Config.DoubleExact
import Verif.Config.Config
import Verif.Config.ConfigProps
import Verif.Config.DoubleProps
import Verif.Logger.Logger
import Verif.Logger.LoggerProps
import Verif.Sockets.Socket
import Verif.Sockets.SocketProps
import Verif.Control.Can
import Verif.Control.CanProps
import Verif.Core.ExecutorRun
import Verif.Core.ExecutorRunProps
import Verif.Core.TaskLate
import Verif.Core.PeriodicCounter
import Verif.Core.PeriodicCounterProps
import Verif.Core.Startup
import Verif.Core.StartupProps
import Verif.Hal.Keyboard
import Verif.Hal.KeyboardProps
import Verif.Hal.XBox
import Verif.Hal.XBoxProps
import Verif.Hal.SpaceNavigator
import Verif.Hal.SpaceNavigatorProps
import Verif.Control.Signal
import Verif.Control.SignalProps
import Verif.Common.Round
import Verif.Control.RosTime
import Verif.Control.RosTimeProps
import Verif.Control.RosSigint
import Verif.Hal.DeviceThread
import Verif.Hal.DeviceThreadProps
import Verif.Hal.RPLidar
import Verif.Hal.RPLidarProps
import Verif.Hal.PixyCam
import Verif.Hal.PixyCamProps
import Verif.Hal.SysFs
import Verif.Hal.SysFsProps
import Verif.Core.SharedMemory
import Verif.Core.SharedMemoryProps
import Verif.Core.ShmName
import Verif.Core.CondSemaphore
import Verif.Core.CondSemaphoreProps
import Verif.Sequencer.Stepping
import Verif.Sequencer.SteppingProps
import Verif.Hal.ODrive
import Verif.Hal.ODriveProps
import Verif.Hal.JsonParser
import Verif.Hal.JsonParserProps
import Verif.Core.RosSync
import Verif.Core.RosSyncProps
import Verif.Control.RosBlocks
import Verif.Control.RosBlocksProps
import Verif.Hal.ODriveUsb
import Verif.Hal.ODriveUsbProps
import Verif.Hal.HalArgs
import Verif.Hal.HalArgsProps
import Verif.Control.Subio
import Verif.Control.SubioProps
import Verif.Hal.Realsense
import Verif.Hal.RealsenseProps
import Verif.Hal.Sbg
import Verif.Hal.SbgProps
import Verif.Hal.Torn
import Verif.Hal.TornProps
import Verif.Control.EtherCat
import Verif.Control.EtherCatProps
import Verif.Logger.Pretty
import Verif.Logger.PrettyProps
import Verif.Logger.PrettyRead
import Verif.Sockets.SocketData
import Verif.Sockets.SocketDataProps
import Verif.Control.WrapAroundFl
import Verif.Control.CanSend
import Verif.Control.CanSendProps
import Verif.Ui.Curses
import Verif.Ui.CursesProps
import Verif.Hal.Features
import Verif.Hal.FeaturesProps
import Verif.Control.SafetyLevelPub
import Verif.Control.SafetyLevelPubProps
import Verif.Hal.Buttons
import Verif.Hal.ButtonsProps
import Verif.Control.ODriveBlock
import Verif.Control.ODriveBlockProps
import Verif.Math.Matrix1
import Verif.Math.Matrix1Props
import Verif.Hal.BaumerData
import Verif.Hal.BaumerDataProps
import Verif.Control.RosData
import Verif.Control.RosDataProps
import Verif.Math.InverseAll
import Verif.Safety.Priority
import Verif.Control.KalmanSizes
import Verif.External.ODriveEP
import Verif.External.ODriveEPProps
import Verif.Sequencer.AbortAll
import Verif.Sequencer.AbortEnds
import Verif.Control.ControlInput
import Verif.Control.ControlInputProps
import Verif.Hal.Snapshot
import Verif.Hal.SnapshotProps
import Verif.Sockets.SendLock
import Verif.Sockets.SendLockProps
import Verif.Core.WindowsTime
import Verif.Core.WindowsTimeProps
import Verif.Control.Dataflow
import Verif.Control.DataflowProps
import Verif.Safety.Reaction
import Verif.Common.Double
import Verif.Common.Error
import Verif.Control.TimeDiff
import Verif.Control.GainFl
import Verif.Core.StatisticsFl
import Verif.Control.IntegratorFl
import Verif.Control.FiltersFl
import Verif.Math.DetFl
import Verif.Control.RateLimiterFl
import Verif.Logger.Concurrent
import Verif.Logger.Stamp
import Verif.Logger.Header
import Verif.Logger.LogFile
import Verif.Planner.MoveRace
import Verif.Core.Threads
import Verif.Sequencer.Deadlock
import Verif.Common.XArith
import Verif.Control.Special
import Verif.Examples.App
import Verif.Examples.MockRobot
import Verif.Examples.SystemTest1
import Verif.Examples.SystemTest2
import Verif.Examples.MockHoming
import Verif.Control.VectorCmp
import Verif.Examples.SystemTest3
import Verif.Common.Race
import Verif.Control.BlockRaces
import Verif.Common.Monitor
import Verif.Core.RingBufferConc
import Verif.Control.CheckerConc
import Verif.Control.GainConc
import Verif.Control.SaturationConc
import Verif.Common.Ieee
import Verif.Control.IeeeBlocks
import Verif.Control.WrapAroundErr
import Verif.Control.ZTransferStable
import Verif.Sequencer.Reconf
import Verif.Core.SyncModes
import Verif.Core.RosTopic1
import Verif.Safety.ReactionTime
import Verif.Sequencer.Throws
import Verif.Control.TransitionLock
import Verif.Control.KalmanOptimal
import Verif.Planner.TimeOptimal
import Verif.Core.Teardown
import Verif.Control.DynBlocks
import Verif.Control.WireLife
import Verif.Control.Stamps
import Verif.Hal.LidarCopy
import Verif.Hal.DeviceRaces
import Verif.Hal.KeyWords
import Verif.Control.Loop
import Verif.Control.LoopFl
import Verif.Control.LoopSat
import Verif.Control.CrossDomain
import Verif.Control.LoopDelay
import Verif.Planner.Derived
import Verif.Control.RaceVars
import Verif.Control.BlockRaceVars
import Verif.Hal.DeviceRaceVars
import Verif.Planner.Handover
import Verif.Control.VectorGlide
import Verif.Control.MedianVec
import Verif.Tests.Blocks
import Verif.Tests.Blocks2
import Verif.Tests.Math
import Verif.Tests.Systems
import Verif.Tests.Sequences
import Verif.Tests.Hal
import Verif.Sequencer.Latency
import Verif.Planner.ConstJerkClock
import Verif.Common.LinSim
import Verif.Control.TransitionConc
import Verif.Planner.CubicFile
import Verif.Common.Uninit
import Verif.Control.UninitBlocks
import Verif.Common.SignalLocks
import Verif.Safety.ExitHandler
import Verif.Sequencer.WaitAll
import Verif.Control.CorrectorFile
import Verif.Safety.InputReaction
import Verif.Sequencer.Timed
import Verif.Safety.ActivationCount
import Verif.Hal.RegistryExact
import Verif.Safety.InstExact
import Verif.Safety.Reachable
import Verif.Control.TransitionExact
import Verif.Safety.ConcurrentExact
import Verif.Control.Universal
import Verif.Hal.ScaleExact
import Verif.Planner.CubicExact
import Verif.Planner.CubicAny
import Verif.Config.Add
import Verif.Planner.ConstJerkExact
import Verif.Hal.Universal
import Verif.Core.EtherCatSync
import Verif.Planner.ConstAccExact
import Verif.Common.Universal
import Verif.Math.Rank2
import Verif.Math.IntMatrix
import Verif.Control.ExactRules
import Verif.Hal.ExactRules
import Verif.Config.ExactRules
import Verif.Control.ElmoInput
import Verif.Control.ExactRules2
import Verif.Hal.ExactRules2
import Verif.Core.ExactRules
import Verif.Hal.ExactRules3
import Verif.Control.ExactRules3
import Verif.Hal.KeyboardBlocks
import Verif.Hal.ODriveExact
import Verif.Sequencer.ClientExact
import Verif.Control.IeeeSettle
import Verif.Control.ExactRules4
import Verif.Sequencer.SteppingExact
import Verif.Hal.ODriveCalib
import Verif.Hal.ODriveCalibProps
import Verif.Hal.ODriveUart
import Verif.Core.StopRos2
import Verif.Hal.Resources
import Verif.Examples.CanExample2
import Verif.Examples.HalTest3
import Verif.Examples.StandaloneClient
import Verif.Examples.TraceTest
import Verif.Examples.RtTest
import Verif.Core.StatisticsScale
import Verif.Control.UnitsFl
import Verif.External.LidarAdapter
import Verif.External.ODriveMain
import Verif.Math.Norm
import Verif.Math.Print
import Verif.Math.Elementwise
import Verif.Control.GainVec
import Verif.Control.GainLimits
import Verif.Control.Defaults
import Verif.Control.IntBlocks
import Verif.Hal.ScaleFinite
import Verif.Ui.CursesText
import Verif.Tests.Frames
