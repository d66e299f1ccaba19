import Verif.Tokenizer.Props
import Verif.Float.Props
import Verif.Float.Decimal
import Verif.Validator.Props
import Verif.MetaFile.Props
import Verif.Grade.Props2
import Verif.Grade.Resources
import Verif.Queue.Props
import Verif.Lifecycle.Races
import Verif.Lifecycle.Forgotten
import Verif.Lifecycle.Unbounded
import Verif.Watchdog.Props
import Verif.Path.Model
import Verif.Path.Lemmas
import Verif.Ephemeral.Model
import Verif.Ephemeral.Props
import Verif.Files.Model
import Verif.Files.Props
import Verif.Files.Exact
import Verif.Persist.Model
import Verif.Persist.Props
import Verif.Inputs.Model
import Verif.Inputs.Props
import Verif.Inputs.Shared
import Verif.Filter.Model
import Verif.Filter.Props
import Verif.Broadcast.Model
import Verif.Broadcast.Props
import Verif.Scoreboard.Model
import Verif.Scoreboard.Props
import Verif.Transport.Model
import Verif.Transport.Props
import Verif.CI.Model
import Verif.CI.Props
import Verif.Literal.Model
import Verif.Literal.Lemmas
import Verif.Literal.Props
import Verif.Requests.Props
import Verif.Requests.GradeReply
import Verif.Noop.Props
import Verif.ScoreRange.Props
import Verif.RunnerLoop.Props
import Verif.Hub.Props
import Verif.Hub.Progress
import Verif.OutputOnly.Props
import Verif.Tracing.Props
import Verif.Upload.Props
import Verif.Wire.Props
import Verif.Sandbox.Samples
import Verif.Publish.Props
import Verif.Publish.RecoveryProps
import Verif.CIConfig.Model
import Verif.CIConfig.Props
import Verif.CIConfig.Same
import Verif.CIConfig.Runs
import Verif.CIConfig.Copy
import Verif.CIConfig.Examples
import Verif.Archive.Model
import Verif.Archive.Walk
import Verif.Archive.Unpack
import Verif.Archive.Props
import Verif.Archive.Examples
import Verif.Delivery.Model
import Verif.Delivery.Props
import Verif.Status.Model
import Verif.Status.Props
import Verif.Preload.Model
import Verif.Preload.Props
import Verif.Preload.Race
import Verif.Trigger.Model
import Verif.Trigger.Props
import Verif.Trigger.Transport
import Verif.Pipeline.Model
import Verif.Pipeline.Props
import Verif.Pipeline.Hang
import Verif.Config.Model
import Verif.Config.Props
import Verif.Session.Model
import Verif.Session.Props
import Verif.Literal.Exact
import Verif.MetaFile.Fields
import Verif.Grade.Scale
import Verif.Settings.Model
import Verif.Settings.Props
import Verif.Settings.Shares
import Verif.Grade.Monotone
import Verif.CI.Progress
import Verif.Sandbox.Setup
import Verif.Wire.Names
import Verif.Wire.Tolerant
import Verif.Validator.Long
import Verif.Wire.Escapes
import Verif.EndToEnd.Props
import Verif.TraceFile.Props
import Verif.Logs.Props
import Verif.IoLock.Model
import Verif.IoLock.Props
import Verif.Queue.Waiting
import Verif.ErrorFile.Model
import Verif.ErrorFile.Props
import Verif.Pins.Model
import Verif.Pins.Props
import Verif.Grade.Order
import Verif.Broadcast.Drain
import Verif.Broadcast.Leak
import Verif.Float.Nearest
import Verif.Tool.Model
import Verif.Tool.Props
import Verif.Tokenizer.Positions
import Verif.Settings.Members
import Verif.Oneshot.Props
import Verif.Wire.Written
import Verif.Benchmark.Props
import Verif.Conversation.Props
import Verif.Conversation.Ends
import Verif.Conversation.Refused
import Verif.Stop.Model
import Verif.Stop.Props
import Verif.Stop.Requests
import Verif.Stop.Queue
import Verif.Sse.Model
import Verif.Sse.Spec
import Verif.Sse.Props
import Verif.CompileAll.Model
import Verif.CompileAll.Props
import Verif.Access.Paths
import Verif.CI.Once
import Verif.Delivery.Blame
import Verif.Lifecycle.Ends
import Verif.Grade.AnyWeight
import Verif.ClockSync.Model
import Verif.ClockSync.Props
import Verif.Phases.Model
import Verif.Phases.Props
import Verif.Phases.Arrive
import Verif.HashReader.Model
import Verif.HashReader.Props
import Verif.Delays.Props
import Verif.Pid.Model
import Verif.Pid.Spec
import Verif.Pid.Props
import Verif.Broadcast.Metrics
import Verif.Live.Props
import Verif.Sent.Props
import Verif.Fds.Props
import Verif.Sandbox.Life
import Verif.Sandbox.First
import Verif.Sandbox.Killed
