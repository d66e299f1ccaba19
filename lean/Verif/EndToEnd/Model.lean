import Verif.Settings.Shares
import Verif.Publish.Props
import Verif.Grade.Monotone

/-!
# From the settings of a problem to the row of a submission

The whole way of one attempt: the grader sends the run (`common.Run`) and the settings of the problem
(`settings.json` of the archive), the runner grades it, sends the result as `details.json`, the grader reads it and
publishes it. The stages are the models of `Wire`, `Settings`, `Grade` and `Publish`; this file only joins them.

Simplifications: those of the stages. Memory is an unbounded integer in `Grade` and an `int64` everywhere else, so it
is converted when the result is sent. Characters of a text of `Publish` are bytes. `CompileError` and `CompileMeta`,
which `Grade` leaves out, are parameters.
-/
namespace Quark.EndToEnd
open Quark.Float (F64 fl roundQ)
open Quark.MetaFile (Verdict)
open Quark.Validator (Env)

/-- The bytes of a Go string. -/
def bytes (s : String) : Wire.Bytes := s.toUTF8.toList

/-- A Go string as the text of `Publish`, whose characters are bytes. -/
def text (b : Wire.Bytes) : Filter.Text := b.map fun c => Char.ofNat c.toNat

/-- `Grade` is called with this run and these settings (/repo/cmd/omegaup-runner/main.go:640,
/repo/runner/runner.go:443-482): its maximum score is the run's and its cases have the weights of the settings. What
the sandbox and the files of the cases will answer is the rest of `p`, and free. -/
structure CalledWith {ι : Type} (run : Wire.Run) (s : Settings.Problem ι) (p : Grade.Problem) : Prop where
  maxScore : run.maxScore = some p.maxScore
  weights : ((s.cases.getD []).map fun g => (g.cases.getD []).map Settings.Case.weight)
    = p.groups.map fun g => g.cases.map fun c => some c.weight

/-- `RunMetadata` (/repo/runner/sandbox.go:88-98) of `Grade` as that of `Wire`. -/
def metaDetails (m : Grade.ProcMeta) : Wire.Meta where
  verdict := bytes m.verdict.name
  exitStatus := Int64.ofInt m.exitStatus
  time := .fin m.time
  sysTime := .fin m.systemTime
  wallTime := .fin m.wallTime
  memory := Int64.ofInt m.memory
  signal := m.signal.map bytes
  syscall := m.syscall.map bytes

/-- `CaseResult` (/repo/runner/runner.go:25-33). -/
def caseDetails (c : Grade.CaseResult) : Wire.CaseResult where
  verdict := bytes c.verdict.name
  name := bytes c.name
  score := some c.score
  contestScore := some c.contestScore
  maxScore := some c.maxScore
  metadata := metaDetails c.details
  individualMeta := some (c.individual.map fun e => (bytes e.1, metaDetails e.2))

/-- `GroupResult` (/repo/runner/runner.go:88-94). -/
def groupDetails (g : Grade.GroupResult) : Wire.GroupResult where
  group := bytes g.name
  score := some g.score
  contestScore := some g.contestScore
  maxScore := some g.maxScore
  cases := some (g.cases.map caseDetails)

/-- The result that the runner encodes (/repo/cmd/omegaup-runner/main.go:540-561). -/
def details (compileError : Option Wire.Bytes) (compileMeta : Wire.MetaMap) (r : Grade.RunResult) : Wire.RunResult where
  verdict := bytes r.verdict.name
  compileError := compileError
  compileMeta := compileMeta
  score := some r.score
  contestScore := some r.contestScore
  maxScore := some r.maxScore
  time := .fin r.time
  wallTime := .fin r.wallTime
  memory := Int64.ofInt r.memory
  groups := some (r.groups.map groupDetails)

/-- `processRun` for the part `details.json` (/repo/cmd/omegaup-grader/runner_handler.go:63-72): the result is read
and the name of the runner put in. -/
def receive (ofF : ℚ → ℚ) (runnerName : Wire.Bytes) (body : Wire.J) : Option Wire.RunResult :=
  (Wire.decResult ofF body).map fun r => { r with judgedBy := runnerName }

/-- What `updateDatabase` and `broadcastRun` use of a run and its result
(/repo/cmd/omegaup-grader/frontend_handler.go:63-210); `none`: a score is nil, which they dereference. The fields of
`info` other than those of the result are those of the `RunInfo`. -/
def finished (info : Publish.Finished) (r : Wire.RunResult) : Option Publish.Finished :=
  match r.score, r.contestScore with
  | some score, some contestScore => some { info with
      verdict := text r.verdict, time := r.time, memory := r.memory.toInt, score := score, contestScore := contestScore
      judgedBy := text r.judgedBy }
  | _, _ => none

/-- The run request that arrives (/repo/cmd/omegaup-grader/runner_handler.go:184-193, /repo/cmd/omegaup-runner/main.go:484-488). -/
def sendRun (ofF : ℚ → ℚ) (run : Wire.Run) : Option Wire.Run := (Wire.encRun run).bind (Wire.decRun ofF)

/-- The settings that arrive (/repo/common/literalinput.go:375-379, /repo/runner/input.go:266-274). -/
def sendSettings {ι : Type} (C : Settings.Codecs ι) (zero : ι) (ofF : ℚ → ℚ) (s : Settings.Problem ι) :
    Option (Settings.Problem ι) :=
  (Settings.encProblem C s).bind (Settings.decProblem C zero ofF)

/-- Grading, uploading and receiving the result. -/
def outcome (ofF : ℚ → ℚ) (env : Env) (p : Grade.Problem) (compileError : Option Wire.Bytes)
    (compileMeta : Wire.MetaMap) (runnerName : Wire.Bytes) (info : Publish.Finished) : Option Publish.Finished :=
  (Wire.encResult (details compileError compileMeta (Grade.grade env p))).bind fun j =>
    (receive ofF runnerName j).bind (finished info)

end Quark.EndToEnd
