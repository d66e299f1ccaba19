import Mathlib.Data.Rat.Defs
/-!
# Receiving the results of a run (grader side)

Model of the handler of `/run/<attempt>/results/` in the grader
(`cmd/omegaup-grader/runner_handler.go` 22-147 and 196-224), of the part of
`RunContext.Requeue` (`grader/queue.go` 471-495) and `RunContext.Close`
(`grader/queue.go` 371-460) that decides what is recorded for a run, and of the
initial contents of a run (`grader/queue.go` 340-355).

Simplifications, common to the whole file:
* handlers and time-outs of one run are executed one after another (their races
  are the subject of the `Lifecycle` area);
* attempt ids are numbered 0, 1, 2, … instead of being drawn at random;
* the contents of files, logs and trace events are opaque;
* the grade directory is flat: the names of the uploaded files are taken as they
  are (what names can reach outside is the subject of `Files`, C69).
-/
namespace Quark.Upload

/-- What a `details.json` decodes to (`runner/runner.go` 141-153, type
`RunResult`): the fields used here, and the rest as an opaque value. -/
structure Result where
  verdict : String
  score : ℚ
  judgedBy : String
  rest : String
  deriving DecidableEq

/-- The result a run has before any runner answers: `runner.NewRunResult("JE",
&big.Rat{})` (`grader/queue.go` 347). -/
def initialResult : Result := ⟨"JE", 0, "", ""⟩

/-- What decoding `tracing.json` does (`cmd/omegaup-grader/runner_handler.go` 81-90): gives events,
fails, or panics inside `UnmarshalJSON` (see the `Tracing` area). -/
inductive Trace where
  | events (es : List String)
  | undecodable
  | panics
  deriving DecidableEq

/-- One part of the multipart body, together with how reading and storing it goes
(`cmd/omegaup-grader/runner_handler.go` 63-127).  The constructor stands for the test on
`part.FileName()`; a `file` is any part with another name. -/
inductive Part where
  /-- `details.json`: what its JSON decodes to, `none` on a decoding error. -/
  | details (decoded : Option Result)
  /-- `logs.txt`: the text read, and whether it was read to its end. -/
  | logs (text : String) (whole : Bool)
  /-- `tracing.json`. -/
  | tracing (t : Trace)
  /-- any other name: what was copied, whether `os.Create` succeeds and whether the
  copy succeeds. -/
  | file (name content : String) (created whole : Bool)
  deriving DecidableEq

/-- One upload request and the behaviour of its environment. -/
structure Upload where
  /-- `peerName(r, insecure)`, line 28. -/
  runner : String
  /-- the files which the best-effort `os.RemoveAll` of line 33 could not delete. -/
  stuck : List String
  /-- does `os.MkdirAll` of line 34 succeed. -/
  mkdirOk : Bool
  /-- does `r.MultipartReader()` of line 39 succeed. -/
  multipart : Bool
  /-- the parts delivered by `NextPart` (line 49) … -/
  parts : List Part
  /-- … which then reports `io.EOF` (`true`) or an error (`false`), lines 50-55. -/
  ended : Bool

/-- The outcome of `processRun`: a `processRunStatus`, or a panic which leaves the
handler before its lines 211-223. -/
inductive Outcome where
  | status (code : Nat) (retry : Bool)
  | panicked
  deriving DecidableEq

/-- Where the run is. -/
inductive Phase where
  | queued | inflight | closed
  deriving DecidableEq

/-- The part of a `RunContext` that matters here (`grader/queue.go` 272-320). -/
structure Run where
  result : Result
  /-- the files of the grade directory. -/
  dir : String → Option String
  /-- the sections appended by `AppendRunnerLogs` (`grader/queue.go` 464-466). -/
  logs : List (String × String)
  /-- the events in the run's collector which came from runners. -/
  events : List String
  tries : Int
  /-- the number of the current attempt (`run.Run.AttemptID`). -/
  attempt : Nat
  phase : Phase

/-- The run when it is first queued (`grader/queue.go` 340-355); `dir` is whatever an
earlier grading of the same submission left. -/
def fresh (retries : Int) (dir : String → Option String) : Run :=
  ⟨initialResult, dir, [], [], retries, 0, .queued⟩

/-- Write one file. -/
def write (d : String → Option String) (n c : String) : String → Option String :=
  fun m => if m = n then some c else d m

/-- One part, `cmd/omegaup-grader/runner_handler.go` 63-127: the updated run, and the outcome with which
`processRun` returns immediately, if it does.  `store` is
`Config.Grader.WriteGradeFiles`. -/
def part (store : Bool) (runner : String) (r : Run) : Part → Run × Option Outcome
  | .details none => (r, some (.status 400 true))
  | .details (some d) => ({ r with result := { d with judgedBy := runner } }, none)
  | .logs t whole =>
      if whole then ({ r with logs := r.logs ++ [(runner, t)] }, none)
      else (r, some (.status 400 true))
  | .tracing (.events es) => ({ r with events := r.events ++ es }, none)
  | .tracing .undecodable => (r, some (.status 400 true))
  | .tracing .panics => (r, some .panicked)
  | .file n c created whole =>
      if store then
        if created then
          ({ r with dir := write r.dir n c },
            if whole then none else some (.status 400 true))
        else (r, some (.status 500 false))
      else (r, if whole then none else some (.status 400 true))

/-- The loop over the parts, `cmd/omegaup-grader/runner_handler.go` 48-128, and the end of `processRun`,
lines 136-146. -/
def parts (store : Bool) (runner : String) (ended : Bool) : Run → List Part → Run × Outcome
  | r, [] =>
      if ended then
        (r, if r.result.verdict = "JE" then .status 200 true else .status 200 false)
      else (r, .status 400 true)
  | r, p :: ps =>
      match part store runner r p with
      | (r', some o) => (r', o)
      | (r', none) => parts store runner ended r' ps

/-- `processRun`, `cmd/omegaup-grader/runner_handler.go` 22-147. -/
def processRun (store : Bool) (r : Run) (u : Upload) : Run × Outcome :=
  let r := { r with dir := fun n => if n ∈ u.stuck then r.dir n else none }
  if u.mkdirOk then
    if u.multipart then parts store u.runner u.ended r u.parts
    else (r, .status 400 true)
  else (r, .status 500 false)

/-- `RunContext.Close`, `grader/queue.go` 371-460, in an environment where its writes
succeed: the three files it writes.  `render` stands for the JSON and gzip encodings of
lines 405, 425 and 445. -/
structure Render where
  details : Result → String
  logs : List (String × String) → String
  tracing : List String → String

/-- `RunContext.Close`, `grader/queue.go` 371-460.  Simplification: failures of the file
system inside `Close` are not modelled here (they are in `Lifecycle`). -/
def close (e : Render) (r : Run) : Run :=
  { r with
    dir := write (write (write r.dir "details.json" (e.details r.result))
      "logs.txt.gz" (e.logs r.logs)) "tracing.json.gz" (e.tracing r.events)
    phase := .closed }

/-- `RunContext.Requeue`, `grader/queue.go` 471-495; `full` says that the high priority
queue has no room (lines 489-493). -/
def requeue (e : Render) (full last : Bool) (r : Run) : Run :=
  let r := { r with tries := r.tries - 1 }
  if r.tries ≤ 0 then close e r
  else
    let r := { r with tries := if last then 1 else r.tries, attempt := r.attempt + 1 }
    if full then close e r else { r with phase := .queued }

/-- What can happen to a run after it was queued.  `full` is the state of the queue at
that moment. -/
inductive Event where
  /-- a runner takes the run out of the queue (`cmd/omegaup-grader/runner_handler.go` 173-194). -/
  | taken
  /-- the watchdog of the current attempt fires (`grader/queue.go` 695-715). -/
  | timeout (full : Bool)
  /-- an upload arrives for the given attempt (`cmd/omegaup-grader/runner_handler.go` 197-224). -/
  | upload (attempt : Nat) (u : Upload) (full : Bool)

/-- One event: the updated run and, for an upload, the status of the response (`none`:
the connection is dropped because the handler panicked, or no request was made). -/
def step (e : Render) (store : Bool) (r : Run) : Event → Run × Option Nat
  | .taken => (if r.phase = .queued then { r with phase := .inflight } else r, none)
  | .timeout full =>
      (if r.phase = .inflight then requeue e full false r else r, none)
  | .upload a u full =>
      if r.phase = .inflight ∧ a = r.attempt then
        match processRun store r u with
        | (r', .panicked) => (r', none)
        | (r', .status c retry) =>
            if retry then (requeue e full (c = 200) r', some c)
            else (close e r', some c)
      else (r, some 404)

/-- A history: the events in order, with the responses given. -/
def run (e : Render) (store : Bool) : Run → List Event → Run × List (Event × Option Nat)
  | r, [] => (r, [])
  | r, ev :: evs =>
      let (r', s) := step e store r ev
      let (r'', l) := run e store r' evs
      (r'', (ev, s) :: l)

end Quark.Upload
