import Verif.Literal.Model

/-!
# The answer to an ephemeral run request

`POST /ephemeral/run/new/`: the handler (/repo/cmd/omegaup-grader/ephemeral.go:87-260), one shared access per step, beside
the runner that grades the run and the grader's code that finishes it. The queue may be full for a while, the client may
hang up at any time, and anything that touches the disk may fail.
-/

namespace Quark.Conversation

abbrev Bytes := List UInt8

/-- `EphemeralRunRequest` (/repo/grader/queue.go:69-73); `none`: no `input`, or null. -/
structure Body where
  source : String
  language : String
  input : Option Literal.Input

/-- What the handler looks at (cmd/omegaup-grader/ephemeral.go:233-252). `body = none`: not JSON of the right shape. -/
structure Request where
  method : String
  contentType : String
  body : Option Body

/-- A part of the multipart answer. -/
inductive Part where
  /-- `WriteField("status", …)`. -/
  | status (text : String)
  /-- `CreateFormFile(name, name)` and what was copied into it (cmd/omegaup-grader/ephemeral.go:204-217). -/
  | file (name : String) (contents : Bytes)
  /-- The `details.json` made up for a problem that is not accepted (cmd/omegaup-grader/ephemeral.go:108-127): `NewRunResult` and the text of
  the error as compile error. -/
  | refused (verdict : String) (score maxScore : ℚ) (why : Literal.Err)
  deriving DecidableEq

/-- The head of the answer. -/
inductive Head where
  /-- A status and no body. -/
  | plain (code : Nat)
  /-- 200 and a multipart body; `token` is the header `X-OmegaUp-EphemeralToken`. -/
  | parts (token : Option String)
  /-- The handler panics on a nil pointer: the server closes the connection without an answer. -/
  | dropped
  deriving DecidableEq

/-- Where the handler is. -/
inductive Pc where
  | start
  /-- Before `InputManager.Add` (cmd/omegaup-grader/ephemeral.go:129). -/
  | input
  /-- Before `SetEphemeral` (cmd/omegaup-grader/ephemeral.go:142). -/
  | naming
  /-- Before the head of the answer is written (cmd/omegaup-grader/ephemeral.go:164-177). -/
  | greet (token : String)
  /-- Before the run is put into the queue (cmd/omegaup-grader/ephemeral.go:179). -/
  | enqueue
  /-- Before "queueing" is said (cmd/omegaup-grader/ephemeral.go:182-187). -/
  | tell
  /-- In the `select` (cmd/omegaup-grader/ephemeral.go:189-198). -/
  | choose
  /-- In the second wait (cmd/omegaup-grader/ephemeral.go:199). -/
  | wait
  /-- In the loop over the files (cmd/omegaup-grader/ephemeral.go:203-218). -/
  | send (rest : List String)
  /-- Before `saveEphemeralRunRequest` (cmd/omegaup-grader/ephemeral.go:221). -/
  | save
  /-- Before `Commit` (cmd/omegaup-grader/ephemeral.go:224). -/
  | commit
  | done
  deriving DecidableEq

structure State where
  pc : Pc := .start
  head : Option Head := none
  /-- The parts the handler has written. -/
  sent : List Part := []
  /-- The parts that reached the client. -/
  heard : List Part := []
  /-- `multipartWriter.Close` has been called. -/
  ended : Bool := false
  online : Bool := true
  /-- The run has been put into the queue. -/
  queued : Bool := false
  /-- `Running()` is closed: a runner has been given the run (/repo/grader/queue.go:648-650). -/
  picked : Bool := false
  /-- `Close` has been called on the run. -/
  closed : Bool := false
  /-- `Ready()` is closed. -/
  ready : Bool := false
  /-- The files in the directory of the run; `none`: there is no such directory. -/
  dir : Option (List (String × Bytes)) := none
  /-- The directory is in the manager's cache. -/
  kept : Bool := false
  deriving DecidableEq

/-- What a step depends on besides the state. -/
inductive Choice where
  /-- Success; in the `select`, the branch of `Running()`. -/
  | ok
  /-- In the `select`, the branch of `Ready()`. -/
  | over
  | fail
  /-- `os.Mkdir` has made a directory of this name (/repo/grader/queue.go:173-206). -/
  | name (token : String)
  /-- Reading the file fails after so many bytes. -/
  | cut (n : Nat)
  /-- Failure, and the directory cannot be removed either (cmd/omegaup-grader/ephemeral.go:149-156). -/
  | failStay
  deriving DecidableEq

inductive Act where
  | handler (c : Choice)
  /-- A runner is given the run (/repo/grader/queue.go:526-548, 639-651). -/
  | pickUp
  /-- A runner's upload begins: the directory is emptied, or made anew (/repo/cmd/omegaup-grader/runner_handler.go:29-37). An
  upload of an attempt that is already over may still be under way. -/
  | clear
  /-- A runner's upload leaves a file in this state (/repo/cmd/omegaup-grader/runner_handler.go:101-127). Uploads under the
  three other names are not written to the directory (lines 63-100). Names with path separators are left out. -/
  | upload (name : String) (contents : Bytes)
  /-- `RunContext.Close` (/repo/grader/queue.go:371-460) writes `details.json`, `logs.txt.gz` and `tracing.json.gz`, of which
  it manages the first `good`; `ready` is closed only if it manages all of them. -/
  | close (good : Nat) (details logs tracing : Bytes)
  | hangUp
  deriving DecidableEq

/-- `os.Create` and the writes. -/
def put (d : List (String × Bytes)) (name : String) (contents : Bytes) : List (String × Bytes) :=
  (name, contents) :: d.filter (fun e => e.1 ≠ name)

def look (d : List (String × Bytes)) (name : String) : Option Bytes := (d.find? (fun e => e.1 == name)).map Prod.snd

/-- The handler writes a part. What is written after the client has hung up is lost: the errors are ignored or logged. -/
def say (s : State) (p : Part) : State :=
  { s with sent := s.sent ++ [p], heard := if s.online then s.heard ++ [p] else s.heard }

/-- The sum of the weights of the cases (cmd/omegaup-grader/ephemeral.go:99-102), in some order; `none`: a nil pointer. -/
def maxScore : List (Literal.Str × Option Literal.Case) → Option ℚ
  | [] => some 0
  | (_, none) :: _ => none
  | (_, some c) :: rest =>
    match c.weight with
    | none => none
    | some w => (maxScore rest).map (w + ·)

/-- Lines 233-256 of `ServeHTTP` and 93-126 of `addAndWaitForRun`, up to the creation of the input factory. The default
queue always exists (/repo/cmd/omegaup-grader/main.go makes it at the start), so its absence (lines 243-248) is left out;
so are the caps of `validateRequest` (lines 65-85, see C55), which do not matter for whether the problem is accepted. -/
def front {ι : Type} (R : Literal.Runtime) (T : Literal.Tools ι) (r : Request) (s : State) : State :=
  if r.method ≠ "POST" then { s with pc := .done, head := some (.plain 405) }
  else if r.contentType ≠ "application/json" then { s with pc := .done, head := some (.plain 400) }
  else match r.body with
  | none => { s with pc := .done, head := some (.plain 400) }
  | some b =>
    match b.input with
    | none => { s with pc := .done, head := some .dropped }
    | some i =>
      match maxScore i.cases with
      | none => { s with pc := .done, head := some .dropped }
      | some m =>
        match Literal.newLiteralInput R T i with
        | .panic => { s with pc := .done, head := some .dropped }
        | .err e =>
          { say { s with head := some (.parts none) } (.refused "CE" 0 m e) with pc := .done, ended := true }
        | .ok _ => { s with pc := .input }

/-- The files that are sent (cmd/omegaup-grader/ephemeral.go:202). -/
def filenames : List String := ["logs.txt.gz", "files.zip", "details.json"]

/-- A step of the handler; `none` when it has to wait, or when the choice makes no sense. -/
def handle {ι : Type} (R : Literal.Runtime) (T : Literal.Tools ι) (r : Request) (s : State) (c : Choice) : Option State :=
  match s.pc with
  | .start => some (front R T r s)
  | .input =>
    match c with
    | .ok => some { s with pc := .naming }
    | .fail => some { s with pc := .done, head := some (.plain 400) }
    | _ => none
  | .naming =>
    match c with
    | .name t => some { s with pc := .greet t, dir := some [] }
    | .fail => some { s with pc := .done, head := some (.plain 500) }
    | _ => none
  | .greet t => some (say { s with pc := .enqueue, head := some (.parts (some t)) } (.status "waiting"))
  | .enqueue => some { s with pc := .tell, queued := true }
  | .tell => some (say { s with pc := .choose } (.status "queueing"))
  | .choose =>
    match c with
    | .ok => if s.picked then some (say { s with pc := .wait } (.status "running")) else none
    | .over => if s.ready then some { s with pc := .wait } else none
    | _ => none
  | .wait => if s.ready then some { s with pc := .send filenames } else none
  | .send [] => some { s with pc := .save }
  | .send (f :: rest) =>
    match s.dir.bind (look · f) with
    | none => some { s with pc := .send rest }
    | some b =>
      match c with
      | .ok => some (say { s with pc := .send rest } (.file f b))
      | .cut n => some (say { s with pc := .send rest } (.file f (b.take n)))
      | .fail => some { s with pc := .send rest }
      | _ => none
  | .save =>
    match c with
    -- what is in the file is left out
    | .ok => some { s with pc := .commit, dir := s.dir.map (put · "request.json.gz" []) }
    | .fail => some { s with pc := .done, ended := true, dir := none }
    | .failStay => some { s with pc := .done, ended := true }
    | _ => none
  | .commit =>
    match c with
    | .ok => some { s with pc := .done, ended := true, kept := true }
    | .fail => some { s with pc := .done, ended := true }
    | _ => none
  | .done => none

/-- One step; `none` when it cannot happen. -/
def step {ι : Type} (R : Literal.Runtime) (T : Literal.Tools ι) (r : Request) (s : State) : Act → Option State
  | .handler c => handle R T r s c
  | .pickUp => if s.queued then some { s with picked := true } else none
  | .clear => if s.picked then some { s with dir := some [] } else none
  | .upload n b =>
    if s.picked ∧ n ∉ ["details.json", "logs.txt", "tracing.json"] then
      some { s with dir := s.dir.map (put · n b) }
    else none
  | .close good details logs tracing =>
    if s.picked ∧ ¬ s.closed then
      let d := s.dir.getD []
      let d := if 0 < good then put d "details.json" details else d
      let d := if 1 < good then put d "logs.txt.gz" logs else d
      let d := if 2 < good then put d "tracing.json.gz" tracing else d
      some { s with dir := some d, closed := true, ready := decide (2 < good) }
    else none
  | .hangUp => some { s with online := false }

/-- The state after a list of steps. -/
def run {ι : Type} (R : Literal.Runtime) (T : Literal.Tools ι) (r : Request) : State → List Act → Option State
  | s, [] => some s
  | s, a :: as => (step R T r s a).bind (run R T r · as)

/-- The state after a list of steps from the arrival of the request. -/
def from0 {ι : Type} (R : Literal.Runtime) (T : Literal.Tools ι) (r : Request) (acts : List Act) : Option State :=
  run R T r {} acts

end Quark.Conversation
