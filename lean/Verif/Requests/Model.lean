import Verif.Literal.Model

/-!
# How runs enter the queue

The frontend handlers `/run/new/` (/repo/cmd/omegaup-grader/frontend_handler.go:539-612) and `/run/grade/`
(/repo/cmd/omegaup-grader/frontend_handler.go:614-650), the pending runs at start-up
(/repo/cmd/omegaup-grader/frontend_handler.go:447-470), the ephemeral handler
(/repo/cmd/omegaup-grader/ephemeral.go:65-180) and the CI handler (/repo/cmd/omegaup-grader/ci.go:603-658), all running
concurrently. One step is one access to the submissions directory, one `AddRun`, or one access to the variable `err` that
all `/run/grade/` handlers share.

Not modelled: the SQL query and the git lookup (what they return is part of the call), request parsing before them, the
input manager (whether `Add` succeeds is a choice of the environment), and what the queue does with the run (see
`Quark.Queue`).
-/

namespace Quark.Requests

abbrev Str := List Char
abbrev Guid := Nat

/-- `QueuePriority` (/repo/grader/queue.go:27-41). -/
inductive Priority where
  | high | normal | low | ephemeral
  deriving DecidableEq, Repr

/-- The values of the constants (/repo/grader/queue.go:33-41): the index of the channel the run goes to. -/
def Priority.index : Priority → Nat
  | .high => 0
  | .normal => 1
  | .low => 2
  | .ephemeral => 3

/-- The parts of `RunContext` (/repo/grader/queue.go:290-320) that matter here. -/
structure RunCtx where
  id : Nat
  guid : Guid
  priority : Priority
  source : Str
  deriving DecidableEq

/-- What the database and the problem's repository say about a run: `none` if any of the lookups fails, otherwise the
submission's identifier and whether the problem is slow. -/
abbrev Lookup := Option (Guid × Bool)

/-- `newRunContextFromID` (/repo/cmd/omegaup-grader/frontend_handler.go:288-346) ending in `newRunContext`
(/repo/cmd/omegaup-grader/frontend_handler.go:264-286). -/
def newRunContext (id : Nat) : Lookup → Option RunCtx
  | none => none
  | some (guid, slow) => some { id := id, guid := guid, source := [], priority := if slow then .low else .normal }

/-- A request, with what the outside world answers to its lookups. -/
inductive Call where
  /-- POST `/run/new/<id>/` with this body -/
  | new (id : Nat) (lookup : Lookup) (body : Str)
  /-- POST `/run/grade/` -/
  | grade (rejudge debug : Bool) (ids : List (Nat × Lookup))
  /-- one iteration of the loop over the pending runs at start-up -/
  | pending (id : Nat) (lookup : Lookup)
  /-- an ephemeral request that got as far as `AddRun` -/
  | ephemeral (source : Str)
  /-- a CI test that got as far as `AddRun` -/
  | ci (source : Str)
  deriving DecidableEq

/-- The loop over the requested runs (/repo/cmd/omegaup-grader/frontend_handler.go:630-643): stops at the first
error. -/
def contexts : List (Nat × Lookup) → Option (List RunCtx)
  | [] => some []
  | (id, l) :: rest =>
    match newRunContext id l with
    | none => none
    | some r => (contexts rest).map (r :: ·)

/-- What a handler is about to do. -/
inductive Thread where
  /-- cmd/omegaup-grader/frontend_handler.go:590: create the submission's file, `O_EXCL` -/
  | opening (run : RunCtx) (body : Str)
  /-- cmd/omegaup-grader/frontend_handler.go:603: `io.Copy`, with what is left of the body -/
  | copying (run : RunCtx) (rest : Str)
  /-- cmd/omegaup-grader/frontend_handler.go:373-401: `injectRuns`, about to look at the first of these -/
  | injecting (priority : Priority) (runs : List RunCtx)
  /-- cmd/omegaup-grader/frontend_handler.go:402 (or cmd/omegaup-grader/ephemeral.go:179, cmd/omegaup-grader/ci.go:658): about to `AddRun` the first of these -/
  | adding (priority : Priority) (run : RunCtx) (rest : List RunCtx)
  /-- cmd/omegaup-grader/frontend_handler.go:644, `/run/grade/` only: the result of `injectRuns` (`ok`: it was `nil`) has been assigned to
  the `err` declared at :436, and `err != nil` is about to be evaluated. `ok` itself is not kept by the code. -/
  | checking (ok : Bool)
  /-- the handler has answered -/
  | replied (status : Nat)
  deriving DecidableEq

/-- Up to the first access to the submissions directory. -/
def Call.start : Call → Thread
  | .new id l body =>
    match newRunContext id l with
    | none => .replied 500
    | some r => .opening r body
  | .grade rejudge debug ids =>
    -- cmd/omegaup-grader/frontend_handler.go:626-629
    let priority := if rejudge || debug then Priority.low else Priority.normal
    match contexts ids with
    | none => .replied 500
    | some rs => .injecting priority rs
  | .pending id l =>
    match newRunContext id l with
    | none => .replied 500
    | some r => .injecting .normal [r]
  -- cmd/omegaup-grader/ephemeral.go:136-141
  | .ephemeral source => .adding .ephemeral { id := 0, guid := 0, priority := .ephemeral, source := source } []
  -- cmd/omegaup-grader/ci.go:631-636
  | .ci source => .adding .ephemeral { id := 0, guid := 0, priority := .ephemeral, source := source } []

/-- What the environment decides about a step. -/
inductive Choice where
  /-- nothing goes wrong; when copying, the whole rest arrives -/
  | go
  /-- when copying: this many more characters arrive, and more is to come -/
  | part (n : Nat)
  /-- an error: the file cannot be created; the body ends early; the source cannot be read; the input is not there -/
  | fail
  deriving DecidableEq

structure State where
  /-- the submissions directory -/
  files : Guid → Option Str := fun _ => none
  calls : List Call := []
  threads : List Thread := []
  /-- the runs given to `AddRun`, in order, with the call that did it -/
  added : List (Nat × RunCtx) := []
  /-- `err != nil` for the variable of `registerFrontendHandlers` (/repo/cmd/omegaup-grader/frontend_handler.go:436),
  captured by the `/run/grade/` handler and so shared by all its requests. It is `nil` when the handlers are registered
  (:440-443). -/
  err : Bool := false

/-- `f[g] = v` -/
def setFile (f : Guid → Option Str) (g : Guid) (v : Option Str) : Guid → Option Str :=
  fun g' => if g' = g then v else f g'

/-- `injectRuns` has returned in handler `t`. `/run/new/` (cmd/omegaup-grader/frontend_handler.go:605) and the pending runs (:461) use an
`err` of their own; `/run/grade/` (:644) assigns the shared one. The ephemeral and CI handlers have no such call: the
status 200 stands for their going on. -/
def finish (s : State) (t : Nat) (ok : Bool) : State :=
  match s.calls[t]? with
  | some (.grade _ _ _) => { s with err := !ok, threads := s.threads.set t (.checking ok) }
  | _ => { s with threads := s.threads.set t (.replied (if ok then 200 else 500)) }

/-- One operation of handler `t`. -/
def threadStep (s : State) (t : Nat) (c : Choice) : Thread → State
  | .opening run body =>
    match c with
    | .fail => { s with threads := s.threads.set t (.replied 500) }
    | _ =>
      match s.files run.guid with
      | some _ => { s with threads := s.threads.set t (.replied 409) }
      | none => { s with files := setFile s.files run.guid (some []), threads := s.threads.set t (.copying run body) }
  | .copying run rest =>
    let old := (s.files run.guid).getD []
    match c with
    -- the error of `io.Copy` is ignored
    | .fail => { s with threads := s.threads.set t (.injecting .normal [run]) }
    | .part n =>
      { s with files := setFile s.files run.guid (some (old ++ rest.take n)),
               threads := s.threads.set t (.copying run (rest.drop n)) }
    | .go =>
      { s with files := setFile s.files run.guid (some (old ++ rest)),
               threads := s.threads.set t (.injecting .normal [run]) }
  | .injecting _ [] => finish s t true
  | .injecting priority (run :: rest) =>
    match c with
    | .fail => finish s t false
    | _ =>
      -- `readSource`, cmd/omegaup-grader/frontend_handler.go:348-365
      match s.files run.guid with
      | none => finish s t false
      | some source =>
        let run' := { run with source := source, priority := if run.priority = .normal then priority else run.priority }
        { s with threads := s.threads.set t (.adding priority run' rest) }
  | .adding priority run rest =>
    { s with threads := s.threads.set t (.injecting priority rest), added := s.added ++ [(t, run)] }
  | .checking _ => { s with threads := s.threads.set t (.replied (if s.err then 500 else 200)) }
  | .replied _ => s

inductive Act where
  | call (c : Call)
  | step (t : Nat) (c : Choice)
  deriving DecidableEq

def step (s : State) : Act → State
  | .call c => { s with calls := s.calls ++ [c], threads := s.threads ++ [c.start] }
  | .step t c =>
    match s.threads[t]? with
    | none => s
    | some th => threadStep s t c th

/-- The state after a history, starting with these submissions on disk. -/
def run (files : Guid → Option Str) (acts : List Act) : State := acts.foldl step { files := files }

/-! ## The caps of ephemeral runs -/

open Quark.Literal (Limits)

/-- The limits in `GraderEphemeralConfig` (/repo/common/context.go:45-55). -/
structure Caps where
  caseTimeLimit : Int
  overallWallTimeLimit : Int
  memoryLimit : Int
  deriving DecidableEq

/-- The default configuration (/repo/common/context.go:170-174). -/
def defaultCaps : Caps where
  caseTimeLimit := 10 * 1000000000
  overallWallTimeLimit := 10 * 1000000000
  memoryLimit := 1024 * 1024 * 1024

/-- `validateRequest` (/repo/cmd/omegaup-grader/ephemeral.go:65-85). It never fails; a request without `input` would
crash and is left out. -/
def validateRequest (caps : Caps) (input : Literal.Input) : Literal.Input :=
  match input.limits with
  | none => input
  | some l =>
    { input with limits := some { l with
        timeLimit := min caps.caseTimeLimit l.timeLimit
        overallWallTimeLimit := min caps.overallWallTimeLimit l.overallWallTimeLimit
        memoryLimit := min caps.memoryLimit l.memoryLimit } }

/-- The first part of `addAndWaitForRun` (/repo/cmd/omegaup-grader/ephemeral.go:94-110). -/
def ephemeralInput {ι : Type} (R : Literal.Runtime) (T : Literal.Tools ι) (caps : Caps) (input : Literal.Input) :
    Literal.Res (Literal.Output ι) :=
  Literal.newLiteralInput R T (validateRequest caps input)

/-- The first part of `addRun` (/repo/cmd/omegaup-grader/ci.go:603-626). -/
def ciInput {ι : Type} (R : Literal.Runtime) (T : Literal.Tools ι) (_caps : Caps) (input : Literal.Input) :
    Literal.Res (Literal.Output ι) :=
  Literal.newLiteralInput R T input

end Quark.Requests
