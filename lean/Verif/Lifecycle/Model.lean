import Mathlib.Logic.Function.Basic

/-!
# The life of a run in the grader

Model of `RunContext` (/repo/grader/queue.go:289-505), of the in-flight monitor (grader/queue.go:596-759) and of
the upload handler (/repo/cmd/omegaup-grader/runner_handler.go:173-224), as goroutines over shared
memory. One step is one access to a shared variable, one critical section of the monitor or one
externally visible effect, so the executions are all interleavings of those. In particular
`run.tries--` is a read and a write, and `if run.monitor != nil { run.monitor.Remove(..) }` reads
`run.monitor` twice: nothing protects these fields.

Simplifications. Runs are numbered in the order of submission. The queue is a list from which
any element may be taken and which may refuse a run at any time: the order and the capacity are the
subject of Verif/Queue. Timers may fire at any time. Attempt identifiers do not wrap around
(common/run.go:89-91; the initial value is irrelevant). Of `Close` only the effects named in
`Event` are kept, and writing the files succeeds or fails. The body of an upload is not modelled: it may
end in any of the ways `processRun` (cmd/omegaup-grader/runner_handler.go:22-147) can end, including a panic that
net/http recovers from (which the decoder of tracing events can cause).
-/

namespace Quark.Lifecycle

/-- grader/queue.go:290-320: the fields of a `RunContext` that change during its life. -/
structure Run where
  /-- grader/queue.go:309. -/
  tries : Int
  /-- `Run.AttemptID`, common/run.go. -/
  attempt : Nat
  /-- Whether `run.monitor` is non-nil (grader/queue.go:313). -/
  monitor : Bool := false
  /-- grader/queue.go:301. -/
  closed : Bool := false
  /-- grader/queue.go:304. -/
  running : Bool := false
  /-- Whether `run.inputRef` is non-nil (grader/queue.go:307). -/
  input : Bool := true
  deriving DecidableEq

/-- grader/queue.go:598-605: an `InflightRun`, with the tokens in its two channels of capacity one. `attempt`,
the key it was registered with, is not a field in Go. -/
structure Inflight where
  run : Nat
  attempt : Nat
  connected : Bool := false
  ready : Bool := false
  deriving DecidableEq

/-- Where a goroutine is in `Requeue` (grader/queue.go:471-495). -/
inductive Rq where
  /-- grader/queue.go:472: `if run.monitor != nil`. -/
  | check
  /-- grader/queue.go:473: reading `run.monitor` and `run.Run.AttemptID` for the call of `Remove`. -/
  | callRemove
  /-- grader/queue.go:736-759: the critical section of `Remove`. -/
  | remove (a : Nat)
  /-- grader/queue.go:475: the read of `run.tries--`. -/
  | readTries
  /-- grader/queue.go:475: the write of `run.tries--`. -/
  | writeTries (n : Int)
  /-- grader/queue.go:476: `if run.tries <= 0`. -/
  | test
  /-- grader/queue.go:480-485: `if lastAttempt { run.tries = 1 }`. -/
  | setLast
  /-- grader/queue.go:486 with common/run.go:89-91: drawing a new identifier. -/
  | newId
  /-- grader/queue.go:486 with common/run.go:95: storing it. -/
  | setId (a : Nat)
  /-- grader/queue.go:489: `run.queue.enqueue(run, QueuePriorityHigh)`. -/
  | enqueue
  deriving DecidableEq

/-- Where a goroutine is in `Close` (grader/queue.go:371-460). -/
inductive Cl where
  /-- grader/queue.go:372: the swap of the flag. -/
  | swap
  /-- grader/queue.go:384: `if run.monitor != nil`. -/
  | check
  /-- grader/queue.go:385: `run.monitor.PostProcessor`. -/
  | getPost
  /-- grader/queue.go:386: reading `run.monitor` and `run.Run.AttemptID` for the call of `Remove`. -/
  | callRemove
  /-- grader/queue.go:736-759: the critical section of `Remove`. -/
  | remove (a : Nat)
  /-- grader/queue.go:388-391: releasing the input. `post` says whether a post-processor was found. -/
  | release (post : Bool)
  /-- grader/queue.go:392-454: writing the files. -/
  | persist (post : Bool)
  /-- grader/queue.go:456: `close(run.ready)`. -/
  | signal (post : Bool)
  /-- grader/queue.go:457-459: `postProcessor.PostProcess`. -/
  | post (post : Bool)
  /-- grader/queue.go:376-382: the deferred `ManagerRemoved` event. -/
  | event
  deriving DecidableEq

/-- What a goroutine is about to do. `w` tells whether it is a watchdog goroutine of the monitor (as
opposed to the goroutine of an HTTP request): a panic there ends the process. -/
inductive Thread where
  /-- grader/queue.go:570: `AddRun` about to send the run into the queue. -/
  | adding (r : Nat)
  /-- grader/queue.go:648-650: `GetRun` took the run and is about to swap its running flag. -/
  | getting (r : Nat)
  /-- grader/queue.go:651-663: the critical section of `InflightMonitor.Add`. -/
  | registering (r : Nat)
  /-- grader/queue.go:673-678: the watchdog of an in-flight run, waiting for the runner to connect. -/
  | watchConnect (i : Nat)
  /-- grader/queue.go:685-690: the watchdog, waiting for the results. -/
  | watchReady (i : Nat)
  /-- cmd/omegaup-grader/runner_handler.go:205-209: the upload handler of attempt `a`, reading the request. -/
  | handling (r a : Nat)
  | requeue (w : Bool) (r : Nat) (last : Bool) (pc : Rq)
  | close (w : Bool) (r : Nat) (pc : Cl)
  /-- Returned, or panicked in a goroutine of net/http. -/
  | done
  deriving DecidableEq

/-- What happened. -/
inductive Event where
  /-- `AddRun` was called: the `ManagerAdded` event (grader/queue.go:553-557). -/
  | submitted (r : Nat)
  /-- The run was put into the queue (by `AddRun` or `Requeue`). -/
  | queued (r : Nat)
  /-- A runner took the run from the queue. -/
  | taken (r : Nat)
  /-- The Running channel was closed (grader/queue.go:649). -/
  | running (r : Nat)
  /-- The run is now in flight as attempt `a`. -/
  | handed (r a : Nat)
  /-- `Get` found attempt `a` (cmd/omegaup-grader/runner_handler.go:205). -/
  | resolved (r a : Nat)
  /-- `Get` did not find it. -/
  | rejected (a : Nat)
  /-- The upload for attempt `a` ended in success (or an error that is not to be retried). -/
  | uploaded (r a : Nat)
  /-- The upload for attempt `a` ended with an error. -/
  | failed (r a : Nat)
  /-- The upload for attempt `a` ended with a JE verdict. -/
  | judgeError (r a : Nat)
  /-- The upload handler panicked. -/
  | aborted (r a : Nat)
  /-- The watchdog of attempt `a` timed out. -/
  | timedOut (r a : Nat)
  /-- Attempt `a` left the monitor. -/
  | dropped (a : Nat)
  /-- `Close` closed the run. -/
  | closed (r : Nat)
  /-- `Close` found it closed. -/
  | alreadyClosed (r : Nat)
  /-- The input was released. -/
  | released (r : Nat)
  /-- The files could not be written. -/
  | notPersisted (r : Nat)
  /-- The Ready channel was closed. -/
  | ready (r : Nat)
  /-- The run was handed to the post-processor. -/
  | posted (r : Nat)
  /-- The `ManagerRemoved` event. -/
  | removed (r : Nat)
  /-- Nil dereference in a goroutine of net/http. -/
  | panicked (r : Nat)
  /-- Nil dereference in a watchdog: the grader is gone. -/
  | crashed (r : Nat)
  /-- Nothing visible. -/
  | tau
  deriving DecidableEq

structure State where
  runs : List Run := []
  queue : List Nat := []
  /-- grader/queue.go:612: attempt identifier to index in `inflights`. -/
  mapping : Nat → Option Nat := fun _ => none
  inflights : List Inflight := []
  /-- common/run.go:15: the last attempt identifier drawn. -/
  lastId : Nat := 0
  threads : List Thread := []
  crashed : Bool := false

def State.goto (s : State) (t : Nat) (x : Thread) : State :=
  { s with threads := s.threads.set t x }

/-- Update a run's fields. -/
def State.modRun (s : State) (r : Nat) (f : Run → Run) : State :=
  { s with runs := s.runs.modify r f }

/-- grader/queue.go:736-759: the critical section of `Remove`. -/
def State.removeAttempt (s : State) (a : Nat) : State :=
  match s.mapping a with
  | none => s
  | some i =>
    match s.inflights[i]? with
    | none => s
    | some f =>
      { s with
        mapping := Function.update s.mapping a none
        runs := s.runs.modify f.run fun r => { r with monitor := false }
        inflights := s.inflights.set i { f with connected := true, ready := true } }

/-- What the scheduler, the clock, the network and the disk may choose. -/
inductive Act where
  /-- A front-end handler creates a run (grader/queue.go:340-356) and calls `AddRun`. -/
  | submit
  /-- `GetRun` receives the `k`-th queued run. -/
  | take (k : Nat)
  /-- A runner uploads results for attempt `a` (cmd/omegaup-grader/runner_handler.go:197-207). -/
  | upload (a : Nat)
  /-- Goroutine `t` performs its next operation. -/
  | step (t : Nat)
  /-- Goroutine `t`'s next operation takes the bad turn: the watchdog's timer fires, the queue refuses
  the run, the files cannot be written, the upload handler panics. -/
  | fail (t : Nat)
  /-- The upload ends with an error to be retried (status not 200, cmd/omegaup-grader/runner_handler.go:216-222). -/
  | retry (t : Nat)
  /-- The upload ends with a JE verdict (status 200, cmd/omegaup-grader/runner_handler.go:216-222). -/
  | judgeError (t : Nat)
  deriving DecidableEq

/-- A nil dereference in `Requeue`. -/
def nilPanic (s : State) (t r : Nat) (w : Bool) : State × Event :=
  if w then ({ s with crashed := true }.goto t .done, .crashed r)
  else (s.goto t .done, .panicked r)

/-- grader/queue.go:471-495: the next operation of `Requeue`. -/
def stepRequeue (s : State) (t : Nat) (w : Bool) (r : Nat) (last : Bool) (run : Run) :
    Rq → State × Event
  | .check => (s.goto t (.requeue w r last (if run.monitor then .callRemove else .readTries)), .tau)
  | .callRemove =>
    if run.monitor then (s.goto t (.requeue w r last (.remove run.attempt)), .tau)
    else nilPanic s t r w
  | .remove a => ((s.removeAttempt a).goto t (.requeue w r last .readTries), .dropped a)
  | .readTries => (s.goto t (.requeue w r last (.writeTries run.tries)), .tau)
  | .writeTries n =>
    ((s.modRun r fun x => { x with tries := n - 1 }).goto t (.requeue w r last .test), .tau)
  | .test =>
    (s.goto t (if run.tries ≤ 0 then .close w r .swap else .requeue w r last .setLast), .tau)
  | .setLast =>
    ((if last then s.modRun r fun x => { x with tries := 1 } else s).goto t
      (.requeue w r last .newId), .tau)
  | .newId =>
    ({ s with lastId := s.lastId + 1 }.goto t (.requeue w r last (.setId (s.lastId + 1))), .tau)
  | .setId a =>
    ((s.modRun r fun x => { x with attempt := a }).goto t (.requeue w r last .enqueue), .tau)
  | .enqueue => ({ s with queue := s.queue ++ [r] }.goto t .done, .queued r)

/-- grader/queue.go:371-460: the next operation of `Close`. After a nil dereference the deferred event is sent
(`removed`) together with the panic. -/
def stepClose (s : State) (t : Nat) (w : Bool) (r : Nat) (run : Run) : Cl → State × Event
  | .swap =>
    if run.closed then (s.goto t .done, .alreadyClosed r)
    else ((s.modRun r fun x => { x with closed := true }).goto t (.close w r .check), .closed r)
  | .check => (s.goto t (.close w r (if run.monitor then .getPost else .release false)), .tau)
  | .getPost =>
    if run.monitor then (s.goto t (.close w r .callRemove), .tau)
    else ({ s with crashed := s.crashed || w }.goto t .done, .removed r)
  | .callRemove =>
    if run.monitor then (s.goto t (.close w r (.remove run.attempt)), .tau)
    else ({ s with crashed := s.crashed || w }.goto t .done, .removed r)
  | .remove a => ((s.removeAttempt a).goto t (.close w r (.release true)), .dropped a)
  | .release post =>
    if run.input then
      ((s.modRun r fun x => { x with input := false }).goto t (.close w r (.persist post)), .released r)
    else (s.goto t (.close w r (.persist post)), .tau)
  | .persist post => (s.goto t (.close w r (.signal post)), .tau)
  | .signal post => (s.goto t (.close w r (.post post)), .ready r)
  | .post post =>
    if post then (s.goto t (.close w r .event), .posted r) else (s.goto t (.close w r .event), .tau)
  | .event => (s.goto t .done, .removed r)

/-- One step; `none` means it is not possible. `maxTries` is `MaxGradeRetries`. -/
def step (maxTries : Int) (s : State) (act : Act) : Option (State × Event) :=
  if s.crashed then none else
  match act with
  | .submit =>
    some ({ s with
        lastId := s.lastId + 1
        runs := s.runs ++ [{ tries := maxTries, attempt := s.lastId + 1 }]
        threads := s.threads ++ [.adding s.runs.length] }, .submitted s.runs.length)
  | .take k =>
    match s.queue[k]? with
    | none => none
    | some r => some ({ s with queue := s.queue.eraseIdx k, threads := s.threads ++ [.getting r] }, .taken r)
  | .upload a =>
    match s.mapping a with
    | none => some (s, .rejected a)
    | some i =>
      match s.inflights[i]? with
      | none => none
      | some f =>
        -- grader/queue.go:722-729
        some ({ s with
            inflights := s.inflights.set i { f with connected := true }
            threads := s.threads ++ [.handling f.run a] }, .resolved f.run a)
  | .step t =>
    match s.threads[t]? with
    | some (.adding r) => some ({ s with queue := s.queue ++ [r] }.goto t .done, .queued r)
    | some (.getting r) =>
      match s.runs[r]? with
      | none => none
      | some run =>
        if run.running then some (s.goto t (.registering r), .tau)
        else some ((s.modRun r fun x => { x with running := true }).goto t (.registering r), .running r)
    | some (.registering r) =>
      match s.runs[r]? with
      | none => none
      | some run =>
        some ({ s with
            inflights := s.inflights ++ [{ run := r, attempt := run.attempt }]
            runs := s.runs.modify r fun x => { x with monitor := true }
            mapping := Function.update s.mapping run.attempt (some s.inflights.length)
            threads := s.threads.set t Thread.done ++ [.watchConnect s.inflights.length] },
          .handed r run.attempt)
    | some (.watchConnect i) =>
      match s.inflights[i]? with
      | none => none
      | some f =>
        if f.connected then
          some ({ s with inflights := s.inflights.set i { f with connected := false } }.goto t
            (.watchReady i), .tau)
        else none
    | some (.watchReady i) =>
      match s.inflights[i]? with
      | none => none
      | some f => if f.ready then some (s.goto t .done, .tau) else none
    | some (.handling r a) => some (s.goto t (.close false r .swap), .uploaded r a)
    | some (.requeue w r last pc) => (s.runs[r]?).map fun run => stepRequeue s t w r last run pc
    | some (.close w r pc) => (s.runs[r]?).map fun run => stepClose s t w r run pc
    | some .done => none
    | none => none
  | .fail t =>
    match s.threads[t]? with
    | some (.watchConnect i) =>
      (s.inflights[i]?).map fun f => (s.goto t (.requeue true f.run false .check), .timedOut f.run f.attempt)
    | some (.watchReady i) =>
      (s.inflights[i]?).map fun f => (s.goto t (.requeue true f.run false .check), .timedOut f.run f.attempt)
    | some (.handling r a) => some (s.goto t .done, .aborted r a)
    | some (.requeue w r _ .enqueue) => some (s.goto t (.close w r .swap), .tau)
    | some (.close w r (.persist _)) => some (s.goto t (.close w r .event), .notPersisted r)
    | _ => none
  | .retry t =>
    match s.threads[t]? with
    | some (.handling r a) => some (s.goto t (.requeue false r false .check), .failed r a)
    | _ => none
  | .judgeError t =>
    match s.threads[t]? with
    | some (.handling r a) => some (s.goto t (.requeue false r true .check), .judgeError r a)
    | _ => none

/-- Executions: what happened, the schedule, and the state reached. -/
inductive Reach (maxTries : Int) : List Event → State → Prop
  | init : Reach maxTries [] {}
  | step {evs s a s' e} : Reach maxTries evs s → step maxTries s a = some (s', e) →
      Reach maxTries (evs ++ [e]) s'

end Quark.Lifecycle
