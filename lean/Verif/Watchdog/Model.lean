/-!
# The watchdog of an in-flight run

Model of the goroutine started by `InflightMonitor.Add` (/repo/grader/queue.go:663-691) with its two timers,
the two signal channels and the timeout channel, one channel operation per step.

`Requeue` is one event here (its inside is in Verif/Lifecycle); that it may crash the process is
the subject of C66. Timers behave as documented for Go before 1.23 (go.mod says 1.13): a timer that expires
puts one value into its channel of capacity one, `Stop` reports whether the timer was still running and
leaves the channel alone. Durations are not modelled: a running timer may expire at any moment.
-/

namespace Quark.Watchdog

/-- A `time.Timer`: whether it is running, and whether its channel holds a value. -/
structure Timer where
  running : Bool := false
  value : Bool := false
  deriving DecidableEq

/-- Where the goroutine is. -/
inductive Pc where
  /-- grader/queue.go:666: `connectTimer := time.NewTimer(...)`. -/
  | startConnect
  /-- grader/queue.go:672-677: the first `select`. -/
  | waitConnect
  /-- grader/queue.go:679: `readyTimer := time.NewTimer(...)`. -/
  | startReady
  /-- grader/queue.go:685-690: the second `select`. -/
  | waitReady
  /-- grader/queue.go:700: `run.Requeue(false)` in `timeout`; `both` tells whether both timers were made. -/
  | requeue (both : Bool)
  /-- grader/queue.go:714: `timeout <- struct{}{}`. -/
  | notify (both : Bool)
  /-- grader/queue.go:681: `readyTimer.Stop()`. -/
  | stopReady
  /-- grader/queue.go:682: `<-readyTimer.C`. -/
  | drainReady
  /-- grader/queue.go:668: `connectTimer.Stop()`. -/
  | stopConnect
  /-- grader/queue.go:669: `<-connectTimer.C`. -/
  | drainConnect
  /-- grader/queue.go:664: `close(inflight.timeout)`. -/
  | close
  | done
  deriving DecidableEq

structure State where
  pc : Pc := .startConnect
  connectTimer : Timer := {}
  readyTimer : Timer := {}
  /-- Whether `inflight.connected` (capacity one, grader/queue.go:657) holds a value. -/
  connected : Bool := false
  /-- `inflight.ready`, grader/queue.go:658. -/
  ready : Bool := false
  /-- `inflight.timeout`, grader/queue.go:659. -/
  timeout : Bool := false
  deriving DecidableEq

inductive Event where
  /-- `Get` or `Remove` puts a value into `connected` (grader/queue.go:724-727, 747-751). -/
  | connectSignal
  /-- `Remove` puts a value into `ready` (grader/queue.go:752-756). -/
  | readySignal
  /-- The timers expire. -/
  | connectExpired
  | readyExpired
  /-- The first `select` received from `connected`, or from the timer. -/
  | sawConnected
  | sawConnectTimer
  /-- The second `select` received from `ready`, or from the timer. -/
  | sawReady
  | sawReadyTimer
  /-- `Requeue` was called. -/
  | requeued
  /-- The timeout was announced on the timeout channel. -/
  | notified
  /-- The timeout channel was closed: the goroutine ended. -/
  | closed
  | tau
  deriving DecidableEq

/-- What may happen next: the environment's moves, the two ways out of a `select`, and the goroutine's
other operations. -/
inductive Act where
  | signalConnect | signalReady | expireConnect | expireReady
  | takeSignal | takeTimer | go
  deriving DecidableEq

def step (s : State) : Act → Option (State × Event)
  | .signalConnect => if s.connected then none else some ({ s with connected := true }, .connectSignal)
  | .signalReady => if s.ready then none else some ({ s with ready := true }, .readySignal)
  | .expireConnect =>
    if s.connectTimer.running then
      some ({ s with connectTimer := { running := false, value := true } }, .connectExpired)
    else none
  | .expireReady =>
    if s.readyTimer.running then
      some ({ s with readyTimer := { running := false, value := true } }, .readyExpired)
    else none
  | .takeSignal =>
    match s.pc with
    | .waitConnect =>
      if s.connected then some ({ s with connected := false, pc := .startReady }, .sawConnected) else none
    | .waitReady =>
      if s.ready then some ({ s with ready := false, pc := .stopReady }, .sawReady) else none
    | _ => none
  | .takeTimer =>
    match s.pc with
    | .waitConnect =>
      if s.connectTimer.value then
        some ({ s with connectTimer := { s.connectTimer with value := false }, pc := .requeue false },
          .sawConnectTimer)
      else none
    | .waitReady =>
      if s.readyTimer.value then
        some ({ s with readyTimer := { s.readyTimer with value := false }, pc := .requeue true },
          .sawReadyTimer)
      else none
    | _ => none
  | .go =>
    match s.pc with
    | .startConnect => some ({ s with connectTimer := { running := true }, pc := .waitConnect }, .tau)
    | .startReady => some ({ s with readyTimer := { running := true }, pc := .waitReady }, .tau)
    | .requeue both => some ({ s with pc := .notify both }, .requeued)
    | .notify both =>
      -- a send on a full channel of capacity one blocks
      if s.timeout then none
      else some ({ s with timeout := true, pc := if both then .stopReady else .stopConnect }, .notified)
    | .stopReady =>
      some ({ s with
        pc := if s.readyTimer.running then .stopConnect else .drainReady
        readyTimer := { s.readyTimer with running := false } }, .tau)
    | .drainReady =>
      if s.readyTimer.value then
        some ({ s with readyTimer := { s.readyTimer with value := false }, pc := .stopConnect }, .tau)
      else none
    | .stopConnect =>
      some ({ s with
        pc := if s.connectTimer.running then .close else .drainConnect
        connectTimer := { s.connectTimer with running := false } }, .tau)
    | .drainConnect =>
      if s.connectTimer.value then
        some ({ s with connectTimer := { s.connectTimer with value := false }, pc := .close }, .tau)
      else none
    | .close => some ({ s with pc := .done }, .closed)
    | _ => none

inductive Reach : List Event → State → Prop
  | init : Reach [] {}
  | step {evs s a s' e} : Reach evs s → step s a = some (s', e) → Reach (evs ++ [e]) s'

end Quark.Watchdog
