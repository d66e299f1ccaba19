import Verif.Lifecycle.Model

/-!
# What operators see

The metrics computed from the queue's events (/repo/cmd/omegaup-grader/main.go:129-161) and the answer to
`/grader/status/` (/repo/cmd/omegaup-grader/frontend_handler.go:511-540), over the executions of area Lifecycle.

Simplifications: the values observed (delays) and the names of runners are left out; there is one queue, as in the
grader, which only ever has the default one.
-/

namespace Quark.Status

/-- grader/queue.go:30-66. -/
inductive EventType where
  | managerAdded | managerRemoved | queueAdded | queueRemoved | retried | abandoned
  deriving DecidableEq, Repr

/-- grader/queue.go:29-47: the priorities, in the order of the code. -/
inductive Priority where
  | high | normal | low | ephemeral
  deriving DecidableEq, Repr

/-- grader/queue.go:862-867 without the delay. -/
structure QueueEvent where
  type : EventType
  priority : Priority
  deriving DecidableEq, Repr

/-- /repo/cmd/omegaup-grader/metrics.go:15-82: the keys of the map of gauges. -/
def gaugeNames : List String :=
  ["cpu_load1", "cpu_load5", "cpu_load15", "mem_total", "mem_used", "disk_total", "disk_used",
   "grader_queue_total_length", "grader_queue_ephemeral_length", "grader_queue_low_length",
   "grader_queue_normal_length", "grader_queue_high_length"]

/-- cmd/omegaup-grader/metrics.go:84-121: the keys of the map of counters. -/
def counterNames : List String :=
  ["grader_ephemeral_runs_total", "grader_ci_jobs_total", "grader_runs_total", "grader_runs_retry",
   "grader_runs_abandoned", "grader_runs_je"]

/-- cmd/omegaup-grader/metrics.go:123-159: the keys of the map of summaries. -/
def summaryNames : List String :=
  ["grader_queue_delay_seconds", "grader_queue_ephemeral_delay_seconds", "grader_queue_low_delay_seconds",
   "grader_queue_normal_delay_seconds", "grader_queue_high_delay_seconds"]

/-- The registered metrics: the values of gauges and counters, and how often each summary was given a value. The
readings of the operating system (cmd/omegaup-grader/metrics.go:211-225) are left out: those gauges are 0 here. -/
structure Metrics where
  gauge : String → Int := fun _ => 0
  counter : String → Int := fun _ => 0
  observed : String → Nat := fun _ => 0

/-- cmd/omegaup-grader/metrics.go:165-169: `GaugeAdd`; a name that is not that of a gauge is ignored. -/
def Metrics.gaugeAdd (m : Metrics) (name : String) (v : Int) : Metrics :=
  if name ∈ gaugeNames then { m with gauge := fun n => if n = name then m.gauge n + v else m.gauge n } else m

/-- cmd/omegaup-grader/metrics.go:171-175: `CounterAdd`. -/
def Metrics.counterAdd (m : Metrics) (name : String) (v : Int) : Metrics :=
  if name ∈ counterNames then { m with counter := fun n => if n = name then m.counter n + v else m.counter n } else m

/-- cmd/omegaup-grader/metrics.go:177-181: `SummaryObserve`. -/
def Metrics.observe (m : Metrics) (name : String) : Metrics :=
  if name ∈ summaryNames then { m with observed := fun n => if n = name then m.observed n + 1 else m.observed n } else m

/-- cmd/omegaup-grader/main.go:138-160: one event. -/
def Metrics.process (m : Metrics) (e : QueueEvent) : Metrics :=
  match e.type with
  | .managerAdded => m.gaugeAdd "grader_queue_total_length" 1
  | .managerRemoved => (m.gaugeAdd "grader_queue_total_length" (-1)).observe "grader_queue_delay_seconds"
  | .queueAdded => m
  | .queueRemoved =>
    match e.priority with
    | .ephemeral => m.observe "grader_queue_ephemeral_delay_seconds"
    | .low => m.observe "grader_queue_low_delay_seconds"
    | .normal => m.observe "grader_queue_normal_delay_seconds"
    | .high => m.observe "grader_queue_high_delay_seconds"
  | .retried => m.gaugeAdd "grader_runs_retry" 1
  | .abandoned => m.gaugeAdd "grader_runs_abandoned" 1

/-- cmd/omegaup-grader/main.go:129-161: the metrics after these events were received. -/
def metrics (es : List QueueEvent) : Metrics := es.foldl Metrics.process {}

/-- What the grader reports to its metrics, in the order in which it does. -/
inductive Report where
  /-- an event of the queue is received (cmd/omegaup-grader/main.go:129-161) -/
  | event (e : QueueEvent)
  /-- a finished run of the default queue is taken by the post-processor (cmd/omegaup-grader/frontend_handler.go:217-220) -/
  | finished (verdict : String)
  /-- the source of a run to be graded was read (cmd/omegaup-grader/frontend_handler.go:374-386) -/
  | injected
  /-- a request for an ephemeral run arrives (cmd/omegaup-grader/ephemeral.go:92) -/
  | ephemeral
  /-- a test of a CI job is started (cmd/omegaup-grader/ci.go:610) -/
  | ciTest
  /-- a CI job starts (cmd/omegaup-grader/ci.go:799) -/
  | ciJob

/-- The calls at those places. -/
def Metrics.report (m : Metrics) : Report → Metrics
  | .event e => m.process e
  | .finished verdict => if verdict = "JE" then m.counterAdd "grader_runs_je" 1 else m
  | .injected => m.counterAdd "grader_runs_total" 1
  | .ephemeral => m.counterAdd "grader_ephemeral_runs_total" 1
  | .ciTest => m.counterAdd "grader_ephemeral_runs_total" 1
  | .ciJob => m.counterAdd "grader_ci_jobs_total" 1

def reported (l : List Report) : Metrics := l.foldl Metrics.report {}

open Lifecycle (State)

/-- grader/queue.go:762-784: `GetRunData`, the attempt and the run of each entry; `order` is the order in which Go iterates over
the map. -/
def runData (s : State) (order : List Nat) : List (Nat × Nat) :=
  order.filterMap fun a =>
    (s.mapping a).bind fun i => (s.inflights[i]?).map fun f => (a, f.run)

/-- What an iteration over a map is: every key once. -/
def Iterates (s : State) (order : List Nat) : Prop :=
  order.Nodup ∧ ∀ a, a ∈ order ↔ (s.mapping a).isSome = true

/-- grader/queue.go:932-949 and cmd/omegaup-grader/frontend_handler.go:527-531: the number of queued runs. -/
def queueLength (s : State) : Nat := s.queue.length

/-- cmd/omegaup-grader/frontend_handler.go:511-540: the runs listed as running and `RunQueueLength`. The two are read one after another:
`s1` is the state when `GetRunData` has the monitor's lock, `s2` the one when the queues are looked at. -/
def status (s1 s2 : State) (order : List Nat) : List Nat × Nat :=
  ((runData s1 order).map (·.2), queueLength s2)

end Quark.Status
