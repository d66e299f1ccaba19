import Verif.Lifecycle.Model

/-!
# What the summaries of delays are told

The durations that the grader reports in its queue events (/repo/grader/queue.go:376-382 and 735-747) and passes on to
the summaries `grader_queue_delay_seconds` and `grader_queue_<priority>_delay_seconds`
(/repo/cmd/omegaup-grader/main.go:141-154): the life of runs of Verif/Lifecycle, with a clock.

Simplifications. Times are in nanoseconds since some fixed moment and the clock does not go backwards (Go's `time.Now`
carries a monotonic reading). Time passes only between operations, by any amount. Events are reported in the order in
which they are sent, and what becomes of them afterwards is the subject of Verif/Hub and Verif/Status. The priority of
a run is a parameter: it is set before `AddRun` and never changes (/repo/grader/queue.go:280, 349;
/repo/cmd/omegaup-grader/frontend_handler.go:280-282, 382-384; ephemeral.go:141; ci.go:636).
-/

namespace Quark.Delays

open Lifecycle (State Act Event)

/-- A `QueueRemoved` event (grader/queue.go:741-745): of which run and attempt, and the two times `Delta` is the
difference of. `since` is `none` if `QueueTime` has not been set yet: then it is the year 1, and `Sub` saturates at the
largest duration there is. -/
structure Wait where
  run : Nat
  attempt : Nat
  since : Option Nat
  at' : Nat
  deriving DecidableEq

/-- The largest `time.Duration`, what `Sub` yields for the year 1: 2^63 - 1 nanoseconds, 292 years. -/
def maxDuration : Nat := 9223372036854775807

/-- `Delta` (grader/queue.go:742). -/
def Wait.delta (w : Wait) : Nat :=
  match w.since with
  | some q => w.at' - q
  | none => maxDuration

structure Clocked where
  life : State := {}
  now : Nat := 0
  /-- `CreationTime` of each run (grader/queue.go:348). -/
  created : Nat → Nat := fun _ => 0
  /-- `QueueTime` of each run (grader/queue.go:572); `none` is the zero time. -/
  queueTime : Nat → Option Nat := fun _ => none
  /-- The runs whose `AddRun` is between line 571 and line 572 of grader/queue.go. -/
  stamping : List Nat := []
  /-- The `QueueRemoved` events, in order. -/
  waits : List Wait := []
  /-- The `ManagerRemoved` events: the run and `Delta` (grader/queue.go:376-382). -/
  totals : List (Nat × Nat) := []
  /-- Everything that happened, with the time. Not in the program. -/
  log : List (Nat × Event) := []

inductive TAct where
  /-- Time passes. -/
  | tick (d : Nat)
  /-- A run that was created `ago` nanoseconds ago (grader/queue.go:340-356) is passed to `AddRun`. -/
  | submit (ago : Nat)
  /-- One of the other operations of Verif/Lifecycle. -/
  | life (a : Act)
  /-- `run.QueueTime = time.Now()` (grader/queue.go:572). -/
  | stamp (r : Nat)
  deriving DecidableEq

/-- grader/queue.go:735-747: what the critical section of `Remove` reports. -/
def removed (s : Clocked) (a : Nat) : List Wait :=
  match s.life.mapping a with
  | none => []
  | some i =>
    match s.life.inflights[i]? with
    | none => []
    | some f => [{ run := f.run, attempt := a, since := s.queueTime f.run, at' := s.now }]

/-- The run that `AddRun` puts into the queue with this operation (grader/queue.go:570). -/
def placed (s : State) : Act → List Nat
  | .step t =>
    match s.threads[t]? with
    | some (.adding r) => [r]
    | _ => []
  | _ => []

/-- What an operation of Verif/Lifecycle reports. -/
def record (s : Clocked) (a : Act) (s' : State) (e : Event) : Clocked :=
  { s with
    life := s'
    stamping := s.stamping ++ placed s.life a
    waits := s.waits ++ (match e with | .dropped a => removed s a | _ => [])
    totals := s.totals ++ (match e with | .removed r => [(r, s.now - s.created r)] | _ => [])
    log := s.log ++ [(s.now, e)] }

def tstep (m : Int) (s : Clocked) : TAct → Option Clocked
  | .tick d => some { s with now := s.now + d }
  | .submit ago =>
    (Lifecycle.step m s.life .submit).map fun (s', e) =>
      { record s .submit s' e with created := Function.update s.created s.life.runs.length (s.now - ago) }
  | .life .submit => none
  | .life a => (Lifecycle.step m s.life a).map fun (s', e) => record s a s' e
  | .stamp r =>
    if r ∈ s.stamping then
      some { s with stamping := s.stamping.erase r, queueTime := Function.update s.queueTime r (some s.now) }
    else none

/-- The states that can be reached. -/
inductive Reach (m : Int) : Clocked → Prop
  | init : Reach m {}
  | step {s s' act} : Reach m s → tstep m s act = some s' → Reach m s'

end Quark.Delays
