import Verif.Access.Paths
import Verif.Tracing.Props

/-!
# Matching the clocks of the grader and of the runners in the trace of a run

Each time a run is handed out, the grader issues an id, sends it to the runner in a header and records an event with it in
the trace of the run; the runner records an event with the id it got in its own trace, which comes back with the
results. Other events are left out (see Verif/Tracing). Any number of handlers, runners and runs act in any order.
-/
namespace Quark.ClockSync

/-- How far the handler that handed out a run is (cmd/omegaup-grader/runner_handler.go:178-194). -/
inductive Pc where
  /-- `GetRun` has returned (178-183) -/
  | taken
  /-- `NewIssuerClockSyncEvent` has returned (188) -/
  | issued
  /-- header and body are on their way (189-191) -/
  | sent
  /-- the event is in the collector (192) -/
  | recorded
  deriving DecidableEq

structure HandOut where
  run : Nat
  pc : Pc := .taken
  /-- `ev.SyncID` -/
  id : Nat := 0
  /-- The results of this hand-out, with the runner's trace, were received. -/
  uploaded : Bool := false
  deriving DecidableEq

/-- The two kinds of clock-sync events (common/tracing.go:97-117, 350-364). -/
inductive Ev where
  | issuer (id : Nat)
  | receiver (id : Nat)
  deriving DecidableEq

structure State where
  /-- `syncID` (common/tracing.go:39) -/
  counter : Nat
  handOuts : List HandOut := []
  /-- The events collected for each run by the grader (grader/queue.go:297, 334). -/
  trace : Nat → List Ev := fun _ => []
  /-- The `tracing.json.gz` written when the run is closed (grader/queue.go:368-455). -/
  file : Nat → Option (List Ev) := fun _ => none

/-- `NewSyncID` (common/tracing.go:50-52): `atomic.AddUint64`. -/
def newSyncId (c : Nat) : Nat := (c + 1) % 2 ^ 64

/-- `strconv.ParseUint(s, 10, 64)` (cmd/omegaup-runner/main.go:478). -/
def parseUint (s : List Char) : Option Nat :=
  if s ≠ [] ∧ s.all Access.isDigit = true then
    if Access.value s < 2 ^ 64 then some (Access.value s) else none
  else none

/-- The id in the runner's event when it has arrived with the results: written as a header in decimal
(cmd/omegaup-grader/runner_handler.go:189), parsed by the runner (cmd/omegaup-runner/main.go:478-482), written as a JSON number and read as a float64
(common/tracing.go:231, 239). -/
def carried (id : Nat) : Option Nat := (parseUint (Access.decimal id)).map fun n : Nat => Tracing.toUint64 (Float.roundQ (n : ℚ))

inductive Act where
  | take (run : Nat)
  | issue (h : Nat)
  | send (h : Nat)
  | record (h : Nat)
  | upload (h : Nat)
  | close (run : Nat)
  deriving DecidableEq

/-- Adding an event to the trace of a run. -/
def push (t : Nat → List Ev) (r : Nat) (e : Ev) : Nat → List Ev := fun x => if x = r then t x ++ [e] else t x

/-- One step. Simplification: each hand-out is uploaded at most once, and only while its run is open (otherwise it is answered 404, see
C25, C81); nothing is said here about who may take which run (see Verif/Lifecycle). -/
def step (s : State) : Act → Option State
  | .take r => some { s with handOuts := s.handOuts ++ [{ run := r }] }
  | .issue h =>
    match s.handOuts[h]? with
    | some o =>
      if o.pc = .taken then
        some { s with
          counter := newSyncId s.counter
          handOuts := s.handOuts.set h { o with pc := .issued, id := newSyncId s.counter } }
      else none
    | none => none
  | .send h =>
    match s.handOuts[h]? with
    | some o => if o.pc = .issued then some { s with handOuts := s.handOuts.set h { o with pc := .sent } } else none
    | none => none
  | .record h =>
    match s.handOuts[h]? with
    | some o =>
      if o.pc = .sent then
        some { s with
          handOuts := s.handOuts.set h { o with pc := .recorded }
          trace := push s.trace o.run (.issuer o.id) }
      else none
    | none => none
  | .upload h =>
    match s.handOuts[h]? with
    | some o =>
      if (o.pc = .sent ∨ o.pc = .recorded) ∧ o.uploaded = false ∧ s.file o.run = none then
        match carried o.id with
        | some n =>
          some { s with
            handOuts := s.handOuts.set h { o with uploaded := true }
            trace := push s.trace o.run (.receiver n) }
        | none => none
      else none
    | none => none
  | .close r =>
    if s.file r = none then some { s with file := fun x => if x = r then some (s.trace r) else s.file x } else none

/-- Several steps. -/
def steps (s : State) : List Act → Option State
  | [] => some s
  | a :: as => (step s a).bind (steps · as)

/-- The grader has started; the counter is a random number of 32 bits (common/tracing.go:42-45). -/
def started (seed : Nat) : State := { counter := seed }

end Quark.ClockSync
