import Mathlib.Data.List.Basic

/-!
# Who works when on a runner

A runner grades runs (`gradeRun`, /repo/cmd/omegaup-runner/main.go:593-641), measures the machine once a minute
(`RunHostBenchmark`, /repo/runner/benchmark.go:190-237, from cmd/omegaup-runner/main.go:337-358) and, when it starts, checks the inputs it
has in its cache (`PreloadInputs`, /repo/common/inputmanager.go:322-364, from cmd/omegaup-runner/main.go:285-294). Each of the three is a
goroutine; `ioLock` (cmd/omegaup-runner/main.go:55) is to keep them from disturbing each other.

What a goroutine does is a list of instructions, made by the functions below from what the outside world does: which
inputs cannot be had, which runs cannot be graded. One step of an execution is one instruction, and a piece of
work has a beginning and an end.

Simplifications. Requests for runs, uploads, logging and waiting are `pause`: they take no lock. A panic (which
would end the process) is left out. What `Add`, `Grade` and `Release` do is the subject of other parts of
the model.
-/

namespace Quark.IoLock

/-- What takes time, memory and disk. -/
inductive Work where
  /-- `inputManager.Add`: download or check an input. -/
  | fetch (hash : Nat)
  /-- `runner.Grade`: compile and run programs. -/
  | grade (hash : Nat)
  /-- `inputRef.Release`: the cache may remove files. -/
  | release (hash : Nat)
  /-- `os.RemoveAll` of a corrupted input (common/inputmanager.go:352). -/
  | discard (hash : Nat)
  deriving DecidableEq

inductive Instr where
  | lock
  | unlock
  | work (w : Work)
  | pause
  deriving DecidableEq

/-- How an attempt at grading ends. -/
inductive Outcome where
  /-- The input could not be had (cmd/omegaup-runner/main.go:629-631). -/
  | noInput
  /-- Graded, with or without an error (cmd/omegaup-runner/main.go:635-641). -/
  | graded
  deriving DecidableEq

/-- cmd/omegaup-runner/main.go:593-641: `gradeRun`. The deferred calls run in reverse order: the input is released (632), then the lock
(616). -/
def gradeRun (hash : Nat) : Outcome → List Instr
  | .noInput => [.lock, .work (.fetch hash), .unlock]
  | .graded => [.lock, .work (.fetch hash), .work (.grade hash), .work (.release hash), .unlock]

/-- cmd/omegaup-runner/main.go:360-377, 459-591: the main loop, for the runs it is given; before and after each there is a request. -/
def mainLoop (runs : List (Nat × Outcome)) : List Instr :=
  runs.flatMap fun r => .pause :: gradeRun r.1 r.2 ++ [.pause]

/-- What can go wrong with one case of the benchmark: runner/benchmark.go:210-212 and 224-226. -/
inductive BenchOutcome where
  | noInput
  | failed
  | ok
  deriving DecidableEq

/-- runner/benchmark.go:201-236: the cases; the releases are deferred to the end of the function. -/
def benchCases : List (Nat × BenchOutcome) → List Nat → List Instr
  | [], held => held.map fun h => .work (.release h)
  | (h, .noInput) :: _, held => .work (.fetch h) :: held.map fun h => .work (.release h)
  | (h, .failed) :: _, held => .work (.fetch h) :: .work (.grade h) :: (h :: held).map fun h => .work (.release h)
  | (h, .ok) :: cases, held => .work (.fetch h) :: .work (.grade h) :: benchCases cases (h :: held)

/-- runner/benchmark.go:190-237: `RunHostBenchmark`. -/
def runHostBenchmark (cases : List (Nat × BenchOutcome)) : List Instr :=
  .lock :: benchCases cases [] ++ [.unlock]

/-- cmd/omegaup-runner/main.go:340-357: the benchmark loop. -/
def benchLoop (rounds : List (List (Nat × BenchOutcome))) : List Instr :=
  rounds.flatMap fun cases => runHostBenchmark cases ++ [.pause]

/-- common/inputmanager.go:348-357: one input of the cache; `ok` says whether it could be added. -/
def preloadOne (hash : Nat) (ok : Bool) : List Instr :=
  [.lock, .work (.fetch hash), .work (if ok then .release hash else .discard hash), .unlock]

/-- common/inputmanager.go:322-364: `PreloadInputs`. -/
def preloadInputs (inputs : List (Nat × Bool)) : List Instr :=
  inputs.flatMap fun x => preloadOne x.1 x.2

/-- The three goroutines of a runner: cmd/omegaup-runner/main.go:285-294, 337-358, 360-377. -/
def runner (inputs : List (Nat × Bool)) (rounds : List (List (Nat × BenchOutcome))) (runs : List (Nat × Outcome)) :
    List (List Instr) :=
  [preloadInputs inputs, benchLoop rounds, mainLoop runs]

/-! ## Executions -/

structure Thread where
  todo : List Instr
  /-- The piece of work that has begun and not ended. -/
  busy : Option Work := none
  deriving DecidableEq

/-- A piece of work begins (`true`) or ends. -/
structure Event where
  thread : Nat
  starts : Bool
  work : Work
  deriving DecidableEq

structure State where
  threads : List Thread
  /-- Who has the mutex. -/
  holder : Option Nat := none
  events : List Event := []
  deriving DecidableEq

/-- One step of goroutine `t`; `none` if it cannot move. Unlocking a mutex that is not locked is a fatal error, which
is to say `none`; sync.Mutex does not care who locked it. -/
def step (s : State) (t : Nat) : Option State :=
  match s.threads[t]? with
  | none => none
  | some x =>
    match x.busy, x.todo with
    | some w, _ => some { s with
        threads := s.threads.set t { x with busy := none }
        events := s.events ++ [⟨t, false, w⟩] }
    | none, [] => none
    | none, .pause :: rest => some { s with threads := s.threads.set t { x with todo := rest } }
    | none, .work w :: rest => some { s with
        threads := s.threads.set t { x with todo := rest, busy := some w }
        events := s.events ++ [⟨t, true, w⟩] }
    | none, .lock :: rest =>
      match s.holder with
      | none => some { s with
          threads := s.threads.set t { x with todo := rest }, holder := some t }
      | some _ => none
    | none, .unlock :: rest =>
      match s.holder with
      | none => none
      | some _ => some { s with threads := s.threads.set t { x with todo := rest }, holder := none }

def start (scripts : List (List Instr)) : State := { threads := scripts.map fun i => { todo := i } }

inductive Reach (scripts : List (List Instr)) : State → Prop
  | start : Reach scripts (start scripts)
  | step {s s' t} : Reach scripts s → step s t = some s' → Reach scripts s'

end Quark.IoLock
