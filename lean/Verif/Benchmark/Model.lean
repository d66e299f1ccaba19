/-!
# The benchmark of a runner

Model of `RunHostBenchmark` (/repo/runner/benchmark.go:190-237), of the loop that runs it every minute
(/repo/cmd/omegaup-runner/main.go:337-358), of `runOneshotBenchmark` (90-106) and of the part of `gaugesUpdate` about it
(/repo/cmd/omegaup-runner/metrics.go:163-173).

Simplifications: the archives and programs of the cases, and what grading a run does, are left out: whether the input of
a case can be had and what its grading yields are given by a `Host`. The readings of the operating system are left out.
-/
namespace Quark.Benchmark

/-- The part of `RunResult` that is looked at (/repo/runner/runner.go:140-154); `verdict` is not. -/
structure Graded where
  verdict : String
  time : Int
  wallTime : Int
  memory : Int
deriving DecidableEq

/-- `BenchmarkResult` (runner/benchmark.go:179-183). -/
structure Measure where
  time : Int := 0
  wallTime : Int := 0
  memory : Int := 0
deriving DecidableEq

/-- runner/benchmark.go:40-175: the names of the cases, in order. -/
def cases : List String := ["IO", "CPU", "Memory"]

/-- One execution: whether `inputManager.Add` works for a case, and the result of `Grade`, `none` being an error. The run
has the case's index as its attempt (runner/benchmark.go:203-227). -/
structure Host where
  add : String → Bool
  grade : Nat → String → Option Graded

/-- What the program does, in order. -/
inductive Event where
  | lock
  | unlock
  | acquire (name : String)
  | release (name : String)
  | grade (attempt : Nat) (name : String)
deriving DecidableEq

/-- A map, as the assignments made to it; the last one counts. -/
abbrev Results := List (String × Measure)

/-- `m[k]`, the zero value if there is none. -/
def Results.get (r : Results) (k : String) : Measure := (r.reverse.lookup k).getD {}

/-- runner/benchmark.go:202-234: the loop from the case `idx` on; `held` are the inputs to be released by the deferred calls, the
last one first, and `acc` is the map so far. -/
def loop (h : Host) (idx : Nat) (held : List String) (acc : Results) : List String → List Event × Option Results
  | [] => (held.map .release, some acc)
  | c :: rest =>
    if h.add c then
      match h.grade idx c with
      | none => ([.acquire c, .grade idx c] ++ (c :: held).map .release, none)
      | some g =>
        let r := loop h (idx + 1) (c :: held) (acc ++ [(c, ⟨g.time, g.wallTime, g.memory⟩)]) rest
        ([.acquire c, .grade idx c] ++ r.1, r.2)
    else (held.map .release, none)

/-- runner/benchmark.go:190-237. -/
def runHostBenchmark (h : Host) : List Event × Option Results :=
  let r := loop h 0 [] [] cases
  ([.lock] ++ r.1 ++ [.unlock], r.2)

/-- The nine gauges (cmd/omegaup-runner/metrics.go:61-105). -/
abbrev Gauges := String → Int

/-- cmd/omegaup-runner/metrics.go:163-173. -/
def gaugesUpdate (g : Gauges) : Option Results → Gauges
  | none => g
  | some r => fun n =>
    if n = "io_time" then (r.get "IO").time
    else if n = "io_wall_time" then (r.get "IO").wallTime
    else if n = "io_memory" then (r.get "IO").memory
    else if n = "cpu_time" then (r.get "CPU").time
    else if n = "cpu_wall_time" then (r.get "CPU").wallTime
    else if n = "cpu_memory" then (r.get "CPU").memory
    else if n = "memory_time" then (r.get "Memory").time
    else if n = "memory_wall_time" then (r.get "Memory").wallTime
    else if n = "memory_memory" then (r.get "Memory").memory
    else g n

/-- cmd/omegaup-runner/main.go:340-356: the gauges after the benchmarks of these moments. -/
def shown (hs : List Host) : Gauges := hs.foldl (fun g h => gaugesUpdate g (runHostBenchmark h).2) (fun _ => 0)

end Quark.Benchmark
