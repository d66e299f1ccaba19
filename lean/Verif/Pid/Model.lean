import Mathlib.Data.List.Basic

/-!
# The names of processes and threads in a trace

Model of `NewEventFactory` and `Register` (/repo/common/tracing.go:311-323, 377-398), of the two places that call them
(`NewContext`, /repo/common/context.go:286-294, and `DebugContext`, 320-343), and of how a runner's trace becomes part of
the trace of the run (/repo/cmd/omegaup-grader/runner_handler.go:80-98).

Simplifications. A string is its bytes. `hash/fnv` is not in /repo: `fnv32a` is the published algorithm, FNV-1a with 32
bits. Of an event only the fields that say whose it is are kept, and of its arguments only the name a metadata event
carries. Arguments and time stamps are in the area Tracing, the file of the process in the area TraceFile.
-/

namespace Quark.Pid

abbrev Bytes := List UInt8

/-- The characters of a literal, all of them ASCII. -/
def ascii (s : List Char) : Bytes := s.map fun c => UInt8.ofNat c.toNat

/-- One byte of `(*sum32a).Write` (hash/fnv, used at common/tracing.go:313-316): `hash ^= uint32(c); hash *= prime32`. -/
def mix (hash : UInt32) (c : UInt8) : UInt32 := (hash ^^^ c.toUInt32) * 16777619

/-- `fnv.New32a()`, `Write` and `Sum32` (common/tracing.go:313-316, 320-321). -/
def fnv32a (b : Bytes) : UInt32 := b.foldl mix 2166136261

/-- `EventFactory` (common/tracing.go:306-309). -/
structure Factory where
  processName : Bytes
  threadName : Bytes
  pid : Nat
  tid : Nat
  deriving DecidableEq

/-- `NewEventFactory` (common/tracing.go:311-323). -/
def newEventFactory (processName threadName : Bytes) : Factory where
  processName := processName
  threadName := threadName
  pid := (fnv32a processName).toNat
  tid := (fnv32a threadName).toNat

/-- common/context.go:286-289: what `os.Hostname()` said, or the name used when it failed. -/
def hostnameOr (hostname : Option Bytes) : Bytes := hostname.getD (ascii ['m', 'a', 'i', 'n'])

/-- common/context.go:290-293: `NewEventFactory(fmt.Sprintf("%s (%s)", hostname, role), "main")`. -/
def contextFactory (hostname : Option Bytes) (role : Bytes) : Factory :=
  newEventFactory (hostnameOr hostname ++ ascii [' ', '('] ++ role ++ ascii [')']) (ascii ['m', 'a', 'i', 'n'])

/-- grader/context.go:47 -/
def graderRole : Bytes := ascii ['g', 'r', 'a', 'd', 'e', 'r']
/-- cmd/omegaup-runner/main.go:82 -/
def runnerRole : Bytes := ascii ['r', 'u', 'n', 'n', 'e', 'r']
/-- cmd/benchmark/main.go:41 -/
def benchmarkRole : Bytes := ascii ['b', 'e', 'n', 'c', 'h', 'm', 'a', 'r', 'k']

/-- An event (common/tracing.go:67-75); `label` is the argument `name` of a metadata event. -/
structure Event where
  name : Bytes
  metadata : Bool
  pid : Nat
  tid : Nat
  label : Option Bytes := none
  deriving DecidableEq

/-- `NewEvent` and the other constructors (common/tracing.go:326-375), for an event that is not metadata. -/
def Factory.newEvent (f : Factory) (name : Bytes) : Event :=
  { name, metadata := false, pid := f.pid, tid := f.tid }

def processNameKey : Bytes := ascii ['p', 'r', 'o', 'c', 'e', 's', 's', '_', 'n', 'a', 'm', 'e']
def threadNameKey : Bytes := ascii ['t', 'h', 'r', 'e', 'a', 'd', '_', 'n', 'a', 'm', 'e']

/-- `Register` (common/tracing.go:377-398), into a collector that does not fail. -/
def Factory.register (f : Factory) (collector : List Event) : List Event :=
  collector ++
    [ { name := processNameKey, metadata := true, pid := f.pid, tid := f.tid, label := some f.processName } ] ++
    [ { name := threadNameKey, metadata := true, pid := f.pid, tid := f.tid, label := some f.threadName } ]

/-- `DebugContext` (common/context.go:320-343): the memory collector of the child context, which has the factory of its
parent. -/
def debugContext (f : Factory) : List Event := f.register []

/-- What happens to the trace of an attempt in the grader. -/
inductive Act where
  /-- An event of the grader (runner_handler.go:188-192). -/
  | own (name : Bytes)
  /-- The first `n` events of a trace that was uploaded (runner_handler.go:90-95; the loop ends early when an event is not
  accepted). -/
  | merge (trace : List Event) (n : Nat)

/-- runner_handler.go:80-98, 188-192 -/
def step (f : Factory) (collector : List Event) : Act → List Event
  | .own name => collector ++ [f.newEvent name]
  | .merge trace n => collector ++ trace.take n

/-- The trace of a run in the grader (grader/queue.go:329-334), after `acts`. -/
def graderTrace (f : Factory) (acts : List Act) : List Event := acts.foldl (step f) (debugContext f)

/-- The trace of a run in the runner (cmd/omegaup-runner/main.go:477-482, 599-632 and runner/runner.go): all its events are
made with its own factory. -/
def runnerTrace (f : Factory) (names : List Bytes) : List Event := debugContext f ++ names.map f.newEvent

end Quark.Pid
