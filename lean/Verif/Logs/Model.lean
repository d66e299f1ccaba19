/-!
# The log of a run

Model of `AppendLogSection` and `LogBuffer` (/repo/common/context.go:345-359), through which the logs uploaded by the
runners (/repo/cmd/omegaup-grader/runner_handler.go:74-80, /repo/grader/queue.go:462-466) get into the log of a run.

Simplifications. A name is its bytes; it comes from the runner's certificate or address
(/repo/cmd/omegaup-grader/main.go:82-87). What the log handler of `DebugContext` (common/context.go:320-343) writes is given.
The buffer is used by one goroutine at a time: nothing in the code makes sure of it, bytes.Buffer has no lock.
-/

namespace Quark.Logs

abbrev Bytes := List UInt8

/-- `================`, common/context.go:348. -/
def bar : Bytes := List.replicate 16 0x3D

/-- common/context.go:348: `fmt.Fprintf(buffer, "================  %s  ================\n", sectionName)`. -/
def opening (name : Bytes) : Bytes := bar ++ [0x20, 0x20] ++ name ++ [0x20, 0x20] ++ bar ++ [0x0A]

/-- common/context.go:350: `fmt.Fprintf(buffer, "================ /%s  ================\n", sectionName)`. -/
def closing (name : Bytes) : Bytes := bar ++ [0x20, 0x2F] ++ name ++ [0x20, 0x20] ++ bar ++ [0x0A]

/-- common/context.go:347-351. -/
def appendLogSection (buffer name contents : Bytes) : Bytes := ((buffer ++ opening name) ++ contents) ++ closing name

/-- What may happen to the log. -/
inductive Op where
  /-- The log handler writes a line (common/context.go:335-341). -/
  | text (b : Bytes)
  /-- A runner uploads its logs (cmd/omegaup-grader/runner_handler.go:74-80). -/
  | logs (runner contents : Bytes)
  deriving DecidableEq

def apply (buffer : Bytes) : Op → Bytes
  | .text b => buffer ++ b
  | .logs n c => appendLogSection buffer n c

/-- common/context.go:354-359: what is in the buffer in the end, and is written to logs.txt.gz (grader/queue.go:416-434). -/
def log (ops : List Op) : Bytes := ops.foldl apply []

end Quark.Logs
