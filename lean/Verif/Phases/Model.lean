import Mathlib.Data.List.Forall2
/-!
# The trace that a runner sends back with a run

The events of grading, in the order in which they are collected. Durations, times and arguments are in Verif/Tracing.
-/
namespace Quark.Phases

/-- An event: its type (common/tracing.go:13-36) and its name. -/
inductive Ev where
  /-- `EventBegin` -/
  | B (name : String)
  /-- `EventEnd` -/
  | E (name : String)
  /-- `EventComplete` -/
  | X (name : String)
  /-- `EventClockSync` -/
  | c (name : String)
  /-- `EventMetadata` -/
  | M (name : String)
  deriving DecidableEq

/-! ## Executing a case -/

/-- How far the goroutine of a program is (runner/runner.go:886-960). -/
inductive Pc where
  | running
  /-- its event is collected (954) -/
  | added
  /-- its result is in the channel (955-960), and the goroutine is over -/
  | sent
  deriving DecidableEq

/-- Executing one case: the goroutines, how many results the main goroutine has received, and the events collected. -/
structure CaseState where
  pcs : List Pc
  received : Nat := 0
  trace : List Ev := []

inductive Move where
  | add (i : Nat)
  | send (i : Nat)
  | receive

/-- One step. The channel has room for the results of all programs (runner/runner.go:881), so sending never waits; receiving (972) needs a
result that was sent and not yet received. -/
def caseStep (caseName : String) (programs : List String) (s : CaseState) : Move → Option CaseState
  | .add i =>
    match s.pcs[i]?, programs[i]? with
    | some .running, some p =>
      some { s with pcs := s.pcs.set i .added, trace := s.trace ++ [.X (caseName ++ " - " ++ p)] }
    | _, _ => none
  | .send i =>
    match s.pcs[i]? with
    | some .added => some { s with pcs := s.pcs.set i .sent }
    | _ => none
  | .receive => if s.received < s.pcs.count .sent then some { s with received := s.received + 1 } else none

def caseSteps (caseName : String) (programs : List String) (s : CaseState) : List Move → Option CaseState
  | [] => some s
  | m :: ms => (caseStep caseName programs s m).bind (caseSteps caseName programs · ms)

/-- A case: its name, and the programs that run on it unless it is not executed: the wall time is used up (runner/runner.go:804-813) or the submission consists
of outputs (814-878). -/
structure Case where
  name : String
  programs : Option (List String)

/-- The events collected for a case: when the main goroutine has received as many results as there are programs (runner/runner.go:971-1000) it
adds the event of the case (1000-1001). -/
def CaseTrace (k : Case) (t : List Ev) : Prop :=
  match k.programs with
  | none => t = []
  | some ps => ∃ moves s, caseSteps k.name ps { pcs := ps.map fun _ => .running } moves = some s ∧ s.received = ps.length ∧
      t = s.trace ++ [.X k.name]

/-! ## Grading -/

structure Job where
  /-- `inputManager.Add` works (cmd/omegaup-runner/main.go:624-630). -/
  inputOk : Bool
  /-- `CreateFormFile` works (cmd/omegaup-runner/main.go:635-638), and so does everything in `Grade` before compiling (runner/runner.go:450-733). -/
  setUpOk : Bool
  /-- The programs to compile, and whether that works. -/
  compiles : List (String × Bool)
  cases : List Case

/-- runner/runner.go:738-793: the events of compiling, one after each program, up to the first that fails. -/
def compileEvents : List (String × Bool) → List Ev
  | [] => []
  | (b, ok) :: bs => if ok then .X b :: compileEvents bs else [.X b]

/-- The events of `Grade` (runner/runner.go:737-1244); `caseTraces` are those of the cases. Comparing adds none. -/
def gradeEvents (j : Job) (caseTraces : List (List Ev)) : List Ev :=
  [.B "compile"] ++ compileEvents j.compiles ++ [.E "compile"] ++
    if j.compiles.all Prod.snd then
      [.B "run"] ++ caseTraces.flatten ++ [.E "run"] ++ [.B "validate"] ++ [.E "validate"] ++ [.X "upload"]
    else []

/-- The trace of a run (cmd/omegaup-runner/main.go:477-482, 593-641; common/tracing.go:379-397): the names of process and thread, the clock, and
the events of `gradeRun`, whose last one is deferred. -/
def runTrace (j : Job) (caseTraces : List (List Ev)) : List Ev :=
  [.M "process_name", .M "thread_name", .c "clock_sync"] ++
    [.B "grade"] ++ [.X "I/O lock"] ++
      (if j.inputOk then
        [.X "input"] ++ if j.setUpOk then gradeEvents j caseTraces else []
      else []) ++
    [.E "grade"]

/-- A trace that grading can give, for some schedule of the goroutines of each case. -/
def Traces (j : Job) (t : List Ev) : Prop := ∃ ts, List.Forall₂ CaseTrace j.cases ts ∧ t = runTrace j ts

end Quark.Phases
