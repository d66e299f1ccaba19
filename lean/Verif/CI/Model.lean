import Mathlib.Data.Rat.Defs
import Mathlib.Algebra.Order.Ring.Rat

/-!
# Continuous integration

/repo/cmd/omegaup-grader/ci.go ("ci.go" below): the states of a CI run and their encoding, the outcome of one test and
of the whole run, and the report directory of one commit through requests, the worker, kills and restarts.
-/

namespace Quark.CI

/-! ## States and their JSON encoding (cmd/omegaup-grader/ci.go 73-149) -/

/-- `CIState` is a Go `int` (cmd/omegaup-grader/ci.go 74); the constants are cmd/omegaup-grader/ci.go 80-99, in `iota` order. -/
abbrev CIState := Int
def waiting : CIState := 0
def running : CIState := 1
def skipped : CIState := 2
def error : CIState := 3
def passed : CIState := 4
def failed : CIState := 5

/-- `CIState.String`, cmd/omegaup-grader/ci.go 101-118. -/
def CIState.string (s : CIState) : String :=
  if s = waiting then "waiting"
  else if s = running then "running"
  else if s = skipped then "skipped"
  else if s = error then "error"
  else if s = passed then "passed"
  else "failed"

/-- `CIState.MarshalJSON`, cmd/omegaup-grader/ci.go 121-123: `%q` of the string.  Simplification: `%q` escapes quotes,
backslashes and non-printable characters; none of the six texts has any. -/
def marshal (s : CIState) : String := "\"" ++ CIState.string s ++ "\""

/-- `CIState.UnmarshalJSON`, cmd/omegaup-grader/ci.go 126-149. -/
def unmarshal (data : String) : CIState :=
  if data = "\"waiting\"" then waiting
  else if data = "\"running\"" then running
  else if data = "\"skipped\"" then skipped
  else if data = "\"error\"" then error
  else if data = "\"passed\"" then passed
  else failed

/-! ## One test's outcome (cmd/omegaup-grader/ci.go 603-711) -/

/-- `common.ScoreRange` (common/problemsettings.go 158-161) as stored: two rationals. -/
structure ScoreRange where
  min : ℚ
  max : ℚ

/-- `common.SolutionSettings` (common/problemsettings.go 200-205): the two expectations. The Go zero value
`""` of `Verdict` stands for "not declared". -/
structure SolutionSettings where
  verdict : String
  scoreRange : Option ScoreRange

/-- The part of `CIReportTest` (cmd/omegaup-grader/ci.go 158-172) the decision reads: `solution = none` is an
inputs-validator test. -/
structure Test where
  solution : Option SolutionSettings
deriving Inhabited

/-- The part of `runner.RunResult` the decision reads. -/
structure Result where
  verdict : String
  score : ℚ

/-- cmd/omegaup-grader/ci.go 681-695: the state given to a test whose run finished. -/
def judge (t : Test) (r : Result) : CIState :=
  match t.solution with
  | some st =>
    let s0 := passed
    let s1 := if st.verdict ≠ "" ∧ st.verdict ≠ r.verdict then failed else s0
    match st.scoreRange with
    | some sr => if r.score < sr.min ∨ sr.max < r.score then failed else s1
    | none => s1
  | none => if r.verdict ≠ "AC" then failed else passed

/-- What `addRun` (cmd/omegaup-grader/ci.go 603-711) yields: either an error (any of its six `return err`, one of them,
702-705, after the state was already decided), or a finished run with its result.  The run itself is
not modelled: its result is arbitrary. -/
inductive Outcome where
  | err
  | done (r : Result)

/-! ## The verdict of a whole CI run (cmd/omegaup-grader/ci.go 872-883) -/

/-- One iteration of the loop 873-882: the state stored in the test and the new `finalState`. -/
def stepTest (finalState : CIState) (t : Test) (o : Outcome) : CIState × CIState :=
  match o with
  | .err => (error, error)
  | .done r =>
    let st := judge t r
    (st, if finalState = passed then st else finalState)

/-- The loop 872-883: the states of the tests, in order, and the report's final state. -/
def runTests : CIState → List (Test × Outcome) → List CIState × CIState
  | fs, [] => ([], fs)
  | fs, (t, o) :: rest =>
    let x := stepTest fs t o
    let y := runTests x.2 rest
    (x.1 :: y.1, y.2)

/-- `finalState := CIStatePassed` (872), then the loop. -/
def processTests (l : List (Test × Outcome)) : List CIState × CIState := runTests passed l

/-! ## The report directory of one commit, its requests, its worker, kills and restarts

Only one commit is followed; the single worker goroutine (`run`, cmd/omegaup-grader/ci.go 941-990) is, for this commit,
`idle` while it handles others.  A `Write` (189-224) goes to a temporary file which is then renamed,
so it either replaces the report or leaves it; left-over temporary files are not modelled. Any
`Write` may fail, and one into a removed directory does.  `RemoveAll` lists the directory and then unlinks what it listed, one name at a
time, in any order. Bodies other than the report's `State` are not modelled. -/

inductive Worker where
  /-- waiting for a report, or busy with another commit -/
  | idle
  /-- inside `os.RemoveAll` of this directory; the names still to unlink -/
  | removing (stamp report : Bool)
  /-- between taking the report from the channel and its last write -/
  | working
  /-- the last write has been attempted (892-894), the stamp not yet removed -/
  | finished
  /-- the stamp removal (898-900) has been attempted, `addRunToCache` (902-905) not yet called -/
  | unstamped
deriving DecidableEq

structure Dir where
  /-- the directory exists -/
  dir : Bool
  /-- `.running` exists -/
  stamp : Bool
  /-- the `State` in `report.json.gz`, if it exists -/
  report : Option CIState
  /-- the process is running -/
  up : Bool
  /-- the start-up scan (949-977) has reached this directory -/
  scanned : Bool
  /-- the directory is in the LRU cache -/
  cached : Bool
  /-- requests that found no report (743-757) and have not yet tried to create the stamp -/
  lookers : Nat
  /-- requests that created the stamp (807-817) and have not yet written the report -/
  stampers : Nat
  /-- reports in `reportChan` -/
  queue : Nat
  worker : Worker
deriving DecidableEq

inductive Act where
  | look                      -- ServeHTTP 743-757, 801-805 (`MkdirAll`)
  | acquire                   -- 807-817
  | firstWrite (ok : Bool)    -- 819-823, 834
  | take                      -- run 986-987
  | progress (r : CIState)    -- 867-869, 665-667, 697-699
  | abort (r : CIState) (ok : Bool)   -- 847-864
  | finish (r : CIState) (ok : Bool)  -- 883-894
  | unstamp (ok : Bool)       -- 898-900
  | cache                     -- 902-905, 908-939
  | refuse                    -- 922-935
  | evict                     -- ciSizedEntry.Release 584-588
  | unlinkStamp | unlinkReport | endRemove   -- inside os.RemoveAll
  | kill
  | start                     -- registerCIHandlers 1003-1019
  | scan                      -- run 949-975, when this directory is visited
  | scanRefuse                -- the same, when addRunToCache fails (922-935)
deriving DecidableEq

/-- States a report can have while it is not finished: 718-725, 866-871. -/
def unfinished (r : CIState) : Prop := r = waiting ∨ r = running
instance (r : CIState) : Decidable (unfinished r) := inferInstanceAs (Decidable (_ ∨ _))

/-- One atomic action.  `none` = not possible now. -/
def step (s : Dir) (a : Act) : Option Dir :=
  match a with
  | .look =>
    if s.up ∧ s.report = none then some { s with dir := true, lookers := s.lookers + 1 } else none
  | .acquire =>
    if s.up ∧ 0 < s.lookers then
      if s.stamp ∨ ¬ s.dir then some { s with lookers := s.lookers - 1 }
      else some { s with stamp := true, lookers := s.lookers - 1, stampers := s.stampers + 1 }
    else none
  | .firstWrite ok =>
    if s.up ∧ 0 < s.stampers then
      if ok ∧ s.dir then
        some { s with report := some waiting, stampers := s.stampers - 1, queue := s.queue + 1 }
      else some { s with stampers := s.stampers - 1 }
    else none
  | .take =>
    if s.up ∧ s.scanned ∧ s.worker = .idle ∧ 0 < s.queue then
      some { s with worker := .working, queue := s.queue - 1 }
    else none
  | .progress r =>
    if s.up ∧ s.worker = .working ∧ unfinished r ∧ s.dir then some { s with report := some r } else none
  | .abort r ok =>
    if s.up ∧ s.worker = .working ∧ (r = skipped ∨ r = error) then
      if ok ∧ s.dir then some { s with report := some r, worker := .idle }
      else some { s with worker := .idle }
    else none
  | .finish r ok =>
    if s.up ∧ s.worker = .working ∧ (r = passed ∨ r = failed ∨ r = error) then
      if ok ∧ s.dir then some { s with report := some r, worker := .finished }
      else some { s with worker := .finished }
    else none
  | .unstamp ok =>
    if s.up ∧ s.worker = .finished then
      if ok then some { s with stamp := false, worker := .unstamped }
      else some { s with worker := .unstamped }
    else none
  | .cache =>
    if s.up ∧ s.worker = .unstamped then some { s with cached := true, worker := .idle } else none
  | .refuse =>
    if s.up ∧ s.worker = .unstamped then
      some { s with worker := .removing s.stamp s.report.isSome }
    else none
  | .evict =>
    if s.up ∧ s.worker = .idle ∧ s.cached then
      some { s with cached := false, worker := .removing s.stamp s.report.isSome }
    else none
  | .unlinkStamp =>
    match s.worker with
    | .removing true b =>
      if s.up then some { s with stamp := false, worker := .removing false b } else none
    | _ => none
  | .unlinkReport =>
    match s.worker with
    | .removing a true =>
      if s.up then some { s with report := none, worker := .removing a false } else none
    | _ => none
  | .endRemove =>
    match s.worker with
    | .removing false false =>
      -- the directory itself is removed if it is empty by now
      if s.up then some { s with dir := s.dir && (s.stamp || s.report.isSome), worker := .idle } else none
    | _ => none
  | .kill =>
    if s.up then
      some { s with up := false, scanned := false, cached := false, lookers := 0, stampers := 0,
                    queue := 0, worker := .idle }
    else none
  | .start => if s.up then none else some { s with up := true }
  | .scan =>
    if s.up ∧ ¬ s.scanned ∧ s.worker = .idle then
      if s.stamp then
        some { s with scanned := true, worker := .removing true s.report.isSome }
      else if s.dir then some { s with scanned := true, cached := true }
      else some { s with scanned := true }
    else none
  | .scanRefuse =>
    if s.up ∧ ¬ s.scanned ∧ s.worker = .idle ∧ s.dir ∧ ¬ s.stamp then
      some { s with scanned := true, worker := .removing false s.report.isSome }
    else none

/-- A sequence of actions. -/
def run (s : Dir) : List Act → Option Dir
  | [] => some s
  | a :: as => (step s a).bind (run · as)

/-- A commit never seen before, with the process stopped. -/
def init : Dir :=
  { dir := false, stamp := false, report := none, up := false, scanned := false, cached := false, lookers := 0,
    stampers := 0, queue := 0, worker := .idle }

end Quark.CI
