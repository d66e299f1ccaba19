import Verif.Literal.Model
import Verif.CI.Model

/-!
# Setting up and running a CI request

`createCIRunConfigFromGit` (/repo/cmd/omegaup-grader/ci.go:298-560, "ci.go" below) and `processCIRequest` with `addRun`
(cmd/omegaup-grader/ci.go:603-711, 837-906) as far as they decide which programs are graded with which input.

Simplifications. The tree of a commit is a function from paths to the contents of the blob at that path, if there is one
(`EntryByPath`, `LookupBlob`); the two JSON decoders are parameters. What happens to a run after it is queued, and
whether caching its input, naming and saving it succeed, is up to the environment. A Go map is a list of entries with
distinct keys, as in area Literal. Times and log messages are left out.
-/

namespace Quark.CIConfig

open Quark.Literal (Str Case Limits CustomValidator Validator Interactive Input ValidatorSettings Runtime Tools Output
  languageFileExtension newLiteralInput)

/-- `CaseSettings` (/repo/common/problemsettings.go:60-63). A case that is `null` in the file has a nil weight
(ibid. 78-81). -/
structure ProblemCase where
  name : Str
  weight : Option ℚ
  deriving DecidableEq

/-- `GroupSettings` (/repo/common/problemsettings.go:105-108). -/
structure ProblemGroup where
  name : Str
  cases : List ProblemCase
  deriving DecidableEq

/-- The fields of `InteractiveSettings` (/repo/common/problemsettings.go:50-57) that are used here. -/
structure ProblemInteractive where
  moduleName : Str
  parentLang : Str
  deriving DecidableEq

/-- `ProblemSettings` (/repo/common/problemsettings.go:129-135). -/
structure ProblemSettings where
  groups : List ProblemGroup
  interactive : Option ProblemInteractive
  limits : Limits
  validator : ValidatorSettings
  deriving DecidableEq

/-- `SolutionSettings` (/repo/common/problemsettings.go:200-205); the expectations are those of area CI. -/
structure Solution where
  filename : Str
  language : Str
  expects : CI.SolutionSettings

/-- `InputsValidatorSettings` (/repo/common/problemsettings.go:208-211). -/
structure InputsValidator where
  filename : Str
  language : Str

/-- `TestsSettings` (/repo/common/problemsettings.go:215-218). -/
structure TestsSettings where
  solutions : List Solution
  inputs : Option InputsValidator

/-- The JSON decoders. -/
structure Decoders where
  tests : Str → Option TestsSettings
  settings : Str → Option ProblemSettings

/-- What the worker finds: the repository cannot be opened (it was there when the request came), the commit cannot be
found, or its tree. -/
inductive Repo where
  | gone
  | noCommit
  | tree (blob : Str → Option Str)

/-- How `createCIRunConfigFromGit` ends. `done none` is the result `nil, nil`. -/
inductive Build (α : Type) where
  | crash
  | skipped
  | error
  | done (a : α)

def Build.bind {α β : Type} : Build α → (α → Build β) → Build β
  | .crash, _ => .crash
  | .skipped, _ => .skipped
  | .error, _ => .error
  | .done a, f => f a

/-- A missing file is an error. -/
def orError {α : Type} : Option α → Build α
  | none => .error
  | some a => .done a

/-- The parts of `CIReportTest` and its `EphemeralRunRequest` (cmd/omegaup-grader/ci.go:158-172) that decide what is run. -/
structure Test where
  filename : Str
  language : Str
  source : Str
  /-- `Type` is `"solutions"`; then the input is the problem's, shared by all of them (`config.input`) -/
  solution : Option CI.SolutionSettings
  /-- the input of a test of the inputs -/
  input : Option Input

/-- `ciRunConfig` (cmd/omegaup-grader/ci.go:151-155). -/
structure Config where
  input : Input
  tests : List Test

def sTests : Str := ['t', 'e', 's', 't', 's', '/']
def sTestsJson : Str := ['t', 'e', 's', 't', 's', '/', 't', 'e', 's', 't', 's', '.', 'j', 's', 'o', 'n']
def sSettingsJson : Str := ['s', 'e', 't', 't', 'i', 'n', 'g', 's', '.', 'j', 's', 'o', 'n']
def sCasesDir : Str := ['c', 'a', 's', 'e', 's', '/']
def sDotIn : Str := ['.', 'i', 'n']
def sDotOut : Str := ['.', 'o', 'u', 't']
def sValidator : Str := ['v', 'a', 'l', 'i', 'd', 'a', 't', 'o', 'r', '.']
def sInteractiveDir : Str := ['i', 'n', 't', 'e', 'r', 'a', 'c', 't', 'i', 'v', 'e', '/']
def sDotIdl : Str := ['.', 'i', 'd', 'l']
def sMain : Str := ['M', 'a', 'i', 'n', '.']
def sCpp : Str := ['c', 'p', 'p']
def sCpp11 : Str := ['c', 'p', 'p', '1', '1']
def sCustom : Str := ['c', 'u', 's', 't', 'o', 'm']

/-- `CopyStdinToStdoutSource` (cmd/omegaup-grader/ci.go:31-57). -/
def copyProgram : Str :=
  String.toList ("\n" ++
    "\t\t#include <stdint.h>\n" ++
    "\t\t#include <stdio.h>\n" ++
    "\t\t#include <unistd.h>\n" ++
    "\n" ++
    "\t\tint main() {\n" ++
    "\t\t\tuint8_t buffer[4096];\n" ++
    "\t\t\twhile (true) {\n" ++
    "\t\t\t\tssize_t read_bytes = read(STDIN_FILENO, buffer, sizeof(buffer));\n" ++
    "\t\t\t\tif (read_bytes < 0) {\n" ++
    "\t\t\t\t\tperror(\"read\");\n" ++
    "\t\t\t\t\treturn 1;\n" ++
    "\t\t\t\t}\n" ++
    "\t\t\t\tif (read_bytes == 0) {\n" ++
    "\t\t\t\t\tbreak;\n" ++
    "\t\t\t\t}\n" ++
    "\t\t\t\tuint8_t* ptr = buffer;\n" ++
    "\t\t\t\twhile (read_bytes) {\n" ++
    "\t\t\t\t\tssize_t written_bytes = write(STDOUT_FILENO, ptr, read_bytes);\n" ++
    "\t\t\t\t\tif (written_bytes <= 0) {\n" ++
    "\t\t\t\t\t\tperror(\"write\");\n" ++
    "\t\t\t\t\t\treturn 1;\n" ++
    "\t\t\t\t\t}\n" ++
    "\t\t\t\t\tread_bytes -= written_bytes;\n" ++
    "\t\t\t\t}\n" ++
    "\t\t\t}\n" ++
    "\t\t\treturn 0;\n" ++
    "\t\t}\n" ++
    "\t")

/-- `filepath.Ext`: from the last dot of the last element on. -/
def ext (p : Str) : Str :=
  let r := p.reverse.takeWhile (· ≠ '/')
  if '.' ∈ r then '.' :: (r.takeWhile (· ≠ '.')).reverse else []

/-- `FileExtensionLanguage` (/repo/common/literalinput.go:200-205). -/
def fileExtensionLanguage (extension : Str) : Str := if extension = sCpp then sCpp11 else extension

/-- cmd/omegaup-grader/ci.go:482-494, 517-529: the language of a program in `tests/`. -/
def testLanguage (language filename : Str) : Option Str :=
  if language = [] then
    let e := ext filename
    if e = [] then none else some (fileExtensionLanguage (e.drop 1))
  else some language

/-- The inner loop of cmd/omegaup-grader/ci.go:377-416: the map `config.input.Cases`. -/
def readCases (blob : Str → Option Str) : List ProblemCase → List (Str × Option Case) → Build (List (Str × Option Case))
  | [], m => .done m
  | c :: rest, m =>
    (orError (blob (sCasesDir ++ c.name ++ sDotIn))).bind fun input =>
    (orError (blob (sCasesDir ++ c.name ++ sDotOut))).bind fun output =>
    readCases blob rest (Literal.put m c.name (some { input := input, output := output, weight := c.weight }))

/-- Both loops of cmd/omegaup-grader/ci.go:377-416: cases in the order of the groups. -/
def readGroups (blob : Str → Option Str) : List ProblemGroup → List (Str × Option Case) →
    Build (List (Str × Option Case))
  | [], m => .done m
  | g :: rest, m => (readCases blob g.cases m).bind fun m => readGroups blob rest m

/-- cmd/omegaup-grader/ci.go:418-447: the validator. `none` is the early return of `nil, nil`: `errors.Wrapf` of a nil error is nil. -/
def readValidator (blob : Str → Option Str) (v : ValidatorSettings) : Build (Option Validator) :=
  if v.name = sCustom then
    match v.lang with
    | none => .done none
    | some lang =>
      (orError (blob (sValidator ++ lang))).bind fun source =>
      .done (some { name := v.name, tolerance := v.tolerance
                    custom := some { source := source, language := lang, limits := v.limits } })
  else .done (some { name := v.name, tolerance := v.tolerance, custom := none })

/-- cmd/omegaup-grader/ci.go:449-478. -/
def readInteractive (blob : Str → Option Str) : Option ProblemInteractive → Build (Option Interactive)
  | none => .done none
  | some i =>
    (orError (blob (sInteractiveDir ++ languageFileExtension i.moduleName ++ sDotIdl))).bind fun idl =>
    (orError (blob (sInteractiveDir ++ sMain ++ languageFileExtension i.parentLang))).bind fun main =>
    .done (some { idl := idl, moduleName := i.moduleName, parentLang := i.parentLang, mainSource := main })

/-- cmd/omegaup-grader/ci.go:480-514. -/
def readSolutions (blob : Str → Option Str) : List Solution → Build (List Test)
  | [] => .done []
  | s :: rest =>
    (orError (testLanguage s.language s.filename)).bind fun language =>
    (orError (blob (sTests ++ s.filename))).bind fun source =>
    (readSolutions blob rest).bind fun tests =>
    .done ({ filename := s.filename, language := language, source := source, solution := some s.expects
             input := none } :: tests)

/-- cmd/omegaup-grader/ci.go:516-557. -/
def readInputs (blob : Str → Option Str) (cases : List (Str × Option Case)) : Option InputsValidator →
    Build (List Test)
  | none => .done []
  | some v =>
    (orError (testLanguage v.language v.filename)).bind fun language =>
    (orError (blob (sTests ++ v.filename))).bind fun source =>
    .done [{ filename := v.filename, language := sCpp11, source := copyProgram, solution := none
             input := some
              { cases := cases, limits := none, interactive := none
                validator := some { name := sCustom, tolerance := none
                                    custom := some { source := source, language := language, limits := none } } } }]

/-- `createCIRunConfigFromGit` (cmd/omegaup-grader/ci.go:298-560). The message for a repository that cannot be opened asks the nil repository
for its path. -/
def createConfig (D : Decoders) : Repo → Build (Option Config)
  | .gone => .crash
  | .noCommit => .error
  | .tree blob =>
    match (blob sTestsJson).bind D.tests with
    | none => .skipped
    | some tests =>
      match (blob sSettingsJson).bind D.settings with
      | none => .skipped
      | some ps =>
        (readGroups blob ps.groups []).bind fun cases =>
        (readValidator blob ps.validator).bind fun validator =>
        match validator with
        | none => .done none
        | some validator =>
          (readInteractive blob ps.interactive).bind fun interactive =>
          (readSolutions blob tests.solutions).bind fun solutions =>
          (readInputs blob cases tests.inputs).bind fun inputs =>
          .done (some { input := { cases := cases, limits := some ps.limits, validator := some validator
                                   interactive := interactive }
                        tests := solutions ++ inputs })

/-! ## Running the tests -/

/-- cmd/omegaup-grader/ci.go:612-615: the maximum score; `none` is the nil dereference of a missing weight. -/
def maxScore : List (Str × Option Case) → Option ℚ
  | [] => some 0
  | (_, none) :: _ => none
  | (_, some c) :: rest => match c.weight, maxScore rest with
    | some w, some s => some (w + s)
    | _, _ => none

/-- What the environment does with a run: one of the operations of `addRun` before queueing it fails (cmd/omegaup-grader/ci.go:624-656), it
finishes but cannot be saved (cmd/omegaup-grader/ci.go:702-705), or it finishes. -/
inductive Env where
  | fails
  | unsaved (r : CI.Result)
  | finishes (r : CI.Result)

/-- What is queued for a test. -/
structure Queued (ι : Type) where
  language : Str
  source : Str
  maxScore : ℚ
  input : Output ι

/-- The caller's input after `NewLiteralInputFactory` failed: what it had changed by then
(/repo/common/literalinput.go:245-248, 338). -/
def touched (R : Runtime) (input : Input) : Input :=
  match Literal.validatorStep input.validator with
  | .ok (_, _, v') =>
    match Literal.casesStep R input.cases [] with
    | .ok _ =>
      match input.interactive with
      | some i =>
        if i.parentLang ∈ Literal.validLanguages ∧ Literal.validInterface i.moduleName = true then
          { input with validator := v'
                       interactive := some { i with parentLang := languageFileExtension i.parentLang } }
        else { input with validator := v' }
      | none => { input with validator := v' }
    | _ => { input with validator := v' }
  | _ => input

/-- What one iteration of the loop of cmd/omegaup-grader/ci.go:873-882 does: crash, or the outcome, what was queued, and the shared input
afterwards. -/
structure Ran (ι : Type) where
  outcome : CI.Outcome
  queued : Option (Queued ι)
  shared : Input

/-- `addRun` (cmd/omegaup-grader/ci.go:603-711). -/
def addRun {ι : Type} (R : Runtime) (T : Tools ι) (shared : Input) (t : Test) (e : Env) : Option (Ran ι) :=
  let input := t.input.getD shared
  match maxScore (R.range 5 input.cases) with
  | none => none
  | some m =>
    match newLiteralInput R T input with
    | .panic => none
    | .err _ => some { outcome := .err, queued := none
                       shared := if t.input.isNone then touched R input else shared }
    | .ok o =>
      let q : Queued ι := { language := t.language, source := t.source, maxScore := m, input := o }
      let shared := if t.input.isNone then o.input else shared
      match e with
      | .fails => some { outcome := .err, queued := none, shared := shared }
      | .unsaved _ => some { outcome := .err, queued := some q, shared := shared }
      | .finishes r => some { outcome := .done r, queued := some q, shared := shared }

/-- The loop of cmd/omegaup-grader/ci.go:871-882, with the map orders and the environment of each iteration. -/
def runAll {ι : Type} (T : Tools ι) : Input → List (Test × Runtime × Env) → Option (List (Test × Ran ι))
  | _, [] => some []
  | shared, (t, R, e) :: rest =>
    match addRun R T shared t e with
    | none => none
    | some x => (runAll T x.shared rest).map fun l => (t, x) :: l

/-- How a CI request ends: the grader crashed, the report's final state without tests, or with them. -/
inductive Finished (ι : Type) where
  | crash
  | stopped (state : CI.CIState)
  | ran (tests : List (Test × Ran ι)) (states : List CI.CIState × CI.CIState)

/-- `processCIRequest` (cmd/omegaup-grader/ci.go:837-906). `env i` is what happens during the `i`-th test. -/
def process {ι : Type} (D : Decoders) (T : Tools ι) (repo : Repo) (env : Nat → Runtime × Env) : Finished ι :=
  match createConfig D repo with
  | .crash => .crash
  | .skipped => .stopped CI.skipped
  | .error => .stopped CI.error
  | .done none => .crash
  | .done (some cfg) =>
    match runAll T cfg.input (cfg.tests.zipIdx.map fun p => (p.1, env p.2)) with
    | none => .crash
    | some l => .ran l (CI.processTests (l.map fun p => ({ solution := p.1.solution }, p.2.outcome)))

end Quark.CIConfig
