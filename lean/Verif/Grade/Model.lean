import Verif.MetaFile.Props
import Verif.Validator.Model

/-!
Model of `Grade`, /repo/runner/runner.go:443-1257.

Everything outside the function (sandbox, file system, compiler) is a parameter: each case carries
what the sandbox and the file system *would* answer if it is executed and validated. Each case is
executed at most once, so quantifying over these answers covers every behaviour of the outside.

Simplifications: the preparation of source files (runner/runner.go:484-710) is one parameter `setup`
(it can fail with an I/O error, report an unsupported language, or succeed); path names, log
entries, tracing events, metrics, the zip upload (which does not change the result, 1244-1256), and
CompileMeta are left out; binary64 times are finite, additions round to nearest.
Verdict strings are the type `Verdict`; `C11_worse` shows that `worse` is the code's `worseVerdict`.
-/
namespace Quark.Grade
open Quark.MetaFile (Verdict worse)
open Quark.Validator (Env Settings)
open Quark.Tokenizer (ReadChoice)

/-- runner/sandbox.go:89-98 `RunMetadata`. -/
structure ProcMeta where
  verdict : Verdict
  exitStatus : Int := 0
  time : ℚ := 0
  systemTime : ℚ := 0
  wallTime : ℚ := 0
  memory : Int := 0
  signal : Option String := none
  syscall : Option String := none
deriving DecidableEq

/-- runner.go `binaryType` of the binaries that are executed for a case. -/
inductive Kind where
  | problemsetter
  | contestant
deriving DecidableEq

/-- runner.go `intermediateRunResult`: what arrives on the channel for one process. -/
structure Proc where
  name : String
  kind : Kind
  result : ProcMeta

/-- One case: its settings (common/problemsettings.go:58-62) and the answers of the outside world. -/
structure Case where
  name : String
  weight : ℚ
  /-- results of the processes, in order of arrival -/
  procs : List Proc
  /-- output-only: the submitted file for this case, `some true` if it was too large -/
  catFile : Option Bool := none
  /-- contents of the contestant's, expected and validator's outputs; `none` = cannot be opened -/
  contestantOut : Option (List UInt8)
  expectedOut : Option (List UInt8)
  /-- the metadata the sandbox returns for the custom validator's process (runner/runner.go:1103-1118) -/
  validatorMeta : ProcMeta := { verdict := .OK }
  validatorOut : Option (List UInt8) := none
  /-- how the reads of the two files being compared behave -/
  readsE : List ReadChoice := []
  readsC : List ReadChoice := []

/-- runner/runner.go:1135: `validateMeta.Verdict`. -/
def Case.validatorVerdict (c : Case) : Verdict := c.validatorMeta.verdict

/-- common/problemsettings.go:102-106 -/
structure Group where
  name : String
  cases : List Case

/-- Outcome of the preparation of the source files. -/
inductive Setup where
  | ok
  | ioError
  | unsupportedLanguage
deriving DecidableEq

/-- One binary and what compiling it returns. -/
structure Compile where
  name : String
  err : Bool
  verdict : Verdict

/-- The inputs of `Grade`. -/
structure Problem where
  maxScore : ℚ
  groups : List Group
  wallLimit : ℚ
  validator : Settings
  cat : Bool := false
  setup : Setup := .ok
  compiles : List Compile

/-- Observable actions. -/
inductive Event where
  | compile (binary : String)
  | exec (case proc : String)
  | validate (case : String)
deriving DecidableEq

/-- runner/runner.go:25-33 `CaseResult` -/
structure CaseResult where
  name : String
  verdict : Verdict
  wallTime : ℚ
  score : ℚ
  contestScore : ℚ
  maxScore : ℚ
  /-- `Meta` -/
  details : ProcMeta := { verdict := .OK }
  /-- `IndividualMeta`, as an association list -/
  individual : List (String × ProcMeta) := []
deriving DecidableEq

/-- runner/runner.go:88-94 `GroupResult` -/
structure GroupResult where
  name : String
  score : ℚ
  contestScore : ℚ
  maxScore : ℚ
  cases : List CaseResult
deriving DecidableEq

/-- runner/runner.go:141-153 `RunResult`, with the list of observable actions. -/
structure RunResult where
  verdict : Verdict
  score : ℚ
  contestScore : ℚ
  maxScore : ℚ
  time : ℚ := 0
  wallTime : ℚ := 0
  memory : Int := 0
  groups : List GroupResult := []
  events : List Event := []
deriving DecidableEq

/-- common/problemsettings.go:111-117 `GroupSettings.Weight` -/
def Group.weight (g : Group) : ℚ := (g.cases.map Case.weight).sum

/-- runner/runner.go:471-477: the sum of all weights. -/
def totalWeight (p : Problem) : ℚ := (p.groups.map Group.weight).sum

/-- runner/runner.go:478-482 `totalWeightFactor` -/
def factor (p : Problem) : ℚ := if totalWeight p ≤ 0 then 1 else 1 / totalWeight p

/-- float64 addition, see Verif/Float. -/
def fadd (a b : ℚ) : ℚ := Float.roundQ (a + b)

/-- State of the collection loop, runner/runner.go:963-971. -/
structure Collect where
  parent : Option ProcMeta := none
  chosen : ProcMeta := { verdict := .OK }
  chosenEmpty : Bool := true
  verdict : Verdict := .OK
  time : ℚ := 0
  wallTime : ℚ := 0
  memory : Int := 0

/-- runner/runner.go:972-999: one received result. -/
def collectStep (s : Collect) (r : Proc) : Collect :=
  match r.kind with
  | .problemsetter => { s with parent := some r.result }
  | .contestant =>
    let s := if r.result.verdict ≠ .OK ∧ s.chosenEmpty
      then { s with chosen := r.result, chosenEmpty := false } else s
    { s with
      verdict := worse s.verdict r.result.verdict
      time := fadd s.time r.result.time
      wallTime := max s.wallTime r.result.wallTime
      memory := s.memory + max s.memory r.result.memory }

/-- runner/runner.go:1007-1036: the parent failed although the children did not. -/
def parentVerdict (m : ProcMeta) : Verdict :=
  if m.verdict = .OLE then .OLE
  else if m.verdict = .TLE then .TLE
  else if m.exitStatus = 239 then .RTE
  else if m.exitStatus = 240 then .RTE
  else if m.exitStatus = 241 then .RTE
  else if m.exitStatus = 242 then .RTE
  else if m.signal = some "SIGPIPE" then .RTE
  else .JE

/-- runner/runner.go:963-1038: metadata of a case from its processes' results. -/
def collect (procs : List Proc) : ProcMeta :=
  let s := procs.foldl collectStep {}
  let m := { s.chosen with
    verdict := s.verdict, time := s.time, wallTime := s.wallTime, memory := s.memory }
  match s.parent with
  | some pm => if pm.verdict ≠ .OK ∧ m.verdict = .OK then { m with verdict := parentVerdict pm } else m
  | none => m

/-- Accumulated state of the execution loop. -/
structure RunState where
  verdict : Verdict := .OK
  time : ℚ := 0
  wallTime : ℚ := 0
  memory : Int := 0
  events : List Event := []

/-- runner/runner.go:802-1038: the metadata of a case, and the actions it causes. -/
def execCase (p : Problem) (wall : ℚ) (c : Case) : ProcMeta × List Event :=
  if p.wallLimit < wall then ({ verdict := .TLE }, [])
  else if p.cat then
    match c.catFile with
    | some ole => ({ verdict := if ole then .OLE else .OK }, [])
    | none => ({ verdict := .RTE }, [])
  else (collect c.procs, c.procs.map fun r => .exec c.name r.name)

/-- Storing into a Go map, kept as an association list. -/
def store (k : String) (v : ProcMeta) (l : List (String × ProcMeta)) : List (String × ProcMeta) :=
  (k, v) :: l.filter fun e => e.1 ≠ k

/-- runner/runner.go:804,974-977: `individualMeta`, stored only if there is more than one process. -/
def individualOfProcs (p : Problem) (wall : ℚ) (c : Case) : List (String × ProcMeta) :=
  if p.wallLimit < wall ∨ p.cat then []
  else if c.procs.length ≠ 1 then
    c.procs.foldl (fun l r => store r.name r.result l) []
  else []

/-- The same with the entry of a custom validator, runner/runner.go:1128. Simplification: it is stored during validation, but
nothing reads the map in between. -/
def individualOf (p : Problem) (wall : ℚ) (c : Case) : List (String × ProcMeta) :=
  if (execCase p wall c).1.verdict = .OK ∧ p.validator.name = "custom" then
    store "validator" c.validatorMeta (individualOfProcs p wall c)
  else individualOfProcs p wall c

/-- runner/runner.go:801-1057: one case of the execution loop. -/
def runCase (p : Problem) (s : RunState) (c : Case) : RunState × CaseResult :=
  let (m, ev) := execCase p s.wallTime c
  ({ verdict := worse s.verdict m.verdict
     time := fadd s.time m.time
     wallTime := fadd s.wallTime m.wallTime
     memory := max s.memory m.memory
     events := s.events ++ ev },
   { name := c.name
     verdict := m.verdict
     wallTime := m.wallTime
     score := 0
     contestScore := 0
     maxScore := p.maxScore * (c.weight * factor p)
     details := m
     individual := individualOf p s.wallTime c })

def runCases (p : Problem) : RunState → List Case → RunState × List (Case × CaseResult)
  | s, [] => (s, [])
  | s, c :: cs =>
    let (s₁, r) := runCase p s c
    let (s₂, rs) := runCases p s₁ cs
    (s₂, (c, r) :: rs)

/-- runner/runner.go:799-1069: the execution loop. Each case stays paired with its result, as the
indices `i`, `j` do in the code. -/
def runGroups (p : Problem) : RunState → List Group → RunState × List (Group × List (Case × CaseResult))
  | s, [] => (s, [])
  | s, g :: gs =>
    let (s₁, rs) := runCases p s g.cases
    let (s₂, rest) := runGroups p s₁ gs
    (s₂, (g, rs) :: rest)

/-- State of the validation of a group (runner/runner.go:1077-1078) with the run verdict. -/
structure ValState where
  verdict : Verdict
  correct : Bool := true
  score : ℚ := 0
  events : List Event := []

/-- runner/runner.go:1084-1163: the files that are compared; `none` = it cannot be opened. -/
def comparedFiles (p : Problem) (c : Case) : Option (List UInt8) × Option (List UInt8) :=
  if p.validator.name = "custom" then
    (if c.validatorVerdict ≠ .OK then some [] else c.validatorOut, some [])
  else (c.contestantOut, c.expectedOut)

/-- The score `CalculateScore` gives (runner/runner.go:1170-1188). -/
def caseScore (env : Env) (p : Problem) (c : Case) (expected contestant : List UInt8) : ℚ :=
  match Validator.calculateScore env p.validator expected contestant c.readsE c.readsC with
  | some r => r.score
  | none => 0

/-- runner/runner.go:1079-1212: validate one case. -/
def validateCase (env : Env) (p : Problem) (s : ValState) (c : Case) (r : CaseResult) :
    ValState × CaseResult :=
  if r.verdict = .OK then
    match comparedFiles p c with
    | (some contestant, some expected) =>
      let q := caseScore env p c expected contestant
      let s := { s with
        score := s.score + q * (c.weight * factor p)
        events := s.events ++ [.validate c.name] }
      let r := { r with
        score := r.score + q
        contestScore := p.maxScore * (c.weight * factor p) * (r.score + q) }
      if q = 1 then (s, { r with verdict := .AC })
      else
        let s := { s with verdict := worse s.verdict .PA }
        if q = 0 then ({ s with correct := false }, { r with verdict := .WA })
        else (s, { r with verdict := .PA })
    | _ => (s, r)
  else ({ s with correct := false }, r)

def validateCases (env : Env) (p : Problem) :
    ValState → List (Case × CaseResult) → ValState × List CaseResult
  | s, [] => (s, [])
  | s, (c, r) :: rest =>
    let (s₁, r₁) := validateCase env p s c r
    let (s₂, rs) := validateCases env p s₁ rest
    (s₂, r₁ :: rs)

/-- runner/runner.go:1076-1221: the validation loop; carries the run's verdict and score. -/
def validateGroups (env : Env) (p : Problem) :
    Verdict → ℚ → List Event → List (Group × List (Case × CaseResult)) →
      Verdict × ℚ × List Event × List GroupResult
  | v, sc, ev, [] => (v, sc, ev, [])
  | v, sc, ev, (g, cs) :: rest =>
    let (s, rs) := validateCases env p { verdict := v, events := ev } cs
    let gScore := if s.correct then s.score else 0
    let gr : GroupResult :=
      { name := g.name
        score := gScore
        contestScore := if s.correct then p.maxScore * s.score else 0
        maxScore := p.maxScore * (g.weight * factor p)
        cases := rs }
    let (v', sc', ev', grs) := validateGroups env p s.verdict (sc + gScore) s.events rest
    (v', sc', ev', gr :: grs)

/-- runner/runner.go:738-793: the compilation loop. Returns the actions and whether all succeeded. -/
def compileAll : List Compile → List Event × Bool
  | [] => ([], true)
  | b :: bs =>
    if b.err ∨ b.verdict ≠ .OK then ([.compile b.name], false)
    else
      let (ev, ok) := compileAll bs
      (.compile b.name :: ev, ok)

/-- runner/runner.go:443-1257 `Grade`. -/
def grade (env : Env) (p : Problem) : RunResult :=
  match p.setup with
  | .ioError => { verdict := .JE, score := 0, contestScore := 0, maxScore := p.maxScore }
  | .unsupportedLanguage => { verdict := .CE, score := 0, contestScore := 0, maxScore := p.maxScore }
  | .ok =>
    let (cev, ok) := compileAll p.compiles
    if !ok then
      { verdict := .CE, score := 0, contestScore := 0, maxScore := p.maxScore, events := cev }
    else
      let (s, gs) := runGroups p { events := cev } p.groups
      let (v, sc, ev, grs) := validateGroups env p s.verdict 0 s.events gs
      let (v', sc') : Verdict × ℚ :=
        if v = .PA ∧ sc = 0 then (.WA, sc)
        else if v = .OK then (.AC, 1)
        else (v, sc)
      { verdict := v'
        score := sc'
        contestScore := p.maxScore * sc'
        maxScore := p.maxScore
        time := s.time
        wallTime := s.wallTime
        memory := s.memory
        groups := grs
        events := ev }

end Quark.Grade
