import Verif.Grade.Props2

/-!
# Open files while a run is graded

`Grade` closes the files it compares when it returns, not when it has compared them (/repo/runner/runner.go:1155 and
1167, `defer` in a loop), and `createZipFile` those it packs when it returns (1293). A process may only have so many
files open. This is the model of `Verif.Grade` where files cannot be opened when too many are; custom validators, whose
processes need descriptors of their own, are not considered.
-/

namespace Quark.Fds

open Quark.Grade
open Quark.Validator (Env)

/-- What `Grade` holds open, and how many times it has asked for a file. -/
structure Fds where
  held : Nat := 0
  asked : Nat := 0
  deriving DecidableEq

/-- `os.Open`: the file is there, and there is a descriptor. `free k` is the number of descriptors that the rest of the
process leaves to `Grade` when it asks for the `k`-th time (connections, other goroutines). -/
def openFile {β : Type} (free : Nat → Nat) (s : Fds) (file : Option β) : Fds × Option β :=
  match file with
  | none => ({ s with asked := s.asked + 1 }, none)
  | some b =>
    if s.held < free s.asked then ({ held := s.held + 1, asked := s.asked + 1 }, some b)
    else ({ s with asked := s.asked + 1 }, none)

/-- Opening the two files of a case (/repo/runner/runner.go:1150-1167): if the first cannot be had, the second is not
tried. What cannot be opened is as if it were not there. -/
def openCase (free : Nat → Nat) (s : Fds) (c : Case) : Fds × Case :=
  match openFile free s c.contestantOut with
  | (s, none) => (s, { c with contestantOut := none })
  | (s, some _) =>
    let (s, e) := openFile free s c.expectedOut
    (s, { c with expectedOut := e })

/-- The cases of a group: those that ran well are compared (/repo/runner/runner.go:1079-1081). -/
def openCases (free : Nat → Nat) : Fds → List (Case × CaseResult) → Fds × List Case
  | s, [] => (s, [])
  | s, (c, r) :: rest =>
    let (s, c) := if r.verdict = .OK then openCase free s c else (s, c)
    let (s, cs) := openCases free s rest
    (s, c :: cs)

/-- The loop over the groups (/repo/runner/runner.go:1076). -/
def openGroups (free : Nat → Nat) : Fds → List (Group × List (Case × CaseResult)) → Fds × List Group
  | s, [] => (s, [])
  | s, (g, xs) :: rest =>
    let (s, cs) := openCases free s xs
    let (s, gs) := openGroups free s rest
    (s, { g with cases := cs } :: gs)

/-- The loop of `createZipFile` (/repo/runner/runner.go:1288-1303): files that cannot be opened are left out. Errors of
writing are not modelled. -/
def archive (free : Nat → Nat) : Fds → List (String × Option (List UInt8)) → Fds × List (String × List UInt8)
  | s, [] => (s, [])
  | s, (name, file) :: rest =>
    match openFile free s file with
    | (s, none) => archive free s rest
    | (s, some b) =>
      let (s, ms) := archive free s rest
      (s, (name, b) :: ms)

/-- `uploadFiles` and `createZipFile` (/repo/runner/runner.go:1259-1306): the archive gets a temporary file, which is
opened again to be sent, when the files that were packed are closed. `none` is an error. A runner always has somewhere to
send the files to. -/
def upload (free : Nat → Nat) (s : Fds) (files : List (String × Option (List UInt8))) :
    Option (List (String × List UInt8)) :=
  if s.held < free s.asked then
    let (s', ms) := archive free { held := s.held + 1, asked := s.asked + 1 } files
    if s.held < free s'.asked then some ms else none
  else none

/-- What a runner sends (/repo/runner/runner.go:443-1257 and /repo/cmd/omegaup-runner/main.go:540-560): the result and
the files, of those that were generated. An error of `Grade` is reported as a fresh JE. -/
def outcome (free : Nat → Nat) (env : Env) (p : Problem) (files : List (String × Option (List UInt8))) :
    RunResult × List (String × List UInt8) :=
  if p.setup = .ok ∧ (compileAll p.compiles).2 = true then
    let (s, gs) := openGroups free {} (runGroups p { events := (compileAll p.compiles).1 } p.groups).2
    match upload free s files with
    | some ms => (grade env { p with groups := gs }, ms)
    | none => ({ verdict := .JE, score := 0, contestScore := 0, maxScore := p.maxScore }, [])
  else (grade env p, [])

-- Execution does not look at the files that are compared later.
example (p : Problem) (gs : List Group) (wall : ℚ) (c : Case) (a b : Option (List UInt8)) :
    execCase { p with groups := gs } wall { c with contestantOut := a, expectedOut := b } = execCase p wall c := rfl

end Quark.Fds
