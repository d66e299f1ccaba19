import Mathlib.Data.Rat.Defs

/-!
# `omegaup-runner -oneshot=run`

Model of `runOneshotRun` (/repo/cmd/omegaup-runner/main.go:108-235) with the part of `main` around it (254-283), and of
`oneshotInput` (/repo/cmd/omegaup-runner/oneshot_input.go).

Simplifications: what files contain when read, and what `runner.Grade` does (other areas), are given by a `World`.
Logging, and errors of writing to standard output, are left out. The input manager hands out the settings read by
`Persist` (`oneshotInput.Verify` always fails, so that `InputManager.Add` always calls it). Symbolic links are left out.
-/
namespace Quark.Oneshot

abbrev Bytes := List UInt8
abbrev Text := List Char

/-- `common.Run` (/repo/common/run.go:24-32). -/
structure Run where
  attemptId : Nat := 0
  source : Bytes := []
  language : Text := []
  problem : Text := []
  inputHash : Text := []
  maxScore : Option ℚ := none
  debug : Bool := false
deriving DecidableEq

/-- The command line (/repo/cmd/omegaup-runner/main.go:34-49); an option that is not given is empty. -/
structure Flags where
  input : Text := []
  request : Text := []
  source : Text := []
  results : Text := []
  debug : Bool := false

/-- What is below a directory, in the order of `filepath.Walk` (by name). -/
inductive Node where
  | file (content : Bytes)
  | pipe
  | dir (children : List (Text × Node))

/-- A path, from the directory that is walked. -/
abbrev RelPath := List Text

/-- What happens when one file is copied (cmd/omegaup-runner/main.go:199-228). -/
inductive Copy where
  /-- everything works -/
  | ok
  /-- `MkdirAll`, `Open` or `Create` fails -/
  | refused
  /-- `io.Copy` fails after that many bytes -/
  | partly (n : Nat)

/-- The outside: files, the grading of a run, and the copies to the results directory. -/
structure World (σ ρ : Type) where
  /-- the JSON request in a file; `none`: it cannot be opened or decoded (cmd/omegaup-runner/main.go:114-124) -/
  readRequest : Text → Option Run
  /-- the bytes of a file; `none`: it cannot be read (cmd/omegaup-runner/main.go:126-131) -/
  readSource : Text → Option Bytes
  /-- `settings.json` in a directory; `none`: it cannot be opened or decoded (cmd/omegaup-runner/oneshot_input.go:69-82) -/
  readSettings : Text → Option σ
  /-- `runner.Grade` (cmd/omegaup-runner/main.go:170): its result, `none` being an error, and what it leaves in the directory of the run
  if files are preserved -/
  grade : Run → Text → σ → Option ρ × List (Text × Node)
  copy : RelPath → Copy

/-- `path.Ext` of the Go library (used at cmd/omegaup-runner/main.go:133): the suffix from the last dot of the last element. -/
def extRev : Text → Text → Text
  | [], _ => []
  | c :: rest, acc => if c = '/' then [] else if c = '.' then '.' :: acc else extRev rest (c :: acc)

def ext (p : Text) : Text := extRev p.reverse []

/-- cmd/omegaup-runner/oneshot_input.go:12-14: forty zeros. -/
def inputHash : Text := List.replicate 40 '0'

/-- cmd/omegaup-runner/main.go:108-148: the run that is asked for; `none`: an error was logged. -/
def theRun {σ ρ : Type} (w : World σ ρ) (ofF : ℚ → ℚ) (f : Flags) : Option Run :=
  if f.input = [] then none
  else
    let run : Option Run :=
      if f.request ≠ [] then w.readRequest f.request
      else if f.source ≠ [] then
        match w.readSource f.source with
        | none => none
        | some b =>
          match ext f.source with
          | [] => none
          | _ :: lang => some { source := b, language := lang, maxScore := some (ofF 100) }
      else none
    run.map fun r => { r with debug := if f.debug then true else r.debug, inputHash := inputHash }

/-- The entries of a walk, directories left out (cmd/omegaup-runner/main.go:186-198-198). -/
inductive Entry where
  | file (content : Bytes)
  | pipe
deriving DecidableEq

mutual
/-- `filepath.Walk` (cmd/omegaup-runner/main.go:183-185). -/
def walk (at_ : RelPath) : Node → List (RelPath × Entry)
  | .file c => [(at_, .file c)]
  | .pipe => [(at_, .pipe)]
  | .dir children => walkAll at_ children
def walkAll (at_ : RelPath) : List (Text × Node) → List (RelPath × Entry)
  | [] => []
  | (n, x) :: rest => walk (at_ ++ [n]) x ++ walkAll at_ rest
end

/-- The results directory: file contents by path. -/
abbrev Dest := RelPath → Option Bytes

def Dest.put (d : Dest) (p : RelPath) (c : Bytes) : Dest := fun q => if q = p then some c else d q

/-- How the copying ends. -/
inductive End where
  | done
  /-- the walk returned an error (cmd/omegaup-runner/main.go:227-229) -/
  | stopped
  /-- `os.Open` of a named pipe that nobody writes to does not return (cmd/omegaup-runner/main.go:211-215) -/
  | hangs
deriving DecidableEq

/-- The callback of the walk on the entries in order (cmd/omegaup-runner/main.go:186-228). -/
def copyAll (copy : RelPath → Copy) : Dest → List (RelPath × Entry) → Dest × End
  | d, [] => (d, .done)
  | d, (_, .pipe) :: _ => (d, .hangs)
  | d, (p, .file c) :: rest =>
    match copy p with
    | .ok => copyAll copy (d.put p c) rest
    | .refused => (d, .stopped)
    | .partly n => (d.put p (c.take n), .stopped)

/-- What the program does. -/
structure Outcome (ρ : Type) where
  /-- the result printed as JSON to the standard output, if any -/
  printed : Option ρ := none
  /-- the results directory afterwards -/
  dest : Dest
  /-- whether the program ends (always with exit status 0, errors being only logged) -/
  ends : Bool := true
  /-- what remains of the directory of the run -/
  left : List (Text × Node) := []

/-- cmd/omegaup-runner/main.go:108-235, and the removal of the temporary directory by `main` (cmd/omegaup-runner/main.go:261-263). `preserve`: the
configuration or the environment asks to keep the files (cmd/omegaup-runner/main.go:258-260). -/
def runOneshot {σ ρ : Type} (w : World σ ρ) (ofF : ℚ → ℚ) (f : Flags) (preserve : Bool) (dest : Dest) : Outcome ρ :=
  match theRun w ofF f with
  | none => { dest := dest }
  | some run =>
    match w.readSettings f.input with
    | none => { dest := dest }
    | some settings =>
      let g := w.grade run f.input settings
      match g.1 with
      | none => { dest := dest, left := if preserve then g.2 else [] }
      | some result =>
        if f.results = [] then { printed := some result, dest := dest, left := if preserve then g.2 else [] }
        else
          let c := copyAll w.copy dest (walkAll [] g.2)
          { printed := some result, dest := c.1, ends := c.2 ≠ .hangs,
            left := if preserve || c.2 = .hangs then g.2 else [] }

end Quark.Oneshot
