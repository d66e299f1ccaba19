import Verif.ErrorFile.Model

/-!
# Compiling all programs of a run

Model of the part of `Grade` (/repo/runner/runner.go:443-795) that decides which programs are compiled and what becomes of
it, and of what the runner makes of the answer (/repo/cmd/omegaup-runner/main.go:540-545). What one call of the sandbox does
to the files is `Verif.ErrorFile.Model`.

Simplifications. Setting up the directories succeeds (see `Verif.Sandbox`). Names are lists of characters. The map of
interfaces is a list in the order in which Go happens to visit it. The `CompileMeta` map is a list of pairs with the names
in the order in which they were first stored. The noop sandbox is in `Verif.Noop`.
-/

namespace Quark.CompileAll
open Quark.ErrorFile (Jail Compiled compile getCompileError)
open Quark.MetaFile (Meta Verdict)

abbrev Str := List Char

/-- runner/runner.go:233-239: whose program it is. -/
inductive Kind where
  | contestant | problemsetter | validator
  deriving DecidableEq, Repr

/-- A program to be compiled (runner/runner.go:495-548, 678-693, 716-732), with what will happen to it. -/
structure Program where
  name : Str
  target : Str
  language : String
  kind : Kind
  /-- Whether all its sources are in its directory (runner/sandbox.go:190-203). -/
  sourcesInside : Bool := true
  /-- What the compiler and the sandbox leave in the files. -/
  jail : Jail
  /-- Whether there is a class file, for Java. -/
  classFound : Bool := true

/-- runner/runner.go:746-750 for the validator, 490-493 for the parent of an interactive problem. -/
def Program.compilerLanguage (p : Program) : String :=
  if p.kind ≠ .contestant ∧ p.language = "cpp" then "cpp11" else p.language

/-- `OmegajailSandbox.Compile` (runner/sandbox.go:159-246): the metadata, whether there is an error, and the files. -/
def sandboxCompile (p : Program) : Meta × Bool × Compiled :=
  if !p.sourcesInside then ({ verdict := .JE, exitStatus := -1 }, true, ⟨none, none, none⟩)
  else
    let c := compile p.compilerLanguage p.target p.classFound p.jail
    match c.info with
    | none => ({ verdict := .JE, exitStatus := -1 }, true, c)
    | some (m, err) => (m, err, c)

/-- The result of `Grade` as far as it is made here. -/
structure Result where
  /-- `Verdict`; OK when the cases are going to be run (runner/runner.go:797). -/
  verdict : Verdict := .JE
  compileMeta : List (Str × Meta) := []
  compileError : Option Str := none
  /-- Whether `Grade` returns an error besides. -/
  err : Bool := false
  deriving DecidableEq

/-- `runResult.CompileMeta[name] = m`. -/
def store (name : Str) (m : Meta) : List (Str × Meta) → List (Str × Meta)
  | [] => [(name, m)]
  | (n, x) :: l => if n = name then (n, m) :: l else (n, x) :: store name m l

/-- runner/runner.go:738-793: the loop. `missing` is the text of the error for a file that cannot be opened. -/
def compileAll (missing : Str) : List Program → List (Str × Meta) → Result
  | [], done => { verdict := .OK, compileMeta := done }
  | p :: ps, done =>
    let r := sandboxCompile p
    let done := store p.name r.1 done
    if r.2.1 ∨ r.1.verdict ≠ .OK then
      { verdict := .CE
        compileMeta := done
        compileError := some (p.name ++ [':', '\n'] ++
          getCompileError missing (if p.language = "pas" ∨ p.language = "cs" then r.2.2.out else r.2.2.err))
        err := r.2.1 }
    else compileAll missing ps done

/-- "Main". -/
def mainName : Str := ['M', 'a', 'i', 'n']

/-- What is submitted (runner/runner.go:485, 653). -/
inductive Submission where
  /-- For an interactive problem: the parent, and each interface in the order of the map with its program, or `none` if it
  has no files for the language (runner/runner.go:519-525). -/
  | interactive (parent : Program) (interfaces : List (Option Program)) (unsupported : Str)
  /-- For an output-only problem (runner/runner.go:653-664): the error of `parseOutputOnlyFile`, if any. -/
  | outputOnly (parseError : Option Str)
  /-- Anything else (runner/runner.go:665-694). -/
  | single (main : Program)

/-- runner/runner.go:515-548: the binaries of the interfaces, `none` when one is not supported. -/
def allOf : List (Option Program) → Option (List Program)
  | [] => some []
  | none :: _ => none
  | some p :: ps => (allOf ps).map (p :: ·)

/-- runner/runner.go:443-795: `Grade` up to the end of compiling; `validator` is the custom validator's program, if there is
one. -/
def grade (missing : Str) (s : Submission) (validator : Option Program) : Result :=
  match s with
  | .interactive parent interfaces unsupported =>
    match allOf interfaces with
    | none => { verdict := .CE, compileError := some unsupported }
    | some ps => compileAll missing (parent :: ps ++ validator.toList) []
  | .outputOnly (some e) => { verdict := .CE, compileError := some e }
  | .outputOnly none => compileAll missing validator.toList [(mainName, { verdict := .OK, exitStatus := 0 })]
  | .single main => compileAll missing ([main] ++ validator.toList) []

/-- cmd/omegaup-runner/main.go:540-545: what is sent to the grader. `NewRunResult` (runner/runner.go:156-163) has neither metadata nor an error. -/
def sent (r : Result) : Result := if r.err then { verdict := .JE } else r

end Quark.CompileAll
