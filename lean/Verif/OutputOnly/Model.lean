import Verif.Grade.Props

/-!
# Output-only submissions

Model of `parseOutputOnlyFile` (/repo/runner/runner.go:295-373) and of how `Grade` uses its result
(/repo/runner/runner.go:653-665 and 814-880), on top of the model of `Grade` in Verif/Grade/Model.lean.

Simplifications: file names are lists of characters; whether the submission is a data URL, and whether that is a zip
archive with which members, is a parameter (`Source`), because those are library functions; the files `Grade` writes for
the case are written without error (a failure is only logged in the code; `C15_unopenable_is_accepted` shows what then
happens); the problem is not interactive.
-/

namespace Quark.OutputOnly
open Quark.Grade

/-- A member of the zip archive. -/
structure Entry where
  name : List Char
  /-- the size the directory of the archive announces -/
  size : Nat
  /-- whether `Open` succeeds -/
  opens : Bool
  /-- what decompressing yields -/
  raw : List UInt8
  /-- whether decompressing ends without error and with the right checksum -/
  intact : Bool
deriving DecidableEq

/-- Opening and reading a member to its end (runner/runner.go:351-369). The reader of archive/zip reports an error at the end
if the number of bytes differs from the size announced; that part is the library's. -/
def Entry.read (e : Entry) : Option (List UInt8) :=
  if e.opens then
    if e.raw.length = e.size ∧ e.intact then some e.raw else none
  else none

/-- What the submission is (runner/runner.go:300-311). -/
inductive Source where
  /-- not a data URL -/
  | plain (data : List UInt8)
  /-- a data URL that is not a zip archive -/
  | notZip
  | archive (entries : List Entry)

/-- `outputOnlyFile` (runner/runner.go:262-265) -/
structure OFile where
  contents : List UInt8
  ole : Bool
deriving DecidableEq

/-- the map of runner/runner.go:301 -/
abbrev Files := List Char → Option OFile

/-- Go's conversion `uint64(x)` of an int64 -/
def uint64 (x : Int) : Nat := (x % 2 ^ 64).toNat

/-- `fmt.Sprintf("%s.out", name)` (runner/runner.go:317, 815) -/
def outName (case : List Char) : List Char := case ++ ['.', 'o', 'u', 't']

/-- runner/runner.go:331-334: what follows the last `/` -/
def baseName (name : List Char) : List Char := (name.reverse.takeWhile (· ≠ '/')).reverse

/-- `result[name] = f` -/
def Files.put (m : Files) (name : List Char) (f : OFile) : Files := fun n => if n = name then some f else m n

/-- runner/runner.go:321-371: one member of the archive -/
def parseEntry (limit : Int) (cases : List (List Char)) (m : Files) (e : Entry) : Files :=
  if ¬ (['.', 'o', 'u', 't'] <:+ e.name) then m
  else if baseName e.name ∉ cases.map outName then m
  else if uint64 limit < e.size then m.put (baseName e.name) ⟨[], true⟩
  else
    match e.read with
    | none => m
    | some data => m.put (baseName e.name) ⟨data, false⟩

/-- runner/runner.go:295-373 `parseOutputOnlyFile`; `none` is an error. -/
def parse (limit : Int) (cases : List (List Char)) : Source → Option Files
  | .plain data => some (Files.put (fun _ => none) ['M', 'a', 'i', 'n', '.', 'o', 'u', 't'] ⟨data, false⟩)
  | .notZip => none
  | .archive es => some (es.foldl (parseEntry limit cases) (fun _ => none))

/-- runner/runner.go:814-880: what `Grade` finds for a case, and the output file it writes for it. -/
def fillCase (files : Files) (c : Case) : Case :=
  match files (outName c.name.toList) with
  | some f => { c with catFile := some f.ole, contestantOut := some f.contents }
  | none => { c with catFile := none, contestantOut := some [] }

def fillGroup (files : Files) (g : Group) : Group := { g with cases := g.cases.map (fillCase files) }

/-- The names of all cases, runner/runner.go:314-319. -/
def caseNames (p : Problem) : List (List Char) := (p.groups.flatMap Group.cases).map (fun c => c.name.toList)

/-- runner/runner.go:653-665: problem `p` with this submission. `limit` is the output limit of its settings. An unreadable
archive ends the run with CE, as an unsupported language does. -/
def submit (p : Problem) (limit : Int) (src : Source) : Problem :=
  match parse limit (caseNames p) src with
  | none => { p with cat := true, setup := .unsupportedLanguage }
  | some files => { p with cat := true, setup := .ok, groups := p.groups.map (fillGroup files) }

end Quark.OutputOnly
