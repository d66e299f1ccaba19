import Verif.Path.Model

/-!
# Names of files

The places where /repo turns a number, a hash or a name that came from outside into a path.
-/

namespace Quark.Files

open Path

/-- The digit of a number below ten. -/
def digit (n : Nat) : Char := Char.ofNat (n + 48)

/-- `%d` of a natural number. -/
def dec (n : Nat) : List Char :=
  if n < 10 then [digit n] else dec (n / 10) ++ [digit (n % 10)]
decreasing_by omega

/-- `%d` of an `int64`. -/
def fmtD (i : Int) : List Char := if i < 0 then '-' :: dec i.natAbs else dec i.natAbs

/-- `%02d` of an `int64`: at least two characters, filled up with zeros after the sign. -/
def fmt02D (i : Int) : List Char :=
  if i < 0 then '-' :: dec i.natAbs
  else if (dec i.natAbs).length < 2 then '0' :: dec i.natAbs else dec i.natAbs

/-- `gradeDir` (/repo/cmd/omegaup-grader/frontend_handler.go:257-262). Go's `%` and `/` truncate. -/
def gradeDir (runtimeGradePath : List Char) (runID : Int) : List Char :=
  join [runtimeGradePath,
    fmt02D (runID.tmod 100) ++ '/' :: fmt02D ((runID.tmod 10000).tdiv 100) ++ '/' :: fmtD runID]

/-- The handler of `/run/resource/` (cmd/omegaup-grader/frontend_handler.go:722-738): the file it opens, or `none` when it answers
with an error before that. -/
def resource (runtimeGradePath : List Char) (runID : Int) (filename : List Char) : Option (List Char) :=
  if runID = 0 then none
  else if filename = [] ∨ filename.head? = some '.' ∨ '/' ∈ filename then none
  else some (join [gradeDir runtimeGradePath runID, filename])

/-- A lowercase hexadecimal digit. -/
def isHex (c : Char) : Bool := ('0' ≤ c ∧ c ≤ '9') ∨ ('a' ≤ c ∧ c ≤ 'f')

/-- The handler of `/submission/source/` (cmd/omegaup-grader/frontend_handler.go:669-682) for the last part of the URL. -/
def submissionSource (runtimePath guid : List Char) : Option (List Char) :=
  if guid.length ≠ 32 ∨ ¬ guid.all isHex then none
  else some (join [runtimePath, "submissions".toList, guid.take 2, guid.drop 2])

/-- `InputFactory.NewInput` of the grader (/repo/grader/input.go:393-397): where an archive is kept. -/
def archivePath (runtimePath hash : List Char) : List Char :=
  join [runtimePath, "cache".toList, hash.take 2 ++ '/' :: hash.drop 2 ++ ".tar.gz".toList]

/-- `InputFactory.NewInput` of the runner (/repo/runner/input.go:69-73): where an input is unpacked. -/
def runnerPath (runtimePath hash : List Char) : List Char :=
  join [runtimePath, "input".toList, hash.take 2 ++ '/' :: hash.drop 2]

/-- A character allowed in the problem part of a CI URL, `[a-zA-Z0-9-_]` (/repo/cmd/omegaup-grader/ci.go:65). -/
def isAlias (c : Char) : Bool :=
  ('a' ≤ c ∧ c ≤ 'z') ∨ ('A' ≤ c ∧ c ≤ 'Z') ∨ ('0' ≤ c ∧ c ≤ '9') ∨ c = '-' ∨ c = '_'

/-- `ciHandler.ServeHTTP` (cmd/omegaup-grader/ci.go:721-741): the report's path for the two parts the URL has to have. -/
def ciReport (runtimePath problem commit : List Char) : Option (List Char) :=
  if problem = [] ∨ ¬ problem.all isAlias ∨ commit.length ≠ 40 ∨ ¬ commit.all isHex then none
  else some (join [runtimePath, "ci".toList, problem, commit.take 2, commit.drop 2, "report.json.gz".toList])

/-- `getStoredHashes` (/repo/runner/input.go:142, 162-168): the file that a line of the `.sha1` file names;
`none` when it is rejected as outside of the directory. -/
def storedPath (inputPath name : List Char) : Option (List Char) :=
  let filePath := join [dir inputPath, name]
  if inputPath.isPrefixOf filePath then some filePath else none

/-- `persistFromTarStream` (runner/input.go:183, 223): where a member of the archive is written. -/
def unpackPath (inputPath name : List Char) : List Char := join [inputPath ++ ".tmp".toList, name]

/-- `processRun` (/repo/cmd/omegaup-grader/runner_handler.go:102): where an uploaded file is written. `fileName`
is the result of `part.FileName()`, which is what the sender wrote for Go before 1.17 (go.mod says 1.13), and
its `filepath.Base` from then on. -/
def uploadPath (gradeDir fileName : List Char) : List Char := join [gradeDir, fileName]

end Quark.Files
