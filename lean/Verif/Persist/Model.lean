import Verif.Files.Model

/-!
# Storing inputs on disk

Models of the functions that write inputs to disk and check them again after a restart:

* the grader's archives: `graderBaseInput.Verify`/`Delete` and `Input.Persist` (/repo/grader/input.go:200-266,
  299-353), and `inMemoryInput.Persist`/`Delete` for literal inputs (/repo/common/literalinput.go:469-494, 555-561);
* the runner's directories: `runnerBaseInput.Verify`, `Delete`, `getStoredHashes` and `persistFromTarStream`
  (/repo/runner/input.go:89-283).

A program is a list of file system operations. It can be interrupted between any two operations and in the
middle of a write (of which any prefix may have been done) or of the removal of a directory (of which any part may
be left): the process is killed, or the operation fails. What was written before the process was killed stays, as
the kernel has it; loss of power, where it may not, is not modelled. SHA-1 is a parameter `H` that yields text
without blanks.
-/

namespace Quark.Persist

abbrev Bytes := List Char

/-- `unicode.IsSpace` for the characters that can be in these files. -/
def isSpace (c : Char) : Bool := c = ' ' ∨ c = '\t' ∨ c = '\n' ∨ c = '\r' ∨ c = '\x0b' ∨ c = '\x0c'

/-- The first word of a text (`bufio.ScanWords`), `none` if there is none. -/
def firstWord (t : Bytes) : Option Bytes :=
  match (t.dropWhile isSpace).takeWhile (fun c => ! isSpace c) with
  | [] => none
  | w => some w

/-- The first line of a text (`bufio.ScanLines`), without the line end; `none` for the empty text. -/
def firstLine (t : Bytes) : Option Bytes :=
  if t = [] then none else some (t.takeWhile (· ≠ '\n'))

/-- `strconv.ParseInt(s, 10, 64)` for numbers without a sign; the bound of 64 bits is not modelled. -/
def parseNat (s : Bytes) : Option Nat :=
  if s ≠ [] ∧ s.all (fun c => decide ('0' ≤ c ∧ c ≤ '9')) then
    some (s.foldl (fun a c => a * 10 + (c.toNat - 48)) 0)
  else none

/-! ### Archives of the grader -/

/-- The files of one input. -/
inductive File where
  | archive | tmp | sha1 | len
  deriving DecidableEq

abbrev Disk := File → Option Bytes

def Disk.set (d : Disk) (f : File) (c : Option Bytes) : Disk := fun g => if g = f then c else d g

/-- `Verify` (/repo/grader/input.go:200-225) with `getStoredHash` (:227-243) and `getStoredLength` (:245-259):
the size that is reported, or `none` for an error. -/
def verify (H : Bytes → Bytes) (d : Disk) : Option Nat :=
  match d .archive, d .sha1, d .len with
  | some a, some s, some l =>
    if firstWord s = some (H a) then (firstLine l).bind parseNat else none
  | _, _, _ => none

inductive Op where
  /-- `os.Create`: an empty file, whatever was there. -/
  | create (f : File)
  /-- A write at the end of the file. -/
  | append (f : File) (b : Bytes)
  | rename (f g : File)
  /-- `os.Remove`. -/
  | remove (f : File)

def Op.apply (d : Disk) : Op → Disk
  | .create f => d.set f (some [])
  | .append f b => d.set f ((d f).map (· ++ b))
  | .rename f g => (d.set g (d f)).set f none
  | .remove f => d.set f none

/-- Running a list of operations: `Run ops d d' done`. -/
inductive Run : List Op → Disk → Disk → Bool → Prop
  | done {d} : Run [] d d true
  /-- stopped before the next operation -/
  | stop {op ops d} : Run (op :: ops) d d false
  /-- stopped in the middle of a write -/
  | torn {f b p ops d} : p <+: b → Run (.append f b :: ops) d (Op.apply d (.append f p)) false
  | step {op ops d d' r} : Run ops (op.apply d) d' r → Run (op :: ops) d d' r

/-- `Delete` (/repo/grader/input.go:261-266, and the same in /repo/common/literalinput.go:556-561). Removals are
taken not to fail (other than for files that are not there). -/
def deleteOps : List Op := [.remove .tmp, .remove .sha1, .remove .len, .remove .archive]

/-- `Input.Persist` (/repo/grader/input.go:299-353) for the archive `a` that `CreateArchiveFromGit` writes and its
uncompressed size; `name` is the base name of the archive. -/
def gitOps (H : Bytes → Bytes) (name a : Bytes) (size : Nat) : List Op :=
  [.create .tmp, .append .tmp a,
   .create .sha1, .append .sha1 (H a ++ " *".toList ++ name ++ "\n".toList),
   .create .len, .append .len (Files.dec size ++ "\n".toList),
   .rename .tmp .archive]

/-- `inMemoryInput.Persist` for the grader (/repo/common/literalinput.go:469-494). `input.Hash()` is the hash of
the archive by construction (:391-396). -/
def literalOps (H : Bytes → Bytes) (name a : Bytes) (size : Nat) : List Op :=
  [.create .archive, .append .archive a,
   .create .len, .append .len (Files.dec size),
   .create .sha1, .append .sha1 (H a ++ " *".toList ++ name ++ ".tar.gz\n".toList)]

/-- How `inMemoryInput.Persist` ends for the grader (common/literalinput.go:469-494): whether it reports success, and
which of the three files (archive, `.len`, `.sha1`) it wrote. The arguments tell whether `os.MkdirAll` and the three
`ioutil.WriteFile` calls succeed; each error of the latter is turned into `return nil`. -/
def literalPersist (mkdir w1 w2 w3 : Bool) : Bool × List File :=
  if !mkdir then (false, [])
  else if !w1 then (true, [])
  else if !w2 then (true, [.archive])
  else if !w3 then (true, [.archive, .len])
  else (true, [.archive, .len, .sha1])

/-- The archives that may be stored for an input: the complete archive and its uncompressed size. -/
abbrev Archives := Bytes → Nat → Prop

/-- What the disk can look like after one more thing happened to an input. `ops` is how it is persisted. -/
inductive After (H : Bytes → Bytes) (made : Archives) (ops : Bytes → Nat → List Op) : Disk → Disk → Prop
  /-- `Add` regenerates the input (/repo/common/inputmanager.go:286-301): it is deleted first, and the process is
  killed in between. -/
  | killedDeleting {d d'} : Run deleteOps d d' false → After H made ops d d'
  /-- The input is deleted and persisted; `r` tells whether that came to its end. -/
  | persist {d d1 d2 a size r} : Run deleteOps d d1 true → made a size → Run (ops a size) d1 d2 r →
      After H made ops d d2
  /-- An error makes `Persist` remove its temporary file (grader/input.go:304). -/
  | failed {d d1 d2 a size} : Run deleteOps d d1 true → made a size → Run (ops a size) d1 d2 false →
      After H made ops d (Op.apply d2 (.remove .tmp))
  /-- The input is evicted from memory and deleted (grader/input.go:268-270). -/
  | evicted {d d' r} : Run deleteOps d d' r → After H made ops d d'

/-- Any number of such things, over any number of lives of the process. -/
inductive Lives (H : Bytes → Bytes) (made : Archives) (ops : Bytes → Nat → List Op) : Disk → Disk → Prop
  | refl {d} : Lives H made ops d d
  | tail {d d' d''} : Lives H made ops d d' → After H made ops d' d'' → Lives H made ops d d''

/-! ### Directories of the runner -/

/-- A directory: file names (cleaned, relative) and contents; the first pair for a name counts. -/
abbrev Dir := List (Bytes × Bytes)

def Dir.get (d : Dir) (n : Bytes) : Option Bytes := d.lookup n

/-- A line of the `.sha1` file: the hash and the name, or `none` if it does not have that form. -/
abbrev Line := Option (Bytes × Bytes)

structure RDisk where
  tmp : Option Dir := none
  sha1 : Option (List Line) := none
  path : Option Dir := none

/-- The hash that the `.sha1` file holds for a name: the last line counts, as `getStoredHashes` builds a map
(/repo/runner/input.go:141-175). -/
def stored (ls : List Line) (n : Bytes) : Option Bytes :=
  (ls.reverse.filterMap fun l => l.bind fun x => if x.1 = n then some x.2 else none).head?

/-- A line of the file as a pair of name and hash. -/
def line (n h : Bytes) : Line := some (n, h)

/-- `runnerBaseInput.Verify` (runner/input.go:89-129). `settingsOk` tells whether `settings.json` decodes. -/
def rverify (H : Bytes → Bytes) (settingsOk : Bytes → Bool) (d : RDisk) : Bool :=
  match d.sha1, d.path with
  | some ls, some dir =>
    ls.all (fun l => match l with
      | none => false
      | some (n, _) => match dir.get n, stored ls n with
        | some c, some h => H c == h
        | _, _ => false) &&
    (match dir.get "settings.json".toList with
      | some c => settingsOk c
      | none => false)
  | _, _ => false

inductive ROp where
  /-- `os.MkdirAll(tmpPath)`. -/
  | mkTmp
  | createSha1
  /-- `os.Create` of a file in the temporary directory. -/
  | create (n : Bytes)
  /-- A write to that file. -/
  | append (n b : Bytes)
  /-- A line added to the `.sha1` file. -/
  | addLine (l : Line)
  /-- `os.Rename(tmpPath, input.path)`. -/
  | rename
  /-- `os.RemoveAll` of the temporary directory, of the `.sha1` file and of the input's directory. -/
  | removeTmp | removeSha1 | removePath

def Dir.put (d : Dir) (n c : Bytes) : Dir := (n, c) :: d

def ROp.apply (d : RDisk) : ROp → RDisk
  | .mkTmp => { d with tmp := some (d.tmp.getD []) }
  | .createSha1 => { d with sha1 := some [] }
  | .create n => { d with tmp := d.tmp.map (·.put n []) }
  | .append n b => { d with tmp := d.tmp.map fun t => t.put n ((t.get n).getD [] ++ b) }
  | .addLine l => { d with sha1 := d.sha1.map (· ++ [l]) }
  | .rename => { d with path := d.tmp, tmp := none }
  | .removeTmp => { d with tmp := none }
  | .removeSha1 => { d with sha1 := none }
  | .removePath => { d with path := none }

inductive RRun : List ROp → RDisk → RDisk → Bool → Prop
  | done {d} : RRun [] d d true
  | stop {op ops d} : RRun (op :: ops) d d false
  /-- stopped in the middle of a write -/
  | torn {n b p ops d} : p <+: b → RRun (.append n b :: ops) d (ROp.apply d (.append n p)) false
  /-- stopped in the middle of a line: what is left of it may look like anything -/
  | tornLine {l l' ops d} : RRun (.addLine l :: ops) d (ROp.apply d (.addLine l')) false
  /-- stopped in the middle of removing a directory: any part of it may be left -/
  | tornTmp {ops d t} : RRun (.removeTmp :: ops) d { d with tmp := t } false
  | tornPath {ops d t} : RRun (.removePath :: ops) d { d with path := t } false
  | step {op ops d d' r} : RRun ops (op.apply d) d' r → RRun (op :: ops) d d' r

/-- `runnerBaseInput.Delete` (runner/input.go:131-135). -/
def rdeleteOps : List ROp := [.removeTmp, .removeSha1, .removePath]

/-- The loop of `persistFromTarStream` (runner/input.go:213-257) for the files of the archive. -/
def memberOps (H : Bytes → Bytes) : List (Bytes × Bytes) → List ROp
  | [] => []
  | (n, c) :: ms => [.create n, .append n c, .addLine (line n (H c))] ++ memberOps H ms

/-- `persistFromTarStream` up to the checks (runner/input.go:183-257). -/
def unpackOps (H : Bytes → Bytes) (ms : List (Bytes × Bytes)) : List ROp :=
  [.mkTmp, .createSha1] ++ memberOps H ms

/-- What a runner's disk can look like after one more thing happened to an input. `announced ms` means that the
stream has the hash that the grader announced, so that `ms` are the files of the complete archive. -/
inductive RAfter (H : Bytes → Bytes) (announced : List (Bytes × Bytes) → Prop) : RDisk → RDisk → Prop
  | killedDeleting {d d' r} : RRun rdeleteOps d d' r → RAfter H announced d d'
  /-- Unpacking is interrupted, or the stream or the settings turn out to be wrong (runner/input.go:266-276). -/
  | interrupted {d d1 d2 ms r} : RRun rdeleteOps d d1 true → RRun (unpackOps H ms) d1 d2 r →
      RAfter H announced d d2
  /-- After an error the temporary directory is removed (runner/input.go:187), maybe not all of it. -/
  | failed {d d1 d2 d3 ms r r'} : RRun rdeleteOps d d1 true → RRun (unpackOps H ms) d1 d2 r →
      RRun [.removeTmp] d2 d3 r' → RAfter H announced d d3
  /-- The stream has the right hash and the directory is moved into place (runner/input.go:258-274). -/
  | persisted {d d1 d2 d3 d' ms r r'} : RRun rdeleteOps d d1 true → RRun (unpackOps H ms) d1 d2 true →
      announced ms → RRun [.rename] d2 d3 r → RRun [.removeTmp] d3 d' r' → RAfter H announced d d'

inductive RLives (H : Bytes → Bytes) (announced : List (Bytes × Bytes) → Prop) : RDisk → RDisk → Prop
  | refl {d} : RLives H announced d d
  | tail {d d' d''} : RLives H announced d d' → RAfter H announced d' d'' → RLives H announced d d''

end Quark.Persist
