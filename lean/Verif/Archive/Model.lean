import Verif.Path.Model
import Mathlib.Data.List.Dedup

/-!
# From a problem's repository to a runner's directory

Models of the way the files of a problem take from its git repository to the directory that a runner reads them from:

* `CreateArchiveFromGit` (/repo/grader/input.go:78-191) walks a tree of the repository and writes a `.tar.gz`,
* `Input.Persist` and `Transmit` (/repo/grader/input.go:275-353) store it and send it,
* `Input.Persist` and `persistFromTarStream` (/repo/runner/input.go:177-283, 293-316) unpack it,
* `GetProblemInformation` (/repo/grader/input.go:30-74) reads the settings from the same tree.

Names and contents are lists of characters, as in the other areas. `archive/tar` and `compress/gzip` are a codec with
the laws that are stated where they are used. libgit2 is not in /repo; its `git_tree_walk` visits the entries of a tree
in order, each tree before its own entries, tells the callback the path of the tree with a slash at the end (nothing for
the root), stops when the callback returns a negative number and also when a subtree cannot be read.
-/

namespace Quark.Archive

abbrev Bytes := List Char

/-- `settings.json`. -/
def settingsName : Bytes := ['s', 'e', 't', 't', 'i', 'n', 'g', 's', '.', 'j', 's', 'o', 'n']

/-- An entry of a tree of a repository. Symbolic links are blobs too: they become files that hold the target.
`readable` tells whether the object is there and intact. File modes are not modelled (the archive has 0644 for all). -/
inductive Node where
  | tree (name : Bytes) (readable : Bool) (children : List Node)
  | blob (name : Bytes) (readable : Bool) (content : Bytes)
  /-- A submodule. -/
  | other (name : Bytes)
  deriving Repr

/-- A member of an archive. -/
inductive Member where
  | dir (name : Bytes)
  | file (name content : Bytes)
  deriving DecidableEq, Repr

/-- Why a walk ended early: the callback reported an error through `walkErr`, or libgit2 could not go on, which
`CreateArchiveFromGit` does not notice as it drops what `Walk` returns (grader/input.go:120). -/
inductive Stop where
  | silent | error
  deriving DecidableEq, Repr

/-- The variables that the callback changes (grader/input.go:117-119), the archive and how the walk ended. -/
structure Walked where
  out : List Member := []
  found : Bool := false
  size : Nat := 0
  stop : Option Stop := none
  deriving DecidableEq, Repr

mutual

/-- The callback of `tree.Walk` (grader/input.go:120-178) and, for trees, the walk of their entries. `io p` tells
whether the member for `p` can be written: the header, and the contents from the object's stream or from memory. -/
def visit (io : Bytes → Bool) (parent : Bytes) (w : Walked) : Node → Walked
  | .tree n readable cs =>
    let p := Path.join [parent, n]
    let w := { w with found := w.found || p == settingsName }
    if !io p then { w with stop := some .error }
    else
      let w := { w with out := w.out ++ [.dir p] }
      if !readable then { w with stop := some .silent }
      else walk io (parent ++ n ++ ['/']) w cs
  | .blob n readable c =>
    let p := Path.join [parent, n]
    let w := { w with found := w.found || p == settingsName }
    if !readable then { w with stop := some .error }
    else
      let w := { w with size := w.size + c.length }
      if !io p then { w with stop := some .error }
      else { w with out := w.out ++ [.file p c] }
  | .other n =>
    { w with found := w.found || Path.join [parent, n] == settingsName }

/-- The walk of the entries of one tree. -/
def walk (io : Bytes → Bool) (parent : Bytes) (w : Walked) : List Node → Walked
  | [] => w
  | n :: ns =>
    let w := visit io parent w n
    if w.stop.isSome then w else walk io parent w ns

end

/-- `CreateArchiveFromGit` (grader/input.go:78-191) for a tree that is found: the members of the archive and the size
it reports, or `none` for an error. -/
def createArchive (io : Bytes → Bool) (root : List Node) : Option (List Member × Nat) :=
  let w := walk io [] {} root
  if w.stop = some .error then none
  else if !w.found then none
  else some (w.out, w.size)

/-! ### The runner's file system -/

inductive Ent where
  | dir
  | file (content : Bytes)
  deriving DecidableEq, Repr

/-- What there is at each absolute path, given by its names. Symbolic links are not modelled: nothing here makes
any. -/
abbrev FS := List Bytes → Option Ent

def FS.set (fs : FS) (p : List Bytes) (e : Ent) : FS := fun q => if q = p then some e else fs q

/-- Whether there is a file at a path. -/
def isFile (fs : FS) (p : List Bytes) : Bool :=
  match fs p with
  | some (.file _) => true
  | _ => false

/-- `os.MkdirAll`: all directories up to a path; fails if one of them is a file. -/
def mkdirAll (fs : FS) (p : List Bytes) : Option FS :=
  if p.inits.any (isFile fs) then none
  else some fun q => if q ∈ p.inits ∧ fs q = none then some .dir else fs q

/-- `os.Create` and the contents that are then written (runner/input.go:234-244). -/
def create (fs : FS) (p : List Bytes) (c : Bytes) : Option FS :=
  if fs p.dropLast = some .dir ∧ fs p ≠ some .dir then some (fs.set p (.file c)) else none

/-- The loop of `persistFromTarStream` (runner/input.go:213-257): the disk and the sum of the sizes of the members.
`io p` tells whether the system lets the runner write there. The lines of the `.sha1` file are in the model of
`Verif.Persist`. -/
def unpack (io : List Bytes → Bool) (tmp : Bytes) : FS → List Member → Option (FS × Nat)
  | fs, [] => some (fs, 0)
  | fs, .dir n :: ms =>
    let p := Path.join [tmp, n]
    if !io (Path.names p) then none
    else (mkdirAll fs (Path.names p)).bind fun fs => unpack io tmp fs ms
  | fs, .file n c :: ms =>
    let p := Path.join [tmp, n]
    if !io (Path.names p) then none
    else (mkdirAll fs (Path.names (Path.dir p))).bind fun fs =>
      (create fs (Path.names p) c).bind fun fs =>
        (unpack io tmp fs ms).map fun (fs, size) => (fs, size + c.length)

/-- `os.Rename` of a directory (runner/input.go:276): the target must not be there. (The system also accepts an empty
directory there, which `Delete` has removed.) -/
def rename (fs : FS) (src dst : List Bytes) : Option FS :=
  if fs src = some .dir ∧ fs dst = none ∧ fs dst.dropLast = some .dir then
    some fun q =>
      if dst.isPrefixOf q then fs (src ++ q.drop dst.length)
      else if src.isPrefixOf q then none
      else fs q
  else none

/-- `path ++ ".tmp"` (runner/input.go:183). -/
def tmpOf (path : Bytes) : Bytes := path ++ ['.', 't', 'm', 'p']

/-- `persistFromTarStream` (runner/input.go:177-283) for a stream that holds the members `ms`. `hashOk` tells whether
the stream has the hash that was announced, `decode` is `json.Decoder.Decode`. The result is the disk, the settings and
the size that is committed. -/
def runnerPersist {S : Type} (io : List Bytes → Bool) (decode : Bytes → Option S) (path : Bytes) (fs : FS)
    (hashOk : Bool) (ms : List Member) : Option (FS × S × Nat) :=
  let tmp := tmpOf path
  (mkdirAll fs (Path.names tmp)).bind fun fs =>
  (unpack io tmp fs ms).bind fun (fs, size) =>
  if !hashOk then none
  else match fs (Path.names (Path.join [tmp, settingsName])) with
    | some (.file c) =>
      (decode c).bind fun s => (rename fs (Path.names tmp) (Path.names path)).map fun fs => (fs, s, size)
    | _ => none

/-- The files that the lines of the `.sha1` file name when they are read back (runner/input.go:247-253 and 152-169):
`shard` is `filepath.Dir(input.path)` and each line has `id/` and the member's name. -/
def listed (shard id : Bytes) (ms : List Member) : List (List Bytes) :=
  ms.filterMap fun
    | .dir _ => none
    | .file n _ => some (Path.names (Path.join [shard, id ++ '/' :: n]))

/-- The size of a file (`os.Stat`). -/
def sizeAt (fs : FS) (p : List Bytes) : Nat :=
  match fs p with
  | some (.file c) => c.length
  | _ => 0

/-- The size that `Verify` commits (runner/input.go:94-127): the paths are the keys of a map, so each counts once. -/
def verifySize (fs : FS) (paths : List (List Bytes)) : Nat := (paths.dedup.map (sizeAt fs)).sum

/-! ### Sending the archive -/

/-- `archive/tar` and `compress/gzip`: what is written, and what a reader gets. -/
structure Codec where
  enc : List Member → Bytes
  dec : Bytes → Option (List Member)

/-- What `Input.Persist` on the grader (grader/input.go:299-353) stores for the members: the file may lack its end, as
the errors of the three deferred `Close` calls (:109-115), which write it, are dropped. -/
def StoredAs (C : Codec) (ms : List Member) (file : Bytes) : Prop := file <+: C.enc ms

/-- `Input.Persist` on the runner (runner/input.go:293-316) for an answer of the grader: the hash and the size of the
headers and the body that arrived. -/
def fetch {S : Type} (C : Codec) (H : Bytes → Bytes) (io : List Bytes → Bool) (decode : Bytes → Option S) (path : Bytes)
    (fs : FS) (announced : Bytes) (uncompressed : Option Nat) (body : Bytes) : Option (FS × S × Nat) :=
  match uncompressed with
  | none => none
  | some _ =>
    match C.dec body with
    | none => none
    | some ms => runnerPersist io decode path fs (announced == H body) ms

/-- Whether an entry has the name `settings.json` (`EntryByName`, grader/input.go:57). -/
def isSettings : Node → Bool
  | .tree n _ _ => n == settingsName
  | .blob n _ _ => n == settingsName
  | .other n => n == settingsName

/-- `GetProblemInformation` (grader/input.go:30-74) for the tree of the private branch: `EntryByName`, `LookupBlob`
and `json.Unmarshal`. -/
def problemSettings {S : Type} (unmarshal : Bytes → Option S) (root : List Node) : Option S :=
  match root.find? isSettings with
  | some (.blob _ true c) => unmarshal c
  | _ => none

end Quark.Archive
