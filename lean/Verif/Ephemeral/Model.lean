import Verif.Path.Model

/-!
# The cache of ephemeral runs

Model of `EphemeralRunManager` (/repo/grader/queue.go:77-268) and of the way the grader's handlers use it.
-/

namespace Quark.Ephemeral

/-- `ephemeralRunEntry` (grader/queue.go:87-90). `base.Byte` is an `int64`; the sum of the sizes of the cached
directories is taken not to overflow it. -/
structure Entry where
  path : List Char
  size : Int
  deriving DecidableEq

/-- `EphemeralRunManager` (grader/queue.go:77-85). `entries` is `evictList` from `Back` to `Front`, that is, the oldest
first; `paths` holds the keys of the map. -/
structure Manager where
  entries : List Entry := []
  paths : List (List Char) := []
  totalSize : Int := 0
  sizeLimit : Int
  deriving DecidableEq

/-- The loop of `add` (grader/queue.go:246-262). `removes k` tells whether the `k`-th `os.RemoveAll` of this call
succeeds. Returns whether the loop ended without an error, the directories it removed, and what is left. -/
def evict (limit size : Int) (removes : Nat → Bool) :
    Nat → List Entry → List (List Char) → Int → Bool × List (List Char) × List Entry × List (List Char) × Int
  | _, [], paths, total => (true, [], [], paths, total)
  | k, e :: rest, paths, total =>
    if total + size > limit then
      if removes k then
        let r := evict limit size removes (k + 1) rest (paths.filter (· ≠ e.path)) (total - e.size)
        (r.1, e.path :: r.2.1, r.2.2)
      else (false, [], e :: rest, paths, total)
    else (true, [], e :: rest, paths, total)

/-- `add` (grader/queue.go:242-268): whether it returns no error, the directories it removed, and the manager
afterwards. -/
def add (m : Manager) (entry : Entry) (removes : Nat → Bool) : Bool × List (List Char) × Manager :=
  let r := evict m.sizeLimit entry.size removes 0 m.entries m.paths m.totalSize
  let m' : Manager := { m with entries := r.2.2.1, paths := r.2.2.2.1, totalSize := r.2.2.2.2 }
  if r.1 then
    (true, r.2.1,
      { m' with
        entries := m'.entries ++ [entry]
        paths := entry.path :: m'.paths
        totalSize := m'.totalSize + entry.size })
  else (false, r.2.1, m')

/-- `Get` (grader/queue.go:224-236); `root` is `path.Join(RuntimePath, "ephemeral")`. -/
def get (root : List Char) (m : Manager) (token : List Char) : Option (List Char) :=
  let entryPath := Path.join [root, token]
  if m.paths.contains entryPath then some entryPath else none

/-- The files that may be asked for, /repo/cmd/omegaup-grader/ephemeral.go:19-27. -/
def validFilenames : List (List Char) :=
  ["details.json", "files.zip", "logs.txt", "request.json", "tracing.json"].map String.toList

/-- The GET branch of `ServeHTTP` (cmd/omegaup-grader/ephemeral.go:261-287): the file that is served for the last two parts of the
URL, or `none` for 404. `gz` tells whether the file exists with `.gz` appended. -/
def serve (root : List Char) (m : Manager) (token file : List Char) (gz : List Char → Bool) :
    Option (List Char) :=
  if validFilenames.contains file then
    match get root m token with
    | none => none
    | some dir =>
      let filename := Path.join [dir, file]
      some (if gz filename then filename ++ ".gz".toList else filename)
  else none

/-! ### The manager at work -/

/-- The grader process as far as the ephemeral directory is concerned. -/
structure World where
  mgr : Manager
  /-- The directories that exist inside the ephemeral directory. -/
  disk : List (List Char)
  /-- The directories made by `SetEphemeral` whose handler has neither committed nor removed them yet. -/
  pending : List (List Char) := []
  /-- What `Initialize` has still to go through. -/
  todo : List (List Char) := []
  /-- Whether `Initialize` has read the directory. -/
  scanned : Bool := false

/-- What can happen. -/
inductive Act where
  /-- `Initialize` reads the directory (grader/queue.go:119-133), in some order. -/
  | scan (order : List (List Char))
  /-- One turn of the loop of `Initialize` (grader/queue.go:136-168). `size = none`: `directorySize` failed, the
  directory is then removed, which may fail as well (`gone = false`). -/
  | initAdd (size : Option Nat) (removes : Nat → Bool) (gone : Bool)
  /-- `SetEphemeral` (grader/queue.go:173-206): `os.Mkdir` succeeds for a name that is not there yet. -/
  | create (name : List Char)
  /-- `Commit` (grader/queue.go:210-220), called once by the handler (cmd/omegaup-grader/ephemeral.go:224, cmd/omegaup-grader/ci.go:706), which ignores its
  result. -/
  | commit (path : List Char) (size : Option Nat) (removes : Nat → Bool)
  /-- The handler gives up and removes the directory (cmd/omegaup-grader/ephemeral.go:149-156, cmd/omegaup-grader/ci.go:644-651). -/
  | discard (path : List Char) (gone : Bool)

/-- The directories left after the manager removed some. -/
def World.without (w : World) (gone : List (List Char)) : List (List Char) :=
  w.disk.filter (fun p => p ∉ gone)

/-- `add` for a directory of which the size is known. -/
def World.addEntry (w : World) (path : List Char) (size : Nat) (removes : Nat → Bool) : World :=
  let r := add w.mgr ⟨path, size⟩ removes
  { w with mgr := r.2.2, disk := w.without r.2.1 }

/-- One step; `none` when it cannot happen. `root` is the ephemeral directory. -/
def step (root : List Char) (w : World) : Act → Option World
  | .scan order =>
    if w.scanned ∨ ¬ order.Perm w.disk then none
    else some { w with todo := order, scanned := true }
  | .initAdd size removes gone =>
    match w.todo with
    | [] => none
    | p :: todo =>
      match size with
      | none => some { w with todo := todo, disk := if gone then w.without [p] else w.disk }
      | some n => some { w.addEntry p n removes with todo := todo }
  | .create name =>
    let p := Path.join [root, name]
    if p ∈ w.disk then none
    else some { w with disk := p :: w.disk, pending := p :: w.pending }
  | .commit p size removes =>
    if p ∈ w.pending then
      match size with
      | none => some { w with pending := w.pending.erase p }
      | some n => some { w.addEntry p n removes with pending := w.pending.erase p }
    else none
  | .discard p gone =>
    if p ∈ w.pending then
      some { w with
        pending := w.pending.erase p
        disk := if gone then w.without [p] else w.disk }
    else none

/-- The world after a list of steps; `none` when one of them cannot happen. -/
def run (root : List Char) : World → List Act → Option World
  | w, [] => some w
  | w, a :: as => (step root w a).bind (run root · as)

/-- The process starts with some directories left from before. -/
def start (limit : Int) (disk : List (List Char)) : World :=
  { mgr := { sizeLimit := limit }, disk := disk }

end Quark.Ephemeral
