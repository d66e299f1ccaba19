import Verif.Persist.Model

/-!
# Preloading inputs after a restart

`InputManager.PreloadInputs` (/repo/common/inputmanager.go:322-364) with the cached-input factories of the runner
(/repo/runner/input.go:325-367) and of the grader (/repo/grader/input.go:406-462), when nothing else uses the
manager. What happens when others do is in `Race.lean`.
-/

namespace Quark.Preload

open Persist (Bytes Dir)

abbrev Name := List Char

/-- What a name in a directory stands for. Input directories are modelled as flat (cleaned relative names). -/
inductive Node where
  | file (b : Bytes)
  | dir (d : Dir)
  deriving DecidableEq

/-- The contents of one of the 256 intermediate directories. -/
abbrev Folder := List (Name × Node)

def Folder.get (f : Folder) (n : Name) : Option Node := f.lookup n

/-- `os.RemoveAll`; removals are taken not to fail. -/
def Folder.removeAll (f : Folder) (n : Name) : Folder := f.filter (fun e => e.1 ≠ n)

/-- `os.Remove`: a directory that is not empty stays. -/
def Folder.remove (f : Folder) (n : Name) : Folder :=
  match f.get n with
  | some (.dir (_ :: _)) => f
  | _ => f.removeAll n

/-- Which of the two programs. -/
inductive Kind where
  | runner
  | grader
  deriving DecidableEq

def dotTmp : Name := ['.', 't', 'm', 'p']
def dotSha1 : Name := ['.', 's', 'h', 'a', '1']
def dotLen : Name := ['.', 'l', 'e', 'n']
def tarGz : Name := ['.', 't', 'a', 'r', '.', 'g', 'z']

/-- What is not decided here: SHA-1, whether `settings.json` decodes, and how the lines of a runner's `.sha1` file
are read (/repo/runner/input.go:141-175; lines about files outside of the input's directory are not modelled, see
C39). -/
structure Env where
  H : Bytes → Bytes
  settingsOk : Bytes → Bool
  lines : Name → Bytes → List Persist.Line

/-- The contents of a file; reading a directory fails. -/
def readable (o : Option Node) : Option Bytes :=
  match o with
  | some (.file b) => some b
  | _ => none

/-- The files of an input. -/
def asDir (o : Option Node) : Option Dir :=
  match o with
  | some (.dir d) => some d
  | _ => none

/-- `Verify` of the input whose path in the folder is `n` (/repo/runner/input.go:89-129,
/repo/grader/input.go:200-225). -/
def verify (env : Env) (k : Kind) (f : Folder) (n : Name) : Bool :=
  match k with
  | .runner =>
    Persist.rverify env.H env.settingsOk
      { sha1 := (readable (f.get (n ++ dotSha1))).map (env.lines n), path := asDir (f.get n) }
  | .grader =>
    (Persist.verify env.H fun
      | .archive => readable (f.get n)
      | .tmp => readable (f.get (n ++ dotTmp))
      | .sha1 => readable (f.get (n ++ dotSha1))
      | .len => readable (f.get (n ++ dotLen))).isSome

/-- `GetInputHash` (/repo/runner/input.go:361-367: directories, named after the hash; /repo/grader/input.go:447-462:
names that end in `.tar.gz`, of any kind). -/
def inputHash (k : Kind) (p : Name) (e : Name × Node) : Option Name :=
  match k with
  | .runner =>
    match e.2 with
    | .dir _ => some (p ++ e.1)
    | .file _ => none
  | .grader =>
    if tarGz <:+ e.1 then some (p ++ e.1.take (e.1.length - tarGz.length)) else none

/-- `NewInput` (/repo/runner/input.go:345-359, /repo/grader/input.go:428-445): the intermediate directory and the
name in it of the input with this hash. `path.Join` leaves them as they are, as they are names of files. -/
def folderOf (h : Name) : Name := h.take 2

def nameOf (k : Kind) (h : Name) : Name :=
  match k with
  | .runner => h.drop 2
  | .grader => h.drop 2 ++ tarGz

structure World where
  /-- The intermediate directories; one that does not exist is empty. -/
  tree : Name → Folder
  /-- The hashes in the LRU cache. -/
  cached : List Name := []

/-- `Delete` on a folder (/repo/runner/input.go:131-135, /repo/grader/input.go:261-266). -/
def deleteIn (k : Kind) (f : Folder) (n : Name) : Folder :=
  match k with
  | .runner => ((f.removeAll (n ++ dotTmp)).removeAll (n ++ dotSha1)).removeAll n
  | .grader => (((f.remove (n ++ dotTmp)).remove (n ++ dotSha1)).remove (n ++ dotLen)).remove n

def World.onFolder (w : World) (p : Name) (g : Folder → Folder) : World :=
  { w with tree := fun q => if q = p then g (w.tree q) else w.tree q }

/-- `Delete` of the input with this hash. -/
def delete (k : Kind) (w : World) (h : Name) : World :=
  w.onFolder (folderOf h) fun f => deleteIn k f (nameOf k h)

/-- `Add` with a cached-input factory (/repo/common/inputmanager.go:277-315, whose loader verifies, and if that
fails deletes and persists; `Persist` of these inputs always fails, /repo/runner/input.go:329-331,
/repo/grader/input.go:410-412). -/
def addCached (env : Env) (k : Kind) (w : World) (h : Name) : Bool × World :=
  if h ∈ w.cached then (true, w)
  else if verify env k (w.tree (folderOf h)) (nameOf k h) then (true, { w with cached := h :: w.cached })
  else (false, delete k w h)

/-- The cache evicts an input, whose `Release` deletes it (/repo/runner/input.go:137-139,
/repo/grader/input.go:268-270). -/
def evict (k : Kind) (w : World) (h : Name) : World :=
  if h ∈ w.cached then delete k { w with cached := w.cached.filter (· ≠ h) } h else w

/-- The body of the inner loop (/repo/common/inputmanager.go:343-357) for an entry of directory `p`. Giving up the
reference may make the cache evict inputs: `evs`. -/
def visit (env : Env) (k : Kind) (w : World) (p : Name) (e : Name × Node) (evs : List Name) : World :=
  match inputHash k p e with
  | none => w
  | some h =>
    match addCached env k w h with
    | (true, w') => evs.foldl (evict k) w'
    | (false, w') => w'.onFolder p (·.removeAll e.1)

/-- The inner loop. `ev` tells what the cache evicts after each entry of a directory (each is visited once). -/
def preloadEntries (env : Env) (k : Kind) (ev : Name → Name → List Name) (p : Name) (w : World) :
    List (Name × Node) → World
  | [] => w
  | e :: es => preloadEntries env k ev p (visit env k w p e (ev p e.1)) es

/-- A hexadecimal digit. -/
def hexDigit (n : Nat) : Char := ['0','1','2','3','4','5','6','7','8','9','a','b','c','d','e','f'].getD n '0'

/-- `fmt.Sprintf("%02x", i)` for `i` below 256. -/
def hex2 (i : Nat) : Name := [hexDigit (i / 16), hexDigit (i % 16)]

/-- The outer loop (/repo/common/inputmanager.go:336-341): a directory is listed when its turn comes. The order in
a listing is that of the model's list. -/
def preloadDirs (env : Env) (k : Kind) (ev : Name → Name → List Name) (w : World) : List Name → World
  | [] => w
  | p :: ps => preloadDirs env k ev (preloadEntries env k ev p w (w.tree p)) ps

/-- `PreloadInputs`. -/
def preload (env : Env) (k : Kind) (ev : Name → Name → List Name) (w : World) : World :=
  preloadDirs env k ev w ((List.range 256).map hex2)

end Quark.Preload
