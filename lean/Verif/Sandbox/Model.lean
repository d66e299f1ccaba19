import Verif.Path.Model
import Verif.Files.Model
import Verif.Sandbox.Chars

/-!
# What the runner hands to the sandbox

The part of `Grade` (/repo/runner/runner.go:443-1257) that Verif/Grade leaves out: which files are put where,
which programs are compiled, and the command lines with which omegajail is called
(/repo/runner/sandbox.go:159-349).

Simplifications, for the whole area:
* Texts and file contents are lists of characters; only `/`, `.` and whole names are ever looked at.
* Durations are whole nanoseconds and sizes whole bytes, as unbounded integers (`base.Duration` and `base.Byte`
  are `int64`). `base.Duration.Milliseconds`, which is not in /repo, is taken to be exact, and its conversion to
  `int64` drops the fraction.
* A Go map is a list of pairs, in the order in which `range` visits it (the same order each time it is visited).
* Directories are not part of the file system; a missing directory shows as an operation that fails.
* Log entries, events, metrics, the preloader and the temporary `….err.omegajail` are left out.
-/

namespace Quark.Sandbox

open Path

abbrev Str := List Char

/-! ## Limits -/

/-- `LimitsSettings`, /repo/common/problemsettings.go:14-20. -/
structure Limits where
  extraWallTime : Int
  memoryLimit : Int
  outputLimit : Int
  overallWallTimeLimit : Int
  timeLimit : Int
deriving DecidableEq

/-- `DefaultValidatorLimits`, common/problemsettings.go:139-145. -/
def defaultValidatorLimits : Limits where
  extraWallTime := 0
  memoryLimit := 256 * 1048576
  outputLimit := 10 * 1024
  overallWallTimeLimit := 5 * 1000000000
  timeLimit := 1 * 1000000000

/-- `validatorLimits`, runner/runner.go:400-412. -/
def validatorLimits (limits : Limits) : Option Limits → Limits
  | some own => own
  | none => { defaultValidatorLimits with timeLimit := limits.timeLimit }

/-- `int64(d.Milliseconds())` -/
def millis (d : Int) : Int := d.tdiv 1000000

/-- The time limit of the `-t` option, runner/sandbox.go:258-261. -/
def runTime (lang : Str) (l : Limits) : Int :=
  if lang = c!"java" then l.timeLimit + 1000 else l.timeLimit

/-- `hardLimit`, runner/sandbox.go:303. -/
def hardLimit (l : Limits) : Int := min (640 * 1048576) l.memoryLimit

/-! ## The file system -/

/-- Names, what they are names of, and the contents of that. Two names of one file share its contents. -/
structure FS where
  ino : Str → Option Nat
  data : Nat → Str
  next : Nat

/-- The contents of the file with a name. -/
def FS.read (fs : FS) (p : Str) : Option Str := (fs.ino p).map fs.data

/-- `os.Remove` of a file. -/
def FS.remove (fs : FS) (p : Str) : FS := { fs with ino := fun q => if q = p then none else fs.ino q }

/-- `os.Link`, when it works. -/
def FS.link (fs : FS) (i : Nat) (p : Str) : FS :=
  { fs with ino := fun q => if q = p then some i else fs.ino q }

/-- Sets the contents of a file. -/
def FS.set (fs : FS) (i : Nat) (c : Str) : FS :=
  { fs with data := fun j => if j = i then c else fs.data j }

/-- `os.Create`: an existing file is emptied, otherwise there is a new one. -/
def FS.create (fs : FS) (p : Str) : FS × Nat :=
  match fs.ino p with
  | some i => (fs.set i [], i)
  | none =>
    ({ ino := fun q => if q = p then some fs.next else fs.ino q
       data := fun j => if j = fs.next then [] else fs.data j
       next := fs.next + 1 }, fs.next)

/-- `ioutil.WriteFile`, or what a program does that writes a file. -/
def FS.write (fs : FS) (p c : Str) : FS :=
  match fs.create p with
  | (fs, i) => fs.set i c

/-- What decides how far `copyFile` gets: whether a link can be made (not, for instance, on another mount),
the source can be opened, the target be created, and after how many characters copying fails, if it does. -/
structure CopyEnv where
  link : Bool := true
  openSrc : Bool := true
  createDst : Bool := true
  failsAfter : Option Nat := none

/-- `copyFile`, runner/runner.go:419-439, and whether it returns an error. Failures to open or create are not errors. -/
def copyFile (env : CopyEnv) (src dst : Str) (fs : FS) : FS × Bool :=
  match fs.ino src with
  | none => (fs, false)
  | some i =>
    if env.link ∧ fs.ino dst = none then (fs.link i dst, false)
    else if ¬ env.openSrc then (fs, false)
    else if ¬ env.createDst then (fs, false)
    else
      match fs.create dst with
      | (fs, j) =>
        match env.failsAfter with
        | none => (fs.set j (fs.data i), false)
        | some n => (fs.set j ((fs.data i).take n), true)

/-! ## omegajail -/

def omegajailPath : Str := c!"/var/lib/omegajail"

/-- The arguments of `Sandbox.Run`, runner/sandbox.go:136-143. -/
structure RunCall where
  limits : Limits
  lang : Str
  chdir : Str
  input : Str
  output : Str
  error : Str
  metaFile : Str
  target : Str
  originalInput : Option Str := none
  originalOutput : Option Str := none
  runMeta : Option Str := none
  extraParams : List Str := []
  extraMounts : List (Str × Str) := []

/-- runner/sandbox.go:263-266 -/
def stdin (c : RunCall) : Str :=
  if c.input = c!"/dev/null" then join [omegajailPath, c!"root/dev/null"] else c.input

/-- The command line of `Run`, runner/sandbox.go:302-329. -/
def runParams (c : RunCall) : List Str :=
  [c!"-d", c!"/home",
   c!"-b", c.chdir ++ c!",/home",
   c!"-0", stdin c,
   c!"-1", c.output,
   c!"-2", c.error,
   c!"-M", c.metaFile,
   c!"-m", Files.fmtD (hardLimit c.limits),
   c!"-t", Files.fmtD (millis (runTime c.lang c.limits)),
   c!"-w", Files.fmtD (millis c.limits.extraWallTime),
   c!"-O", Files.fmtD c.limits.outputLimit,
   c!"--root", omegajailPath,
   c!"--run", c.lang,
   c!"--run-target", c.target] ++
  c.extraMounts.flatMap (fun m => [c!"-b", m.1 ++ ',' :: m.2]) ++
  (if c.extraParams = [] then [] else c!"--" :: c.extraParams)

/-- The files placed next to the program, runner/sandbox.go:268-289: from where and to where. -/
def fileLinks (c : RunCall) : List (Str × Str) :=
  (match c.originalInput with
    | some p => [(p, join [c.chdir, c!"data.in"])]
    | none => []) ++
  (match c.originalOutput with
    | some p => if p ≠ c!"/dev/null" then [(p, join [c.chdir, c!"data.out"])] else []
    | none => []) ++
  (match c.runMeta with
    | some p => [(p, join [c.chdir, c!"meta.in"])]
    | none => [])

/-- How removing and copying the placed files goes, by the name of the target. -/
structure PlaceEnv where
  remove : Str → Bool := fun _ => true
  copy : Str → CopyEnv := fun _ => {}

/-- runner/sandbox.go:290-300: removes what is there and copies, until the first error. -/
def place (env : PlaceEnv) : List (Str × Str) → FS → FS × Bool
  | [], fs => (fs, false)
  | (src, dst) :: rest, fs =>
    let fs := if env.remove dst then fs.remove dst else fs
    match copyFile (env.copy dst) src dst fs with
    | (fs, true) => (fs, true)
    | (fs, false) => place env rest fs

/-- What a process leaves in its output, error and metadata files. -/
structure Outcome where
  output : Str := []
  error : Str := []
  metaFile : Str := []

/-- One call of omegajail: the command line, and the file system it finds. -/
structure Invocation where
  params : List Str
  fs : FS

/-- `OmegajailSandbox.Run`, runner/sandbox.go:250-349, up to reading the metadata (see Verif/MetaFile). There is no call
if placing the files fails. -/
def run (env : PlaceEnv) (o : Outcome) (c : RunCall) (fs : FS) : FS × Option Invocation :=
  match place env (fileLinks c) fs with
  | (fs, true) => (fs, none)
  | (fs, false) =>
    (((fs.write c.output o.output).write c.error o.error).write c.metaFile o.metaFile,
      some ⟨runParams c, fs⟩)

/-- The arguments of `Sandbox.Compile`, runner/sandbox.go:126-132. -/
structure CompileCall where
  lang : Str
  sources : List Str
  chdir : Str
  output : Str
  error : Str
  metaFile : Str
  target : Str
  extraFlags : List Str := []

/-- What is left of two paths without the elements they have in common at the start. -/
def strip : List Str → List Str → List Str × List Str
  | a :: as, b :: bs => if a = b then strip as bs else (a :: as, b :: bs)
  | as, bs => (as, bs)

/-- `filepath.Rel` (not in /repo): the path that leads from the first to the second, if there is one. -/
def rel (base targ : Str) : Option Str :=
  if rooted base ≠ rooted targ then none
  else
    match strip (names base) (names targ) with
    | (b, t) =>
      if b.head? = some dotdot then none
      else some (render false (List.replicate b.length dotdot ++ t))

/-- The loop over the source files, runner/sandbox.go:190-209; `none` when one is refused. -/
def sourceParams (chdir : Str) : List Str → Option (List Str)
  | [] => some []
  | f :: rest =>
    if chdir.isPrefixOf f then
      match rel chdir f, sourceParams chdir rest with
      | some r, some ps => some (c!"--compile-source" :: r :: ps)
      | _, _ => none
    else none

/-- The command line of `Compile`, runner/sandbox.go:178-213, given the configured limits for compiling. -/
def compileParams (timeLimit outputLimit : Int) (c : CompileCall) : Option (List Str) :=
  match sourceParams c.chdir c.sources with
  | none => none
  | some ps => some <|
    [c!"-d", c!"/home",
     c!"-b", c.chdir ++ c!",/home,1",
     c!"-1", c.output,
     c!"-2", c.error,
     c!"-M", c.metaFile,
     c!"-t", Files.fmtD (millis timeLimit),
     c!"-O", Files.fmtD outputLimit,
     c!"--root", omegajailPath,
     c!"--compile", c.lang,
     c!"--compile-target", c.target] ++ ps ++
    (if c.extraFlags = [] then [] else c!"--" :: c.extraFlags)

/-! ## The programs of a run -/

/-- `InteractiveInterface`, common/problemsettings.go:32-45: the requisites of the first rule (`none`: no rule, or the
interface is nil), and the generated files. -/
structure Iface where
  requisites : Option (List Str)
  files : List (Str × Str) := []

/-- `InteractiveSettings`, common/problemsettings.go:49-56. -/
structure Interactive where
  interfaces : List (Str × List (Str × Iface))
  main : Str
  moduleName : Str
  parentLang : Str

/-- The settings and the place of an input, and the submission, as far as they matter here. -/
structure Job where
  /-- the directory of the run, runner/runner.go:454-458 -/
  root : Str
  /-- `input.Path()` -/
  inputPath : Str
  limits : Limits
  /-- the language of a custom validator -/
  validator : Option Str := none
  validatorOwnLimits : Option Limits := none
  interactive : Option Interactive := none
  /-- the names of the cases -/
  cases : List Str
  language : Str
  source : Str
  debug : Bool := false

/-- `LanguageFileExtension`, /repo/common/literalinput.go:188-198. -/
def extension (lang : Str) : Str :=
  if lang ∈ [c!"cpp11", c!"cpp11-gcc", c!"cpp11-clang", c!"cpp17-gcc", c!"cpp17-clang"]
  then c!"cpp"
  else if lang ∈ [c!"c", c!"c11-gcc", c!"c11-clang"] then c!"c"
  else if lang ∈ [c!"py", c!"py2", c!"py3"] then c!"py"
  else lang

/-- runner/runner.go:233-239 -/
inductive BinaryType where
  | problemsetter
  | contestant
  | validator
deriving DecidableEq

/-- runner/runner.go:241-253 -/
structure Binary where
  name : Str
  target : Str
  language : Str
  binPath : Str
  outputPathPrefix : Str
  type : BinaryType
  limits : Limits
  receiveInput : Bool
  sourceFiles : List Str
  extraFlags : List Str
  extraMounts : List (Str × Str)

/-- `extraParentFlags`, runner/runner.go:267-272 -/
def extraParentFlags (language : Str) : List Str :=
  if language = c!"c" ∨ language = c!"cpp" ∨ language = c!"cpp11" then [c!"-Wl,-e__entry"]
  else []

/-- `targetName`, runner/runner.go:274-279 -/
def targetName (language target : Str) : Str :=
  if language = c!"py" ∨ language = c!"py2" ∨ language = c!"py3" ∨ language = c!"java"
  then target ++ c!"_entry"
  else target

/-- `normalizedSourceFiles`, runner/runner.go:281-293 -/
def normalizedSourceFiles (root name : Str) (requisites : List Str) : List Str :=
  requisites.map fun r => join [join [root, name, c!"bin"], base r]

/-- `generateMountpoint`, runner/runner.go:391-398 -/
def generateMountpoint (root name : Str) : Str × Str :=
  (join [root, name, c!"pipes"], c!"/home/" ++ name ++ c!"_pipes")

/-- `generateParentMountpoints`, runner/runner.go:375-389 (distinct names give distinct pairs). -/
def generateParentMountpoints (root : Str) (ia : Interactive) : List (Str × Str) :=
  (ia.interfaces.filter fun f => f.1 ≠ ia.main).map fun f => generateMountpoint root f.1

/-- Looks up a key of a map. -/
def get {α : Type} (k : Str) : List (Str × α) → Option α
  | [] => none
  | (k', v) :: rest => if k' = k then some v else get k rest

/-- The outcome of building the list of programs: a nil interface or one without rules makes `Grade` panic, a
language the problem does not support is a compile error. -/
inductive Prepared where
  | panics
  | unsupported
  | ok (bs : List Binary)

/-- The parent, runner/runner.go:494-514. -/
def parentBinary (j : Job) (ia : Interactive) (requisites : List Str) : Binary where
  name := ia.main
  target := targetName j.language ia.main
  language := if ia.parentLang = c!"cpp" then c!"cpp11" else ia.parentLang
  binPath := join [j.root, ia.main, c!"bin"]
  outputPathPrefix := []
  type := .problemsetter
  limits := validatorLimits j.limits j.validatorOwnLimits
  receiveInput := true
  sourceFiles := normalizedSourceFiles j.root ia.main requisites
  extraFlags := extraParentFlags ia.parentLang
  extraMounts := generateParentMountpoints j.root ia

/-- A child, runner/runner.go:526-546. -/
def childBinary (j : Job) (name : Str) (requisites : List Str) : Binary where
  name := name
  target := targetName j.language name
  language := j.language
  binPath := join [j.root, name, c!"bin"]
  outputPathPrefix := name
  type := .contestant
  limits := j.limits
  receiveInput := false
  sourceFiles := normalizedSourceFiles j.root name requisites
  extraFlags := []
  extraMounts := [generateMountpoint j.root name]

/-- The loop over the interfaces, runner/runner.go:515-547. -/
def children (j : Job) (ia : Interactive) : List (Str × List (Str × Iface)) → Prepared
  | [] => .ok []
  | (name, langs) :: rest =>
    if name = ia.main then children j ia rest
    else
      match get (extension j.language) langs with
      | none => .unsupported
      | some iface =>
        match iface.requisites with
        | none => .panics
        | some rs =>
          match children j ia rest with
          | .ok bs => .ok (childBinary j name rs :: bs)
          | r => r

/-- Whether the address sanitizer is used, runner/runner.go:666-667. -/
def sanitized (j : Job) : Bool :=
  j.debug ∧ (j.language = c!"c" ∨ j.language = c!"cpp" ∨ j.language = c!"cpp11")

/-- The limits after runner/runner.go:666-677, which are also used for the validator. -/
def effectiveLimits (j : Job) : Limits :=
  if j.interactive.isNone ∧ sanitized j then
    { j.limits with
      memoryLimit := -1
      timeLimit := j.limits.timeLimit * 2 + 1000000000
      outputLimit := j.limits.outputLimit + 16 * 1024 }
  else j.limits

/-- The only program of a problem that is not interactive, runner/runner.go:664-693. -/
def mainBinary (j : Job) : Binary where
  name := c!"Main"
  target := c!"Main"
  language := j.language
  binPath := join [j.root, c!"Main", c!"bin"]
  outputPathPrefix := []
  type := .contestant
  limits := effectiveLimits j
  receiveInput := true
  sourceFiles := [join [join [j.root, c!"Main", c!"bin"], c!"Main." ++ extension j.language]]
  extraFlags := if sanitized j then [c!"-static-libasan", c!"-fsanitize=address"] else []
  extraMounts := []

/-- runner/runner.go:696, the directory of the validator. -/
def validatorBin (j : Job) : Str := join [j.root, c!"validator", c!"bin"]

/-- The custom validator, runner/runner.go:718-733. -/
def validatorBinary (j : Job) (lang : Str) : Binary where
  name := c!"validator"
  target := c!"validator"
  language := lang
  binPath := validatorBin j
  outputPathPrefix := c!"validator"
  type := .validator
  limits := validatorLimits (effectiveLimits j) j.validatorOwnLimits
  receiveInput := false
  sourceFiles := [join [validatorBin j, c!"validator." ++ extension lang]]
  extraFlags := []
  extraMounts := []

/-- The programs that take part in running the cases, runner/runner.go:484-548 and 638-694. -/
def regularBinaries (j : Job) : Prepared :=
  match j.interactive with
  | some ia =>
    match (get ia.main ia.interfaces).bind (get ia.parentLang) with
    | none => .panics
    | some iface =>
      match iface.requisites with
      | none => .panics
      | some rs =>
        match children j ia ia.interfaces with
        | .ok bs => .ok (parentBinary j ia rs :: bs)
        | r => r
  | none => if j.language = c!"cat" then .ok [] else .ok [mainBinary j]

/-- All programs, runner/runner.go:698-735. -/
def binaries (j : Job) : Prepared :=
  match regularBinaries j with
  | .ok bs =>
    .ok (bs ++ match j.validator with
      | some lang => [validatorBinary j lang]
      | none => [])
  | r => r

/-- The call that compiles a program, runner/runner.go:741-764. -/
def compileCall (j : Job) (b : Binary) : CompileCall where
  lang := if b.type = .validator ∧ b.language = c!"cpp" then c!"cpp11" else b.language
  sources := b.sourceFiles
  chdir := join [join [j.root, b.name], c!"bin"]
  output := join [join [j.root, b.name], c!"compile.out"]
  error := join [join [j.root, b.name], c!"compile.err"]
  metaFile := join [join [j.root, b.name], c!"compile.meta"]
  target := b.target
  extraFlags := b.extraFlags

/-- The call that runs a program on a case, runner/runner.go:883-927. -/
def runCall (j : Job) (case : Str) (b : Binary) : RunCall where
  limits := b.limits
  lang := b.language
  chdir := b.binPath
  input := if b.receiveInput then join [j.inputPath, c!"cases", case ++ c!".in"] else c!"/dev/null"
  output := join [j.root, b.outputPathPrefix, case ++ c!".out"]
  error := join [j.root, b.outputPathPrefix, case ++ c!".err"]
  metaFile := join [j.root, b.outputPathPrefix, case ++ c!".meta"]
  target := b.target
  extraParams := if b.type = .problemsetter then [case, j.language] else []
  extraMounts := b.extraMounts

/-- The calls for all cases, runner/runner.go:799-955, when none is skipped. -/
def runCalls (j : Job) (bs : List Binary) : List RunCall :=
  j.cases.flatMap fun case => (bs.filter fun b => b.type ≠ .validator).map (runCall j case)

/-- The call that runs the custom validator on a case, runner/runner.go:1085-1124; `hasOutput` is whether the case has an
expected output. -/
def validatorCall (j : Job) (lang case : Str) (hasOutput : Bool) : RunCall where
  limits := validatorLimits (effectiveLimits j) j.validatorOwnLimits
  lang := lang
  chdir := validatorBin j
  input := join [j.root, case ++ c!".out"]
  output := join [j.root, c!"validator", case ++ c!".out"]
  error := join [j.root, c!"validator", case ++ c!".err"]
  metaFile := join [j.root, c!"validator", case ++ c!".meta"]
  target := c!"validator"
  originalInput := some (join [j.inputPath, c!"cases", case ++ c!".in"])
  originalOutput := some (
    if hasOutput then join [j.inputPath, c!"cases", case ++ c!".out"] else c!"/dev/null")
  runMeta := some (join [j.root, case ++ c!".meta"])
  extraParams := [case, j.language]

/-- One validated case with what the world answers. -/
structure Validated where
  case : Str
  env : PlaceEnv := {}
  outcome : Outcome := {}

/-- The runs of the custom validator, runner/runner.go:1069-1124, on the cases that were executed without a failure. -/
def validate (j : Job) (lang : Str) : List Validated → FS → FS × List (Str × Option Invocation)
  | [], fs => (fs, [])
  | v :: rest, fs =>
    let hasOutput := (fs.ino (join [j.inputPath, c!"cases", v.case ++ c!".out"])).isSome
    match run v.env v.outcome (validatorCall j lang v.case hasOutput) fs with
    | (fs, inv) =>
      match validate j lang rest fs with
      | (fs, invs) => (fs, (v.case, inv) :: invs)

/-! ## Setting up -/

/-- A step that puts a file (or a directory, or a pipe) in its place. -/
inductive Op where
  | mkdir (path : Str)
  | copy (src dst : Str)
  | write (path contents : Str)
  | fifo (path : Str)
deriving DecidableEq

/-- The files of one interface, runner/runner.go:576-637; `none`: the interface is nil. `ifaces` are the names of all
interfaces. -/
def ifaceOps (j : Job) (ia : Interactive) (ifaces : List Str) (name : Str) (langs : List (Str × Iface)) :
    Option (List Op) :=
  let lang := if name = c!"Main" then extension ia.parentLang else extension j.language
  match get lang langs with
  | none => none
  | some iface => some <|
    (iface.files.map fun f => Op.write (join [j.root, name ++ c!"/bin/" ++ base f.1]) f.2) ++
    if name = c!"Main" then
      (ifaces.filter fun n => n ≠ c!"Main").map fun n =>
        Op.mkdir (join [j.root, name ++ c!"/bin/" ++ n ++ c!"_pipes"])
    else
      [Op.write (join [j.root, name ++ c!"/bin/" ++ ia.moduleName ++ '.' :: extension j.language]) j.source,
       Op.mkdir (join [j.root, name ++ c!"/bin/" ++ name ++ c!"_pipes"]),
       Op.mkdir (join [j.root, name, c!"pipes"]),
       Op.fifo (join [join [j.root, name, c!"pipes"], c!"in"]),
       Op.fifo (join [join [j.root, name, c!"pipes"], c!"out"])]

/-- The loop over the interfaces, runner/runner.go:576-637. -/
def ifacesOps (j : Job) (ia : Interactive) (ifaces : List Str) : List (Str × List (Str × Iface)) → Option (List Op)
  | [] => some []
  | (name, langs) :: rest =>
    match ifaceOps j ia ifaces name langs, ifacesOps j ia ifaces rest with
    | some ops, some more => some (ops ++ more)
    | _, _ => none

/-- The directories of the programs, runner/runner.go:549-555. -/
def binDirs (j : Job) (bs : List Binary) : List Op :=
  (bs.filter fun b => b.type ≠ .validator).map fun b => .mkdir (join [j.root, b.name, c!"bin"])

/-- Everything put in place before compiling, in order: runner/runner.go:549-637, 640-651 and 698-716; `none` if a nil
interface is met on the way (then `Grade` panics). -/
def setupOps (j : Job) (bs : List Binary) : Option (List Op) :=
  let regular :=
    match j.interactive with
    | some ia =>
      match ifacesOps j ia (ia.interfaces.map Prod.fst) ia.interfaces with
      | none => none
      | some ops => some (binDirs j bs ++
          Op.copy
            (join [j.inputPath, c!"interactive/Main." ++ extension ia.parentLang])
            (join [j.root, c!"Main/bin/Main." ++ extension ia.parentLang]) :: ops)
    | none => some
      [Op.mkdir (join [j.root, c!"Main", c!"bin"]),
       Op.write (join [join [j.root, c!"Main", c!"bin"], c!"Main." ++ extension j.language]) j.source]
  regular.map fun ops => ops ++
    match j.validator with
    | some lang =>
      [Op.mkdir (validatorBin j),
       Op.copy (join [j.inputPath, c!"validator." ++ lang])
         (join [validatorBin j, c!"validator." ++ extension lang])]
    | none => []

/-- Does one step; the Boolean says whether it returns an error, which ends the run. `works` is the answer of the
world for directories, written files and pipes. -/
def Op.exec (works : Bool) (env : CopyEnv) (fs : FS) : Op → FS × Bool
  | .mkdir _ => (fs, !works)
  | .fifo _ => (fs, !works)
  | .write p c => if works then (fs.write p c, false) else (fs, true)
  | .copy src dst => copyFile env src dst fs

/-- Does the steps until the first error. -/
def execOps : List (Op × Bool × CopyEnv) → FS → FS × Bool
  | [], fs => (fs, false)
  | (op, works, env) :: rest, fs =>
    match op.exec works env fs with
    | (fs, true) => (fs, true)
    | (fs, false) => execOps rest fs

/-- The files of a run up to the validation: those put in place by `steps` (runner/runner.go:549-716), and what compiling
and running the cases writes (runner/runner.go:737-955; any sequence of writes). The Boolean says whether setting up failed,
which ends the run. -/
def beforeValidation (steps : List (Op × Bool × CopyEnv)) (writes : List (Str × Str)) (fs : FS) : FS × Bool :=
  match execOps steps fs with
  | (fs, true) => (fs, true)
  | (fs, false) => (writes.foldl (fun fs w => fs.write w.1 w.2) fs, false)

/-- All of a run, without removing its directory in the end: runner/runner.go:549-1138. -/
def grading (j : Job) (steps : List (Op × Bool × CopyEnv)) (writes : List (Str × Str)) (vs : List Validated)
    (fs : FS) : FS × List (Str × Option Invocation) :=
  match beforeValidation steps writes fs with
  | (fs, true) => (fs, [])
  | (fs, false) =>
    match j.validator with
    | none => (fs, [])
    | some lang => validate j lang vs fs

/-! ## The files that are sent back -/

/-- The files a call is told to write to. -/
def RunCall.outputs (c : RunCall) : List Str := [c.output, c.error, c.metaFile]

/-- The files a compilation is told to write to. -/
def CompileCall.outputs (c : CompileCall) : List Str := [c.output, c.error, c.metaFile]

/-- The names collected while compiling, runner/runner.go:766-771. -/
def compileFiles (b : Binary) : List Str :=
  [join [b.name, c!"compile.out"], join [b.name, c!"compile.err"], join [b.name, c!"compile.meta"]]

/-- The names collected for one program and case, runner/runner.go:936-949. -/
def caseFiles (case : Str) (b : Binary) : List Str :=
  [join [b.outputPathPrefix, case ++ c!".out"], join [b.outputPathPrefix, case ++ c!".err"],
   join [b.outputPathPrefix, case ++ c!".meta"]]

/-- The names collected for the validation of a case, runner/runner.go:1127-1132. -/
def validationFiles (case : Str) : List Str :=
  [c!"validator/" ++ case ++ c!".out", c!"validator/" ++ case ++ c!".err",
   c!"validator/" ++ case ++ c!".meta"]

/-- All names collected, `generatedFiles`, runner/runner.go:737-1132: while compiling; for the cases in `ran`, which is all
but those skipped after the overall time limit, each with the programs in the order in which they finished
(runner/runner.go:956-999); and for the cases in `validated`. Output-only runs have no programs (runner/runner.go:814-877). -/
def generatedFiles (j : Job) (bs : List Binary) (ran : List (Str × List Binary)) (validated : List Str) :
    List Str :=
  bs.flatMap compileFiles ++
  ran.flatMap (fun r =>
    if j.language = c!"cat" then [r.1 ++ c!".out", r.1 ++ c!".err", r.1 ++ c!".meta"]
    else r.2.flatMap (caseFiles r.1)) ++
  match j.validator with
  | some _ => validated.flatMap validationFiles
  | none => []

/-- `createZipFile`, runner/runner.go:1284-1310: the members of the archive in order, for files whose contents are
`contents`; those that cannot be opened are left out. Failures to write the archive are left out. -/
def zipMembers (root : Str) (contents : Str → Option Str) : List Str → List (Str × Str)
  | [] => []
  | f :: rest =>
    match contents (join [root, f]) with
    | some c => (f, c) :: zipMembers root contents rest
    | none => zipMembers root contents rest

end Quark.Sandbox
