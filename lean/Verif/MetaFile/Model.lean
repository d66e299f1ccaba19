/-!
Model of the sandbox meta file parser and of the verdict order:
/repo/runner/sandbox.go:401-515, /repo/runner/runner.go:1325-1348,
/repo/common/problemsettings.go:220-234.

Go strings are byte strings; here they are `List Char` with one `Char` per byte. Only ASCII
characters are ever compared.
-/
namespace Quark.MetaFile

/-- Verdicts. Go uses strings; `Verdict.name` gives them back. -/
inductive Verdict where
  | JE | CE | MLE | RFE | RTE | TLE | OLE | WA | PA | AC | OK
deriving DecidableEq, Repr

/-- The string the code uses for a verdict. -/
def Verdict.name : Verdict → String
  | .JE => "JE" | .CE => "CE" | .MLE => "MLE" | .RFE => "RFE" | .RTE => "RTE" | .TLE => "TLE"
  | .OLE => "OLE" | .WA => "WA" | .PA => "PA" | .AC => "AC" | .OK => "OK"

/-- common/problemsettings.go:222-234 `VerdictList` -/
def verdictList : List String :=
  ["JE", "CE", "MLE", "RFE", "RTE", "TLE", "OLE", "WA", "PA", "AC", "OK"]

/-- runner/runner.go:1333-1340 `sliceIndex` with the predicate used by `worseVerdict`; -1 if absent. -/
def sliceIndex (v : String) : List String → Int
  | [] => -1
  | x :: xs => if x = v then 0 else
      let r := sliceIndex v xs
      if r = -1 then -1 else r + 1

/-- Go slice indexing; `none` is the run-time panic for an index out of range. -/
def index (l : List String) (i : Int) : Option String :=
  if i < 0 then none else l[i.toNat]?

/-- runner/runner.go:1325-1331 `worseVerdict`; `none` = panic. -/
def worseVerdict (a b : String) : Option String :=
  let ia := sliceIndex a verdictList
  let ib := sliceIndex b verdictList
  index verdictList (if ia < ib then ia else ib)

/-- runner/sandbox.go:89-98 `RunMetadata`. Times are kept as the text last written in the file (the
parser only divides them by 1e6 and nothing in this function depends on them). -/
structure Meta where
  verdict : Verdict := .JE
  exitStatus : Int := -1
  time : Option (List Char) := none
  sysTime : Option (List Char) := none
  wallTime : Option (List Char) := none
  memory : Int := 0
  signal : Option (List Char) := none
  syscall : Option (List Char) := none
deriving DecidableEq, Repr

/-- bufio.ScanLines (runner/sandbox.go:413-415): lines end at '\n', one trailing '\r' is dropped, a last
line without '\n' counts if it is not empty. -/
def splitLines : List Char → List Char → List (List Char)
  | acc, [] => if acc = [] then [] else [acc.reverse]
  | acc, c :: cs => if c = '\n' then acc.reverse :: splitLines [] cs else splitLines (c :: acc) cs

def dropCR (l : List Char) : List Char :=
  match l.getLast? with
  | some '\r' => l.dropLast
  | _ => l

/-- bufio.MaxScanTokenSize: a longer line stops the scanner with an error. -/
def maxLine : Nat := 65536

/-- `strings.SplitN(line, ":", 2)` (runner/sandbox.go:415): `none` if there is no colon. -/
def splitColon : List Char → Option (List Char × List Char)
  | [] => none
  | c :: cs => if c = ':' then some ([], cs) else
      (splitColon cs).map fun (k, v) => (c :: k, v)

/-- Value of a run of decimal digits, `none` if empty or some character is not a digit. -/
def digits : List Char → Option Nat
  | [] => none
  | l => l.foldl (fun acc c => acc.bind fun n =>
      if '0' ≤ c ∧ c ≤ '9' then some (n * 10 + (c.toNat - 48)) else none) (some 0)

/-- The optional sign `strconv.Atoi` reads first (used at runner/sandbox.go:421,433). -/
def stripSign : List Char → Bool × List Char
  | '-' :: r => (true, r)
  | '+' :: r => (false, r)
  | r => (false, r)

/-- `strconv.Atoi`/`ParseInt(s, 10, 64)` with the error discarded (runner/sandbox.go:421,433): 0 for
malformed text, the nearest representable value on overflow. -/
def atoi (s : List Char) : Int :=
  match digits (stripSign s).2 with
  | none => 0
  | some n => if (stripSign s).1 then max (-(n : Int)) (-2 ^ 63) else min (n : Int) (2 ^ 63 - 1)

/-- runner/sandbox.go:420-449: one well-formed line. -/
def applyField (m : Meta) (key value : List Char) : Meta :=
  if key = "status".toList then { m with exitStatus := atoi value }
  else if key = "time".toList then { m with time := some value }
  else if key = "time-sys".toList then { m with sysTime := some value }
  else if key = "time-wall".toList then { m with wallTime := some value }
  else if key = "mem".toList then { m with memory := atoi value }
  else if key = "signal".toList then { m with signal := some value }
  else if key = "signal_number".toList then { m with signal := some ("SIGNAL ".toList ++ value) }
  else if key = "syscall".toList then { m with syscall := some value }
  else if key = "syscall_number".toList then { m with syscall := some ("SYSCALL ".toList ++ value) }
  else m

/-- runner/sandbox.go:413-453: the scanning loop. The Boolean says whether an error is returned. -/
def scan : Meta → List (List Char) → Meta × Bool
  | m, [] => (m, false)
  | m, l :: ls =>
    if maxLine ≤ l.length then (m, true) else
    match splitColon (dropCR l) with
    | none => (m, true)
    | some (k, v) => scan (applyField m k v) ls

/-- runner/sandbox.go:455-470: verdict for a signal. -/
def signalVerdict (s : List Char) : Verdict :=
  if s = "SIGSYS".toList then .RFE
  else if s ∈ ["SIGILL".toList, "SIGABRT".toList, "SIGFPE".toList, "SIGKILL".toList,
      "SIGPIPE".toList, "SIGBUS".toList, "SIGSEGV".toList] then .RTE
  else if s ∈ ["SIGALRM".toList, "SIGXCPU".toList] then .TLE
  else if s = "SIGXFSZ".toList then .OLE
  else .RTE

/-- runner/sandbox.go:401-488 `parseMetaFile`. `memoryLimit` is `none` for nil limits; `oom` says whether
the error file mentions java.lang.OutOfMemoryError (runner/sandbox.go:490-515 `isJavaMLE`). -/
def parseMetaFile (memoryLimit : Option Int) (lang : String) (file : List Char) (oom : Bool)
    (allowNonZero : Bool) : Meta × Bool :=
  let (m, err) := scan {} (splitLines [] file)
  if err then (m, true) else
  let v₁ : Verdict := match m.signal with
    | some s => signalVerdict s
    | none => if m.exitStatus = 0 ∨ allowNonZero then .OK else .RTE
  let v₂ := if (lang = "kj" ∨ lang = "kp") ∧ m.exitStatus = 1 then .TLE else v₁
  match memoryLimit with
  | none => ({ m with verdict := v₂ }, false)
  | some lim =>
    if 0 < lim ∧ (lim < m.memory ∨ (lang = "java" ∧ m.exitStatus ≠ 0 ∧ oom)) then
      ({ m with verdict := .MLE, memory := lim }, false)
    else ({ m with verdict := v₂ }, false)

end Quark.MetaFile
