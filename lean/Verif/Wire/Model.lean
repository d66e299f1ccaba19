import Verif.Wire.Text
import Verif.Float.Model
/-!
# Runs and results on the wire

Model of the JSON encodings and decodings of `common.Run` (`common/run.go` 24-84), `RunMetadata`
(`runner/sandbox.go` 88-98), `CaseResult`, `GroupResult` and `RunResult` (`runner/runner.go` 25-231).

Simplifications:
* a JSON text is represented by its syntax tree, in which string literals are kept as the bytes
  between the quotes (`Text.lean` models those exactly); that Go's parser inverts Go's printer on
  trees is a contract;
* a number is an integer or the binary64 value that its literal denotes: Go prints a `float64` with
  the shortest literal that `ParseFloat` reads back as the same value, a contract;
* an object written from a Go struct keeps its keys as `String`s (they are fixed ASCII names), an
  object written from a Go map as literals;
* a Go map is represented by its entries, in the order they are printed;
* `base.RationalToFloat` rounds to the nearest binary64 (and panics on nil); `base.FloatToRational`
  is the parameter `ofF` (external code, documented to give a rational within 1e-6).
-/
namespace Quark.Wire
open Quark.Float (F64 fl)

/-- A JSON value (see above). -/
inductive J where
  | null
  | bool (b : Bool)
  | int (n : Int)
  | flt (q : ℚ)
  | str (lit : Bytes)
  | arr (l : List J)
  | struct (fields : List (String × J))
  | map (entries : List (Bytes × J))

/-! ## Values -/

/-- A `string` field. -/
def encStr (s : Bytes) : J := .str (quote s)

/-- Reading a `string` field that holds `old`. -/
def decStr (old : Bytes) : J → Option Bytes
  | .str l => unquote l
  | .null => some old
  | _ => none

/-- Reading a `*string` field. -/
def decPtr : J → Option (Option Bytes)
  | .str l => (unquote l).map some
  | .null => some none
  | _ => none

/-- A `float64` field; `none`: `json.UnsupportedValueError`. -/
def encFlt : F64 → Option J
  | .fin q => some (.flt q)
  | _ => none

/-- Reading a `float64` field that holds `old`. -/
def decFlt (old : F64) : J → Option F64
  | .flt q => some (.fin q)
  | .int n => match fl n with
    | .fin q => some (.fin q)
    | _ => none
  | .null => some old
  | _ => none

/-- Reading an `int` or `base.Byte` (`int64`) field that holds `old`. -/
def decInt64 (old : Int64) : J → Option Int64
  | .int n => if -2 ^ 63 ≤ n ∧ n < 2 ^ 63 then some (Int64.ofInt n) else none
  | .null => some old
  | _ => none

/-- Reading a `uint64` field that holds `old`. -/
def decUInt64 (old : UInt64) : J → Option UInt64
  | .int n => if 0 ≤ n ∧ n < 2 ^ 64 then some (UInt64.ofNat n.toNat) else none
  | .null => some old
  | _ => none

def decBool (old : Bool) : J → Option Bool
  | .bool b => some b
  | .null => some old
  | _ => none

/-- A score: `base.RationalToFloat` of a `*big.Rat`, printed as a `float64`.  `none`: a panic (nil)
or an encoding error (the value overflows). -/
def encScore : Option ℚ → Option J
  | some q => encFlt (fl q)
  | none => none

/-- Reading a score: a `float64` field starting at 0, then `base.FloatToRational`. -/
def ofScore (ofF : ℚ → ℚ) : F64 → Option ℚ
  | .fin q => some (ofF q)
  | _ => none

/-- All elements of a slice or array. -/
def allOf {α β} (f : α → Option β) : List α → Option (List β)
  | [] => some []
  | a :: l => match f a, allOf f l with
    | some b, some bs => some (b :: bs)
    | _, _ => none

/-- How `encoding/json` looks at a letter of a member's name when it looks for the field (the field names are all in
small letters): without case; `ſ` (U+017F) also folds to `s` and `K` (U+212A, the Kelvin sign) to `k`. -/
def foldChar (c : Char) : Char :=
  if 65 ≤ c.toNat ∧ c.toNat ≤ 90 then Char.ofNat (c.toNat + 32)
  else if c.toNat = 0x17F then 's'
  else if c.toNat = 0x212A then 'k'
  else c

/-- How `encoding/json` looks at a member's name. -/
def foldName (k : String) : String := String.ofList (k.toList.map foldChar)

/-- Reading an object into a struct: each member in turn is stored by `set`. -/
def fields {α} (set : α → String → J → Option α) : α → List (String × J) → Option α
  | a, [] => some a
  | a, (k, j) :: l => match set a (foldName k) j with
    | some a' => fields set a' l
    | none => none

/-! ## Run -/

/-- `common.Run`, `common/run.go` 24-32. -/
structure Run where
  attemptId : UInt64
  source : Bytes
  language : Bytes
  problem : Bytes
  inputHash : Bytes
  maxScore : Option ℚ
  debug : Bool

/-- `Run.MarshalJSON`, `common/run.go` 35-53. -/
def encRun (r : Run) : Option J :=
  match encScore r.maxScore with
  | some s => some (.struct [
      ("attempt_id", .int r.attemptId.toNat),
      ("source", encStr r.source),
      ("language", encStr r.language),
      ("problem", encStr r.problem),
      ("input_hash", encStr r.inputHash),
      ("max_score", s),
      ("debug", .bool r.debug)])
  | none => none

/-- The anonymous struct of `Run.UnmarshalJSON`, `common/run.go` 61-69. -/
structure RawRun where
  attemptId : UInt64 := 0
  source : Bytes := []
  language : Bytes := []
  problem : Bytes := []
  inputHash : Bytes := []
  maxScore : F64 := .fin 0
  debug : Bool := false

def RawRun.set (r : RawRun) (k : String) (j : J) : Option RawRun :=
  if k = "attempt_id" then (decUInt64 r.attemptId j).map fun x => { r with attemptId := x }
  else if k = "source" then (decStr r.source j).map fun x => { r with source := x }
  else if k = "language" then (decStr r.language j).map fun x => { r with language := x }
  else if k = "problem" then (decStr r.problem j).map fun x => { r with problem := x }
  else if k = "input_hash" then (decStr r.inputHash j).map fun x => { r with inputHash := x }
  else if k = "max_score" then (decFlt r.maxScore j).map fun x => { r with maxScore := x }
  else if k = "debug" then (decBool r.debug j).map fun x => { r with debug := x }
  else some r

/-- `Run.UnmarshalJSON` into a zero `Run`, `common/run.go` 56-84 (called by the runner,
`cmd/omegaup-runner/main.go` 484-488). -/
def decRun (ofF : ℚ → ℚ) : J → Option Run
  | .null => some ⟨0, [], [], [], [], none, false⟩
  | .struct ms => match fields RawRun.set {} ms with
    | some r => some ⟨r.attemptId, r.source, r.language, r.problem, r.inputHash,
        ofScore ofF r.maxScore, r.debug⟩
    | none => none
  | _ => none

/-! ## RunMetadata -/

/-- `RunMetadata`, `runner/sandbox.go` 88-98. -/
structure Meta where
  verdict : Bytes := []
  exitStatus : Int64 := 0
  time : F64 := .fin 0
  sysTime : F64 := .fin 0
  wallTime : F64 := .fin 0
  memory : Int64 := 0
  signal : Option Bytes := none
  syscall : Option Bytes := none

/-- An optional field. -/
def opt (k : String) : Option Bytes → List (String × J)
  | some s => [(k, encStr s)]
  | none => []

/-- The default encoding of a `RunMetadata` by `encoding/json`. -/
def encMeta (m : Meta) : Option J :=
  match encFlt m.time, encFlt m.sysTime, encFlt m.wallTime with
  | some t, some s, some w => some (.struct (
      [("verdict", encStr m.verdict)] ++
      (if m.exitStatus = 0 then [] else [("exit_status", .int m.exitStatus.toInt)]) ++
      [("time", t), ("sys_time", s), ("wall_time", w), ("memory", .int m.memory.toInt)] ++
      opt "signal" m.signal ++ opt "syscall" m.syscall))
  | _, _, _ => none

def Meta.set (m : Meta) (k : String) (j : J) : Option Meta :=
  if k = "verdict" then (decStr m.verdict j).map fun x => { m with verdict := x }
  else if k = "exit_status" then (decInt64 m.exitStatus j).map fun x => { m with exitStatus := x }
  else if k = "time" then (decFlt m.time j).map fun x => { m with time := x }
  else if k = "sys_time" then (decFlt m.sysTime j).map fun x => { m with sysTime := x }
  else if k = "wall_time" then (decFlt m.wallTime j).map fun x => { m with wallTime := x }
  else if k = "memory" then (decInt64 m.memory j).map fun x => { m with memory := x }
  else if k = "signal" then (decPtr j).map fun x => { m with signal := x }
  else if k = "syscall" then (decPtr j).map fun x => { m with syscall := x }
  else some m

/-- The default decoding into a zero `RunMetadata`. -/
def decMeta : J → Option Meta
  | .null => some {}
  | .struct ms => fields Meta.set {} ms
  | _ => none

/-! ## Maps of RunMetadata -/

/-- A `map[string]RunMetadata`, nil or not. -/
abbrev MetaMap := Option (List (Bytes × Meta))

def encEntry (e : Bytes × Meta) : Option (Bytes × J) := (encMeta e.2).map fun j => (quote e.1, j)

def encMap : MetaMap → Option J
  | none => some .null
  | some m => (allOf encEntry m).map .map

/-- Storing under a key, in a map. -/
def upsert (k : Bytes) (v : Meta) : List (Bytes × Meta) → List (Bytes × Meta)
  | [] => [(k, v)]
  | (k', v') :: l => if k' = k then (k, v) :: l else (k', v') :: upsert k v l

def decEntries : List (Bytes × Meta) → List (Bytes × J) → Option (List (Bytes × Meta))
  | acc, [] => some acc
  | acc, (k, j) :: l => match unquote k, decMeta j with
    | some k', some v => decEntries (upsert k' v acc) l
    | _, _ => none

/-- Reading a nil `map[string]RunMetadata`. -/
def decMap : J → Option MetaMap
  | .null => some none
  | .map es => (decEntries [] es).map some
  | _ => none

/-! ## CaseResult -/

/-- `CaseResult`, `runner/runner.go` 25-33. -/
structure CaseResult where
  verdict : Bytes := []
  name : Bytes := []
  score : Option ℚ := none
  contestScore : Option ℚ := none
  maxScore : Option ℚ := none
  metadata : Meta := {}
  individualMeta : MetaMap := none

/-- `CaseResult.MarshalJSON`, `runner/runner.go` 36-54 (`individual_meta` is omitted when the map
has no entries). -/
def encCase (c : CaseResult) : Option J :=
  match encScore c.score, encScore c.contestScore, encScore c.maxScore, encMeta c.metadata,
      encMap c.individualMeta with
  | some a, some b, some d, some m, some i => some (.struct (
      [("verdict", encStr c.verdict), ("name", encStr c.name), ("score", a), ("contest_score", b),
       ("max_score", d), ("meta", m)] ++
      (if (c.individualMeta.getD []).isEmpty then [] else [("individual_meta", i)])))
  | _, _, _, _, _ => none

/-- The anonymous struct of `runner/runner.go` 62-70. -/
structure RawCase where
  verdict : Bytes := []
  name : Bytes := []
  score : F64 := .fin 0
  contestScore : F64 := .fin 0
  maxScore : F64 := .fin 0
  metadata : Meta := {}
  individualMeta : MetaMap := none

def RawCase.set (c : RawCase) (k : String) (j : J) : Option RawCase :=
  if k = "verdict" then (decStr c.verdict j).map fun x => { c with verdict := x }
  else if k = "name" then (decStr c.name j).map fun x => { c with name := x }
  else if k = "score" then (decFlt c.score j).map fun x => { c with score := x }
  else if k = "contest_score" then (decFlt c.contestScore j).map fun x => { c with contestScore := x }
  else if k = "max_score" then (decFlt c.maxScore j).map fun x => { c with maxScore := x }
  else if k = "meta" then (decMeta j).map fun x => { c with metadata := x }
  else if k = "individual_meta" then (decMap j).map fun x => { c with individualMeta := x }
  else some c

/-- `CaseResult.UnmarshalJSON`, `runner/runner.go` 57-85. -/
def decCase (ofF : ℚ → ℚ) : J → Option CaseResult
  | .null => some {}
  | .struct ms => match fields RawCase.set {} ms with
    | some c => some ⟨c.verdict, c.name, ofScore ofF c.score, ofScore ofF c.contestScore,
        ofScore ofF c.maxScore, c.metadata, c.individualMeta⟩
    | none => none
  | _ => none

/-! ## Slices -/

/-- A slice, nil or not, of values encoded by `f`. -/
def encSlice {α} (f : α → Option J) : Option (List α) → Option J
  | none => some .null
  | some l => (allOf f l).map .arr

/-- Reading a nil slice. -/
def decSlice {α} (f : J → Option α) : J → Option (Option (List α))
  | .null => some none
  | .arr l => (allOf f l).map some
  | _ => none

/-! ## GroupResult -/

/-- `GroupResult`, `runner/runner.go` 88-94. -/
structure GroupResult where
  group : Bytes := []
  score : Option ℚ := none
  contestScore : Option ℚ := none
  maxScore : Option ℚ := none
  cases : Option (List CaseResult) := none

/-- `GroupResult.MarshalJSON`, `runner/runner.go` 97-111. -/
def encGroup (g : GroupResult) : Option J :=
  match encScore g.score, encScore g.contestScore, encScore g.maxScore, encSlice encCase g.cases with
  | some a, some b, some d, some cs => some (.struct
      [("group", encStr g.group), ("score", a), ("contest_score", b), ("max_score", d),
       ("cases", cs)])
  | _, _, _, _ => none

/-- The anonymous struct of `runner/runner.go` 119-125. -/
structure RawGroup where
  group : Bytes := []
  score : F64 := .fin 0
  contestScore : F64 := .fin 0
  maxScore : F64 := .fin 0
  cases : Option (List CaseResult) := none

def RawGroup.set (ofF : ℚ → ℚ) (g : RawGroup) (k : String) (j : J) : Option RawGroup :=
  if k = "group" then (decStr g.group j).map fun x => { g with group := x }
  else if k = "score" then (decFlt g.score j).map fun x => { g with score := x }
  else if k = "contest_score" then (decFlt g.contestScore j).map fun x => { g with contestScore := x }
  else if k = "max_score" then (decFlt g.maxScore j).map fun x => { g with maxScore := x }
  else if k = "cases" then (decSlice (decCase ofF) j).map fun x => { g with cases := x }
  else some g

/-- `GroupResult.UnmarshalJSON`, `runner/runner.go` 114-138. -/
def decGroup (ofF : ℚ → ℚ) : J → Option GroupResult
  | .null => some {}
  | .struct ms => match fields (RawGroup.set ofF) {} ms with
    | some g => some ⟨g.group, ofScore ofF g.score, ofScore ofF g.contestScore,
        ofScore ofF g.maxScore, g.cases⟩
    | none => none
  | _ => none

/-! ## RunResult -/

/-- `RunResult`, `runner/runner.go` 141-153. -/
structure RunResult where
  verdict : Bytes := []
  compileError : Option Bytes := none
  compileMeta : MetaMap := none
  score : Option ℚ := none
  contestScore : Option ℚ := none
  maxScore : Option ℚ := none
  time : F64 := .fin 0
  wallTime : F64 := .fin 0
  memory : Int64 := 0
  judgedBy : Bytes := []
  groups : Option (List GroupResult) := none

/-- `RunResult.MarshalJSON`, `runner/runner.go` 166-192. -/
def encResult (r : RunResult) : Option J :=
  match encMap r.compileMeta, encScore r.score, encScore r.contestScore, encScore r.maxScore,
      encFlt r.time, encFlt r.wallTime, encSlice encGroup r.groups with
  | some cm, some a, some b, some d, some t, some w, some gs => some (.struct (
      [("verdict", encStr r.verdict)] ++ opt "compile_error" r.compileError ++
      [("compile_meta", cm), ("score", a), ("contest_score", b), ("max_score", d), ("time", t),
       ("wall_time", w), ("memory", .int r.memory.toInt)] ++
      (if r.judgedBy.isEmpty then [] else [("judged_by", encStr r.judgedBy)]) ++
      [("groups", gs)]))
  | _, _, _, _, _, _, _ => none

/-- The anonymous struct of `runner/runner.go` 200-212. -/
structure RawResult where
  verdict : Bytes := []
  compileError : Option Bytes := none
  compileMeta : MetaMap := none
  score : F64 := .fin 0
  contestScore : F64 := .fin 0
  maxScore : F64 := .fin 0
  time : F64 := .fin 0
  wallTime : F64 := .fin 0
  memory : Int64 := 0
  judgedBy : Bytes := []
  groups : Option (List GroupResult) := none

def RawResult.set (ofF : ℚ → ℚ) (r : RawResult) (k : String) (j : J) : Option RawResult :=
  if k = "verdict" then (decStr r.verdict j).map fun x => { r with verdict := x }
  else if k = "compile_error" then (decPtr j).map fun x => { r with compileError := x }
  else if k = "compile_meta" then (decMap j).map fun x => { r with compileMeta := x }
  else if k = "score" then (decFlt r.score j).map fun x => { r with score := x }
  else if k = "contest_score" then (decFlt r.contestScore j).map fun x => { r with contestScore := x }
  else if k = "max_score" then (decFlt r.maxScore j).map fun x => { r with maxScore := x }
  else if k = "time" then (decFlt r.time j).map fun x => { r with time := x }
  else if k = "wall_time" then (decFlt r.wallTime j).map fun x => { r with wallTime := x }
  else if k = "memory" then (decInt64 r.memory j).map fun x => { r with memory := x }
  else if k = "judged_by" then (decStr r.judgedBy j).map fun x => { r with judgedBy := x }
  else if k = "groups" then (decSlice (decGroup ofF) j).map fun x => { r with groups := x }
  else some r

/-- `RunResult.UnmarshalJSON` into a zero `RunResult`, `runner/runner.go` 195-231 (called by the
grader, `cmd/omegaup-grader/runner_handler.go` 64-70). -/
def decResult (ofF : ℚ → ℚ) : J → Option RunResult
  | .null => some {}
  | .struct ms => match fields (RawResult.set ofF) {} ms with
    | some r => some ⟨r.verdict, r.compileError, r.compileMeta, ofScore ofF r.score,
        ofScore ofF r.contestScore, ofScore ofF r.maxScore, r.time, r.wallTime, r.memory,
        r.judgedBy, r.groups⟩
    | none => none
  | _ => none

end Quark.Wire
