import Verif.Wire.Props

/-!
# Problem settings as JSON

Model of the encoding and decoding of `ProblemSettings` and its parts (/repo/common/problemsettings.go 14-135), which
the grader writes into the archive of a literal input (/repo/common/literalinput.go:375-379) and the runner reads from
`settings.json` (/repo/runner/input.go:117-127, 266-276), and of `LiteralCaseSettings`
(/repo/common/literalinput.go:45-92), which clients send.

Simplifications: those of `Wire/Model.lean` (JSON syntax trees, shortest literals, `base.FloatToRational` as the
parameter `ofF`). `base.Duration` and `base.Byte` are external types with their own encodings, and the interactive part
is only carried along: these are codecs about which only one thing is known, that they read back what they wrote.
-/
namespace Quark.Settings
open Quark.Float (F64 fl roundQ)
open Quark.Wire

/-- An external encoding that reads back what it wrote, and never writes `null`. -/
structure Codec (α : Type) where
  enc : α → J
  /-- reading into a variable that holds the first argument -/
  dec : α → J → Option α
  trip : ∀ old x, dec old (enc x) = some x
  not_null : ∀ x, enc x ≠ .null

/-- `LimitsSettings`, /repo/common/problemsettings.go:14-20. -/
structure Limits where
  extraWallTime : Int := 0
  memoryLimit : Int := 0
  outputLimit : Int := 0
  overallWallTimeLimit : Int := 0
  timeLimit : Int := 0
deriving DecidableEq

/-- `ValidatorSettings`, /repo/common/problemsettings.go:23-28. -/
structure Validator where
  lang : Option Bytes := none
  name : Bytes := []
  tolerance : Option F64 := none
  limits : Option Limits := none

/-- `CaseSettings`, /repo/common/problemsettings.go:59-62; the weight may be nil. -/
structure Case where
  name : Bytes := []
  weight : Option ℚ := none
deriving DecidableEq

/-- `GroupSettings`, /repo/common/problemsettings.go:105-108. -/
structure Group where
  cases : Option (List Case) := none
  name : Bytes := []
deriving DecidableEq

/-- `ProblemSettings`, /repo/common/problemsettings.go:129-135. -/
structure Problem (ι : Type) where
  cases : Option (List Group) := none
  interactive : Option ι := none
  limits : Limits := {}
  slow : Bool := false
  validator : Validator := {}

/-- The external encodings. -/
structure Codecs (ι : Type) where
  duration : Codec Int
  byte : Codec Int
  interactive : Codec ι

variable {ι : Type}

/-! ## Writing -/

/-- Default encoding of `LimitsSettings`. -/
def encLimits (C : Codecs ι) (l : Limits) : J := .struct [
  ("ExtraWallTime", C.duration.enc l.extraWallTime), ("MemoryLimit", C.byte.enc l.memoryLimit),
  ("OutputLimit", C.byte.enc l.outputLimit), ("OverallWallTimeLimit", C.duration.enc l.overallWallTimeLimit),
  ("TimeLimit", C.duration.enc l.timeLimit)]

/-- `Tolerance *float64` with `omitempty`; an infinity or NaN cannot be encoded. -/
def encTolerance : Option F64 → Option (List (String × J))
  | none => some []
  | some x => (encFlt x).map fun j => [("Tolerance", j)]

/-- Default encoding of `ValidatorSettings`. -/
def encValidator (C : Codecs ι) (v : Validator) : Option J :=
  match encTolerance v.tolerance with
  | some t => some (.struct (opt "Lang" v.lang ++ [("Name", encStr v.name)] ++ t ++
      (match v.limits with | some l => [("Limits", encLimits C l)] | none => [])))
  | none => none

/-- `CaseSettings.MarshalJSON`, /repo/common/problemsettings.go:65-73; `none`: a nil weight makes
`base.RationalToFloat` panic, too large a one cannot be encoded. -/
def encCase (c : Case) : Option J :=
  match encScore c.weight with
  | some w => some (.struct [("Name", encStr c.name), ("Weight", w)])
  | none => none

/-- Default encoding of `GroupSettings`. The pointer method of the cases is used, as slice elements are
addressable. -/
def encGroup (g : Group) : Option J :=
  match encSlice encCase g.cases with
  | some cs => some (.struct [("Cases", cs), ("Name", encStr g.name)])
  | none => none

/-- Default encoding of `ProblemSettings`. -/
def encProblem (C : Codecs ι) (p : Problem ι) : Option J :=
  match encSlice encGroup p.cases, encValidator C p.validator with
  | some gs, some v => some (.struct ([("Cases", gs)] ++
      (match p.interactive with | some i => [("Interactive", C.interactive.enc i)] | none => []) ++
      [("Limits", encLimits C p.limits), ("Slow", .bool p.slow), ("Validator", v)]))
  | _, _ => none

/-! ## Reading -/

/-- The members are looked up by their names in small letters (`Wire.fields`). -/
def Limits.set (C : Codecs ι) (l : Limits) (k : String) (j : J) : Option Limits :=
  if k = "extrawalltime" then (C.duration.dec l.extraWallTime j).map fun x => { l with extraWallTime := x }
  else if k = "memorylimit" then (C.byte.dec l.memoryLimit j).map fun x => { l with memoryLimit := x }
  else if k = "outputlimit" then (C.byte.dec l.outputLimit j).map fun x => { l with outputLimit := x }
  else if k = "overallwalltimelimit" then
    (C.duration.dec l.overallWallTimeLimit j).map fun x => { l with overallWallTimeLimit := x }
  else if k = "timelimit" then (C.duration.dec l.timeLimit j).map fun x => { l with timeLimit := x }
  else some l

/-- Default decoding of `LimitsSettings` into `old`. -/
def decLimits (C : Codecs ι) (old : Limits) : J → Option Limits
  | .null => some old
  | .struct ms => fields (Limits.set C) old ms
  | _ => none

/-- Reading `*float64`. -/
def decFltPtr : J → Option (Option F64)
  | .null => some none
  | j => (decFlt (.fin 0) j).map some

/-- Reading `*LimitsSettings`. -/
def decLimitsPtr (C : Codecs ι) : J → Option (Option Limits)
  | .null => some none
  | j => (decLimits C {} j).map some

def Validator.set (C : Codecs ι) (v : Validator) (k : String) (j : J) : Option Validator :=
  if k = "lang" then (decPtr j).map fun x => { v with lang := x }
  else if k = "name" then (decStr v.name j).map fun x => { v with name := x }
  else if k = "tolerance" then (decFltPtr j).map fun x => { v with tolerance := x }
  else if k = "limits" then (decLimitsPtr C j).map fun x => { v with limits := x }
  else some v

/-- Default decoding of `ValidatorSettings` into `old`. -/
def decValidator (C : Codecs ι) (old : Validator) : J → Option Validator
  | .null => some old
  | .struct ms => fields (Validator.set C) old ms
  | _ => none

/-- The anonymous struct of /repo/common/problemsettings.go:81-84. -/
structure RawCase where
  name : Bytes := []
  weight : F64 := .fin 0

def RawCase.set (c : RawCase) (k : String) (j : J) : Option RawCase :=
  if k = "name" then (decStr c.name j).map fun x => { c with name := x }
  else if k = "weight" then (decFlt c.weight j).map fun x => { c with weight := x }
  else some c

/-- `CaseSettings.UnmarshalJSON`, /repo/common/problemsettings.go:76-94, on a new slice element. -/
def decCase (ofF : ℚ → ℚ) : J → Option Case
  | .null => some {}
  | .struct ms => match fields RawCase.set {} ms with
    | some c => some ⟨c.name, ofScore ofF c.weight⟩
    | none => none
  | _ => none

def Group.set (ofF : ℚ → ℚ) (g : Group) (k : String) (j : J) : Option Group :=
  if k = "cases" then (decSlice (decCase ofF) j).map fun x => { g with cases := x }
  else if k = "name" then (decStr g.name j).map fun x => { g with name := x }
  else some g

/-- Default decoding of `GroupSettings`. -/
def decGroup (ofF : ℚ → ℚ) : J → Option Group
  | .null => some {}
  | .struct ms => fields (Group.set ofF) {} ms
  | _ => none

/-- Reading a nil pointer to the interactive part; any other value is read into `zero`. -/
def decInteractive (C : Codecs ι) (zero : ι) : J → Option (Option ι)
  | .null => some none
  | j => (C.interactive.dec zero j).map some

def Problem.set (C : Codecs ι) (zero : ι) (ofF : ℚ → ℚ) (p : Problem ι) (k : String) (j : J) : Option (Problem ι) :=
  if k = "cases" then (decSlice (decGroup ofF) j).map fun x => { p with cases := x }
  else if k = "interactive" then (decInteractive C zero j).map fun x => { p with interactive := x }
  else if k = "limits" then (decLimits C p.limits j).map fun x => { p with limits := x }
  else if k = "slow" then (decBool p.slow j).map fun x => { p with slow := x }
  else if k = "validator" then (decValidator C p.validator j).map fun x => { p with validator := x }
  else some p

/-- Default decoding of `ProblemSettings` (/repo/runner/input.go:117-127 and 266-276, where the settings are zero
before). -/
def decProblem (C : Codecs ι) (zero : ι) (ofF : ℚ → ℚ) : J → Option (Problem ι)
  | .null => some {}
  | .struct ms => fields (Problem.set C zero ofF) {} ms
  | _ => none

/-! ## The runner's sum of the weights -/

/-- /repo/runner/runner.go:471-477: `none` is the nil dereference of `Add(…, nil)`. -/
def addWeights : ℚ → List (Option ℚ) → Option ℚ
  | t, [] => some t
  | _, none :: _ => none
  | t, some w :: rest => addWeights (t + w) rest

/-- All cases, in order (a nil slice has none). -/
def Problem.allCases (p : Problem ι) : List Case := (p.cases.getD []).flatMap fun g => g.cases.getD []

/-- /repo/runner/runner.go:471-482 `totalWeightFactor`; `none` is a panic. -/
def weightFactor (p : Problem ι) : Option ℚ :=
  (addWeights 0 (p.allCases.map Case.weight)).map fun t => if t ≤ 0 then 1 else 1 / t

/-! ## Cases of literal inputs -/

/-- `LiteralCaseSettings`, /repo/common/literalinput.go:45-49. -/
structure LiteralCase where
  input : Bytes := []
  output : Bytes := []
  weight : Option ℚ := none
deriving DecidableEq

/-- `LiteralCaseSettings.MarshalJSON`, /repo/common/literalinput.go:54-64. -/
def encLiteral (c : LiteralCase) : Option J :=
  match encScore c.weight with
  | some w => some (.struct [("in", encStr c.input), ("out", encStr c.output), ("weight", w)])
  | none => none

/-- The anonymous struct of /repo/common/literalinput.go:72-76. -/
structure RawLiteral where
  input : Bytes := []
  output : Bytes := []
  weight : Option F64 := none

def RawLiteral.set (c : RawLiteral) (k : String) (j : J) : Option RawLiteral :=
  if k = "in" then (decStr c.input j).map fun x => { c with input := x }
  else if k = "out" then (decStr c.output j).map fun x => { c with output := x }
  else if k = "weight" then (decFltPtr j).map fun x => { c with weight := x }
  else some c

/-- A value of `map[string]*LiteralCaseSettings`: `null` is a nil pointer, anything else goes to
`LiteralCaseSettings.UnmarshalJSON`, /repo/common/literalinput.go:67-92. -/
def decLiteral (ofF : ℚ → ℚ) : J → Option (Option LiteralCase)
  | .null => some none
  | .struct ms => match fields RawLiteral.set {} ms with
    | some c => some (some ⟨c.input, c.output, match c.weight with
        | none => some 1
        | some x => ofScore ofF x⟩)
    | none => none
  | _ => none

end Quark.Settings
