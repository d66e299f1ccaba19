import Mathlib.Data.List.Lex
import Mathlib.Data.Char
import Mathlib.Data.Rat.Defs
import Mathlib.Algebra.Order.Ring.Rat

/-!
# Literal inputs

`NewLiteralInputFactory` (/repo/common/literalinput.go:217-416), `createTar` (/repo/common/literalinput.go:574-603) and
the validation helpers (/repo/common/literalinput.go:158-206).

Strings are lists of characters: for valid UTF-8, which is what JSON decoding produces, Go's byte order of strings is
the order of their code points. A Go map is a list of entries with distinct keys; whatever iterates over a map does so
in an arbitrary order, chosen by the `Runtime`.
-/

namespace Quark.Literal

abbrev Str := List Char

/-- `LiteralCaseSettings` (/repo/common/literalinput.go:45-49). `none` is the nil weight. -/
structure Case where
  input : Str
  output : Str
  weight : Option ℚ
  deriving DecidableEq

/-- `LimitsSettings` (/repo/common/problemsettings.go:14-20): int64 nanoseconds and bytes. -/
structure Limits where
  extraWallTime : Int
  memoryLimit : Int
  outputLimit : Int
  overallWallTimeLimit : Int
  timeLimit : Int
  deriving DecidableEq

/-- `LiteralCustomValidatorSettings` (/repo/common/literalinput.go:96-100). -/
structure CustomValidator where
  source : Str
  language : Str
  limits : Option Limits
  deriving DecidableEq

/-- `LiteralValidatorSettings` (/repo/common/literalinput.go:107-111). The tolerance is only copied. -/
structure Validator where
  name : Str
  tolerance : Option ℚ
  custom : Option CustomValidator
  deriving DecidableEq

/-- `LiteralInteractiveSettings` (/repo/common/literalinput.go:115-121); the templates are not used. -/
structure Interactive where
  idl : Str
  moduleName : Str
  parentLang : Str
  mainSource : Str
  deriving DecidableEq

/-- `LiteralInput` (/repo/common/literalinput.go:143-148). A case may be a nil pointer. -/
structure Input where
  cases : List (Str × Option Case)
  limits : Option Limits
  validator : Option Validator
  interactive : Option Interactive

/-- `CaseSettings` (/repo/common/problemsettings.go:60-63). -/
structure CaseSettings where
  name : Str
  weight : ℚ
  deriving DecidableEq

/-- `GroupSettings` (/repo/common/problemsettings.go:105-108). -/
structure Group where
  name : Str
  cases : List CaseSettings
  deriving DecidableEq

/-- `ValidatorSettings` (/repo/common/problemsettings.go:23-28). -/
structure ValidatorSettings where
  lang : Option Str
  name : Str
  tolerance : Option ℚ
  limits : Option Limits
  deriving DecidableEq

/-- `ProblemSettings` (/repo/common/problemsettings.go:129-135). `ι` is what libinteractive prints. -/
structure Settings (ι : Type) where
  cases : List Group
  interactive : Option ι
  limits : Limits
  slow : Bool
  validator : ValidatorSettings

/-! ## Constants -/

def sCustom : Str := ['c', 'u', 's', 't', 'o', 'm']
def sToken : Str := ['t', 'o', 'k', 'e', 'n']
def sTokenCaseless : Str := ['t', 'o', 'k', 'e', 'n', '-', 'c', 'a', 's', 'e', 'l', 'e', 's', 's']
def sTokenNumeric : Str := ['t', 'o', 'k', 'e', 'n', '-', 'n', 'u', 'm', 'e', 'r', 'i', 'c']
def sLiteral : Str := ['l', 'i', 't', 'e', 'r', 'a', 'l']

/-- `DefaultLiteralLimitSettings` (/repo/common/literalinput.go:125-131). -/
def defaultLimits : Limits where
  timeLimit := 10 * 1000000000
  memoryLimit := 1024 * 1024 * 1024 + 1024 * 1024 * 1024 / 2
  overallWallTimeLimit := 10 * 1000000000
  extraWallTime := 0
  outputLimit := 2 * (1024 * 1024)

/-- `DefaultLiteralValidatorSettings` (/repo/common/literalinput.go:133-135). -/
def defaultValidator : Validator := { name := sTokenCaseless, tolerance := none, custom := none }

/-- `DefaultValidatorTolerance` (/repo/common/literalinput.go:137). -/
def defaultTolerance : ℚ := 1 / 1000000

/-- `DefaultValidatorLimits` (/repo/common/problemsettings.go:139-145). -/
def defaultValidatorLimits : Limits where
  extraWallTime := 0
  memoryLimit := 256 * (1024 * 1024)
  outputLimit := 10 * 1024
  overallWallTimeLimit := 5 * 1000000000
  timeLimit := 1000000000

/-! ## Languages (/repo/common/literalinput.go:158-206) -/

/-- The languages `validateLanguage` lets through (/repo/common/literalinput.go:158-165). -/
def validLanguages : List Str :=
  [['c'], ['c', '1', '1', '-', 'g', 'c', 'c'], ['c', '1', '1', '-', 'c', 'l', 'a', 'n', 'g'], ['c', 'p', 'p'],
    ['c', 'p', 'p', '1', '1'], ['c', 'p', 'p', '1', '7', '-', 'g', 'c', 'c'],
    ['c', 'p', 'p', '1', '7', '-', 'c', 'l', 'a', 'n', 'g'], ['k', 'j'], ['k', 'p'], ['j', 'a', 'v', 'a'], ['p', 'y'],
    ['p', 'y', '2'], ['p', 'y', '3'], ['p', 'a', 's'], ['r', 'b'], ['c', 'a', 't']]

/-- `LanguageFileExtension` (/repo/common/literalinput.go:188-198). -/
def languageFileExtension (language : Str) : Str :=
  if language ∈ [['c', 'p', 'p', '1', '1'], ['c', 'p', 'p', '1', '1', '-', 'g', 'c', 'c'],
      ['c', 'p', 'p', '1', '1', '-', 'c', 'l', 'a', 'n', 'g'], ['c', 'p', 'p', '1', '7', '-', 'g', 'c', 'c'],
      ['c', 'p', 'p', '1', '7', '-', 'c', 'l', 'a', 'n', 'g']] then ['c', 'p', 'p']
  else if language ∈ [['c'], ['c', '1', '1', '-', 'g', 'c', 'c'], ['c', '1', '1', '-', 'c', 'l', 'a', 'n', 'g']] then ['c']
  else if language ∈ [['p', 'y'], ['p', 'y', '2'], ['p', 'y', '3']] then ['p', 'y']
  else language

def isLetter (c : Char) : Bool := ('a' ≤ c && c ≤ 'z') || ('A' ≤ c && c ≤ 'Z')
def isDigit (c : Char) : Bool := '0' ≤ c && c ≤ '9'

/-- `validateInterface` (/repo/common/literalinput.go:167-185): at most 32 characters,
`^[a-zA-Z_][0-9a-zA-Z]+$`. -/
def validInterface : Str → Bool
  | [] => false
  | c :: cs =>
    (c :: cs).length ≤ 32 && (isLetter c || c == '_') && !cs.isEmpty && cs.all (fun d => isDigit d || isLetter d)

/-! ## Go's runtime and the outside world -/

/-- What the program does not control: the order in which `range` visits a map (`site` tells the loops apart), and
which of the possible results `sort.Sort`, which is not stable, yields. -/
structure Runtime where
  range : {α : Type} → (site : Nat) → List α → List α
  range_perm : ∀ {α : Type} (site : Nat) (l : List α), (range site l).Perm l
  sort : {α : Type} → (key : α → Str) → List α → List α
  sort_perm : ∀ {α : Type} (key : α → Str) (l : List α), (sort key l).Perm l
  sort_sorted : ∀ {α : Type} (key : α → Str) (l : List α), (sort key l).Pairwise fun a b => ¬ key b < key a

/-- Deterministic functions this model does not look into: JSON encoding of the settings
(/repo/common/literalinput.go:375), the libinteractive program (/repo/common/literalinput.go:342-373) and the bytes of
a compressed archive with its hash (/repo/common/literalinput.go:386-395). -/
structure Tools (ι : Type) where
  marshal : Settings ι → Option Str
  libinteractive : (moduleName parentLang idl : Str) → Option ι
  gzipTar : List (Str × Str) → Str
  sha1 : Str → Str

inductive Err where
  | customValidatorEmpty
  | invalidValidator (name : Str)
  | emptyCaseList
  | invalidWeight (w : ℚ)
  | zeroWeight
  | invalidLanguage (l : Str)
  | invalidInterface (n : Str)
  | libinteractive
  | marshal
  deriving DecidableEq

/-- How a call ends; `panic` is the nil dereference of a missing case or weight. -/
inductive Res (α : Type) where
  | panic
  | err (e : Err)
  | ok (a : α)

def Res.bind {α β : Type} : Res α → (α → Res β) → Res β
  | .panic, _ => .panic
  | .err e, _ => .err e
  | .ok a, f => f a

/-! ## The function -/

/-- `m[k] = v`. -/
def put {β : Type} (m : List (Str × β)) (k : Str) (v : β) : List (Str × β) :=
  if m.any (fun e => e.1 == k) then m.map (fun e => if e.1 = k then (k, v) else e) else m ++ [(k, v)]

/-- Lines 228-259: the validator settings, the files it needs, and the validator as left in the input. -/
def validatorStep (v : Option Validator) : Res (ValidatorSettings × List (Str × Str) × Option Validator) :=
  let w := v.getD defaultValidator
  if w.name = sCustom then
    match w.custom with
    | none => .err .customValidatorEmpty
    | some c =>
      -- the limits are filled in in the input, never in the settings
      let c' := { c with limits := some (c.limits.getD defaultValidatorLimits) }
      .ok ({ lang := some c.language, name := w.name, tolerance := none, limits := none },
        put [] (['v', 'a', 'l', 'i', 'd', 'a', 't', 'o', 'r', '.'] ++ c.language) c.source,
        v.map fun w => { w with custom := some c' })
  else if w.name = sToken ∨ w.name = sTokenCaseless ∨ w.name = sLiteral then
    .ok ({ lang := none, name := w.name, tolerance := none, limits := none }, [], v)
  else if w.name = sTokenNumeric then
    .ok ({ lang := none, name := w.name, tolerance := some (w.tolerance.getD defaultTolerance), limits := none }, [], v)
  else .err (.invalidValidator w.name)

/-- Lines 262-285. `base.MinDuration` and `base.MinBytes` are minima. -/
def limitsStep (l : Option Limits) : Limits :=
  match l with
  | some l =>
    { timeLimit := min l.timeLimit defaultLimits.timeLimit
      memoryLimit := min l.memoryLimit defaultLimits.memoryLimit
      overallWallTimeLimit := min l.overallWallTimeLimit defaultLimits.overallWallTimeLimit
      extraWallTime := min l.extraWallTime defaultLimits.extraWallTime
      outputLimit := min l.outputLimit defaultLimits.outputLimit }
  | none => defaultLimits

/-- The loop 292-297. -/
def sumWeights : ℚ → List (Str × Option Case) → Res ℚ
  | t, [] => .ok t
  | _, (_, none) :: _ => .panic
  | t, (_, some c) :: rest =>
    match c.weight with
    | none => .panic
    | some w => if w < 0 then .err (.invalidWeight w) else sumWeights (t + w) rest

/-- `strings.SplitN(name, ".", 2)[0]` (303). -/
def groupOf (name : Str) : Str := name.takeWhile (· ≠ '.')

def caseFile (name ext : Str) : Str := ['c', 'a', 's', 'e', 's', '/'] ++ name ++ '.' :: ext
def sIn : Str := ['i', 'n']
def sOut : Str := ['o', 'u', 't']

/-- One iteration of the loop 302-317, on the maps `groups` and `files`. -/
def addCase (total : ℚ) (st : List (Str × List CaseSettings) × List (Str × Str)) (name : Str) (c : Case) :
    List (Str × List CaseSettings) × List (Str × Str) :=
  let cs : CaseSettings := { name := name, weight := c.weight.getD 0 / total }
  let g := groupOf name
  let old := ((st.1.find? fun e => e.1 == g).map Prod.snd).getD []
  (put st.1 g (old ++ [cs]), put (put st.2 (caseFile name sIn) c.input) (caseFile name sOut) c.output)

/-- The loop 302-317; nil cases and weights cannot occur any more. -/
def addCases (total : ℚ) (st : List (Str × List CaseSettings) × List (Str × Str)) (l : List (Str × Option Case)) :
    List (Str × List CaseSettings) × List (Str × Str) :=
  l.foldl (fun st e => match e.2 with | some c => addCase total st e.1 c | none => st) st

/-- Lines 318-327. -/
def sortGroups (R : Runtime) (groups : List (Str × List CaseSettings)) : List Group :=
  R.sort Group.name ((R.range 2 groups).map fun e => { name := e.1, cases := R.sort CaseSettings.name e.2 })

/-- Lines 288-327. -/
def casesStep (R : Runtime) (cases : List (Str × Option Case)) (files : List (Str × Str)) :
    Res (List Group × List (Str × Str)) :=
  if cases.length = 0 then .err .emptyCaseList
  else (sumWeights 0 (R.range 0 cases)).bind fun total =>
    if total = 0 then .err .zeroWeight
    else
      let st := addCases total ([], files) (R.range 1 cases)
      .ok (sortGroups R st.1, st.2)

/-- Lines 330-374: the interactive settings, the files, and the interactive part as left in the input. -/
def interactiveStep {ι : Type} (T : Tools ι) (i : Option Interactive) (files : List (Str × Str)) :
    Res (Option ι × List (Str × Str) × Option Interactive) :=
  match i with
  | none => .ok (none, files, none)
  | some i =>
    if i.parentLang ∉ validLanguages then .err (.invalidLanguage i.parentLang)
    else if !validInterface i.moduleName then .err (.invalidInterface i.moduleName)
    else
      let i' := { i with parentLang := languageFileExtension i.parentLang }
      let dir : Str := ['i', 'n', 't', 'e', 'r', 'a', 'c', 't', 'i', 'v', 'e', '/']
      let files' := put (put files (dir ++ ['M', 'a', 'i', 'n', '.'] ++ i'.parentLang) i'.mainSource)
        (dir ++ i'.moduleName ++ ['.', 'i', 'd', 'l']) i'.idl
      match T.libinteractive i'.moduleName i'.parentLang i'.idl with
      | none => .err .libinteractive
      | some x => .ok (some x, files', some i')

/-- `createTar` (/repo/common/literalinput.go:574-603): the members of the archive, in order. -/
def createTar (R : Runtime) (files : List (Str × Str)) : List (Str × Str) :=
  (R.sort id ((R.range 4 files).map Prod.fst)).map fun n =>
    (n, ((files.find? fun e => e.1 == n).map Prod.snd).getD [])

structure Output (ι : Type) where
  settings : Settings ι
  /-- the members of the archive, in order -/
  archive : List (Str × Str)
  uncompressedSize : Nat
  hash : Str
  /-- the caller's `LiteralInput` after the call -/
  input : Input

def sSettings : Str := ['s', 'e', 't', 't', 'i', 'n', 'g', 's', '.', 'j', 's', 'o', 'n']

/-- `NewLiteralInputFactory` (/repo/common/literalinput.go:217-416). The paths and the mode are left out; sizes are
counted in characters. -/
def newLiteralInput {ι : Type} (R : Runtime) (T : Tools ι) (input : Input) : Res (Output ι) :=
  (validatorStep input.validator).bind fun (vs, files, v') =>
  let limits := limitsStep input.limits
  (casesStep R input.cases files).bind fun (groups, files) =>
  (interactiveStep T input.interactive files).bind fun (inter, files, i') =>
  let settings : Settings ι :=
    { cases := groups, interactive := inter, limits := limits, slow := true, validator := vs }
  match T.marshal settings with
  | none => .err .marshal
  | some bytes =>
    let files := put files sSettings bytes
    let archive := createTar R files
    .ok { settings := settings, archive := archive
          uncompressedSize := ((R.range 3 files).map fun e => e.2.length).sum
          hash := T.sha1 (T.gzipTar archive)
          input := { input with validator := v', interactive := i' } }

end Quark.Literal
