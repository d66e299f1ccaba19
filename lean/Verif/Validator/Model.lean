import Verif.Tokenizer.Spec
import Verif.Float.Model

/-!
Model of /repo/runner/validator.go. External code enters as `Env`:
* `foldRep` — the representative of a rune's `unicode.SimpleFold` orbit; `strings.EqualFold`
  compares the UTF-8 decodings of two strings rune by rune modulo these orbits;
* `parseRational` — `base.ParseRational` of github.com/omegaup/go-base (not in /repo).
-/
namespace Quark.Validator
open Quark.Tokenizer

structure Env where
  foldRep : Nat → Nat
  parseRational : List UInt8 → Option ℚ

/-- common/problemsettings.go:23-29 `ValidatorSettings` (the fields `CalculateScore` reads). -/
structure Settings where
  name : String
  tolerance : Option ℚ

/-- common/literalinput.go:137 `DefaultValidatorTolerance = 1e-6`, as the float64 it denotes. -/
def defaultTolerance : ℚ := Float.roundQ (1 / 10 ^ 6)

inductive Err where
  | unexpectedEOF
  | badRational
  | tooLong
  | unknownValidator
deriving DecidableEq, Repr

/-- runner/tokenizer.go:28-31 `TokenMismatch` -/
structure Mismatch where
  contestant : Option Token
  expected : Option Token
deriving DecidableEq, Repr

/-- The three results of `CalculateScore`. -/
structure Result where
  score : ℚ
  mismatch : Option Mismatch
  err : Option Err
deriving DecidableEq

/-- runner/validator.go:20-23: the scan function. -/
def scanFunc (s : Settings) : Nat → Bool :=
  if s.name = "token-numeric" then isNumeric else isNonWhitespace

/-- runner/validator.go:123-131 `ratClamp` -/
def ratClamp (val min max : ℚ) : ℚ :=
  if val ≤ min then min else if max ≤ val then max else val

/-- runner/validator.go:99-101 `strings.EqualFold`: rune by rune, modulo fold orbits. -/
def foldEqualRunes (rep : Nat → Nat) : List Nat → List Nat → Bool
  | [], [] => true
  | a :: as, b :: bs => rep a == rep b && foldEqualRunes rep as bs
  | _, _ => false

def tokenCaselessEquals (env : Env) (a b : List UInt8) : Bool :=
  foldEqualRunes env.foldRep ((runesOf a).map Prod.fst) ((runesOf b).map Prod.fst)

/-- runner/validator.go:63-81: compare one pair of tokens; `none` for an unknown validator name. -/
def compare (env : Env) (s : Settings) (expected contestant : List UInt8) : Option Bool :=
  if s.name = "token" then some (decide (expected = contestant))
  else if s.name = "token-caseless" then some (tokenCaselessEquals env expected contestant)
  else if s.name = "token-numeric" then
    some (Float.tokenNumericEquals expected contestant (s.tolerance.getD defaultTolerance))
  else none

/-- runner/validator.go:39-92: the comparison loop, on what the two tokenizers will deliver
(remaining tokens and whether scanning ends with token-too-long). Tokenizers are lazy in the code;
no observable effect depends on that. -/
def compareLoop (env : Env) (s : Settings) (eErr cErr : Bool) :
    List Token → List Token → Result
  | e :: es, c :: cs =>
    match compare env s e.text c.text with
    | none => ⟨0, none, some .unknownValidator⟩
    | some true => compareLoop env s eErr cErr es cs
    | some false => ⟨0, some { contestant := some c, expected := some e }, none⟩
  | e :: _, [] =>
    let m : Mismatch := { contestant := none, expected := some e }
    if cErr then ⟨0, some m, some .tooLong⟩ else ⟨0, some m, none⟩
  | [], c :: _ =>
    let m : Mismatch := { contestant := some c, expected := none }
    if eErr then ⟨0, some m, some .tooLong⟩ else ⟨0, some m, none⟩
  | [], [] =>
    if eErr then ⟨0, none, some .tooLong⟩
    else if cErr then ⟨0, none, some .tooLong⟩
    else ⟨1, none, none⟩

/-- runner/validator.go:16-93 `CalculateScore`; the readers of the two outputs behave as `readsE` and
`readsC`. `none` only if tokenizing does not terminate (shown not to happen). -/
def calculateScore (env : Env) (s : Settings) (expected contestant : List UInt8)
    (readsE readsC : List ReadChoice) (lim : Nat := maxTokenLength) : Option Result :=
  match tokenize (scanFunc s) lim contestant readsC with
  | none => none
  | some (cToks, cErr) =>
    if s.name = "literal" ∨ s.name = "custom" then
      match cToks with
      | [] => some ⟨0, none, some .unexpectedEOF⟩
      | t :: _ =>
        match env.parseRational t.text with
        | none => some ⟨0, none, some .badRational⟩
        | some v => some ⟨ratClamp v 0 1, none, none⟩
    else
      match tokenize (scanFunc s) lim expected readsE with
      | none => none
      | some (eToks, eErr) => some (compareLoop env s eErr cErr eToks cToks)

end Quark.Validator
