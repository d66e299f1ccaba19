import Verif.Validator.Model

/-!
# The stand-alone validator

`/repo/cmd/validator/main.go`: compares two files with one of the built-in validators and prints the score. The parsing
of the command line is left out: the name, the tolerance (a finite float64, 1e-6 by default) and the arguments are given.
What is logged (standard error) is left out.
-/

namespace Quark.Tool
open Quark.Validator Quark.Tokenizer

/-- A file given as an argument: `none` if it cannot be opened; otherwise its content and how reading it goes. -/
abbrev File := Option (List UInt8 × List ReadChoice)

/-- The command line (cmd/validator/main.go:12-19). -/
structure Args where
  name : String
  tolerance : ℚ
  files : List File

/-- What the process leaves behind. -/
structure Outcome where
  exitCode : Nat
  stdout : List UInt8
  deriving DecidableEq

/-- `score.Float64()` (cmd/validator/main.go:63) followed by `%.2f` (cmd/validator/main.go:64): the exact value of the float64, rounded to the next
hundredth, ties to even, as `strconv` does; `score` is not negative. -/
def hundredths (score : ℚ) : Nat := (Float.rne (Float.roundQ score * 100)).toNat

/-- The number of units, a point and two digits (the number of units is 0 or 1 for scores). -/
def printed (n : Nat) : List UInt8 :=
  [UInt8.ofNat (48 + n / 100), 46, UInt8.ofNat (48 + n / 10 % 10), UInt8.ofNat (48 + n % 10), 10]

/-- `main` (cmd/validator/main.go:17-65). -/
def main (env : Env) (a : Args) : Outcome :=
  match a.files with
  | [fe, fc] =>
    if a.name = "" then ⟨2, []⟩
    else
      match fe with
      | none => ⟨1, []⟩
      | some (expected, readsE) =>
        match fc with
        | none => ⟨1, []⟩
        | some (contestant, readsC) =>
          match calculateScore env ⟨a.name, some a.tolerance⟩ expected contestant readsE readsC with
          | none => ⟨1, []⟩
          | some r => if r.err ≠ none then ⟨1, []⟩ else ⟨0, printed (hundredths r.score)⟩
  | _ => ⟨2, []⟩

end Quark.Tool
