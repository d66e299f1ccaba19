import Mathlib.Data.Int.Log
import Mathlib.Data.Rat.Floor
import Mathlib.Algebra.Order.Field.Rat
import Mathlib.Tactic.Linarith
import Mathlib.Tactic.Positivity
import Mathlib.Tactic.FieldSimp
import Mathlib.Tactic.Ring

/-!
Model of the IEEE-754 binary64 arithmetic used by `tokenNumericEquals`
(/repo/runner/validator.go:103-121). Go's `float64` operations are correctly rounded
(round to nearest, ties to even) by the language specification; `strconv.ParseFloat` is
correctly rounded by its documentation. The two zeros are identified: nothing in the modelled
function can tell them apart.
-/
namespace Quark.Float

/-- Round a rational to the nearest integer, ties to even. -/
def rne (x : ℚ) : ℤ :=
  if x - ⌊x⌋ < 1/2 then ⌊x⌋
  else if 1/2 < x - ⌊x⌋ then ⌊x⌋ + 1
  else if ⌊x⌋ % 2 = 0 then ⌊x⌋ else ⌊x⌋ + 1

/-- Exponent of the unit in the last place used for values of the size of `q`: 53 significant
bits, but never below 2^-1074 (gradual underflow). -/
def ulpExp (q : ℚ) : ℤ := max (Int.log 2 |q| - 52) (-1074)

/-- Round to 53 significant bits (no overflow yet). -/
def roundQ (q : ℚ) : ℚ := rne (q / 2 ^ ulpExp q) * 2 ^ ulpExp q

/-- `float64` values without NaN payloads; the zeros are identified. -/
inductive F64 where
  | fin (q : ℚ)
  | inf (neg : Bool)
  | nan
deriving DecidableEq

/-- Rounding to binary64 with overflow to infinity. -/
def fl (q : ℚ) : F64 :=
  if |roundQ q| < 2 ^ (1024 : ℕ) then .fin (roundQ q) else .inf (decide (roundQ q < 0))

/-- Go `<=` on float64. -/
def F64.le : F64 → F64 → Bool
  | .nan, _ => false
  | _, .nan => false
  | .fin a, .fin b => decide (a ≤ b)
  | .inf true, _ => true
  | _, .inf false => true
  | .inf false, _ => false
  | .fin _, .inf true => false

/-- Go `<` on float64. -/
def F64.lt (x y : F64) : Bool := x.le y && !(y.le x)

/-- Go `==` on float64. -/
def F64.eq (x y : F64) : Bool := x.le y && y.le x

/-- `math.Abs` -/
def F64.abs : F64 → F64
  | .fin a => .fin |a|
  | .inf _ => .inf false
  | .nan => .nan

/-- `math.Max` -/
def F64.max : F64 → F64 → F64
  | .inf false, _ => .inf false
  | _, .inf false => .inf false
  | .nan, _ => .nan
  | _, .nan => .nan
  | .inf true, y => y
  | x, .inf true => x
  | .fin a, .fin b => .fin (if a ≤ b then b else a)

/-- Subtraction. -/
def F64.sub : F64 → F64 → F64
  | .fin a, .fin b => fl (a - b)
  | .nan, _ => .nan
  | _, .nan => .nan
  | .inf s, .inf t => if s = t then .nan else .inf s
  | .inf s, .fin _ => .inf s
  | .fin _, .inf s => .inf (!s)

/-- Multiplication. -/
def F64.mul : F64 → F64 → F64
  | .fin a, .fin b => fl (a * b)
  | .nan, _ => .nan
  | _, .nan => .nan
  | .inf s, .inf t => .inf (s != t)
  | .inf s, .fin b => if b = 0 then .nan else .inf (s != decide (b < 0))
  | .fin a, .inf t => if a = 0 then .nan else .inf (decide (a < 0) != t)

/-- Division (the sign of a zero divisor is not represented; the modelled code never divides by
zero, see `quotient_divisor_pos`). -/
def F64.div : F64 → F64 → F64
  | .fin a, .fin b => if b = 0 then (if a = 0 then .nan else .inf (decide (a < 0))) else fl (a / b)
  | .nan, _ => .nan
  | _, .nan => .nan
  | .inf _, .inf _ => .nan
  | .inf s, .fin b => .inf (s != decide (b < 0))
  | .fin _, .inf _ => .fin 0

/-- Value of a run of ASCII digits; `none` if some byte is not a digit. -/
def digitsVal : List UInt8 → Option ℕ
  | l => l.foldl (fun acc b => acc.bind fun n =>
      if 0x30 ≤ b.toNat ∧ b.toNat ≤ 0x39 then some (n * 10 + (b.toNat - 0x30)) else none) (some 0)

/-- The part of `strconv.ParseFloat`'s grammar over the characters the numeric tokenizer can
produce (`.`, `-`, digits; runner/tokenizer.go:45-47): an optional minus sign, then digits with at most
one decimal point, with at least one digit. Returns the exact decimal value. -/
def decimalValue (s : List UInt8) : Option ℚ :=
  let (neg, body) := match s with
    | 0x2d :: r => (true, r)
    | r => (false, r)
  let ip := body.takeWhile (fun b => b ≠ 0x2e)
  let fp := (body.dropWhile (fun b => b ≠ 0x2e)).drop 1
  match digitsVal ip, digitsVal fp with
  | some i, some f =>
    if ip.length + fp.length = 0 then none
    else
      let v : ℚ := i + f / 10 ^ fp.length
      some (if neg then -v else v)
  | _, _ => none

/-- `strconv.ParseFloat(s, 64)` (runner/validator.go:104-105) on numeric tokens: correctly rounded, an
error (`none`) for malformed text and for values that overflow (`ErrRange`). -/
def parseFloat (s : List UInt8) : Option F64 :=
  match decimalValue s with
  | none => none
  | some v => match fl v with
    | .fin q => some (.fin q)
    | _ => none

/-- runner/validator.go:110 -/
def smallestNormal : ℚ := 1 / 2 ^ (1022 : ℕ)

/-- runner/validator.go:103-121 `tokenNumericEquals`, on parsed values. `tolerance` is a finite float64
(JSON cannot encode anything else). -/
def numericEquals (af bf : F64) (tolerance : ℚ) : Bool :=
  let diff := (bf.sub af).abs
  if af.eq bf then true
  else if diff.le (F64.mul (.fin (3/2)) (.fin tolerance)) then true
  else if af.eq (.fin 0) || bf.eq (.fin 0) || diff.lt (.fin smallestNormal) then
    diff.le (F64.mul (.fin tolerance) (.fin smallestNormal))
  else (diff.div (F64.max af.abs bf.abs)).le (.fin tolerance)

/-- runner/validator.go:103-121 `tokenNumericEquals`. -/
def tokenNumericEquals (a b : List UInt8) (tolerance : ℚ) : Bool :=
  match parseFloat a, parseFloat b with
  | some af, some bf => numericEquals af bf tolerance
  | none, none => true
  | _, _ => false

end Quark.Float
