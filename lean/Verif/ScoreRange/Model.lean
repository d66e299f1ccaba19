import Mathlib.Algebra.Order.Ring.Rat

/-!
# Score ranges

`ScoreRange` (/repo/common/problemsettings.go:157-196). The JSON decoder delivers a list of numbers; `FloatToRational`
makes rationals of them, so the model starts from a list of rationals. Lists with something else in them are rejected by
the decoder and left out.
-/

namespace Quark.ScoreRange

/-- /repo/common/problemsettings.go:158-161 -/
structure Range where
  lo : ℚ
  hi : ℚ
  deriving DecidableEq

inductive Err where
  | notTwo | unsorted | outside
  deriving DecidableEq

/-- `UnmarshalJSON` (/repo/common/problemsettings.go:173-196): the new value of the receiver, or an error (the receiver
stays as it was). -/
def unmarshal (l : List ℚ) : Except Err Range :=
  if l.length ≠ 2 then .error .notTwo
  else
    let lo := l.getD 0 0
    let hi := l.getD 1 0
    if lo > hi then .error .unsorted
    else if 0 > lo ∨ hi > 1 then .error .outside
    else .ok { lo := lo, hi := hi }

/-- What `fmt.Sprintf("%f", RationalToFloat(q))` does to a number: it becomes some multiple of a millionth. All that is
used of it is that it keeps the order and leaves such multiples alone. -/
structure Printer where
  print : ℚ → ℚ
  mono : ∀ a b, a ≤ b → print a ≤ print b
  grid : ∀ n : Int, print (n / 1000000) = n / 1000000
  onGrid : ∀ a, ∃ n : Int, print a = n / 1000000

/-- `MarshalJSON` (/repo/common/problemsettings.go:164-170). -/
def marshal (P : Printer) (r : Range) : List ℚ := [P.print r.lo, P.print r.hi]

end Quark.ScoreRange
