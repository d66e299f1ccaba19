import Verif.Path.Model
import Verif.Sandbox.Chars

/-!
# How omegajail reads what it is given

A small specification, used to state the properties of Verif/Sandbox without reference to how the command lines
are put together.
-/

namespace Quark.Sandbox.Spec

open Path

/-- The options before `--`: every one has a value. -/
def options : List (List Char) → List (List Char × List Char)
  | k :: v :: rest => if k = ['-', '-'] then [] else (k, v) :: options rest
  | _ => []

/-- All values given for an option. -/
def values (k : List Char) (args : List (List Char)) : List (List Char) :=
  (options args).filterMap fun o => if o.1 = k then some o.2 else none

/-- What comes after `--`. -/
def rest : List (List Char) → List (List Char)
  | k :: v :: more => if k = ['-', '-'] then v :: more else rest more
  | _ => []

/-- The directory outside the sandbox that a value of `-b` (`outside,inside` or `outside,inside,1`) makes visible
inside. -/
def mounted (value : List Char) : List Char := value.takeWhile (· ≠ ',')

/-- A path lies in a directory, or is that directory. -/
def Within (dir p : List Char) : Prop := rooted dir = rooted p ∧ names dir <+: names p

end Quark.Sandbox.Spec
