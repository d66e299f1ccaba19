import Mathlib.Data.List.Basic

/-!
# Slash-separated paths

A model of the parts of Go's `path` package that /repo relies on: `path.Clean`, `path.Join`, `path.Base` and
`path.Dir` (and `filepath.Join`/`filepath.Dir`, which are the same functions on Linux). The package is not in
/repo; the model follows its documentation:

* `Clean` returns the shortest path name equivalent to its argument by purely lexical processing: replace
  multiple slashes by one; eliminate each `.` element; eliminate each inner `..` element along with the
  non-`..` element that precedes it; eliminate `..` elements that begin a rooted path. The result ends in a
  slash only if it is the root; the empty result is `.`.
* `Join` skips empty elements and cleans what it joins with slashes; all elements empty gives the empty string.
  (Skipping a later empty element and leaving it in place is the same, as `Clean` removes double slashes.)

Go strings are bytes; here they are lists of characters. Only `/` and `.` are ever looked at.
-/

namespace Quark.Path

/-- The elements of a path: what lies between slashes, possibly empty. -/
def elems : List Char → List (List Char)
  | [] => [[]]
  | c :: p => if c = '/' then [] :: elems p else (elems p).modifyHead (c :: ·)

def dot : List Char := ['.']
def dotdot : List Char := ['.', '.']

/-- One element of `Clean`'s pass from left to right; `acc` holds the elements kept so far, last one first. -/
def push (rooted : Bool) (acc : List (List Char)) (e : List Char) : List (List Char) :=
  if e = [] ∨ e = dot then acc
  else if e = dotdot then
    match acc with
    | [] => if rooted then [] else [dotdot]
    | top :: rest => if top = dotdot then dotdot :: top :: rest else rest
  else e :: acc

/-- Whether a path starts with a slash. -/
def rooted (p : List Char) : Bool := p.head? = some '/'

/-- The elements that are left after cleaning a path. -/
def names (p : List Char) : List (List Char) := ((elems p).foldl (push (rooted p)) []).reverse

/-- Elements separated by slashes. -/
def slashed : List (List Char) → List Char
  | [] => []
  | [e] => e
  | e :: es => e ++ '/' :: slashed es

/-- Writes down a clean path. -/
def render (rooted : Bool) (ns : List (List Char)) : List Char :=
  if rooted then '/' :: slashed ns else if ns = [] then dot else slashed ns

/-- `path.Clean`. -/
def clean (p : List Char) : List Char := render (rooted p) (names p)

/-- `path.Join`. -/
def join (es : List (List Char)) : List Char :=
  match es.dropWhile (· = []) with
  | [] => []
  | es => clean (slashed es)

/-- `path.Base`: the last element, after removing trailing slashes; `.` for the empty path and `/` for a path of
slashes only. -/
def base (p : List Char) : List Char :=
  if p = [] then dot
  else match (elems p).filter (· ≠ []) with
    | [] => ['/']
    | es => es.getLast?.getD []

/-- `path.Dir`: the cleaned path up to the last slash. -/
def dir (p : List Char) : List Char :=
  clean (p.reverse.dropWhile (· ≠ '/')).reverse

end Quark.Path
