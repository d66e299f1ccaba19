import Verif.Files.Model

/-!
# Filters of the broadcaster

`NewFilter` and the `Matches` functions (/repo/broadcaster/filter.go), and the part of `NewSubscriber` and
`Subscriber.Matches` that deals with filters and permissions (/repo/broadcaster/subscriber.go:225-327). Texts are
lists of characters. Strings that are not valid UTF-8 are not modelled.
-/

namespace Quark.Filter

abbrev Text := List Char

/-- `strings.Split` with a separator of one character (broadcaster/filter.go:119, broadcaster/subscriber.go:246). -/
def split (c : Char) : Text → List Text
  | [] => [[]]
  | x :: xs =>
    if x = c then [] :: split c xs
    else match split c xs with
      | [] => [[x]]
      | t :: ts => (x :: t) :: ts

/-- The digits of `strconv.ParseInt(s, 10, 64)`: at least one digit and nothing else. -/
def parseDigits (s : Text) : Option Nat :=
  if s ≠ [] ∧ s.all (fun c => decide (48 ≤ c.toNat ∧ c.toNat < 58)) then
    some (s.foldl (fun a c => a * 10 + (c.toNat - 48)) 0)
  else none

/-- `strconv.ParseInt(s, 10, 64)` (broadcaster/filter.go:140): an optional sign, digits, and the range of 64 bits. -/
def parseInt (s : Text) : Option Int :=
  let r : Option Int := match s with
    | '-' :: ds => (parseDigits ds).map fun (n : Nat) => -(n : Int)
    | '+' :: ds => (parseDigits ds).map fun (n : Nat) => (n : Int)
    | ds => (parseDigits ds).map fun (n : Nat) => (n : Int)
  r.bind fun i => if -2^63 ≤ i ∧ i < 2^63 then some i else none

/-- The kinds of filters (broadcaster/filter.go:18-97). -/
inductive Filter where
  | allEvents
  | user (user : Text)
  | problem (problem : Text)
  | problemset (problemset : Int) (token : Text)
  | contest (contest token : Text)
  deriving DecidableEq

/-- How `NewFilter` ends. -/
inductive Parsed where
  | ok (f : Filter)
  | error
  /-- index out of range -/
  | panic
  deriving DecidableEq

/-- `NewFilter` (broadcaster/filter.go:116-159). -/
def newFilter (s : Text) : Parsed :=
  match split '/' s with
  | t0 :: t1 :: rest =>
    if t0 ≠ [] then .error
    else if t1 = "all-events".toList then
      match rest with
      | [] => .ok .allEvents
      | _ => .error
    else if t1 = "user".toList then
      match rest with
      | [u] => .ok (.user u)
      | _ => .error
    else if t1 = "problem".toList then
      match rest with
      | [p] => .ok (.problem p)
      | _ => .error
    else if t1 = "problemset".toList then
      match rest with
      | [] => .panic
      | t2 :: more =>
        match parseInt t2 with
        | none => .error
        | some n =>
          match more with
          | [] => .ok (.problemset n [])
          | [t] => .ok (.problemset n t)
          | _ => .error
    else if t1 = "contest".toList then
      match rest with
      | [c] => .ok (.contest c [])
      | [c, t] => .ok (.contest c t)
      | _ => .error
    else .error
  | _ => .error

/-- `String` of a filter (broadcaster/filter.go:22, 39, 56, 76, 99). -/
def Filter.string : Filter → Text
  | .allEvents => "all-events".toList
  | .user u => "user".toList ++ '/' :: u
  | .problem p => "problem".toList ++ '/' :: p
  | .problemset n t =>
    if t ≠ [] then "problemset".toList ++ '/' :: Files.fmtD n ++ '/' :: t
    else "problemset".toList ++ '/' :: Files.fmtD n
  | .contest c t =>
    if t ≠ [] then "contest".toList ++ '/' :: c ++ '/' :: t else "contest".toList ++ '/' :: c

/-- `Message` (broadcaster/subscriber.go:45-53), without its text. -/
structure Message where
  contest : Text := []
  problemset : Int := 0
  problem : Text := []
  user : Text := []
  isPublic : Bool := false

/-- `Subscriber` (broadcaster/subscriber.go:208-223): who it is, what it administers and its filters. -/
structure Subscriber where
  user : Text
  admin : Bool
  problemAdmin : List Text
  contestAdmin : List Text
  problemsetAdmin : List Int
  filters : List Filter

/-- The `Matches` functions of the filters (broadcaster/filter.go:28, 45, 62, 85, 108). -/
def Filter.accepts (f : Filter) (m : Message) (s : Subscriber) : Bool :=
  match f with
  | .allEvents => s.admin
  | .user _ => m.user == s.user
  | .problem p => m.problem == p &&
      (s.admin || m.isPublic || (s.user != [] && m.user == s.user) || s.problemAdmin.contains m.problem)
  | .problemset n _ => m.problemset == n &&
      (s.admin || m.isPublic || (s.user != [] && m.user == s.user) || s.problemsetAdmin.contains m.problemset)
  | .contest c _ => m.contest == c &&
      (s.admin || m.isPublic || (s.user != [] && m.user == s.user) || s.contestAdmin.contains m.contest)

/-- `Subscriber.Matches` (broadcaster/subscriber.go:318-327). -/
def Subscriber.accepts (s : Subscriber) (m : Message) : Bool := s.filters.any fun f => f.accepts m s

/-- `ValidateFilterResponse` (broadcaster/subscriber.go:55-62): what the frontend says about a user. -/
structure Validated where
  user : Text := []
  admin : Bool := false
  problemAdmin : List Text := []
  contestAdmin : List Text := []
  problemsetAdmin : List Int := []

/-- How `NewSubscriber` ends. -/
inductive NewSub where
  | ok (s : Subscriber)
  | error
  | panic

/-- The loop over the filters in `NewSubscriber` (broadcaster/subscriber.go:246-252). -/
def parseFilters : List Text → List Filter → Option (List Filter) × Bool
  | [], acc => (some acc, false)
  | t :: ts, acc =>
    match newFilter t with
    | .ok f => parseFilters ts (acc ++ [f])
    | .error => (none, false)
    | .panic => (none, true)

/-- `NewSubscriber` (broadcaster/subscriber.go:226-311). `reply` is the frontend's answer, `none` if it cannot be had or is not
a success. -/
def newSubscriber (filters : Text) (reply : Option Validated) : NewSub :=
  match parseFilters (split ',' filters) [] with
  | (_, true) => .panic
  | (none, false) => .error
  | (some fs, false) =>
    match reply with
    | none => .error
    | some v => .ok
      { user := v.user, admin := v.admin, problemAdmin := v.problemAdmin, contestAdmin := v.contestAdmin,
        problemsetAdmin := v.problemsetAdmin, filters := fs }

end Quark.Filter
