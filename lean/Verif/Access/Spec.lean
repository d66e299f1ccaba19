import Verif.Access.Model

/-!
# Specification of routing, access and paths

Written without the functions of the model: only the names of pages and ports, requests, answers, connections and
certificates are shared.
-/

namespace Quark.Access.Spec

open Quark.Access

/-- A path without empty elements, `.` or `..`: it starts with a slash and nowhere goes back, stays or doubles the
slash. -/
structure Tidy (p : List Char) : Prop where
  rooted : ∃ q, p = '/' :: q
  noDouble : ¬ "//".toList <:+: p
  noDot : ¬ "/./".toList <:+: p
  noDotEnd : ¬ "/.".toList <:+ p
  noParent : ¬ "/../".toList <:+: p
  noParentEnd : ¬ "/..".toList <:+ p

/-- What a port offers: paths that start with a text, or are the text. -/
inductive Offer where
  | below (text : String)
  | exactly (text : String)

def Offer.text : Offer → String
  | .below t => t
  | .exactly t => t

/-- A path is among those offered. -/
def Offer.Has : Offer → List Char → Prop
  | .below t, p => t.toList <+: p
  | .exactly t, p => p = t.toList

/-- The public port of the grader. -/
def publicOffers : List (Offer × Page) := [(.below "/ephemeral/run/", .ephemeral), (.below "/ci/", .ci)]

/-- The port for runners. -/
def runnerOffers : List (Offer × Page) :=
  [(.below "/monitoring/benchmark/", .benchmark), (.below "/run/request/", .requestRun), (.below "/run/", .results),
    (.below "/input/", .input)]

/-- The pages for debugging that two ports have. -/
def debugOffers : List (Offer × Page) :=
  [(.exactly "/debug/vars", .vars), (.below "/debug/pprof/", .pprof), (.exactly "/debug/pprof/cmdline", .pprof),
    (.exactly "/debug/pprof/profile", .pprof), (.exactly "/debug/pprof/symbol", .pprof),
    (.exactly "/debug/pprof/trace", .pprof)]

/-- The port for the frontend. -/
def frontendOffers : List (Offer × Page) :=
  debugOffers ++
  [(.exactly "/metrics", .metrics), (.below "/grader/status/", .status), (.below "/run/new/", .newRun),
    (.below "/run/grade/", .gradeRuns), (.below "/submission/source/", .source), (.below "/run/resource/", .resource),
    (.below "/broadcast/", .relay), (.below "/reload-config/", .reload)]

def broadcastOffers : List (Offer × Page) :=
  debugOffers ++ [(.below "/deauthenticate/", .deauthenticate), (.below "/broadcast/", .broadcast)]

def offers : Port → List (Offer × Page)
  | .graderPublic => publicOffers
  | .graderRunner => runnerOffers
  | .graderFrontend => frontendOffers
  | .metrics => [(.exactly "/metrics", .metrics)]
  | .broadcastApi => broadcastOffers
  | .broadcastEvents => [(.below "/", .events)]

/-- The page a path belongs to: that of the longest text among the offers that have the path. -/
def Belongs (port : Port) (p : List Char) (h : Page) : Prop :=
  ∃ o, (o, h) ∈ offers port ∧ o.Has p ∧ ∀ o' h', (o', h') ∈ offers port → o'.Has p → o'.text.length ≤ o.text.length

/-- A path that becomes one of the texts offered when a slash is appended to it: the name of a directory without the
slash at its end. -/
def NeedsSlash (port : Port) (p : List Char) : Prop :=
  p ≠ [] ∧ ∃ o h, (o, h) ∈ offers port ∧ o.text.toList = p ++ "/".toList

/-- Where one is after following one more element, from the directory with these names (the innermost first). -/
def follow (dir : List (List Char)) (e : List Char) : List (List Char) :=
  if e = "".toList ∨ e = ".".toList then dir else if e = "..".toList then dir.tail else e :: dir

/-- Where following a path from the root leads to. -/
def place (p : List Char) : List (List Char) := ((p.splitOn '/').foldl follow []).reverse

/-- The flags under which a port has TLS. -/
def Secured (f : Flags) : Port → Prop
  | .graderRunner => f.graderInsecure = false
  | .graderFrontend => f.graderInsecure = false
  | .broadcastApi => f.broadcasterInsecure = false
  | .graderPublic => f.ephemeralProxied = false
  | .broadcastEvents => f.eventsProxied = false
  | .metrics => False

/-- Decimal digits, at least one. -/
def Digits (ds : List Char) : Prop := ds ≠ [] ∧ ∀ c ∈ ds, c ∈ "0123456789".toList

/-- The number that digits stand for. -/
inductive Stands : List Char → Nat → Prop
  | nil : Stands [] 0
  | snoc {ds n} (d : Fin 10) : Stands ds n → Stands (ds ++ [Char.ofNat (48 + d.val)]) (10 * n + d.val)

/-- The place of a path after `pre` reads `/run/`, digits, `/results`. -/
def ResultsAt (path pre ds : List Char) : Prop :=
  Digits ds ∧ ∃ rest, path = pre ++ "/run/".toList ++ ds ++ "/results".toList ++ rest

/-- The characters of the name of a problem. -/
def ProblemName (p : List Char) : Prop :=
  ∀ c ∈ p, c ∈ "abcdefghijklmnopqrstuvwxyzABCDEFGHIJKLMNOPQRSTUVWXYZ0123456789_-".toList

instance (p : List Char) : Decidable (ProblemName p) := by unfold ProblemName; infer_instance

/-- The 40 hexadecimal digits of a SHA-1. -/
def Sha1 (h : List Char) : Prop := h.length = 40 ∧ ∀ c ∈ h, c ∈ "0123456789abcdef".toList

end Quark.Access.Spec
