import Verif.Path.Model

/-!
# Which requests reach which handler, and who may send them

The HTTP servers of the three programs: the patterns they register, Go's `http.ServeMux` (as released with Go 1.13,
the version of /repo/go.mod), `RunServer` (/repo/common/server.go:12-60) with the client certificates it asks for,
`peerName` (/repo/cmd/omegaup-grader/main.go:82-87), and the regular expressions with which the grader's runner port
takes paths apart (/repo/cmd/omegaup-grader/runner_handler.go:196-225, 227-235).

`ServeMux` and the TLS handshake are not in /repo; the model follows their source and documentation. Host names are
left out: no pattern of /repo has one. Go strings are bytes; here they are lists of characters.
-/

namespace Quark.Access

open Quark.Path

/-- The handlers that are registered. -/
inductive Page where
  /-- /repo/cmd/omegaup-grader/ephemeral.go:302 -/
  | ephemeral
  /-- /repo/cmd/omegaup-grader/ci.go:1016 -/
  | ci
  /-- cmd/omegaup-grader/runner_handler.go:155 -/
  | benchmark
  /-- cmd/omegaup-grader/runner_handler.go:173 -/
  | requestRun
  /-- cmd/omegaup-grader/runner_handler.go:197 -/
  | results
  /-- cmd/omegaup-grader/runner_handler.go:227 -/
  | input
  /-- `promhttp.Handler` -/
  | metrics
  /-- /repo/cmd/omegaup-grader/frontend_handler.go:511 -/
  | status
  /-- cmd/omegaup-grader/frontend_handler.go:539 -/
  | newRun
  /-- cmd/omegaup-grader/frontend_handler.go:614 -/
  | gradeRuns
  /-- cmd/omegaup-grader/frontend_handler.go:652 -/
  | source
  /-- cmd/omegaup-grader/frontend_handler.go:710 -/
  | resource
  /-- cmd/omegaup-grader/frontend_handler.go:766 -/
  | relay
  /-- cmd/omegaup-grader/frontend_handler.go:785 -/
  | reload
  /-- registered by importing `expvar`: everything given to `expvar.Publish`, such as the configuration -/
  | vars
  /-- registered by importing `net/http/pprof` -/
  | pprof
  /-- /repo/cmd/omegaup-broadcaster/main.go:234 -/
  | deauthenticate
  /-- /repo/cmd/omegaup-broadcaster/main.go:243 -/
  | broadcast
  /-- /repo/cmd/omegaup-broadcaster/main.go:276 -/
  | events
  deriving DecidableEq, Repr

/-- The ports the programs listen on. -/
inductive Port where
  /-- `Grader.Ephemeral.Port` (/repo/cmd/omegaup-grader/main.go:231-248) -/
  | graderPublic
  /-- `Grader.Port` (cmd/omegaup-grader/main.go:249-262) -/
  | graderRunner
  /-- `Grader.V1.Port` (cmd/omegaup-grader/main.go:268-281) -/
  | graderFrontend
  /-- `Metrics.Port` of any of the programs (/repo/cmd/omegaup-grader/metrics.go:196-204,
  /repo/cmd/omegaup-runner/metrics.go:137-145, /repo/cmd/omegaup-broadcaster/main.go:224-232) -/
  | metrics
  /-- `Broadcaster.Port` (/repo/cmd/omegaup-broadcaster/main.go:352-361) -/
  | broadcastApi
  /-- `Broadcaster.EventsPort` (cmd/omegaup-broadcaster/main.go:333-342) -/
  | broadcastEvents
  deriving DecidableEq, Repr

/-- What the imports of `expvar` and `net/http/pprof` register with `http.DefaultServeMux`
(/repo/cmd/omegaup-grader/main.go:9, 14, /repo/cmd/omegaup-broadcaster/main.go:7, 17). -/
def debugPages : List (List Char × Page) :=
  [("/debug/vars".toList, .vars), ("/debug/pprof/".toList, .pprof), ("/debug/pprof/cmdline".toList, .pprof),
    ("/debug/pprof/profile".toList, .pprof), ("/debug/pprof/symbol".toList, .pprof),
    ("/debug/pprof/trace".toList, .pprof)]

/-- The patterns registered for each port, in order. The frontend port of the grader and the API port of the
broadcaster use `http.DefaultServeMux` (/repo/cmd/omegaup-grader/main.go:269, /repo/cmd/omegaup-broadcaster/main.go:356,
where the handler is nil). -/
def table : Port → List (List Char × Page)
  | .graderPublic => [("/ephemeral/run/".toList, .ephemeral), ("/ci/".toList, .ci)]
  | .graderRunner =>
    [("/monitoring/benchmark/".toList, .benchmark), ("/run/request/".toList, .requestRun), ("/run/".toList, .results),
      ("/input/".toList, .input)]
  | .graderFrontend =>
    debugPages ++
    [("/metrics".toList, .metrics), ("/grader/status/".toList, .status), ("/run/new/".toList, .newRun),
      ("/run/grade/".toList, .gradeRuns), ("/submission/source/".toList, .source),
      ("/run/resource/".toList, .resource), ("/broadcast/".toList, .relay), ("/reload-config/".toList, .reload)]
  | .metrics => [("/metrics".toList, .metrics)]
  | .broadcastApi => debugPages ++ [("/deauthenticate/".toList, .deauthenticate), ("/broadcast/".toList, .broadcast)]
  | .broadcastEvents => [("/".toList, .events)]

/-! ## ServeMux -/

/-- `cleanPath` of net/http. -/
def cleanPath (p : List Char) : List Char :=
  match p with
  | [] => ['/']
  | c :: t =>
    let p := if c = '/' then c :: t else '/' :: c :: t
    let np := clean p
    if p.getLast? = some '/' ∧ np ≠ ['/'] then np ++ ['/'] else np

/-- `appendSorted` of net/http: longer patterns first. -/
def appendSorted (es : List (List Char × Page)) (e : List Char × Page) : List (List Char × Page) :=
  match es with
  | [] => [e]
  | x :: xs => if x.1.length < e.1.length then e :: x :: xs else x :: appendSorted xs e

/-- `mux.es`: the patterns that end in a slash, sorted as they are registered. -/
def sorted (t : List (List Char × Page)) : List (List Char × Page) :=
  (t.filter fun e => e.1.getLast? = some '/').foldl appendSorted []

/-- `mux.match`: the pattern that is the path, otherwise the first of the sorted ones that the path starts with. -/
def select (t : List (List Char × Page)) (path : List Char) : Option Page :=
  match t.lookup path with
  | some h => some h
  | none => ((sorted t).find? fun e => e.1.isPrefixOf path).map (·.2)

/-- `mux.shouldRedirectRLocked`: a pattern with a slash appended is registered, without it is not. -/
def slashMissing (t : List (List Char × Page)) (path : List Char) : Bool :=
  (t.lookup path).isNone && !path.isEmpty && (t.lookup (path ++ ['/'])).isSome && path.getLast? != some '/'

structure Request where
  /-- `r.Method == "CONNECT"` -/
  connect : Bool := false
  /-- `r.RequestURI == "*"` -/
  star : Bool := false
  /-- `r.URL.Path`: decoded -/
  path : List Char

inductive Answer where
  /-- the handler is called with the request -/
  | run (h : Page)
  /-- 301 to another path -/
  | moved (path : List Char)
  | notFound
  | badRequest
  deriving DecidableEq

def found (t : List (List Char × Page)) (path : List Char) : Answer :=
  match select t path with
  | some h => .run h
  | none => .notFound

/-- `ServeMux.ServeHTTP` and `ServeMux.Handler` of net/http. -/
def serveMux (t : List (List Char × Page)) (r : Request) : Answer :=
  if r.star then .badRequest
  else if r.connect then
    if slashMissing t r.path then .moved (r.path ++ ['/']) else found t r.path
  else
    let path := cleanPath r.path
    if slashMissing t path then .moved (path ++ ['/'])
    else if path ≠ r.path then .moved path
    else found t r.path

/-! ## RunServer -/

/-- The flags and settings that turn TLS off. -/
structure Flags where
  /-- `-insecure` of the grader (/repo/cmd/omegaup-grader/main.go:259, 278) -/
  graderInsecure : Bool := false
  /-- `Grader.Ephemeral.Proxied` (cmd/omegaup-grader/main.go:245) -/
  ephemeralProxied : Bool := false
  /-- `-insecure` of the broadcaster (/repo/cmd/omegaup-broadcaster/main.go:359) -/
  broadcasterInsecure : Bool := false
  /-- `Broadcaster.Proxied` (cmd/omegaup-broadcaster/main.go:340) -/
  eventsProxied : Bool := false

/-- The last argument of `RunServer` for each port; the port for metrics never has TLS. -/
def plain (f : Flags) : Port → Bool
  | .graderPublic => f.ephemeralProxied
  | .graderRunner => f.graderInsecure
  | .graderFrontend => f.graderInsecure
  | .metrics => true
  | .broadcastApi => f.broadcasterInsecure
  | .broadcastEvents => f.eventsProxied

/-- A certificate: the common name of its subject, and the certificate that issued it. -/
structure Cert where
  name : String
  issuer : Nat
  deriving DecidableEq

/-- How a client connects: without TLS, or with it and these certificates (its own first). -/
inductive Conn where
  | clear
  | tls (certs : List Cert)

/-- Whether `http.Server` reads a request from the connection, and the peer's certificates (`r.TLS`): without TLS only
connections without it (common/server.go:26-59); with TLS (36-58) `RequireAndVerifyClientCert` with the port's
certificate as the only authority (`ca`). That a chain verifies is simplified to: the first certificate was issued by
the authority. -/
def accept (ca : Port → Nat) (f : Flags) (port : Port) : Conn → Option (Option (List Cert))
  | .clear => if plain f port then some none else none
  | .tls certs =>
    if plain f port then none
    else match certs with
      | [] => none
      | c :: cs => if c.issuer = ca port then some (some (c :: cs)) else none

/-- What becomes of a request on a connection: nothing if the connection is not accepted. -/
def serve (ca : Port → Nat) (f : Flags) (port : Port) (c : Conn) (r : Request) : Option Answer :=
  (accept ca f port c).map fun _ => serveMux (table port) r

/-- `peerName` (cmd/omegaup-grader/main.go:82-87); none stands for a panic. The flag is the one given to `RunServer`
(cmd/omegaup-grader/main.go:251, 259). -/
def peerName (f : Flags) (remoteAddr : String) (peer : Option (List Cert)) : Option String :=
  if f.graderInsecure then some remoteAddr
  else match peer with
    | some (c :: _) => some c.name
    | _ => none

/-! ## Paths of the runner port -/

/-- `[0-9]` -/
def isDigit (c : Char) : Bool := '0' ≤ c && c ≤ '9'
/-- `[a-f0-9]` -/
def isHex (c : Char) : Bool := isDigit c || ('a' ≤ c && c ≤ 'f')
/-- `[a-zA-Z0-9_-]` -/
def isAlias (c : Char) : Bool := ('a' ≤ c && c ≤ 'z') || ('A' ≤ c && c ≤ 'Z') || isDigit c || c == '_' || c == '-'

/-- A regular expression that starts with a text is searched for from left to right: the rest is tried after each
occurrence of the text. -/
def search {α : Type} (start : List Char) (rest : List Char → Option α) : List Char → Option α
  | [] => none
  | c :: s =>
    match (if start.isPrefixOf (c :: s) then rest ((c :: s).drop start.length) else none) with
    | some a => some a
    | none => search start rest s

/-- `([0-9]+)/results/?` at the beginning of a text (cmd/omegaup-grader/runner_handler.go:196). What follows is not looked at. -/
def resultsAt (s : List Char) : Option (List Char) :=
  let ds := s.takeWhile isDigit
  if ds ≠ [] ∧ "/results".toList.isPrefixOf (s.drop ds.length) then some ds else none

/-- `runRe.FindStringSubmatch` (cmd/omegaup-grader/runner_handler.go:196, 199). -/
def findResults (path : List Char) : Option (List Char) := search "/run/".toList resultsAt path

/-- The value of decimal digits. -/
def value (ds : List Char) : Nat := ds.foldl (fun n c => 10 * n + (c.toNat - 48)) 0

/-- `attemptID, _ := strconv.ParseUint(res[1], 10, 64)` (cmd/omegaup-grader/runner_handler.go:204): out of range it is the greatest
number. -/
def attemptId (ds : List Char) : Nat := min (value ds) (2 ^ 64 - 1)

/-- Which attempt the results sent to a path are for; none is answered with 404 (cmd/omegaup-grader/runner_handler.go:199-204). -/
def resultsOf (path : List Char) : Option Nat := (findResults path).map attemptId

/-- A run that was handed out: its attempt and the runner that has it. -/
structure Handed where
  attempt : Nat
  runner : String
  deriving DecidableEq

/-- `InflightMonitor.Get(attemptID)` with the rest of the handler (cmd/omegaup-grader/runner_handler.go:205-211): the results are taken
for the run with this attempt id. -/
def acceptResults (inflight : List Handed) (path : List Char) (_sender : String) : Option Handed :=
  match resultsOf path with
  | none => none
  | some n => inflight.find? fun h => h.attempt = n

/-- `(?:([a-zA-Z0-9_-]*)/)?([a-f0-9]{40})/?` at the beginning of a text (cmd/omegaup-grader/runner_handler.go:226): the optional part is
tried first. -/
def inputAt (s : List Char) : Option (List Char × List Char) :=
  let hashAt (t : List Char) : Option (List Char) :=
    if (t.take 40).length = 40 ∧ (t.take 40).all isHex then some (t.take 40) else none
  let a := s.takeWhile isAlias
  let withProblem :=
    match s.drop a.length with
    | '/' :: t => (hashAt t).map fun h => (a, h)
    | _ => none
  match withProblem with
  | some r => some r
  | none => (hashAt s).map fun h => ([], h)

/-- `inputRe.FindStringSubmatch` (cmd/omegaup-grader/runner_handler.go:226, 229): problem and hash. -/
def findInput (path : List Char) : Option (List Char × List Char) := search "/input/".toList inputAt path

/-- The path of the request a runner makes for an input (/repo/runner/input.go:55-59), with the grader's URL having
the path `/`. -/
def inputPath (problem hash : List Char) : List Char :=
  if problem ≠ [] then "/input/".toList ++ problem ++ '/' :: hash ++ ['/'] else "/input/".toList ++ hash ++ ['/']

/-- The decimal digits of a number. -/
def decimal (n : Nat) : List Char :=
  if n < 10 then [Char.ofNat (n + 48)] else decimal (n / 10) ++ [Char.ofNat (n % 10 + 48)]

/-- The path a runner sends its results to (/repo/cmd/omegaup-runner/main.go:489). -/
def resultsPath (attempt : Nat) : List Char := "/run/".toList ++ decimal attempt ++ "/results/".toList

end Quark.Access
