import Verif.Filter.Model

/-!
# The endpoint of event subscriptions

The handler of the events port and of `/deauthenticate/` (/repo/cmd/omegaup-broadcaster/main.go:234-242, 275-328), with
`AcceptsMimeType` (/repo/common/server.go:65-74) and the request of `NewSubscriber` to the frontend
(/repo/broadcaster/subscriber.go:254-295). What `net/http` makes of the client's request is given: the lines of the
header `Accept`, the cookie, the values of `filter`. Texts are lists of characters, on the wire their UTF-8 encoding.
-/

namespace Quark.Session

open Filter (Text Validated Subscriber NewSub split)

/-- `unicode.IsSpace`. -/
def isSpace (c : Char) : Bool :=
  c = '\t' || c = '\n' || c.toNat = 0x0B || c.toNat = 0x0C || c = '\r' || c = ' ' || c.toNat = 0x85 || c.toNat = 0xA0 ||
  c.toNat = 0x1680 || (0x2000 ≤ c.toNat && c.toNat ≤ 0x200A) || c.toNat = 0x2028 || c.toNat = 0x2029 ||
  c.toNat = 0x202F || c.toNat = 0x205F || c.toNat = 0x3000

/-- `strings.TrimSpace`. -/
def trimSpace (t : Text) : Text := ((t.dropWhile isSpace).reverse.dropWhile isSpace).reverse

/-- `AcceptsMimeType` (common/server.go:65-74). -/
def acceptsMimeType (accept : List Text) (mime : Text) : Bool :=
  accept.any fun line => (split ',' line).any fun m => trimSpace m = mime

/-- "text/event-stream" (cmd/omegaup-broadcaster/main.go:286) -/
def eventStream : Text :=
  ['t', 'e', 'x', 't', '/', 'e', 'v', 'e', 'n', 't', '-', 's', 't', 'r', 'e', 'a', 'm']

/-- `strings.Join(…, ",")` (cmd/omegaup-broadcaster/main.go:310). -/
def joinComma : List Text → Text
  | [] => []
  | t :: ts => ts.foldl (fun acc u => acc ++ ',' :: u) t

/-- `"0123456789ABCDEF"[n]` -/
def upperHex (n : Nat) : UInt8 := UInt8.ofNat (if n < 10 then 48 + n else 55 + n)

/-- `shouldEscape(c, encodeQueryComponent)` is false. -/
def unreserved (b : UInt8) : Bool :=
  (97 ≤ b && b ≤ 122) || (65 ≤ b && b ≤ 90) || (48 ≤ b && b ≤ 57) || b = 45 || b = 95 || b = 46 || b = 126

/-- `url.QueryEscape`, byte by byte. -/
def escapeByte (b : UInt8) : List UInt8 :=
  if unreserved b then [b] else if b = 32 then [43] else [37, upperHex (b.toNat / 16), upperHex (b.toNat % 16)]

/-- The bytes of a text. -/
def utf8 (t : Text) : List UInt8 := t.flatMap String.utf8EncodeChar

/-- `q.Encode()` (broadcaster/subscriber.go:254-256). The URL comes from `Parse` of a relative reference without a query, so there
are no other parameters. -/
def encodeQuery (filters : Text) : List UInt8 :=
  [102, 105, 108, 116, 101, 114, 61] ++ (utf8 filters).flatMap escapeByte

/-- What the frontend is asked: the query, and the header `Cookie` (broadcaster/subscriber.go:254-267). -/
structure Asked where
  query : List UInt8
  cookie : Option Text

/-- How the request to the frontend ends: in an error, or with a status, a body, and what the body decodes to. -/
inductive Reply where
  | failed
  | answer (status : Nat) (body : List UInt8) (decoded : Option Validated)

/-- What the client's request has. -/
structure Request where
  accept : List Text := []
  ouat : Option Text := none
  filters : List Text := []

/-- What the client gets. -/
inductive Shown where
  /-- the answer of `Upgrade` to requests that are none for a WebSocket -/
  | notUpgraded
  /-- a WebSocket that is closed at once -/
  | closedSocket
  /-- status 200 and nothing else -/
  | empty200
  /-- what the frontend answered -/
  | upstream (status : Nat) (body : List UInt8)
  /-- status 503 -/
  | unavailable
  /-- events, as an event stream or over a WebSocket -/
  | events (sse : Bool)
  /-- the handler panics -/
  | aborted

structure Outcome where
  asked : Option Asked := none
  shown : Shown
  subscriber : Option Subscriber := none

/-- How a request is refused. After an upgrade the connection is hijacked: statuses and bodies go nowhere. -/
def refuse (sse : Bool) (s : Shown) : Shown := if sse then s else .closedSocket

/-- What `NewSubscriber` takes from an answer (broadcaster/subscriber.go:276-295): JSON that decodes, and status 200. -/
def consent : Reply → Option Validated
  | .answer 200 _ (some v) => some v
  | _ => none

/-- What is sent for an error of `NewSubscriber` (cmd/omegaup-broadcaster/main.go:313-320 and broadcaster/subscriber.go:285-293). -/
def failure : Reply → Shown
  | .answer status body (some _) => .upstream status body
  | _ => .empty200

/-- The request to the frontend (broadcaster/subscriber.go:254-273). -/
def ask (r : Request) : Asked :=
  let token := r.ouat.getD []
  { query := encodeQuery (joinComma r.filters)
    cookie := if token = [] then none else some (['o', 'u', 'a', 't', '='] ++ token) }

/-- The handler (cmd/omegaup-broadcaster/main.go:276-328). `upgrades`: whether `Upgrade` succeeds; `room`: whether `Subscribe` does. -/
def handle (r : Request) (upgrades : Bool) (reply : Reply) (room : Bool) : Outcome :=
  let sse := acceptsMimeType r.accept eventStream
  if !sse && !upgrades then { shown := .notUpgraded }
  else
    match Filter.parseFilters (split ',' (joinComma r.filters)) [] with
    | (_, true) => { shown := .aborted }
    | (none, false) => { shown := refuse sse .empty200 }
    | (some _, false) =>
      match Filter.newSubscriber (joinComma r.filters) (consent reply) with
      | .panic => { shown := .aborted }
      | .error => { asked := some (ask r), shown := refuse sse (failure reply) }
      | .ok s =>
        if room then { asked := some (ask r), shown := .events sse, subscriber := some s }
        else { asked := some (ask r), shown := refuse sse .unavailable }

/-- The user of `/deauthenticate/` (cmd/omegaup-broadcaster/main.go:234-242): the third component of the path; without one it is a bad
request. -/
def deauthUser (path : Text) : Option Text := (split '/' path)[2]?

end Quark.Session
