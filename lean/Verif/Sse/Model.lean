import Mathlib.Data.List.Basic

/-!
# The stream of a Server-Sent Events subscriber

Model of what `SSETransport` (/repo/broadcaster/transport.go:109-177) writes to the connection of a subscriber, driven by
the loop of `Subscriber.Run` (/repo/broadcaster/subscriber.go:332-375), and of the text of the grader's own messages,
`broadcastRun` (/repo/cmd/omegaup-grader/frontend_handler.go:116-209).

Simplifications. A text is its bytes. A write that succeeds has written everything; one that fails has written any part,
after which `Run` returns. Flushing and chunking by net/http are left out: the client gets some prefix of what was
written. encoding/json is not in /repo: `quote` follows its documentation for valid UTF-8.
-/

namespace Quark.Sse

abbrev Bytes := List UInt8

/-- What the loop of `Run` finds in one turn (broadcaster/subscriber.go:353-374), with how many bytes of the write succeed, if it
fails. -/
inductive Turn where
  /-- A message (broadcaster/subscriber.go:358-366). -/
  | message (text : Bytes) (failsAfter : Option Nat)
  /-- The ticker (broadcaster/subscriber.go:368-372). -/
  | ping (failsAfter : Option Nat)
  /-- The channel `close` is closed, or `send` is (broadcaster/subscriber.go:355-362). `SSETransport.Close` writes nothing. -/
  | ends
  deriving DecidableEq

/-- broadcaster/transport.go:145: `[]byte(":\n")`. -/
def pingBytes : Bytes := [0x3A, 0x0A]

/-- broadcaster/transport.go:168: `fmt.Fprintf(t.w, "data: %s\n\n", message.message.Message)`. -/
def frame (text : Bytes) : Bytes := [0x64, 0x61, 0x74, 0x61, 0x3A, 0x20] ++ text ++ [0x0A, 0x0A]

/-- broadcaster/subscriber.go:353-374: what has been written when there were these turns. -/
def written : List Turn → Bytes
  | [] => []
  | .message text none :: rest => frame text ++ written rest
  | .message text (some n) :: _ => (frame text).take n
  | .ping none :: rest => pingBytes ++ written rest
  | .ping (some n) :: _ => pingBytes.take n
  | .ends :: _ => []

/-! ### Messages of the grader -/

/-- The low four bits as a hexadecimal digit. -/
def hex (b : UInt8) : UInt8 := if b < 10 then 0x30 + b else 0x57 + b

/-- encoding/json for the bytes of a string, without the quotes. Of the characters beyond ASCII, U+2028 and U+2029
(E2 80 A8 and E2 80 A9) are escaped. -/
def escaped : Bytes → Bytes
  | 0xE2 :: 0x80 :: 0xA8 :: r => [0x5C, 0x75, 0x32, 0x30, 0x32, 0x38] ++ escaped r
  | 0xE2 :: 0x80 :: 0xA9 :: r => [0x5C, 0x75, 0x32, 0x30, 0x32, 0x39] ++ escaped r
  | b :: r =>
    (if b = 0x22 ∨ b = 0x5C then [0x5C, b]
     else if b = 0x0A then [0x5C, 0x6E]
     else if b = 0x0D then [0x5C, 0x72]
     else if b = 0x09 then [0x5C, 0x74]
     else if b < 0x20 ∨ b = 0x3C ∨ b = 0x3E ∨ b = 0x26 then [0x5C, 0x75, 0x30, 0x30, hex (b / 16), hex (b % 16)]
     else [b]) ++ escaped r
  | [] => []

def quote (s : Bytes) : Bytes := [0x22] ++ escaped s ++ [0x22]

/-- A number as encoding/json writes it: digits, a point, signs and an exponent. -/
structure Number where
  text : Bytes
  ok : ∀ b ∈ text, b ∈ ([0x30, 0x31, 0x32, 0x33, 0x34, 0x35, 0x36, 0x37, 0x38, 0x39, 0x2B, 0x2D, 0x2E, 0x65] : Bytes)

/-- The values of the fields of `serializedRun` (cmd/omegaup-grader/frontend_handler.go:133-149). -/
inductive Value where
  | string (s : Bytes)
  | number (n : Number)
  /-- a nil pointer, with `omitempty` -/
  | absent

def valueBytes : Value → Option Bytes
  | .string s => some (quote s)
  | .number n => some n.text
  | .absent => none

/-- An object: the fields that are there, separated by commas. -/
def object (fields : List (Bytes × Bytes)) : Bytes :=
  [0x7B] ++ List.intercalate [0x2C] (fields.map fun f => quote f.1 ++ [0x3A] ++ f.2) ++ [0x7D]

/-- cmd/omegaup-grader/frontend_handler.go:133-149, 155-172, 174-192: what is known of a run. -/
structure RunUpdate where
  user : Bytes
  contest : Option Bytes
  problemset : Option Number
  problem : Bytes
  guid : Bytes
  runtime : Number
  penalty : Number
  memory : Number
  score : Number
  contestScore : Number
  verdict : Bytes
  submitDelay : Number
  time : Number
  language : Bytes

/-- The names of the fields (cmd/omegaup-grader/frontend_handler.go:134-148), as bytes. -/
def bytes (s : String) : Bytes := s.toList.map fun c => c.toNat.toUInt8

/-- cmd/omegaup-grader/frontend_handler.go:133-172: the fields of `serializedRun`, in order. -/
def fields (u : RunUpdate) : List (Bytes × Value) :=
  [(bytes "username", .string u.user),
   (bytes "contest_alias", match u.contest with | some c => .string c | none => .absent),
   (bytes "problemset", match u.problemset with | some n => .number n | none => .absent),
   (bytes "alias", .string u.problem),
   (bytes "guid", .string u.guid),
   (bytes "runtime", .number u.runtime),
   (bytes "penalty", .number u.penalty),
   (bytes "memory", .number u.memory),
   (bytes "score", .number u.score),
   (bytes "contest_score", .number u.contestScore),
   (bytes "status", .string (bytes "ready")),
   (bytes "verdict", .string u.verdict),
   (bytes "submit_delay", .number u.submitDelay),
   (bytes "time", .number u.time),
   (bytes "language", .string u.language)]

/-- cmd/omegaup-grader/frontend_handler.go:150-155, 198-203: `json.Marshal(&msg)`, the text of the message that is broadcast. -/
def updateText (u : RunUpdate) : Bytes :=
  object [(bytes "message", quote (bytes "/run/update/")),
          (bytes "run", object ((fields u).filterMap fun f => (valueBytes f.2).map fun v => (f.1, v)))]

end Quark.Sse
