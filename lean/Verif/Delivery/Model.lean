import Verif.Upload.Model

/-!
# Delivering the results of a run (runner side)

`processRun`, `gradeAndUploadResults` and `gradeRun` (/repo/cmd/omegaup-runner/main.go:459-641) and the channel between
grading and uploading, `channelBuffer` (:383-457), of which area RunnerLoop has the reading side.

Three parties run at the same time:
* grading, which writes the parts of the request's body as chunks into an unbuffered channel, and closes it;
* a goroutine that performs the request (`client.Do`), reports how it ended on `finished`, and then drains the channel;
* the HTTP transport, which reads the body and sends it, or gives up and closes it, which drains the channel too.
-/

namespace Quark.Delivery

/-! ### What is sent -/

/-- A part of the body (cmd/omegaup-runner/main.go:551-588, 635): `files.zip`, `details.json` with what it encodes (`none` when encoding
fails, as the encoder then writes nothing), `logs.txt` and `tracing.json`. -/
inductive Sent (R : Type) where
  | files (zip : String)
  | details (result : Option R)
  | logs (text : String)
  | tracing (events : List String)
  deriving DecidableEq, Repr

/-- How grading goes: whether the input is there (cmd/omegaup-runner/main.go:624-630), what `Grade` wrote to `files.zip` before it ended,
and its result (`none`: an error). -/
structure Grading (R : Type) where
  input : Bool
  zip : String
  result : Option R

/-- `gradeRun` (cmd/omegaup-runner/main.go:593-641): the parts it sends and what it returns. -/
def gradeRun {R : Type} (g : Grading R) : List (Sent R) × Option R :=
  if !g.input then ([], none) else ([.files g.zip], g.result)

/-- `gradeAndUploadResults` (cmd/omegaup-runner/main.go:509-591) as far as it writes the body: the parts and whether it returns an error.
`judgeError` is `NewRunResult("JE", run.MaxScore)`, `fixup` is `NoopSandboxFixupResult`, `encodes` tells whether a result
can be encoded as JSON. Writing to the body never fails (cmd/omegaup-runner/main.go:398-406), so neither do `CreateFormFile` and the
writes of the parts. -/
def body {R : Type} (noop : Bool) (fixup : R → R) (judgeError : R) (encodes : R → Bool) (g : Grading R)
    (logs : Option String) (trace : Option (List String)) : List (Sent R) × Bool :=
  let (parts, result) := gradeRun g
  let result := result.getD judgeError
  let result := if noop then fixup result else result
  if !encodes result then (parts ++ [.details none], true)
  else
    let parts := parts ++ [.details (some result)]
    let parts := match logs with
      | some t => parts ++ [.logs t]
      | none => parts
    let parts := match trace with
      | some es => parts ++ [.tracing es]
      | none => parts
    (parts, false)

/-! ### How it is sent -/

abbrev Bytes := List UInt8

/-- The HTTP transport. -/
inductive Transport where
  /-- not connected yet -/
  | idle
  /-- waiting for a chunk in `Read` or `WriteTo` -/
  | reading
  /-- sending what is left of a chunk -/
  | writing (left : Bytes)
  /-- saw the end of the body and sent the end of the request -/
  | eof
  /-- gave up: in the body's `Close` (cmd/omegaup-runner/main.go:432-438) -/
  | draining
  /-- gave up: `Close` has returned -/
  | ended
  deriving DecidableEq, Repr

/-- The goroutine (cmd/omegaup-runner/main.go:520-538). -/
inductive Poster where
  /-- in `client.Do` -/
  | posting
  /-- has reported; in the deferred `Close` -/
  | closing
  | done
  deriving DecidableEq, Repr

/-- `processRun` from `gradeAndUploadResults` on (cmd/omegaup-runner/main.go:494-507). -/
inductive Grader where
  | grading
  | waiting
  | returned (ok : Bool)
  deriving DecidableEq, Repr

structure State where
  /-- the chunks still to be written to the body -/
  toSend : List Bytes
  /-- whether `gradeAndUploadResults` is going to return an error -/
  err : Bool
  closed : Bool := false
  grader : Grader := .grading
  transport : Transport := .idle
  poster : Poster := .posting
  /-- what was sent on `finished`: `true` stands for nil. Its capacity is 1. -/
  finished : List Bool := []
  /-- the bytes of the body that were put on the wire -/
  wire : Bytes := []
  /-- when the poster reported: the bytes that were on the wire, whether the end of the request was -/
  atReport : Option (Bytes × Bool) := none
  deriving DecidableEq, Repr

/-- The steps that are up to the network: an error or an answer of the server before it has the whole request. -/
inductive Chance : State → State → Prop
  /-- an answer or an error before the end of the request, also while or after the transport closes the body -/
  | early {s : State} (ok : Bool) : s.poster = .posting → s.transport ≠ .idle → s.transport ≠ .eof →
      Chance s { s with poster := .closing, finished := s.finished ++ [ok], atReport := some (s.wire, false) }

/-- The steps that happen sooner or later when they can: those of the program, and network operations coming to their
end in one way or another. -/
inductive Due : State → State → Prop
  /-- `http.NewRequest` fails (cmd/omegaup-runner/main.go:522-527) -/
  | badRequest {s : State} : s.poster = .posting → s.transport = .idle →
      Due s { s with poster := .closing, transport := .ended, finished := s.finished ++ [false],
                     atReport := some (s.wire, false) }
  | connect {s : State} : s.poster = .posting → s.transport = .idle → Due s { s with transport := .reading }
  /-- no connection: the transport closes the body -/
  | noConnection {s : State} : s.poster = .posting → s.transport = .idle → Due s { s with transport := .draining }
  /-- `Write` (cmd/omegaup-runner/main.go:398-406) hands a chunk to the transport -/
  | toTransport {s : State} {c cs} : s.toSend = c :: cs → s.transport = .reading →
      Due s { s with toSend := cs, transport := .writing c }
  /-- a chunk is drained by the transport's `Close` -/
  | toDrain {s : State} {c cs} : s.toSend = c :: cs → s.transport = .draining → Due s { s with toSend := cs }
  /-- a chunk is drained by the poster's `Close` -/
  | toPoster {s : State} {c cs} : s.toSend = c :: cs → s.poster = .closing → Due s { s with toSend := cs }
  /-- the deferred `closeChannel` (cmd/omegaup-runner/main.go:517) once everything was written -/
  | close {s : State} : s.toSend = [] → s.closed = false →
      Due s { s with closed := true, grader := if s.err then .returned false else .waiting }
  /-- some of a chunk is sent -/
  | some {s : State} {a b} : s.transport = .writing (a ++ b) → a ≠ [] → b ≠ [] →
      Due s { s with transport := .writing b, wire := s.wire ++ a }
  /-- the rest of a chunk is sent -/
  | sent {s : State} {c} : s.transport = .writing c → Due s { s with transport := .reading, wire := s.wire ++ c }
  /-- sending fails somewhere in the chunk -/
  | failed {s : State} {a b} : s.transport = .writing (a ++ b) →
      Due s { s with transport := .draining, wire := s.wire ++ a }
  /-- the transport sees that the channel is closed -/
  | eof {s : State} : s.transport = .reading → s.closed = true → s.toSend = [] → Due s { s with transport := .eof }
  | drained {s : State} : s.transport = .draining → s.closed = true → s.toSend = [] →
      Due s { s with transport := .ended }
  /-- after the whole request: an answer, or none (cmd/omegaup-runner/main.go:529-537) -/
  | answer {s : State} (ok : Bool) : s.poster = .posting → s.transport = .eof →
      Due s { s with poster := .closing, finished := s.finished ++ [ok], atReport := Option.some (s.wire, true) }
  | gaveUp {s : State} : s.poster = .posting → s.transport = .ended →
      Due s { s with poster := .closing, finished := s.finished ++ [false], atReport := Option.some (s.wire, false) }
  | posterDone {s : State} : s.poster = .closing → s.closed = true → s.toSend = [] → Due s { s with poster := .done }
  /-- `return <-finished` (cmd/omegaup-runner/main.go:506) -/
  | receive {s : State} {r rs} : s.grader = .waiting → s.finished = r :: rs →
      Due s { s with grader := .returned r }

def Step (s t : State) : Prop := Due s t ∨ Chance s t

/-- A body in chunks; `err` tells whether `gradeAndUploadResults` returns an error. -/
def init (chunks : List Bytes) (err : Bool) : State := { toSend := chunks, err := err }

/-- Executions, with their number of steps. -/
inductive Steps : State → State → Nat → Prop
  | refl {s} : Steps s s 0
  | tail {s t u n} : Steps s t n → Step t u → Steps s u (n + 1)

end Quark.Delivery
