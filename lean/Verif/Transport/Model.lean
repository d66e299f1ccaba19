import Mathlib.Data.List.Basic

/-!
# Connections of the broadcaster

The life of one connection: `Subscriber.Run` (/repo/broadcaster/subscriber.go:332-375) and the transports
(/repo/broadcaster/transport.go:34-176), as far as the channel `close` is concerned. `Run` and `ReadLoop` are two
goroutines; the broadcaster may close the subscriber's channel and the client may go away at any time.
-/

namespace Quark.Transport

inductive Kind where
  | webSocket
  | sse
  deriving DecidableEq

structure State where
  kind : Kind
  /-- the broadcaster has closed the channel `send` -/
  sendClosed : Bool := false
  /-- the connection is broken -/
  clientGone : Bool := false
  /-- `Run` has returned, and with it the handler -/
  runDone : Bool := false
  /-- `ReadLoop` has returned -/
  readDone : Bool := false
  /-- how many times `close(t.close)` was called; the second call panics -/
  closes : Nat := 0
  deriving DecidableEq

inductive Act where
  | broadcasterCloses
  | clientGoes
  /-- `Run` finds the channel `close` closed (broadcaster/subscriber.go:355) -/
  | runSeesClose
  /-- `Run` finds the channel `send` closed and calls `transport.Close` (broadcaster/subscriber.go:358-362) -/
  | runSeesSendClosed
  /-- writing fails (broadcaster/subscriber.go:363-372) -/
  | runFails
  /-- `ReadLoop` ends (broadcaster/transport.go:84-93, 154-163) -/
  | readEnds
  /-- `ReadLoop` returns at once, the writer being no `CloseNotifier` (broadcaster/transport.go:157-160) -/
  | readUnsupported
  deriving DecidableEq

/-- One action. `endNotifies`: whether the `CloseNotifier` also fires when the handler has ended, as it does in
net/http for HTTP/2. Reading from a WebSocket fails when the client is gone or when the handler has ended and closed
the connection (/repo/cmd/omegaup-broadcaster/main.go:294). -/
def step (endNotifies : Bool) (s : State) : Act → Option State
  | .broadcasterCloses => if s.sendClosed then none else some { s with sendClosed := true }
  | .clientGoes => some { s with clientGone := true }
  | .runSeesClose => if !s.runDone && 0 < s.closes then some { s with runDone := true } else none
  | .runSeesSendClosed =>
    if !s.runDone && s.sendClosed then
      match s.kind with
      -- `WebSocketTransport.Close` (broadcaster/transport.go:56-66) writes a message
      | .webSocket => some { s with runDone := true }
      -- `SSETransport.Close` (broadcaster/transport.go:126-129)
      | .sse => some { s with runDone := true, closes := s.closes + 1 }
    else none
  | .runFails => if !s.runDone && s.clientGone then some { s with runDone := true } else none
  | .readEnds =>
    if s.readDone then none
    else match s.kind with
      | .webSocket =>
        if s.clientGone || s.runDone then some { s with readDone := true, closes := s.closes + 1 } else none
      | .sse =>
        if s.clientGone || (endNotifies && s.runDone) then
          some { s with readDone := true, closes := s.closes + 1 }
        else none
  | .readUnsupported =>
    if s.kind = .sse && !s.readDone then some { s with readDone := true } else none

def steps (endNotifies : Bool) (s : State) : List Act → Option State
  | [] => some s
  | a :: as => (step endNotifies s a).bind (steps endNotifies · as)

end Quark.Transport
