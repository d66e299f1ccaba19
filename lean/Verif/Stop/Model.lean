import Mathlib.Data.List.Basic

/-!
# Stopping a daemon, and the queue of CI requests

The end of `main` of the grader (/repo/cmd/omegaup-grader/main.go:164-302, "grader" below) and of the broadcaster
(/repo/cmd/omegaup-broadcaster/main.go:201-385, "broadcaster"), `RunServer` (/repo/common/server.go:14-61), and the
worker of the CI handler with its channel (/repo/cmd/omegaup-grader/ci.go:594-601, 834, 941-1019, "ci").

Assumptions about the libraries: `signal.Notify` offers a signal to the channel and drops it if nobody is receiving and the
channel has no buffer; `http.Server.Shutdown` closes the listener first, makes `ListenAndServe` return at once, and
returns when no request is being handled or when its context is done; blocked senders of a channel are served in order.
Left out: what the handlers do, a server that cannot listen (the process panics), requests on a connection that
was idle when its server began to shut down, hang-ups, and how long anything takes: the deadline of five seconds is an
event that can come at any moment after the signal.
-/

namespace Quark.Stop

/-- What is shut down: the `shutdowner`s of grader:227-284 and the `servers` of broadcaster:331-362. -/
inductive Kind where
  | ci
  | server
deriving DecidableEq

/-- grader:230-284, in the order in which they are appended: the CI handler, and the servers for ephemeral runs, for
runners and for the frontend. -/
def graderParts : List Kind := [.ci, .server, .server, .server]

/-- broadcaster:331-362: the server of events and the one of messages. -/
def broadcasterParts : List Kind := [.server, .server]

/-- grader:247-248: the server whose handlers include the CI handler's; its position in `graderParts`. -/
def ciServer : Nat := 1

/-- ci:1014: the buffer of `reportChan`. -/
def channelSize : Nat := 128

/-- Where `main` is. -/
inductive Phase where
  /-- after `signal.Notify` (grader:173-174, broadcaster:209-210), before `<-stopChan`; this many parts started -/
  | starting (started : Nat)
  /-- at `<-stopChan` (grader:291, broadcaster:371) -/
  | waiting
  /-- in the loop of grader:296-298, broadcaster:377-379, at this part; has its `Shutdown` been called? -/
  | stopping (k : Nat) (called : Bool)
  /-- at `wg.Wait()` (grader:301, broadcaster:382) -/
  | joining
  | exited
deriving DecidableEq

/-- The goroutine `ciHandler.run` (ci:941-990). -/
inductive Worker where
  /-- reloading the finished runs (ci:949-978) -/
  | scanning
  /-- at the `select` of ci:982 -/
  | idle
  /-- in `processCIRequest` (ci:988) -/
  | busy (id : Nat)
  /-- returned (ci:983-985) -/
  | stopped
deriving DecidableEq

/-- What the CI worker did. -/
inductive Event where
  | start (id : Nat)
  | finish (id : Nat)
deriving DecidableEq

structure State where
  phase : Phase := .starting 0
  /-- the context of grader:295, broadcaster:375 is done -/
  expired : Bool := false
  /-- the number of requests ever accepted; they are numbered -/
  next : Nat := 0
  /-- the requests whose handler is running, and their server -/
  inflight : List (Nat × Nat) := []
  /-- the requests whose handler returned -/
  answered : List Nat := []
  /-- the requests that reached `h.reportChan <- report` (ci:834), in order -/
  sent : List Nat := []
  /-- the buffer of `reportChan` -/
  queue : List Nat := []
  /-- the handlers that wait for room in it -/
  blocked : List Nat := []
  /-- `stopChan` of the CI handler is closed (ci:993) -/
  ciStop : Bool := false
  worker : Worker := .scanning
  /-- what the CI worker did, in order -/
  log : List Event := []
deriving DecidableEq

/-- Is server `k` accepting requests? `RunServer` (common/server.go:14-61) starts it, its `Shutdown` stops it. -/
def listening (s : State) (k : Nat) : Bool :=
  match s.phase with
  | .starting m => k < m
  | .waiting => true
  | .stopping j called => if called then j < k else j ≤ k
  | .joining => false
  | .exited => false

inductive Act where
  | signal
  /-- the next part is started (grader:227-284, broadcaster:331-362) -/
  | startPart
  /-- `main` reaches `<-stopChan` -/
  | ready
  /-- the deadline passes -/
  | expire
  /-- `Shutdown` of the current part is called -/
  | call
  /-- `Shutdown` of the current part returns -/
  | ret
  /-- `wg.Wait` returns, and `main` -/
  | join
  /-- a request arrives at a server -/
  | accept (k : Nat)
  /-- a CI request's handler gets to ci:834 -/
  | send (id : Nat)
  /-- a handler returns -/
  | answer (id : Nat)
  /-- the CI worker has reloaded (ci:978) -/
  | scanned
  /-- it takes a report (ci:987) -/
  | take
  /-- `processCIRequest` returns -/
  | finish
  /-- it sees that it is to stop (ci:983-985) -/
  | quit
deriving DecidableEq

/-- Is the request waiting to be answered? -/
def running (s : State) (id : Nat) : Bool := s.inflight.any fun p => p.1 = id

/-- May the `Shutdown` of part `k` return? `ciHandler.Shutdown` (ci:992-1001), `http.Server.Shutdown`. -/
def mayReturn (s : State) (k : Nat) : Kind → Bool
  | .ci => s.expired || s.worker = .stopped
  | .server => s.expired || !(s.inflight.any fun p => p.2 = k)

/-- One atomic action of a daemon with these parts. `none` = not possible now. -/
def step (parts : List Kind) (s : State) (a : Act) : Option State :=
  if s.phase = .exited then none
  else match a with
  | .signal => match s.phase with
    | .waiting => some { s with phase := .stopping 0 false }
    | _ => some s
  | .startPart => match s.phase with
    | .starting m => if m < parts.length then some { s with phase := .starting (m + 1) } else none
    | _ => none
  | .ready => match s.phase with
    | .starting m => if m = parts.length then some { s with phase := .waiting } else none
    | _ => none
  | .expire => match s.phase with
    | .stopping _ _ => some { s with expired := true }
    | _ => none
  | .call => match s.phase with
    | .stopping k false =>
      match parts[k]? with
      | some .ci => some { s with phase := .stopping k true, ciStop := true }
      | some .server => some { s with phase := .stopping k true }
      | none => none
    | _ => none
  | .ret => match s.phase with
    | .stopping k true =>
      match parts[k]? with
      | some kind =>
        if mayReturn s k kind then
          if k + 1 < parts.length then some { s with phase := .stopping (k + 1) false }
          else some { s with phase := .joining }
        else none
      | none => none
    | _ => none
  | .join => match s.phase with
    | .joining => some { s with phase := .exited }
    | _ => none
  | .accept k =>
    if parts[k]? = some .server ∧ listening s k then
      some { s with next := s.next + 1, inflight := s.inflight ++ [(s.next, k)] }
    else none
  | .send id =>
    if parts[0]? = some .ci ∧ (id, ciServer) ∈ s.inflight ∧ id ∉ s.sent then
      if s.queue.length < channelSize then
        some { s with sent := s.sent ++ [id], queue := s.queue ++ [id] }
      else some { s with sent := s.sent ++ [id], blocked := s.blocked ++ [id] }
    else none
  | .answer id =>
    if running s id ∧ id ∉ s.blocked then
      some { s with inflight := s.inflight.filter fun p => p.1 ≠ id, answered := s.answered ++ [id] }
    else none
  | .scanned =>
    if s.worker = .scanning ∧ parts[0]? = some .ci ∧ s.phase ≠ .starting 0 then some { s with worker := .idle } else none
  | .take =>
    match s.worker, s.queue with
    | .idle, id :: rest =>
      match s.blocked with
      | [] => some { s with worker := .busy id, queue := rest, log := s.log ++ [.start id] }
      | b :: bs => some { s with worker := .busy id, queue := rest ++ [b], blocked := bs, log := s.log ++ [.start id] }
    | _, _ => none
  | .finish =>
    match s.worker with
    | .busy id => some { s with worker := .idle, log := s.log ++ [.finish id] }
    | _ => none
  | .quit =>
    if s.worker = .idle ∧ s.ciStop then some { s with worker := .stopped } else none

/-- A sequence of actions. -/
def run (parts : List Kind) (s : State) : List Act → Option State
  | [] => some s
  | a :: as => (step parts s a).bind (run parts · as)

/-- The state of a daemon is reachable. -/
def Reachable (parts : List Kind) (s : State) : Prop := ∃ acts, run parts {} acts = some s

end Quark.Stop
