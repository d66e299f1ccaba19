import Mathlib.Data.List.Basic

/-!
# From the end of a run to the scoreboard

Everything between the end of `RunContext.Close` and the request that refreshes a scoreboard, over two programs:

* `Close` sends the run on `finishedRuns`, capacity 1 (/repo/grader/queue.go:828-830, called at :456-459);
* the goroutine of `RunPostProcessor` sends it to the one listener, capacity 1 (/repo/grader/queue.go:832-853,
  /repo/cmd/omegaup-grader/frontend_handler.go:505-507);
* `runPostProcessor` updates the database and posts the announcement to the broadcaster, one at a time
  (cmd/omegaup-grader/frontend_handler.go:211-230, 116-209, 407-433); its client has no time limit (:503);
* the handler of `/broadcast/` hands the message to the broadcaster, and if it announces a run of a contest (see area
  Trigger) sends the contest on `contestChan`, capacity 1, before it answers
  (/repo/cmd/omegaup-broadcaster/main.go:243-273, 220);
* `updateScoreboardLoop` receives it and asks the frontend at once or when the contest's window ends (cmd/omegaup-broadcaster/main.go:139-199);
  its client has no time limit either (:222).

Simplifications: the registration of the listener has happened; windows may end at any time (area Scoreboard has the
timer); `len(contest) > 0` and the search for the text in the message are one condition, as area Trigger shows that the
text is always found in announcements of runs; the programs keep running.
-/

namespace Quark.Pipeline

/-- A finished run: the contest it is for, and whether it is not announced at all: it is ephemeral, broadcasts are
switched off, or its submitter cannot be found (cmd/omegaup-grader/frontend_handler.go:126-129, 188-190, 224). -/
structure Run where
  id : Nat
  contest : Option String
  quiet : Bool := false
  deriving DecidableEq, Repr

/-- How the processing of a run ended. -/
inductive Outcome where
  | quiet
  /-- the broadcaster could not be reached, or its queue was full (cmd/omegaup-grader/frontend_handler.go:415-432, cmd/omegaup-broadcaster/main.go:261-265) -/
  | refused
  | announced
  deriving DecidableEq, Repr

/-- `runPostProcessor`. -/
inductive Post where
  | idle
  /-- working on a run, its announcement not yet accepted by the broadcaster -/
  | busy (r : Run)
  /-- the broadcaster's handler is at `contestChan <- message.Contest` -/
  | waiting (r : Run) (c : String)
  deriving DecidableEq, Repr

/-- `updateScoreboardLoop`. -/
inductive Loop where
  | idle
  /-- in `client.PostForm` -/
  | asking (c : String)
  deriving DecidableEq, Repr

structure State where
  /-- callers of `Close` at `finishedRuns <- run` -/
  closing : List Run := []
  finished : List Run := []
  worker : Option Run := none
  listener : List Run := []
  post : Post := .idle
  /-- handlers of `/broadcast/` for messages of other senders, at `contestChan <- message.Contest` -/
  others : List String := []
  /-- `contestChan`, with whether a contest is from `runPostProcessor` -/
  chan : List (Bool × String) := []
  loop : Loop := .idle
  /-- the keys of `eventSet`, and those with value true -/
  windows : List String := []
  dirty : List String := []
  /-- for the specification: the runs that were closed, the runs whose `Close` has returned, how processing of runs
  ended, what the loop received, and whom it asked the frontend to refresh; in order -/
  called : List Run := []
  sent : List Run := []
  ended : List (Run × Outcome) := []
  received : List (Bool × String) := []
  asked : List String := []
  deriving DecidableEq, Repr

inductive Act where
  /-- a run comes to the end of `Close` -/
  | close (r : Run)
  /-- the send of the `i`-th waiting caller of `Close` -/
  | send (i : Nat)
  | take
  | pass
  | start
  | skip
  | accept
  | refuse
  | put
  /-- another sender's message about a contest's run was accepted -/
  | other (c : String)
  | putOther (i : Nat)
  | recv
  | expire (c : String)
  /-- the frontend answers, or the connection breaks -/
  | reply
  deriving DecidableEq, Repr

/-- What a handler does after `b.Broadcast` (cmd/omegaup-broadcaster/main.go:261-272). -/
def handle (s : State) (r : Run) : State :=
  match r.contest with
  | some c => if c.isEmpty then { s with post := .idle, ended := s.ended ++ [(r, .announced)] }
              else { s with post := .waiting r c }
  | none => { s with post := .idle, ended := s.ended ++ [(r, .announced)] }

/-- One step; `none` if it is not possible. -/
def step (s : State) : Act → Option State
  | .close r => some { s with closing := s.closing ++ [r], called := s.called ++ [r] }
  | .send i =>
    match s.closing[i]? with
    | none => none
    | some r =>
      if s.finished.length < 1 then
        some { s with closing := s.closing.eraseIdx i, finished := s.finished ++ [r], sent := s.sent ++ [r] }
      else none
  | .take =>
    match s.worker, s.finished with
    | none, r :: rest => some { s with worker := some r, finished := rest }
    | _, _ => none
  | .pass =>
    match s.worker with
    | some r => if s.listener.length < 1 then some { s with worker := none, listener := s.listener ++ [r] } else none
    | none => none
  | .start =>
    match s.post, s.listener with
    | .idle, r :: rest => some { s with post := .busy r, listener := rest }
    | _, _ => none
  | .skip =>
    match s.post with
    | .busy r => if r.quiet then some { s with post := .idle, ended := s.ended ++ [(r, .quiet)] } else none
    | _ => none
  | .accept =>
    match s.post with
    | .busy r => if r.quiet then none else some (handle s r)
    | _ => none
  | .refuse =>
    match s.post with
    | .busy r => if r.quiet then none else some { s with post := .idle, ended := s.ended ++ [(r, .refused)] }
    | _ => none
  | .put =>
    match s.post with
    | .waiting r c =>
      if s.chan.length < 1 then
        some { s with post := .idle, chan := s.chan ++ [(true, c)], ended := s.ended ++ [(r, .announced)] }
      else none
    | _ => none
  | .other c => if c.isEmpty then none else some { s with others := s.others ++ [c] }
  | .putOther i =>
    match s.others[i]? with
    | none => none
    | some c =>
      if s.chan.length < 1 then
        some { s with others := s.others.eraseIdx i, chan := s.chan ++ [(false, c)] }
      else none
  | .recv =>
    match s.loop, s.chan with
    | .idle, (b, c) :: rest =>
      if s.windows.contains c then
        some { s with chan := rest, received := s.received ++ [(b, c)],
                      dirty := if s.dirty.contains c then s.dirty else s.dirty ++ [c] }
      else
        some { s with chan := rest, received := s.received ++ [(b, c)], windows := s.windows ++ [c],
                      loop := .asking c, asked := s.asked ++ [c] }
    | _, _ => none
  | .expire c =>
    match s.loop with
    | .idle =>
      if s.windows.contains c then
        if s.dirty.contains c then
          some { s with windows := s.windows.filter (· ≠ c), dirty := s.dirty.filter (· ≠ c), loop := .asking c,
                        asked := s.asked ++ [c] }
        else some { s with windows := s.windows.filter (· ≠ c) }
      else none
    | .asking _ => none
  | .reply =>
    match s.loop with
    | .asking _ => some { s with loop := .idle }
    | .idle => none

/-- Executions. -/
def exec (s : State) : List Act → Option State
  | [] => some s
  | a :: as =>
    match step s a with
    | none => none
    | some t => exec t as

end Quark.Pipeline
