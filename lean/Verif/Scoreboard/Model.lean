import Mathlib.Data.List.Basic

/-!
# Scoreboard refreshes

`updateScoreboardLoop` (/repo/cmd/omegaup-broadcaster/main.go:139-199). Time is a number that only grows and passes
between any two actions of the loop; a timer that is due sends its value at any later moment. The heap of
`container/heap` is a list from which an event with the least deadline is taken, any one of them if there are several.
-/

namespace Quark.Scoreboard

inductive Timer where
  /-- it has sent its value (or was never started) -/
  | stopped
  | at (t : Nat)
  /-- started with `infinity`, 292 years -/
  | never
  deriving DecidableEq

/-- What the loop has done, for the specification only. -/
inductive Event (α : Type) where
  /-- it received a contest -/
  | update (c : α)
  /-- it opened a window for a contest at a time -/
  | opened (c : α) (t : Nat)
  /-- it asked the frontend to refresh the scoreboard of a contest -/
  | refresh (c : α)
  /-- it ended the window of a contest at a time -/
  | expired (c : α) (t : Nat)
  deriving DecidableEq

structure State (α : Type) where
  now : Nat := 0
  /-- the heap `events`: contests and deadlines -/
  events : List (α × Nat) := []
  /-- `eventSet` -/
  dirty : α → Option Bool := fun _ => none
  timer : Timer := .never
  /-- a value in `timer.C` -/
  fired : Bool := false
  /-- the loop waits for ever at `<-timer.C` in the first case -/
  stuck : Bool := false
  log : List (Event α) := []

variable {α : Type} [DecidableEq α]

def upd {β : Type} (f : α → β) (a : α) (b : β) : α → β := fun x => if x = a then b else f x

inductive Act (α : Type) where
  /-- time passes -/
  | tick (d : Nat)
  /-- the timer is due and sends its value -/
  | fire
  /-- the loop receives a contest; `d` is the time between reading the clock and starting the timer -/
  | receive (c : α) (d : Nat)
  /-- the loop receives the timer's value, takes `e` from the heap; `d` as before -/
  | expire (e : α × Nat) (d : Nat)
  /-- the loop receives the timer's value and the heap is empty -/
  | expireEmpty

/-- When the timer goes off for the next event of the heap (cmd/omegaup-broadcaster/main.go:180-184). -/
def nextTimer (events : List (α × Nat)) (now d : Nat) : Timer :=
  match (events.map (·.2)).min? with
  | none => .never
  | some t => .at (now + d + (t - now))

/-- One action, for windows of length `w`; `none` if it is not possible. -/
def step (w : Nat) (s : State α) (a : Act α) : Option (State α) :=
  if s.stuck then none else
  match a with
  | .tick d => some { s with now := s.now + d }
  | .fire =>
    match s.timer with
    | .at t => if t ≤ s.now then some { s with timer := .stopped, fired := true } else none
    | _ => none
  | .receive c d =>
    match s.dirty c with
    | some _ => some { s with dirty := upd s.dirty c (some true), log := s.log ++ [.update c] }
    | none =>
      let events := s.events ++ [(c, s.now + w)]
      let s' : State α := { s with
        dirty := upd s.dirty c (some false)
        events := events
        log := s.log ++ [.update c, .opened c s.now] }
      if events.length = 1 then
        if s.timer = .stopped ∧ s.fired = false then some { s' with stuck := true }
        else some { s' with
          now := s.now + d
          fired := false
          timer := .at (s.now + d + w)
          log := s'.log ++ [.refresh c] }
      else some { s' with log := s'.log ++ [.refresh c] }
  | .expire e d =>
    if s.fired = true ∧ e ∈ s.events ∧ ∀ x ∈ s.events, e.2 ≤ x.2 then
      some { s with
        now := s.now + d
        fired := false
        events := s.events.erase e
        timer := nextTimer (s.events.erase e) s.now d
        dirty := upd s.dirty e.1 none
        log := s.log ++ (if s.dirty e.1 = some true then [.refresh e.1] else []) ++ [.expired e.1 s.now] }
    else none
  | .expireEmpty =>
    if s.fired = true ∧ s.events = [] then some { s with fired := false, timer := .never } else none

inductive Reach (w : Nat) : State α → Prop
  | init : Reach w {}
  | step {s s' a} : Reach w s → step w s a = some s' → Reach w s'

end Quark.Scoreboard
