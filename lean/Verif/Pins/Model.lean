import Mathlib.Data.List.Basic
import Mathlib.Logic.Function.Basic

/-!
# Inputs that are in use

A run holds a reference to its input from the moment it is accepted until it is closed, and a request of a runner for
an input (`/input/`) holds one while the input is sent. The input of an ephemeral run or of a CI run exists only in
the cache of the grader: a runner that asks for it when it is not there is told 404 (`CacheOnlyInputFactoryForTesting`,
/repo/common/inputmanager.go:209-257).

The LRU cache itself is not in /repo. It is taken to count references (`Get` and `Put`) and to drop only entries
without any. `load` of a missing input (`NewInput`, `Verify`, `Persist`) is one step with a given outcome; what it
does is the subject of `Verif/Inputs`.
-/

namespace Quark.Pins

inductive Kind where
  /-- A run whose input came with it: /repo/cmd/omegaup-grader/ephemeral.go:87-229, cmd/omegaup-grader/ci.go:603-711. -/
  | literalRun
  /-- A run of a problem: cmd/omegaup-grader/frontend_handler.go:367-405. -/
  | problemRun
  /-- A request of a runner that names the problem: cmd/omegaup-grader/runner_handler.go:239-247. -/
  | problemRequest
  /-- A request of a runner for an input that must be in the cache: cmd/omegaup-grader/runner_handler.go:237-238. -/
  | cacheRequest
  deriving DecidableEq

inductive Pc where
  /-- Before `InputManager.Add`. -/
  | start
  /-- `Add` failed; an error is reported and nothing is held. -/
  | failed
  /-- `Add` succeeded. -/
  | hasRef
  /-- A literal run that has got its directory (`SetEphemeral`). -/
  | ready
  /-- A run that is queued or being graded: `AddRunContext` has stored the reference (grader/queue.go:328). -/
  | open
  /-- `Close` has set the flag (grader/queue.go:372-375) and not yet released the input. -/
  | closing
  /-- The reference is released. -/
  | done
  /-- The handler has returned without releasing the reference. -/
  | forgotten
  deriving DecidableEq

structure Task where
  hash : Nat
  kind : Kind
  pc : Pc := .start
  deriving DecidableEq

structure State where
  /-- The entries of the cache, with their reference counts. -/
  cache : Nat → Option Nat := fun _ => none
  tasks : List Task := []

inductive Act where
  /-- A submission or a request arrives. -/
  | arrive (hash : Nat) (kind : Kind)
  /-- `InputManager.Add`; `ok` is how loading ends if the input is not there. -/
  | add (i : Nat) (ok : Bool)
  /-- `SetEphemeral` (cmd/omegaup-grader/ephemeral.go:142-147, cmd/omegaup-grader/ci.go:637-641). -/
  | setEphemeral (i : Nat) (ok : Bool)
  /-- `AddRunContext` and `AddRun` (cmd/omegaup-grader/ephemeral.go:158-179, cmd/omegaup-grader/ci.go:653-658, cmd/omegaup-grader/frontend_handler.go:398-402). -/
  | enqueue (i : Nat)
  /-- Somebody calls `Close` (grader/queue.go:371-375). -/
  | close (i : Nat)
  /-- `inputRef.Release` in `Close` (grader/queue.go:388-391). -/
  | release (i : Nat)
  /-- A request ends (cmd/omegaup-grader/runner_handler.go:253). `seesError`: another request has set the variable `err` that all
  share, and this one returns 404 before the `defer` (cmd/omegaup-grader/runner_handler.go:248-252; property C70). -/
  | answer (i : Nat) (seesError : Bool)
  /-- The cache drops an entry. -/
  | evict (hash : Nat)
  deriving DecidableEq

/-- Task `i` goes on. -/
def State.goto (s : State) (i : Nat) (x : Task) (pc : Pc) : State := { s with tasks := s.tasks.set i { x with pc := pc } }

/-- `Put`: one reference less. -/
def State.put (s : State) (h : Nat) : State := { s with cache := Function.update s.cache h ((s.cache h).map (· - 1)) }

/-- One step; `none` when it cannot happen. -/
def step (s : State) : Act → Option State
  | .arrive h k => some { s with tasks := s.tasks ++ [{ hash := h, kind := k }] }
  | .add i ok =>
    match s.tasks[i]? with
    | some x =>
      if x.pc = .start then
        match s.cache x.hash with
        | some n => some ({ s with cache := Function.update s.cache x.hash (some (n + 1)) }.goto i x .hasRef)
        | none =>
          if x.kind ≠ .cacheRequest ∧ ok then
            some ({ s with cache := Function.update s.cache x.hash (some 1) }.goto i x .hasRef)
          else some (s.goto i x .failed)
      else none
    | none => none
  | .setEphemeral i ok =>
    match s.tasks[i]? with
    | some x =>
      if x.pc = .hasRef ∧ x.kind = .literalRun then some (s.goto i x (if ok then .ready else .forgotten)) else none
    | none => none
  | .enqueue i =>
    match s.tasks[i]? with
    | some x =>
      if (x.pc = .hasRef ∧ x.kind = .problemRun) ∨ (x.pc = .ready ∧ x.kind = .literalRun) then some (s.goto i x .open)
      else none
    | none => none
  | .close i =>
    match s.tasks[i]? with
    | some x =>
      if x.pc = .open then some (s.goto i x .closing)
      else if x.pc = .closing ∨ (x.pc = .done ∧ (x.kind = .literalRun ∨ x.kind = .problemRun)) then some s
      else none
    | none => none
  | .release i =>
    match s.tasks[i]? with
    | some x => if x.pc = .closing then some ((s.put x.hash).goto i x .done) else none
    | none => none
  | .answer i seesError =>
    match s.tasks[i]? with
    | some x =>
      if x.pc = .hasRef ∧ (x.kind = .problemRequest ∨ x.kind = .cacheRequest) then
        if seesError then some (s.goto i x .forgotten) else some ((s.put x.hash).goto i x .done)
      else none
    | none => none
  | .evict h => if s.cache h = some 0 then some { s with cache := Function.update s.cache h none } else none

inductive Reach : State → Prop
  | init : Reach {}
  | step {s a s'} : Reach s → step s a = some s' → Reach s'

/-- From one state to another. -/
inductive Leads (s : State) : State → Prop
  | refl : Leads s s
  | step {s1 a s2} : Leads s s1 → step s1 a = some s2 → Leads s s2

end Quark.Pins
