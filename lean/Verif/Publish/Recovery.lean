import Verif.Requests.GradeReply

/-!
# Restarting the grader

The pending runs: `getPendingRuns` and the loop that injects them when the grader starts
(/repo/cmd/omegaup-grader/frontend_handler.go:232-255, 440-469), together with the requests that arrive meanwhile
(`Quark.Requests`), the end of runs (`updateDatabase`, cmd/omegaup-grader/frontend_handler.go:63-114) and crashes at any point.

Simplifications. A row is what the query and the repository say about the run, and whether its status is `ready`; the
front end only inserts rows (it never sets the status of a run back). Results arrive for runs that were given to the
queue since the process started; what happens in between is the subject of Verif/Lifecycle.
-/

namespace Quark.Publish

open Quark.Requests (Guid Str Lookup Call Choice RunCtx)

/-- What the database knows about a run. -/
structure Info where
  guid : Guid
  /-- the problem is slow -/
  slow : Bool
  /-- `status = 'ready'` -/
  ready : Bool
  deriving DecidableEq

structure World where
  rows : Nat → Option Info := fun _ => none
  /-- the submissions directory when the process started -/
  disk : Guid → Option Str := fun _ => none
  /-- what the handlers did since -/
  acts : List Requests.Act := []
  /-- the pending runs the loop at start-up has not looked at yet (cmd/omegaup-grader/frontend_handler.go:450) -/
  recovering : List Nat := []
  /-- the iteration of the loop that is under way -/
  loop : Option Nat := none
  /-- the runs that earlier processes gave to the queue; not part of the program's state -/
  earlier : List Nat := []

/-- The state of the handlers and of the submissions directory. -/
def World.req (w : World) : Requests.State := Requests.run w.disk w.acts

/-- The runs given to the queue since the process started. -/
def World.queued (w : World) : List Nat := w.req.added.map fun e => e.2.id

/-- What `newRunContextFromID` finds (cmd/omegaup-grader/frontend_handler.go:288-350), if the lookups succeed. -/
def World.lookup (w : World) (id : Nat) (ok : Bool) : Lookup :=
  if ok then (w.rows id).map fun i => (i.guid, i.slow) else none

/-- A request whose lookups say what the database says, or fail. Iterations of the loop at start-up are not requests. -/
def World.Truthful (w : World) : Call → Prop
  | .new id l _ => ∃ ok, l = w.lookup id ok
  | .grade _ _ ids => ∀ p ∈ ids, ∃ ok, p.2 = w.lookup p.1 ok
  | .pending _ _ => False
  | .ephemeral _ | .ci _ => True

/-- The loop is ready for its next iteration: it is sequential. -/
def World.idle (w : World) : Prop :=
  match w.loop with
  | none => True
  | some t => ∃ st, w.req.threads[t]? = some (.replied st)

/-- What happens next. -/
inductive Next : World → World → Prop
  /-- The front end inserts a row (status `new`). -/
  | insert (w id guid slow) : id ≠ 0 → w.rows id = none →
      Next w { w with rows := Function.update w.rows id (some ⟨guid, slow, false⟩) }
  /-- A request arrives. -/
  | request (w c) : w.Truthful c → Next w { w with acts := w.acts ++ [.call c] }
  /-- A handler does its next operation. -/
  | step (w t ch) : Next w { w with acts := w.acts ++ [.step t ch] }
  /-- The result of a run is recorded. -/
  | finish (w id) : id ∈ w.queued →
      Next w { w with rows := Function.update w.rows id ((w.rows id).map fun i => { i with ready := true }) }
  /-- The grader is killed, at any point, and starts again: it asks for the runs that are not ready. -/
  | restart (w ids) : ids.Nodup → (∀ id, id ∈ ids ↔ ∃ i, w.rows id = some i ∧ i.ready = false) →
      Next w { w with
        disk := w.req.files, acts := [], recovering := ids, loop := none, earlier := w.earlier ++ w.queued }
  /-- The next iteration of the loop. -/
  | recover (w id rest ok) : w.recovering = id :: rest → w.idle →
      Next w { w with
        acts := w.acts ++ [.call (.pending id (w.lookup id ok))], recovering := rest
        loop := some w.req.calls.length }

inductive Reach : World → Prop
  | init : Reach {}
  | next {w w'} : Reach w → Next w w' → Reach w'

/-! ## The handlers -/

/-- The runs a handler still deals with. -/
def ctxs : Requests.Thread → List RunCtx
  | .opening r _ | .copying r _ => [r]
  | .injecting _ rs => rs
  | .adding _ r rs => r :: rs
  | .checking _ | .replied _ => []

theorem files_mono {s : Requests.State} {a : Requests.Act} {g : Guid} (h : s.files g ≠ none) :
    (Requests.step s a).files g ≠ none := by
  cases a with
  | call c => exact h
  | step t ch =>
    simp only [Requests.step]
    split
    · exact h
    · rename_i th _
      rcases Requests.step_files s t ch th g with h1 | ⟨r, b, -, -, h1⟩ | ⟨r, b, -, -, h1⟩
      · rw [h1]; exact h
      · exact absurd h1 h
      · exact h1

theorem files_mono_run {files : Guid → Option Str} {acts : List Requests.Act} {g : Guid} (h : files g ≠ none) :
    (Requests.run files acts).files g ≠ none := by
  induction acts using List.reverseRecOn with
  | nil => exact h
  | append_singleton acts a ih => rw [Requests.run_append]; exact files_mono ih

/-- The runs the handlers deal with have rows, and those about to be added or added have files. -/
structure Sourced (rows : Nat → Option Info) (s : Requests.State) : Prop where
  ctx : ∀ th ∈ s.threads, ∀ r ∈ ctxs th, r.id ≠ 0 → ∃ i, rows r.id = some i ∧ i.guid = r.guid
  adding : ∀ p r rest, .adding p r rest ∈ s.threads → r.id ≠ 0 → s.files r.guid ≠ none
  added : ∀ e ∈ s.added, e.2.id ≠ 0 → ∃ i, rows e.2.id = some i ∧ i.guid = e.2.guid ∧ s.files e.2.guid ≠ none

/-- What a call asks about agrees with the rows. -/
def Agreeing (rows : Nat → Option Info) (c : Call) : Prop :=
  ∀ p ∈ c.asks, p.2 = none ∨ ∃ i, rows p.1 = some i ∧ p.2 = some (i.guid, i.slow)

end Quark.Publish
