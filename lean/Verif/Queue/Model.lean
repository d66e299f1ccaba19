import Mathlib.Logic.Function.Basic

/-!
# The priority queue of the grader

Model of one `Queue` (/repo/grader/queue.go:517-594): four buffered channels of runs and one buffered
channel of tokens, used concurrently by any number of goroutines. One step is one channel operation of
one goroutine, so the executions below are all the interleavings Go allows.

There are four priorities (`QueueCount`, grader/queue.go:46-47): 0 is the highest, 3 the lowest.

Simplifications. Runs are elements of an arbitrary type. A buffered channel is a list of at most
`cap` values, first in first out; a receive from a full channel with blocked senders, which Go performs
together with one of the sends, is modelled as two consecutive steps. A channel of capacity zero never
lets anybody through here; in Go it would need a sender and a receiver meeting, and no receiver gets past
the token channel before a send on a run channel has completed, so nothing happens there either. The
queue events and the hand-over to the monitor are in other files of this development.
-/

namespace Quark.Queue

variable {ρ : Type}

/-- What a goroutine using the queue is about to do. -/
inductive Thread (ρ : Type) where
  /-- grader/queue.go:570: `queue.runs[run.Priority] <- run` in `enqueueBlocking`. -/
  | adding (r : ρ) (p : Fin 4)
  /-- grader/queue.go:586-587: the select in `enqueue`. -/
  | requeuing (r : ρ) (p : Fin 4)
  /-- grader/queue.go:571 and 588: `queue.ready <- struct{}{}`. -/
  | signalling
  /-- `enqueueBlocking` returned, or `enqueue` returned true (grader/queue.go:589). -/
  | enqueued
  /-- grader/queue.go:592: `enqueue` returned false. -/
  | refused
  /-- grader/queue.go:533-537: the select of `GetRun`. -/
  | waiting
  /-- grader/queue.go:539-546: the loop of `GetRun`, about to poll channel `i`. -/
  | scanning (i : Nat)
  /-- grader/queue.go:543: `GetRun` returned `r`, found in channel `i`. -/
  | got (r : ρ) (i : Fin 4)
  /-- grader/queue.go:535: `GetRun` returned false since the client is gone. -/
  | gone
  /-- grader/queue.go:547: `panic("unreachable")`. -/
  | panicked
  deriving DecidableEq

/-- grader/queue.go:518-523 and the goroutines using it. -/
structure State (ρ : Type) where
  runs : Fin 4 → List ρ := fun _ => []
  ready : Nat := 0
  threads : List (Thread ρ) := []

/-- Calls of the queue's methods. -/
inductive Call (ρ : Type) where
  /-- grader/queue.go:551-562: `AddRun` of a run whose `Priority` is `p`. -/
  | addRun (r : ρ) (p : Fin 4)
  /-- grader/queue.go:581: `enqueue(run, p)`, as called by `Requeue`. -/
  | enqueue (r : ρ) (p : Fin 4)
  /-- grader/queue.go:528: `GetRun`. -/
  | getRun
  deriving DecidableEq

/-- The first operation of a call. -/
def Call.start : Call ρ → Thread ρ
  | .addRun r p => .adding r p
  | .enqueue r p => .requeuing r p
  | .getRun => .waiting

/-- What the scheduler may choose. -/
inductive Act (ρ : Type) where
  /-- A new goroutine makes a call. -/
  | call (c : Call ρ)
  /-- Goroutine `t` performs its next channel operation. -/
  | step (t : Nat)
  /-- Goroutine `t` notices that its client is gone. -/
  | hangup (t : Nat)
  deriving DecidableEq

/-- What an operation did, and which goroutine did it. -/
inductive Event (ρ : Type) where
  | called (t : Nat) (c : Call ρ)
  | pushed (t : Nat) (r : ρ) (p : Fin 4)
  | refused (t : Nat)
  | signalled (t : Nat)
  | admitted (t : Nat)
  | passed (t : Nat) (i : Nat)
  | took (t : Nat) (r : ρ) (i : Fin 4)
  | gone (t : Nat)
  | panicked (t : Nat)
  deriving DecidableEq

/-- Goroutine `t` goes on as `x`. -/
def State.goto (s : State ρ) (t : Nat) (x : Thread ρ) : State ρ :=
  { s with threads := s.threads.set t x }

/-- grader/queue.go:905-907 in `QueueManager.Add`: the capacity of the token channel. -/
def readyCap (cap : Nat) : Nat := 4 * cap

/-- One channel operation; `none` means that the goroutine is blocked, has returned or does not exist.
`cap` is the queue manager's channel length. -/
def step (cap : Nat) (s : State ρ) : Act ρ → Option (State ρ × Event ρ)
  | .call c => some ({ s with threads := s.threads ++ [c.start] }, .called s.threads.length c)
  | .hangup t =>
    match s.threads[t]? with
    | some .waiting => some (s.goto t .gone, .gone t)
    | _ => none
  | .step t =>
    match s.threads[t]? with
    | some (.adding r p) =>
      if (s.runs p).length < cap then
        some ({ s with runs := Function.update s.runs p (s.runs p ++ [r]) }.goto t .signalling,
          .pushed t r p)
      else none
    | some (.requeuing r p) =>
      if (s.runs p).length < cap then
        some ({ s with runs := Function.update s.runs p (s.runs p ++ [r]) }.goto t .signalling,
          .pushed t r p)
      else some (s.goto t .refused, .refused t)
    | some .signalling =>
      if s.ready < readyCap cap then
        some ({ s with ready := s.ready + 1 }.goto t .enqueued, .signalled t)
      else none
    | some .waiting =>
      if 0 < s.ready then some ({ s with ready := s.ready - 1 }.goto t (.scanning 0), .admitted t)
      else none
    | some (.scanning i) =>
      if h : i < 4 then
        match s.runs ⟨i, h⟩ with
        | r :: rs =>
          some ({ s with runs := Function.update s.runs ⟨i, h⟩ rs }.goto t (.got r ⟨i, h⟩),
            .took t r ⟨i, h⟩)
        | [] => some (s.goto t (.scanning (i + 1)), .passed t i)
      else some (s.goto t .panicked, .panicked t)
    | _ => none

/-- The executions of the queue: what happened, and the state reached. -/
inductive Reach (cap : Nat) : List (Event ρ) → State ρ → Prop
  | init : Reach cap [] {}
  | step {evs s a s' e} : Reach cap evs s → step cap s a = some (s', e) → Reach cap (evs ++ [e]) s'

end Quark.Queue
