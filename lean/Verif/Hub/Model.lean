import Mathlib.Data.List.Basic

/-!
# Listeners

The goroutine that passes finished runs on to the listeners of a `RunPostProcessor` (/repo/grader/queue.go:791-859) and
the one that passes queue events on to the listeners of a `QueueManager` (/repo/grader/queue.go:862-882 and 956-999).
The two pieces of code are the same up to names; this is a model of both, with events of any type `ε`.

Any number of goroutines use it concurrently. One step is one operation on one channel, so the histories below are all
the interleavings Go allows. A listener's channel has some capacity of at least one, as the two the grader uses do
(/repo/cmd/omegaup-grader/main.go:264, /repo/cmd/omegaup-grader/frontend_handler.go:505). After a panic nothing happens
any more.
-/

namespace Quark.Hub

variable {ε : Type}

/-- A call of one of the methods. -/
inductive Call (ε : Type) where
  /-- `AddListener(c)` / `AddEventListener(c)` (/repo/grader/queue.go:815-824, 957-966) -/
  | add (c : Nat)
  /-- `PostProcess(e)` / `AddEvent(e)` (/repo/grader/queue.go:828-830, 969-971) -/
  | post (e : ε)
  /-- `Close()` (/repo/grader/queue.go:857-859, 974-976) -/
  | close
  deriving DecidableEq

/-- Where a caller is. -/
inductive Thread (ε : Type) where
  /-- about to send its registration (817-820) -/
  | adding (c : Nat)
  /-- waiting for `added` to be closed (821-823) -/
  | waiting (c : Nat)
  /-- about to send its event -/
  | posting (e : ε)
  /-- about to close -/
  | closing
  /-- the call has returned -/
  | returned
  deriving DecidableEq

/-- Where the goroutine `run` (/repo/grader/queue.go:832-853, 978-999) is. -/
inductive Worker (ε : Type) where
  /-- at the select -/
  | idle
  /-- in the loop over the listeners, with these still to be served -/
  | sending (e : ε) (rest : List Nat)
  /-- closing the listeners, with these still to be closed -/
  | closing (rest : List Nat)
  | stopped
  deriving DecidableEq

structure State (ε : Type) where
  calls : List (Call ε) := []
  threads : List (Thread ε) := []
  /-- `listenerChan`, capacity 1: the caller and its channel -/
  regChan : List (Nat × Nat) := []
  /-- `finishedRuns` / `events`, capacity 1 -/
  evChan : List ε := []
  evClosed : Bool := false
  listeners : List Nat := []
  worker : Worker ε := .idle
  /-- the callers whose `added` channel has been closed -/
  acked : List Nat := []
  /-- what is in each listener's channel, and what has been taken out of it -/
  buf : Nat → List ε := fun _ => []
  taken : Nat → List ε := fun _ => []
  /-- how often each listener's channel has been closed -/
  closed : Nat → Nat := fun _ => 0
  panicked : Bool := false
  /-- every event whose send has completed, with its caller, in order -/
  accepted : List (Nat × ε) := []

def Call.start : Call ε → Thread ε
  | .add c => .adding c
  | .post e => .posting e
  | .close => .closing

def upd {α : Type} (f : Nat → α) (i : Nat) (v : α) : Nat → α := fun j => if j = i then v else f j

/-- One operation of caller `t`; blocked callers stay where they are. -/
def threadStep (s : State ε) (t : Nat) : Thread ε → State ε
  | .adding c =>
    if s.regChan.length < 1 then
      { s with regChan := s.regChan ++ [(t, c)], threads := s.threads.set t (.waiting c) }
    else s
  | .waiting _ => if t ∈ s.acked then { s with threads := s.threads.set t .returned } else s
  | .posting e =>
    if s.evClosed then { s with panicked := true }
    else if s.evChan.length < 1 then
      { s with evChan := s.evChan ++ [e], accepted := s.accepted ++ [(t, e)], threads := s.threads.set t .returned }
    else s
  | .closing =>
    if s.evClosed then { s with panicked := true }
    else { s with evClosed := true, threads := s.threads.set t .returned }
  | .returned => s

/-- The first case of the select (835-840, 981-986), when a registration is there. -/
def takeReg (s : State ε) : State ε :=
  match s.regChan with
  | [] => s
  | (t, c) :: rest => { s with regChan := rest, listeners := s.listeners ++ [c], acked := s.acked ++ [t] }

/-- The second case (841-850, 987-996), when an event is there or the channel has been closed. -/
def takeEvent (s : State ε) : State ε :=
  match s.evChan with
  | e :: rest => { s with evChan := rest, worker := .sending e s.listeners }
  | [] => if s.evClosed then { s with worker := .closing s.listeners } else s

/-- One operation of the goroutine; `first` says which of the cases of the select is taken if both are ready. -/
def workerStep (cap : Nat → Nat) (s : State ε) (first : Bool) : State ε :=
  match s.worker with
  | .idle =>
    if first then (if s.regChan.isEmpty then takeEvent s else takeReg s)
    else if s.evChan.isEmpty && !s.evClosed then takeReg s
    else takeEvent s
  | .sending _ [] => { s with worker := .idle }
  | .sending e (c :: rest) =>
    if 0 < s.closed c then { s with panicked := true }
    else if (s.buf c).length < cap c then
      { s with buf := upd s.buf c (s.buf c ++ [e]), worker := .sending e rest }
    else s
  | .closing [] => { s with worker := .stopped }
  | .closing (c :: rest) =>
    if 0 < s.closed c then { s with panicked := true }
    else { s with closed := upd s.closed c (s.closed c + 1), worker := .closing rest }
  | .stopped => s

inductive Act (ε : Type) where
  | call (c : Call ε)
  | step (t : Nat)
  | work (first : Bool)
  /-- whoever owns channel `c` takes an event out of it -/
  | take (c : Nat)
  deriving DecidableEq

def step (cap : Nat → Nat) (s : State ε) (a : Act ε) : State ε :=
  if s.panicked then s
  else
    match a with
    | .call c => { s with calls := s.calls ++ [c], threads := s.threads ++ [c.start] }
    | .step t =>
      match s.threads[t]? with
      | none => s
      | some th => threadStep s t th
    | .work first => workerStep cap s first
    | .take c =>
      match s.buf c with
      | [] => s
      | e :: rest => { s with buf := upd s.buf c rest, taken := upd s.taken c (s.taken c ++ [e]) }

def run (cap : Nat → Nat) (acts : List (Act ε)) : State ε := acts.foldl (step cap) {}

/-! ## The queues by name -/

/-- `QueueManager.mapping` (/repo/grader/queue.go:877); a queue is identified by the call of `Add` that made it. -/
structure Manager where
  mapping : String → Option Nat := fun _ => none
  next : Nat := 0

/-- `Add` (/repo/grader/queue.go:903-917): the queue returned and the new manager. The mutex makes it one step. -/
def Manager.add (m : Manager) (name : String) : Nat × Manager :=
  (m.next, { mapping := fun n => if n = name then some m.next else m.mapping n, next := m.next + 1 })

/-- `Get` (/repo/grader/queue.go:920-929): `none` is the error. -/
def Manager.get (m : Manager) (name : String) : Option Nat := m.mapping name

/-- `NewQueueManager` (/repo/grader/queue.go:889-900); `DefaultQueueName` is "default" (/repo/grader/queue.go:46-47). -/
def newManager : Manager := (Manager.add {} "default").2

/-- The manager after these calls of `Add`. -/
def addAll (names : List String) : Manager := names.foldl (fun m n => (m.add n).2) newManager

end Quark.Hub
