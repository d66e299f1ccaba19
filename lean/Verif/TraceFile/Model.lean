import Mathlib.Data.List.Basic

/-!
# The trace file of a process

Model of `WriterEventCollector` (/repo/common/tracing.go:128-162) over the file opened by `NewContext`
(/repo/common/context.go:269-285), as goroutines that call `Add` at the same time. One step is taking the lock,
one call of `Write`, or giving the lock back.

Simplifications. The bytes `json.Marshal` made of an event are given (an event it refuses never gets here,
common/tracing.go:144-147). The file is opened to be appended to, and what base.NewRotatingFile (not in /repo) does
when the log is rotated is left out. A call of `Write` that returns no error has written everything, as io.Writer
demands; one that returns an error has written any part.
-/

namespace Quark.TraceFile

abbrev Bytes := List UInt8

/-- common/context.go:275: `[]byte("[\n")`. -/
def header : Bytes := [0x5B, 0x0A]

/-- common/tracing.go:153: `[]byte(",\n")`. -/
def separator : Bytes := [0x2C, 0x0A]

/-- Where a goroutine is in `Add` (common/tracing.go:142-157). -/
inductive Pc where
  /-- common/tracing.go:148: about to lock. -/
  | wait
  /-- common/tracing.go:150: about to write the event. -/
  | event
  /-- common/tracing.go:153: about to write the separator. -/
  | separator
  /-- common/tracing.go:149: about to unlock; whether `Add` will return nil. -/
  | unlock (ok : Bool)
  /-- `Add` returned; whether it returned nil. -/
  | returned (ok : Bool)
  deriving DecidableEq

/-- One call of `Add`, with the encoded event. -/
structure Call where
  record : Bytes
  pc : Pc := .wait
  deriving DecidableEq

structure State where
  /-- What is in the file. -/
  file : Bytes
  /-- Who has `collector.lock` (common/tracing.go:131). -/
  holder : Option Nat := none
  calls : List Call := []
  /-- Whether the file was closed. -/
  closed : Bool := false
  deriving DecidableEq

/-- What the scheduler and the disk may choose. -/
inductive Act where
  /-- A goroutine calls `Add`. -/
  | add (record : Bytes)
  /-- Call `t` takes the lock. -/
  | lock (t : Nat)
  /-- Call `t`'s `Write` writes everything. -/
  | write (t : Nat)
  /-- Call `t`'s `Write` fails after `n` bytes. -/
  | fail (t n : Nat)
  /-- Call `t` gives the lock back. -/
  | unlock (t : Nat)
  /-- `Close` (common/tracing.go:160-162), which takes no lock. -/
  | close
  deriving DecidableEq

def State.goto (s : State) (t : Nat) (c : Call) (pc : Pc) : State :=
  { s with calls := s.calls.set t { c with pc := pc } }

/-- common/context.go:270-282: the file after it was opened; `before` was in it already. The parameter `isEmpty` is not
looked at. -/
def opened (before : Bytes) : State := { file := before ++ header }

/-- One step; `none` means it is not possible. -/
def step (s : State) : Act → Option State
  | .add r => some { s with calls := s.calls ++ [{ record := r }] }
  | .lock t =>
    match s.calls[t]?, s.holder with
    | some c, none => if c.pc = .wait then some { s.goto t c .event with holder := some t } else none
    | _, _ => none
  | .write t =>
    match s.calls[t]? with
    | some c =>
      if s.closed then none
      else if c.pc = .event then some { s.goto t c .separator with file := s.file ++ c.record }
      else if c.pc = .separator then some { s.goto t c (.unlock true) with file := s.file ++ separator }
      else none
    | none => none
  | .fail t n =>
    match s.calls[t]? with
    | some c =>
      if s.closed ∧ 0 < n then none
      else if c.pc = .event then some { s.goto t c (.unlock false) with file := s.file ++ c.record.take n }
      else if c.pc = .separator then some { s.goto t c (.unlock false) with file := s.file ++ separator.take n }
      else none
    | none => none
  | .unlock t =>
    match s.calls[t]? with
    | some c =>
      match c.pc with
      | .unlock ok => some { s.goto t c (.returned ok) with holder := none }
      | _ => none
    | none => none
  | .close => some { s with closed := true }

/-- Steps from one state to another. -/
inductive Steps : State → State → Prop
  | refl {s} : Steps s s
  | step {s s' s'' a} : Steps s s' → step s' a = some s'' → Steps s s''

end Quark.TraceFile
