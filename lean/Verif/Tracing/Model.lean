import Verif.Float.Model

/-!
# Trace events

Model of /repo/common/tracing.go: the events (63-117), `MemoryEventCollector` (163-248), `MultiEventCollector`
(255-288) and the constructors (325-376).

Simplifications: strings are valid Unicode; a JSON document is its list of objects with their fields (the text between is
the library's encoding/json), and its numbers are rationals; argument values are strings, integers, binary64 numbers or
something else that is passed through; nil and empty argument maps are not distinguished (both are encoded as absent);
`time.Now()` is a parameter.
-/

namespace Quark.Tracing
open Quark.Float (roundQ)

/-- A value in `Args` in memory (common/tracing.go:61-64). -/
inductive GoVal where
  | str (s : String)
  /-- any of Go's integer types -/
  | int (z : Int)
  /-- a float64 -/
  | float (q : ℚ)
  | other (n : Nat)
deriving DecidableEq

/-- A value in a JSON document. -/
inductive JVal where
  | str (s : String)
  | num (q : ℚ)
  | other (n : Nat)
deriving DecidableEq

/-- What kind of event it is: `NormalEvent`, `CompleteEvent` with its duration, `IssuerClockSyncEvent` with its SyncID. -/
inductive Kind where
  | normal
  | complete (dur : Int)
  | issuer (syncID : Nat)
deriving DecidableEq

/-- common/tracing.go:67-75, 83-86, 100-103 -/
structure Event where
  name : String
  type : String
  ts : Int
  pid : Int
  tid : Int
  args : String → Option GoVal
  finalized : Bool
  kind : Kind

def setArg (args : String → Option GoVal) (k : String) (v : GoVal) : String → Option GoVal :=
  fun k' => if k' = k then some v else args k'

/-- The three `Finalize` methods: common/tracing.go:78-80, 89-95, 108-116. -/
def Event.finalize (now : Int) (e : Event) : Event :=
  match e.kind with
  | .normal => { e with finalized := true }
  | .complete _ => if e.finalized then e else { e with kind := .complete (now - e.ts), finalized := true }
  | .issuer id =>
    if e.finalized then e
    else { e with args := setArg (setArg e.args "sync_id" (.int id)) "issue_ts" (.int e.ts), ts := now,
                  finalized := true }

/-- An object of the document: common/tracing.go:67-74, 84, 101 when written, 191-199 when read. -/
structure JEvent where
  name : String
  ph : String
  ts : Int
  pid : Int
  tid : Int
  args : String → Option JVal
  dur : Option Int

/-- How encoding/json writes a value. `shortest` is the decimal number it writes for a float64. -/
def encVal (shortest : ℚ → ℚ) : GoVal → JVal
  | .str s => .str s
  | .int z => .num z
  | .float q => .num (shortest q)
  | .other n => .other n

/-- How it reads a value into an `interface{}`: every number becomes a float64. -/
def decVal : JVal → GoVal
  | .str s => .str s
  | .num q => .float (roundQ q)
  | .other n => .other n

/-- common/tracing.go:189-193, for one event. -/
def encode (shortest : ℚ → ℚ) (e : Event) : JEvent :=
  { name := e.name, ph := e.type, ts := e.ts, pid := e.pid, tid := e.tid
    args := fun k => (e.args k).map (encVal shortest)
    dur := match e.kind with | .complete d => some d | _ => none }

/-- common/tracing.go:215-223 -/
def decodeBase (j : JEvent) : Event :=
  { name := j.name, type := j.ph, ts := j.ts, pid := j.pid, tid := j.tid
    args := fun k => (j.args k).map decVal, finalized := true, kind := .normal }

/-- Go's conversion of a float64 to uint64, for the values where the language defines it. -/
def toUint64 (q : ℚ) : Nat := ⌊q⌋.toNat

/-- common/tracing.go:214-244, for one event; `none` is a panic: a nil pointer dereference (220) or a failed type
assertion (224). -/
def decode (j : JEvent) : Option Event :=
  if j.ph = "X" then
    match j.dur with
    | some d => some { decodeBase j with kind := .complete d }
    | none => none
  else if j.ph = "c" then
    match j.args "sync_id" with
    | some (.num q) =>
      if (j.args "issue_ts").isSome then some { decodeBase j with kind := .issuer (toUint64 (roundQ q)) }
      else some { decodeBase j with args := setArg (decodeBase j).args "sync_id" (.int (toUint64 (roundQ q))) }
    | _ => none
  else some (decodeBase j)

/-- common/tracing.go:197-248: the events decoded are appended one after the other until the end or a panic. -/
def decodeAll : List JEvent → Option (List Event)
  | [] => some []
  | j :: js =>
    match decode j with
    | none => none
    | some e => (decodeAll js).map (e :: ·)

/-! ## Constructors -/

/-- `EventFactory` (common/tracing.go:306-309): the hashes of the two names -/
structure Factory where
  pid : Int
  tid : Int

/-- `NewEvent` (common/tracing.go:326-345) -/
def Factory.newEvent (f : Factory) (now : Int) (name type : String) (args : List (String × GoVal)) : Event :=
  { name, type, ts := now, pid := f.pid, tid := f.tid
    args := args.foldl (fun m a => setArg m a.1 a.2) (fun _ => none), finalized := false, kind := .normal }

/-- `NewIssuerClockSyncEvent` (common/tracing.go:350-357) -/
def Factory.newIssuer (f : Factory) (now : Int) (id : Nat) : Event :=
  { f.newEvent now "clock_sync" "c" [] with kind := .issuer id }

/-- `NewReceiverClockSyncEvent` (common/tracing.go:361-364) -/
def Factory.newReceiver (f : Factory) (now : Int) (id : Nat) : Event :=
  f.newEvent now "clock_sync" "c" [("sync_id", .int id)]

/-- `NewCompleteEvent` (common/tracing.go:368-375) -/
def Factory.newComplete (f : Factory) (now : Int) (name : String) (args : List (String × GoVal)) : Event :=
  { f.newEvent now name "X" args with kind := .complete 0 }

/-! ## Collecting -/

/-- Goroutines adding events to one `MemoryEventCollector` (common/tracing.go:167-186): each has its events still to add, in
order, with the time at which each is finalized. -/
structure Collector where
  todo : Nat → List (Int × Event)
  events : List (Nat × Event) := []

/-- The next `Add` of goroutine `t`; the mutex makes the append one step. -/
def Collector.add (c : Collector) (t : Nat) : Collector :=
  match c.todo t with
  | [] => c
  | (now, e) :: rest =>
    { todo := fun t' => if t' = t then rest else c.todo t', events := c.events ++ [(t, e.finalize now)] }

def Collector.run (c : Collector) (schedule : List Nat) : Collector := schedule.foldl Collector.add c

/-- `MultiEventCollector.Add` (common/tracing.go:270-277) with collectors that do not fail: each finalizes the event, at its own
time, and keeps it. The event is shared, so a later one sees what the earlier ones did to it. -/
def multiAdd : List Int → Event → List Event
  | [], _ => []
  | now :: rest, e => e.finalize now :: multiAdd rest (e.finalize now)

end Quark.Tracing
