import Mathlib.Data.List.Basic

/-!
# Handing out inputs

* `InputManager.Add` (/repo/common/inputmanager.go:277-315),
* `HashReader` (/repo/common/inputmanager.go:381-427),
* the handler of `/input/` (/repo/cmd/omegaup-grader/runner_handler.go:226-259).
-/

namespace Quark.Inputs

/-! ### The manager -/

/-- The calls made to the inputs of a manager. -/
inductive Call (α : Type) where
  /-- `factory.NewInput(hash)`, with what `Committed()` says then. -/
  | new (h : α) (committed : Bool)
  /-- `input.Verify()`, whether it succeeds. -/
  | verify (h : α) (ok : Bool)
  /-- `input.Delete()`. -/
  | delete (h : α)
  /-- `input.Persist()`, whether it succeeds. -/
  | persist (h : α) (ok : Bool)
  /-- The cache drops the input and calls `Release`. -/
  | release (h : α)
  deriving DecidableEq

def Call.hash {α : Type} : Call α → α
  | .new h _ => h
  | .verify h _ => h
  | .delete h => h
  | .persist h _ => h
  | .release h => h

/-- How a new input behaves. -/
structure Behaviour where
  committed : Bool
  verify : Bool
  persist : Bool

structure Manager (α : Type) where
  /-- The hashes with an entry in the LRU cache. -/
  cached : List α := []
  /-- All calls so far. -/
  log : List (Call α) := []

variable {α : Type} [DecidableEq α]

/-- The function that loads an input that is not cached (common/inputmanager.go:280-305): whether it succeeds, and the
calls it makes. -/
def load (h : α) (b : Behaviour) : Bool × List (Call α) :=
  if b.committed then (true, [.new h true])
  else if b.verify then (true, [.new h false, .verify h true])
  else if b.persist then (true, [.new h false, .verify h false, .delete h, .persist h true])
  else (false, [.new h false, .verify h false, .delete h, .persist h false])

/-- `Add` (common/inputmanager.go:277-315). The LRU cache is not in /repo; `Get` is taken to return an existing entry or
else to call the loader once, and to store an entry only if that succeeds. -/
def add (m : Manager α) (h : α) (b : Behaviour) : Bool × Manager α :=
  if h ∈ m.cached then (true, m)
  else
    let r := load h b
    (r.1, { cached := if r.1 then h :: m.cached else m.cached, log := m.log ++ r.2 })

/-- The cache evicts an input. -/
def evict (m : Manager α) (h : α) : Manager α :=
  if h ∈ m.cached then { cached := m.cached.filter (· ≠ h), log := m.log ++ [.release h] } else m

inductive Act (α : Type) where
  | add (h : α) (b : Behaviour)
  | evict (h : α)

def step (m : Manager α) : Act α → Manager α
  | .add h b => (add m h b).2
  | .evict h => evict m h

/-! ### Hashing readers -/

/-- A `HashReader`: what is left in the underlying reader, what was given to the hash, and `length`. -/
structure HashReader where
  left : List UInt8
  hashed : List UInt8 := []
  length : Nat := 0

/-- `Read` (common/inputmanager.go:398-403) when the underlying reader returns `n` bytes. -/
def HashReader.read (r : HashReader) (n : Nat) : HashReader :=
  { left := r.left.drop n
    hashed := r.hashed ++ r.left.take n
    length := r.length + (r.left.take n).length }

/-- The loop of `drain` (common/inputmanager.go:406-416), given how many bytes each call of the underlying reader
returns; the last one comes with an error. `drain` calls `r.Read`, which counts, and counts again. -/
def HashReader.drain (r : HashReader) : List Nat → HashReader
  | [] => r
  | n :: ns =>
    let r' := r.read n
    HashReader.drain { r' with length := r'.length + (r.left.take n).length } ns

/-- A reader over a stream after some reads. -/
def readAll (stream : List UInt8) (reads : List Nat) : HashReader :=
  reads.foldl HashReader.read { left := stream }

/-! ### The handler of `/input/` -/

/-- Where a request is. -/
inductive Pc where
  /-- before the call of `Add` -/
  | start
  /-- `Add` has returned; its result is in `inputRef` and in the variable `err` (cmd/omegaup-grader/runner_handler.go:236-252) -/
  | check
  | done
  deriving DecidableEq

/-- How a request ended. -/
inductive Answer where
  /-- the input was sent and released -/
  | served
  /-- 404 -/
  | notFound
  /-- `inputRef.Input` of a nil `inputRef` -/
  | panic
  deriving DecidableEq

structure Request where
  /-- Whether the lookup of this request succeeds. -/
  found : Bool
  pc : Pc := .start
  answer : Option Answer := none
  /-- References obtained and not released. -/
  holds : Nat := 0
  deriving DecidableEq

structure Server where
  /-- The variable `err` of the enclosing function, which all requests share (cmd/omegaup-grader/runner_handler.go:150, 238, 240). -/
  err : Bool := false
  requests : List Request

/-- The next thing that request number `i` does. -/
def serve (s : Server) (i : Nat) : Option Server :=
  match s.requests[i]? with
  | none => none
  | some q =>
    match q.pc with
    | .start =>
      some { err := !q.found
             requests := s.requests.set i { q with pc := .check, holds := if q.found then 1 else 0 } }
    | .check =>
      if s.err then
        some { s with requests := s.requests.set i { q with pc := .done, answer := some .notFound } }
      else if q.found then
        some { s with requests := s.requests.set i { q with pc := .done, answer := some .served, holds := 0 } }
      else
        some { s with requests := s.requests.set i { q with pc := .done, answer := some .panic } }
    | .done => none

def serveAll (s : Server) : List Nat → Option Server
  | [] => some s
  | i :: is => (serve s i).bind (serveAll · is)

end Quark.Inputs
