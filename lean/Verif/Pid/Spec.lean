import Verif.Pid.Model

/-!
# What the names are for

Independent of the model's functions: the published definition of the hash in ordinary arithmetic, the name of a process as
/repo/common/context.go:249-252 describes it, and what it means that a trace says whose an event is.
-/

namespace Quark.Pid.Spec

/-- FNV-1a with 32 bits: for every octet, xor, then multiply by 16777619, modulo 2^32. -/
def fnv : Nat → List Nat → Nat
  | h, [] => h
  | h, c :: cs => fnv ((h ^^^ c) * 16777619 % 4294967296) cs

/-- The number of a process or a thread of that name. -/
def number (name : List UInt8) : Nat := fnv 2166136261 (name.map UInt8.toNat)

/-- "host (role)" -/
def title (host role : List UInt8) : List UInt8 := host ++ [32, 40] ++ role ++ [41]

/-- Before the event at position `i` there is an event called `key` that gives `label` for its process and thread. -/
def ToldBefore (events : List Event) (i : Nat) (key : List Char) (label : List UInt8) : Prop :=
  ∃ j, ∃ e e' : Event, j ≤ i ∧ events[i]? = some e ∧ events[j]? = some e' ∧ e'.metadata = true ∧
    e'.name = key.map (fun c => UInt8.ofNat c.toNat) ∧ e'.pid = e.pid ∧ e'.tid = e.tid ∧ e'.label = some label

end Quark.Pid.Spec
