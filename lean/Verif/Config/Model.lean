import Mathlib.Data.List.Basic

/-!
# Configuration files

`NewConfig` (/repo/common/context.go:230-241) decodes a JSON file over a copy of `defaultConfig` (:119-204). This models
what `encoding/json` does for a struct whose fields are structs, booleans, integers, strings, and the types
`base.Duration` and `base.Byte` of go-base, which decode themselves in a way that is left open here.
-/

namespace Quark.Config

/-- Text, as runes. -/
abbrev Text := List Nat

mutual
/-- A JSON value, strings already unquoted. -/
inductive JV where
  | null
  | bool (b : Bool)
  /-- a number without point and exponent -/
  | int (i : Int)
  /-- another number -/
  | float (literal : String)
  | str (s : String)
  | arr (l : List JV)
  | obj (ms : JMembers)
inductive JMembers where
  | nil
  | cons (k : Text) (j : JV) (ms : JMembers)
end

/-- The types of the options. -/
inductive Kind where
  | bool
  | int
  | uint16
  | string
  /-- `base.Duration`, in nanoseconds -/
  | duration
  /-- `base.Byte` -/
  | bytes
  deriving DecidableEq, Repr

/-- The value of an option. -/
inductive Opt where
  | bool (b : Bool)
  | int (i : Int)
  | str (s : String)
  deriving DecidableEq, Repr

/-- A configuration: a struct, or an option with its type. -/
inductive Val where
  | leaf (k : Kind) (x : Opt)
  | struct (fs : List (Text × Val))

/-- `foldFunc` of `encoding/json`: letters are the same in both cases; the Kelvin sign is a `k` and the long s an `s`. -/
def foldRune (r : Nat) : Nat :=
  if r = 0x212A then 0x6B
  else if r = 0x17F then 0x73
  else if 0x41 ≤ r ∧ r ≤ 0x5A then r + 32
  else r

/-- The field that a key is for (`decodeState.object`): the one with that name, or else the first one that has it up to
case. -/
def pick (fs : List (Text × Val)) (k : Text) : Option Text :=
  match fs.find? (fun f => f.1 = k) with
  | some f => some f.1
  | none => (fs.find? (fun f => f.1.map foldRune = k.map foldRune)).map (·.1)

/-- How options decode (`literalStore`): `null` leaves booleans, numbers and strings as they are; numbers have to be in
the type's range. `um` is what `UnmarshalJSON` of go-base's types does. -/
def decOpt (um : Kind → Opt → JV → Option Opt) (k : Kind) (x : Opt) (j : JV) : Option Opt :=
  match k, j with
  | .bool, .null => some x
  | .bool, .bool b => some (.bool b)
  | .bool, _ => none
  | .int, .null => some x
  | .int, .int i => if -9223372036854775808 ≤ i ∧ i ≤ 9223372036854775807 then some (.int i) else none
  | .int, _ => none
  | .uint16, .null => some x
  | .uint16, .int i => if 0 ≤ i ∧ i ≤ 65535 then some (.int i) else none
  | .uint16, _ => none
  | .string, .null => some x
  | .string, .str s => some (.str s)
  | .string, _ => none
  | .duration, j => um .duration x j
  | .bytes, j => um .bytes x j

/-- Replaces the first field of a name. -/
def modify (fs : List (Text × Val)) (n : Text) (f : Val → Option Val) : Option (List (Text × Val)) :=
  match fs with
  | [] => some []
  | (m, v) :: rest =>
    if m = n then (f v).map fun w => (m, w) :: rest
    else (modify rest n f).map ((m, v) :: ·)

mutual
/-- `decodeState.value` into a configuration; `none` if it saves an error (`Decode` then returns it, whatever else was
decoded, and `NewConfig` returns no configuration). -/
def decode (um : Kind → Opt → JV → Option Opt) : Val → JV → Option Val
  | .leaf k x, j => (decOpt um k x j).map (.leaf k)
  | .struct fs, .obj ms => (decMembers um fs ms).map .struct
  | .struct fs, .null => some (.struct fs)
  | .struct _, _ => none
/-- `decodeState.object`: the members in order; those that no field matches are ignored. -/
def decMembers (um : Kind → Opt → JV → Option Opt) : List (Text × Val) → JMembers → Option (List (Text × Val))
  | fs, .nil => some fs
  | fs, .cons k j ms =>
    match pick fs k with
    | none => decMembers um fs ms
    | some n =>
      match modify fs n (fun v => decode um v j) with
      | none => none
      | some fs' => decMembers um fs' ms
end

/-- A name as text. -/
def t (s : String) : Text := s.toList.map Char.toNat

def str (n s : String) : Text × Val := (t n, .leaf .string (.str s))
def bool (n : String) (b : Bool) : Text × Val := (t n, .leaf .bool (.bool b))
def port (n : String) (i : Int) : Text × Val := (t n, .leaf .uint16 (.int i))
def int (n : String) (i : Int) : Text × Val := (t n, .leaf .int (.int i))
def seconds (n : String) (i : Int) : Text × Val := (t n, .leaf .duration (.int (i * 1000000000)))
def bytes (n : String) (i : Int) : Text × Val := (t n, .leaf .bytes (.int i))
def struct (n : String) (fs : List (Text × Val)) : Text × Val := (t n, .struct fs)

/-- `defaultConfig` (/repo/common/context.go:119-204), with the types of :14-117; options that are not mentioned there
have the zero value of their type. -/
def defaultConfig : Val := .struct [
  struct "Broadcaster" [
    int "ChannelLength" 10,
    port "EventsPort" 22291,
    str "FrontendURL" "https://omegaup.com",
    seconds "PingPeriod" 30,
    port "Port" 32672,
    bool "Proxied" true,
    str "ScoreboardUpdateSecret" "secret",
    seconds "ScoreboardUpdateTimeout" 10,
    struct "TLS" [
      str "CertFile" "/etc/omegaup/broadcaster/certificate.pem",
      str "KeyFile" "/etc/omegaup/broadcaster/key.pem"],
    seconds "WriteDeadline" 5],
  struct "InputManager" [bytes "CacheSize" (2 ^ 30)],
  struct "Grader" [
    int "ChannelLength" 1024,
    port "Port" 11302,
    str "RuntimePath" "/var/lib/omegaup/",
    int "MaxGradeRetries" 3,
    str "BroadcasterURL" "https://omegaup.com:32672/broadcast/",
    struct "V1" [
      bool "Enabled" false,
      port "Port" 21680,
      str "RuntimeGradePath" "/var/lib/omegaup/grade",
      str "RuntimePath" "/var/lib/omegaup/",
      bool "SendBroadcast" true,
      bool "UpdateDatabase" true],
    struct "Ephemeral" [
      bytes "EphemeralSizeLimit" (2 ^ 30),
      seconds "CaseTimeLimit" 10,
      seconds "OverallWallTimeLimit" 10,
      bytes "MemoryLimit" (2 ^ 30),
      seconds "PingPeriod" 30,
      port "Port" 36663,
      bool "Proxied" true,
      struct "TLS" [
        str "CertFile" "/etc/omegaup/grader/web-certificate.pem",
        str "KeyFile" "/etc/omegaup/grader/web-key.pem"],
      seconds "WriteDeadline" 5],
    struct "CI" [bytes "CISizeLimit" (256 * 2 ^ 20)],
    bool "WriteGradeFiles" true],
  struct "Db" [str "Driver" "sqlite3", str "DataSourceName" "./omegaup.db"],
  struct "Logging" [str "File" "/var/log/omegaup/service.log", str "Level" "info"],
  struct "Metrics" [port "Port" 6060],
  struct "Tracing" [bool "Enabled" true, str "File" "/var/log/omegaup/tracing.json"],
  struct "Runner" [
    str "GraderURL" "https://omegaup.com:11302",
    str "RuntimePath" "/var/lib/omegaup/runner",
    seconds "CompileTimeLimit" 30,
    bytes "CompileOutputLimit" (10 * 2 ^ 20),
    bool "PreserveFiles" false],
  struct "TLS" [str "CertFile" "/etc/omegaup/grader/certificate.pem", str "KeyFile" "/etc/omegaup/grader/key.pem"]]

/-- What a file holds: JSON values one after another, and perhaps something at the end that is not JSON. -/
structure File where
  values : List JV
  garbage : Bool := false

/-- `NewConfig` (/repo/common/context.go:231-241): one call of `Decode`, which reads one value. -/
def newConfig (um : Kind → Opt → JV → Option Opt) (f : File) : Option Val :=
  match f.values with
  | [] => none
  | j :: _ => decode um defaultConfig j

end Quark.Config
