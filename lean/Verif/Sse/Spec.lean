import Verif.Sse.Model

/-!
# How a browser reads an event stream

The rules of the HTML Standard for `text/event-stream` ("Interpreting an event stream"), from the standard and not from
the code. The stream is decoded as UTF-8; the rules only look at ASCII characters, so bytes are enough. The byte order mark
is left out: what the server writes never begins with one. The field `retry` only changes how long the browser waits before
it connects again, and is left out.
-/

namespace Quark.Sse.Spec

abbrev Bytes := List UInt8

/-- The lines of a stream, ended by CR LF, LF or CR; what comes after the last line end is no line yet. The first argument
is what has been read of the line. -/
def lines : Bytes → Bytes → List Bytes
  | _, [] => []
  | cur, 0x0D :: 0x0A :: r => cur :: lines [] r
  | cur, b :: r => if b = 0x0D ∨ b = 0x0A then cur :: lines [] r else lines (cur ++ [b]) r

/-- An event that scripts see. The type is empty if the stream gave none ("message" in the browser). -/
structure Event where
  data : Bytes
  type : Bytes
  lastId : Bytes
  deriving DecidableEq

/-- The buffers of the reader, and the events dispatched so far. -/
structure Reader where
  data : Bytes := []
  type : Bytes := []
  lastId : Bytes := []
  out : List Event := []
  deriving DecidableEq

/-- "Process the field". -/
def field (r : Reader) (name value : Bytes) : Reader :=
  if name = [0x64, 0x61, 0x74, 0x61] then { r with data := r.data ++ value ++ [0x0A] }           -- data
  else if name = [0x65, 0x76, 0x65, 0x6E, 0x74] then { r with type := value }                     -- event
  else if name = [0x69, 0x64] then (if (0x00 : UInt8) ∈ value then r else { r with lastId := value }) -- id
  else r

/-- One leading space is dropped. -/
def dropSpace : Bytes → Bytes
  | 0x20 :: v => v
  | v => v

/-- "Dispatch the event": nothing if there was no data; else the data without its last line feed. -/
def dispatch (r : Reader) : Reader :=
  if r.data = [] then { r with type := [] }
  else { r with data := [], type := [], out := r.out ++ [{ data := r.data.dropLast, type := r.type, lastId := r.lastId }] }

/-- What a line does. -/
def process (r : Reader) (line : Bytes) : Reader :=
  match line with
  | [] => dispatch r
  | 0x3A :: _ => r
  | _ =>
    if (0x3A : UInt8) ∈ line then
      field r (line.takeWhile (· ≠ 0x3A)) (dropSpace ((line.dropWhile (· ≠ 0x3A)).drop 1))
    else field r line []

/-- The events that a browser dispatches for what it has received. -/
def events (stream : Bytes) : List Event := ((lines [] stream).foldl process {}).out

/-- A text without line ends. -/
def OneLine (text : Bytes) : Prop := ∀ b ∈ text, b ≠ 0x0A ∧ b ≠ 0x0D

/-- The plain event for a text. -/
def plain (text : Bytes) : Event := { data := text, type := [], lastId := [] }

end Quark.Sse.Spec
