import Verif.Wire.Text

/-!
# Which messages make the broadcaster refresh a scoreboard

The handler of `/broadcast/` (/repo/cmd/omegaup-broadcaster/main.go:243-273) looks for
`"message":"/run/update/"` in the text of a message. The texts are JSON as `encoding/json` prints it: by the grader's
`broadcastRun` (/repo/cmd/omegaup-grader/frontend_handler.go:116-210), and by anybody else who uses Go. JSON printed
in another way (with blanks, or with `\/` for `/`) is not considered.
-/

namespace Quark.Trigger

open Quark.Wire (Bytes quote unquote clean)

mutual
/-- A JSON value as it is printed. -/
inductive Json where
  /-- `null`, `true`, `false` or a number -/
  | atom (a : Bytes)
  | str (s : Bytes)
  | arr (l : Items)
  | obj (l : Members)
inductive Items where
  | nil
  | cons (j : Json) (l : Items)
inductive Members where
  | nil
  | cons (k : Bytes) (j : Json) (l : Members)
end

/-- The pieces of printed JSON: punctuation and atoms, and strings. -/
inductive Tok where
  | raw (a : Bytes)
  | str (s : Bytes)
  deriving DecidableEq

def colon : Tok := .raw [0x3A]
def comma : Tok := .raw [0x2C]

mutual
/-- `encodeState` of `encoding/json` (part of the trusted base): no blanks, `,` between elements, `:` after keys. -/
def toks : Json → List Tok
  | .atom a => [.raw a]
  | .str s => [.str s]
  | .arr l => .raw [0x5B] :: (itemToks l ++ [.raw [0x5D]])
  | .obj l => .raw [0x7B] :: (memberToks l ++ [.raw [0x7D]])
def itemToks : Items → List Tok
  | .nil => []
  | .cons j l => toks j ++ moreItems l
def moreItems : Items → List Tok
  | .nil => []
  | .cons j l => comma :: (toks j ++ moreItems l)
def memberToks : Members → List Tok
  | .nil => []
  | .cons k j l => .str k :: colon :: (toks j ++ moreMembers l)
def moreMembers : Members → List Tok
  | .nil => []
  | .cons k j l => comma :: .str k :: colon :: (toks j ++ moreMembers l)
end

/-- A piece as bytes. -/
def tokText : Tok → Bytes
  | .raw a => a
  | .str s => 0x22 :: (quote s ++ [0x22])

def text (ts : List Tok) : Bytes := ts.flatMap tokText

/-- `json.Marshal`. -/
def print (j : Json) : Bytes := text (toks j)

/-- The text that the handler looks for (cmd/omegaup-broadcaster/main.go:267), `"message":"/run/update/"`. -/
def pattern : Bytes :=
  [0x22, 0x6D, 0x65, 0x73, 0x73, 0x61, 0x67, 0x65, 0x22, 0x3A, 0x22,
   0x2F, 0x72, 0x75, 0x6E, 0x2F, 0x75, 0x70, 0x64, 0x61, 0x74, 0x65, 0x2F, 0x22]

/-- Whether one text is part of another (`strings.Contains`). -/
def contains (t p : Bytes) : Bool :=
  match t with
  | [] => p.isEmpty
  | b :: t' => p.isPrefixOf (b :: t') || contains t' p

/-- What the handler does with a message that was accepted (cmd/omegaup-broadcaster/main.go:267-269): the contest it passes to the scoreboard
loop, if any. -/
def refresh (contest message : Bytes) : Option Bytes :=
  if contest.length > 0 && contains message pattern then some contest else none

/-- The message as it arrives (cmd/omegaup-broadcaster/main.go:253-255): the sender's `json.Marshal` quotes the text once more
(/repo/cmd/omegaup-grader/frontend_handler.go `broadcast`), and `Decode` unquotes it. -/
def received (message : Bytes) : Option Bytes := unquote (quote message)

end Quark.Trigger
