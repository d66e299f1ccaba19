/-
Model of /repo/runner/tokenizer.go together with the two pieces of the Go
standard library it runs on: `utf8.DecodeRune` and the `bufio.Scanner` loop.

Trusted readings (not in /repo): `unicode/utf8.DecodeRune`, `unicode.IsSpace`,
`bufio.Scanner.Scan`, as of Go 1.x. Simplifications: a `Read` never returns
zero bytes without an error (the scanner tolerates up to 100 of those in a row
and then fails with `io.ErrNoProgress`); buffer storage is represented by the
unread window, its offset and the capacity; an I/O error other than end-of-file
is not modelled.
-/
namespace Quark.Tokenizer

/-- `utf8.RuneError` -/
def runeError : Nat := 0xFFFD

/-- Is `b` in the byte range `lo..hi`? (helper of `decodeRune`). -/
def inRange (lo hi : Nat) (b : UInt8) : Bool := lo ≤ b.toNat && b.toNat ≤ hi

/-- Number of bytes a sequence starting with `b0` must have; 1 for ASCII and for bytes
that cannot start a sequence (the `first` table of `utf8.DecodeRune`). -/
def seqLen (b0 : UInt8) : Nat :=
  if inRange 0xC2 0xDF b0 then 2
  else if inRange 0xE0 0xEF b0 then 3
  else if inRange 0xF0 0xF4 b0 then 4
  else 1

/-- Accepted range of the second byte (`acceptRanges` of `utf8.DecodeRune`). -/
def acceptLo (b0 : UInt8) : Nat :=
  if b0.toNat = 0xE0 then 0xA0 else if b0.toNat = 0xF0 then 0x90 else 0x80
def acceptHi (b0 : UInt8) : Nat :=
  if b0.toNat = 0xED then 0x9F else if b0.toNat = 0xF4 then 0x8F else 0xBF

/-- `utf8.DecodeRune` (used in runner/tokenizer.go:105,122): rune and width.
Masks and shifts are written as arithmetic. -/
def decodeRune : List UInt8 → Nat × Nat
  | [] => (runeError, 0)
  | b0 :: rest =>
    if b0.toNat < 0x80 then (b0.toNat, 1)
    else match seqLen b0, rest with
      | 2, b1 :: _ =>
        if inRange (acceptLo b0) (acceptHi b0) b1 then
          (b0.toNat % 32 * 64 + b1.toNat % 64, 2)
        else (runeError, 1)
      | 3, b1 :: b2 :: _ =>
        if inRange (acceptLo b0) (acceptHi b0) b1 && inRange 0x80 0xBF b2 then
          (b0.toNat % 16 * 4096 + b1.toNat % 64 * 64 + b2.toNat % 64, 3)
        else (runeError, 1)
      | 4, b1 :: b2 :: b3 :: _ =>
        if inRange (acceptLo b0) (acceptHi b0) b1 && inRange 0x80 0xBF b2 && inRange 0x80 0xBF b3 then
          (b0.toNat % 8 * 262144 + b1.toNat % 64 * 4096 + b2.toNat % 64 * 64 + b3.toNat % 64, 4)
        else (runeError, 1)
      | _, _ => (runeError, 1)

/-- `unicode.IsSpace` (White_Space property). -/
def isSpace (r : Nat) : Bool :=
  (0x09 ≤ r && r ≤ 0x0D) || r == 0x20 || r == 0x85 || r == 0xA0 || r == 0x1680 ||
  (0x2000 ≤ r && r ≤ 0x200a) || r == 0x2028 || r == 0x2029 || r == 0x202f ||
  r == 0x205f || r == 0x3000

/-- runner/tokenizer.go:40-42 `IsNonWhitespace` -/
def isNonWhitespace (r : Nat) : Bool := !isSpace r && !(0x1c ≤ r && r ≤ 0x1f)

/-- runner/tokenizer.go:45-47 `IsNumeric` -/
def isNumeric (r : Nat) : Bool :=
  r == 0x2e || r == 0x2d || (0x30 ≤ r && r ≤ 0x39)

/-- runner/tokenizer.go:13 `MaxTokenLength` -/
def maxTokenLength : Nat := 4194304

/-- runner/tokenizer.go:21-24 `Token` -/
structure Token where
  text : List UInt8
  line : Int
  column : Int
deriving DecidableEq, Repr

theorem decodeRune_pos (b : UInt8) (rest : List UInt8) : 0 < (decodeRune (b :: rest)).2 := by
  simp only [decodeRune]
  split
  · simp
  · split <;> (try split) <;> simp

/-- Variables captured by the closure of `splitFunc` (runner/tokenizer.go:98-99). -/
structure Pos where
  line : Int := 1
  column : Int := 1
  lastLine : Int := -1
  lastColumn : Int := -1
deriving DecidableEq, Repr

/-- runner/tokenizer.go:109-114 and 123-128: advance line/column over rune `r`. -/
def Pos.bump (ps : Pos) (r : Nat) : Pos :=
  if r = 0x0A then { ps with line := ps.line + 1, column := 1 }
  else { ps with column := ps.column + 1 }

/-- runner/tokenizer.go:103-115: skip leading non-token runes; returns `start`. -/
def skipLoop (p : Nat → Bool) (ps : Pos) (data : List UInt8) : Nat × Pos :=
  match data with
  | [] => (0, ps)
  | b :: rest =>
    let d := decodeRune (b :: rest)
    if p d.1 then (0, ps)
    else
      let q := skipLoop p (ps.bump d.1) ((b :: rest).drop d.2)
      (d.2 + q.1, q.2)
termination_by data.length
decreasing_by have := decodeRune_pos b rest; simp only [List.length_drop, List.length_cons]; omega

/-- runner/tokenizer.go:120-134: look for the first non-token rune in `data[start:]`;
`some (i, width)` (relative to `start`) or `none` if there is none. -/
def scanLoop (p : Nat → Bool) (ps : Pos) (data : List UInt8) : Option (Nat × Nat) × Pos :=
  match data with
  | [] => (none, ps)
  | b :: rest =>
    let d := decodeRune (b :: rest)
    let ps' := ps.bump d.1
    if p d.1 then
      let q := scanLoop p ps' ((b :: rest).drop d.2)
      (q.1.map (fun iw => (d.2 + iw.1, iw.2)), q.2)
    else (some (0, d.2), ps')
termination_by data.length
decreasing_by have := decodeRune_pos b rest; simp only [List.length_drop, List.length_cons]; omega

/-- runner/tokenizer.go:100-143, the split function: (advance, token, new closure state).
`t.line, t.column = lastLine, lastColumn` is folded into the returned token. -/
def splitFunc (p : Nat → Bool) (ps : Pos) (data : List UInt8) (atEOF : Bool) :
    Nat × Option Token × Pos :=
  let (start, ps1) := skipLoop p ps data
  let ps2 := if ps1.lastLine = -1
    then { ps1 with lastLine := ps1.line, lastColumn := ps1.column } else ps1
  let (found, ps3) := scanLoop p ps2 (data.drop start)
  match found with
  | some (i, width) =>
    (start + i + width,
     some { text := (data.drop start).take i, line := ps3.lastLine, column := ps3.lastColumn },
     { ps3 with lastLine := -1, lastColumn := -1 })
  | none =>
    if atEOF && decide (start < data.length) then
      (data.length,
       some { text := data.drop start, line := ps3.lastLine, column := ps3.lastColumn },
       { ps3 with lastLine := -1, lastColumn := -1 })
    else (start, none, ps3)

/-- Scanner error state (`bufio.Scanner.err`). -/
inductive ScanErr where
  | eof
  | tooLong
deriving DecidableEq, Repr

/-- What one call of the underlying `Read` does: how many bytes it wants to return, and
whether it reports end-of-file together with the last bytes. -/
structure ReadChoice where
  n : Nat
  eofWithData : Bool := false
deriving DecidableEq, Repr

/-- `bufio.Scanner` fields plus the reader (`rest` unread bytes, `sched` its future
behaviour; when `sched` is used up it returns as much as fits). -/
structure Scanner where
  win : List UInt8          -- buf[start:end]
  start : Nat
  bufLen : Nat
  err : Option ScanErr
  pos : Pos
  rest : List UInt8
  sched : List ReadChoice
deriving Repr

/-- runner/tokenizer.go:57-69 `NewTokenizer` on a stream with a given read schedule
(`scanner.Buffer(nil, MaxTokenLength)`: no initial buffer). -/
def newTokenizer (stream : List UInt8) (sched : List ReadChoice) : Scanner :=
  { win := [], start := 0, bufLen := 0, err := none, pos := {}, rest := stream, sched := sched }

/-- bufio.Scanner.Scan: shift the window to the beginning of the buffer. -/
def Scanner.shift (s : Scanner) : Scanner :=
  if 0 < s.start ∧ (s.start + s.win.length = s.bufLen ∨ s.bufLen / 2 < s.start) then
    { s with start := 0 }
  else s

/-- bufio.Scanner.Scan: grow a full buffer, or fail with `ErrTooLong`. -/
def Scanner.grow (max : Nat) (s : Scanner) : Except Scanner Scanner :=
  if s.start + s.win.length = s.bufLen then
    if max ≤ s.bufLen then .error { s with err := some .tooLong }
    else
      let newSize := if s.bufLen * 2 = 0 then 4096 else s.bufLen * 2
      .ok { s with bufLen := min newSize max, start := 0 }
  else .ok s

/-- bufio.Scanner.Scan: one successful `Read` into the free space. -/
def Scanner.read (s : Scanner) : Scanner :=
  let space := s.bufLen - (s.start + s.win.length)
  let c := s.sched.headD { n := space }
  match s.rest with
  | [] => { s with err := some .eof, sched := s.sched.tail }
  | _ :: _ =>
    let n := max 1 (min c.n (min space s.rest.length))
    { s with
      win := s.win ++ s.rest.take n
      rest := s.rest.drop n
      err := if c.eofWithData && decide (n = s.rest.length) then some .eof else none
      sched := s.sched.tail }

/-- Result of one turn of the loop in `bufio.Scanner.Scan`. -/
inductive Turn where
  | token (t : Token) (s : Scanner)   -- Scan returns true
  | more (s : Scanner)                -- go around again
  | stop (s : Scanner)                -- Scan returns false

/-- The end of a turn of `bufio.Scanner.Scan` that produced no token. -/
def Scanner.refill (max : Nat) (s : Scanner) : Turn :=
  match s.err with
  | some _ => .stop s
  | none =>
    match s.shift.grow max with
    | .error s' => .stop s'
    | .ok s' => .more s'.read

/-- One turn of the loop in `bufio.Scanner.Scan`. -/
def Scanner.turn (p : Nat → Bool) (max : Nat) (s : Scanner) : Turn :=
  if s.win ≠ [] ∨ s.err ≠ none then
    let (advance, tok, ps) := splitFunc p s.pos s.win s.err.isSome
    let s' := { s with win := s.win.drop advance, start := s.start + advance, pos := ps }
    match tok with
    | some t => .token t s'
    | none => s'.refill max
  else s.refill max

/-- Calling `Scan` until it returns false: all tokens, and the final error.
`none` if the fuel does not suffice (shown not to happen). -/
def runScanner (p : Nat → Bool) (max : Nat) : Nat → Scanner → Option (List Token × Option ScanErr)
  | 0, _ => none
  | fuel + 1, s =>
    match s.turn p max with
    | .stop s' => some ([], s'.err)
    | .more s' => runScanner p max fuel s'
    | .token t s' => (runScanner p max fuel s').map fun (ts, e) => (t :: ts, e)

/-- All tokens of a stream and the value of `Err` (runner/tokenizer.go:76-93: `Err` reports
end-of-file as no error, so only too-long remains), for a given behaviour of the reader. -/
def tokenize (p : Nat → Bool) (max : Nat) (stream : List UInt8) (sched : List ReadChoice) :
    Option (List Token × Bool) :=
  (runScanner p max (2 * stream.length + 3) (newTokenizer stream sched)).map
    fun (ts, e) => (ts, e == some .tooLong)

end Quark.Tokenizer
