import Mathlib.Data.Rat.Floor

/-!
# The runner's main loop and its upload buffer

/repo/cmd/omegaup-runner/main.go:359-377 and 380-457.
-/

namespace Quark.RunnerLoop

/-! ## Back-off -/

/-- What `processRun` returned. For an error, `r` is what `rand.Float32()` returns: a number in [0, 1). -/
inductive Outcome where
  | success
  | timeout
  | error (r : ℚ)

/-- One iteration of the loop (/repo/cmd/omegaup-runner/main.go:361-377): from `sleepTime`, the whole seconds slept and
the next `sleepTime`. `sleepTime` is a float32 that only ever is a power of two, so that the product with the random
number and the doubling are exact; the conversion to `time.Duration` drops the fraction. -/
def iterate (sleepTime : ℚ) : Outcome → Int × ℚ
  | .timeout => (0, 1)
  | .success => (0, 1)
  | .error r => (⌊r * sleepTime⌋, if sleepTime < 64 then sleepTime * 2 else sleepTime)

/-- `sleepTime` after a history, starting at 1 (/repo/cmd/omegaup-runner/main.go:359). -/
def sleepTime (history : List Outcome) : ℚ := history.foldl (fun s o => (iterate s o).2) 1

/-! ## The upload buffer -/

abbrev Bytes := List UInt8

/-- `channelBuffer` (/repo/cmd/omegaup-runner/main.go:383-386) as its consumer sees it: the chunks its single producer
still has to hand over before closing the channel, and `currentChunk` (`none` is nil). The channel is unbuffered, so a
chunk is either still with the producer or with the consumer. `Close` (432-438), which only drops what is left, is not
modelled. -/
structure Buf where
  toSend : List Bytes
  cur : Option Bytes := none
  deriving DecidableEq

/-- `if cb.currentChunk == nil { c, ok := <-cb.chunks ... }`, the beginning of both `Read` and the body of `WriteTo`
(/repo/cmd/omegaup-runner/main.go:411-417 and 441-447): the current chunk, or `none` if the channel has been closed. -/
def fill (b : Buf) : Option (Bytes × Buf) :=
  match b.cur with
  | some c => some (c, b)
  | none =>
    match b.toSend with
    | [] => none
    | c :: cs => some (c, { toSend := cs, cur := some c })

/-- `Read` with a buffer of `n` bytes (/repo/cmd/omegaup-runner/main.go:440-457); `none` is `io.EOF`. -/
def read (n : Nat) (b : Buf) : Option Bytes × Buf :=
  match fill b with
  | none => (none, b)
  | some (c, b) =>
    let written := min n c.length
    (some (c.take written), { b with cur := if written = c.length then none else some (c.drop written) })

/-- What the destination answers to one `Write`: how many of the bytes it took (it cannot take more than there are) and
whether it reports an error. -/
structure Answer where
  taken : Nat
  err : Bool
  deriving DecidableEq

inductive End where
  /-- returned nil: the channel is closed -/
  | done
  /-- returned the destination's error -/
  | failed
  /-- the answers ran out: the loop is still going -/
  | running
  deriving DecidableEq

/-- `WriteTo` (/repo/cmd/omegaup-runner/main.go:408-430) with a destination that gives these answers: what the
destination took, in order, the total it reports, and how it ended. -/
def writeTo : List Answer → Buf → Bytes × Nat × End × Buf
  | answers, b =>
    match fill b with
    | none => ([], 0, .done, b)
    | some (c, b) =>
      match answers with
      | [] => ([], 0, .running, b)
      | a :: answers =>
        let written := min a.taken c.length
        if a.err then (c.take written, written, .failed, b)
        else
          let b := if written = c.length then { b with cur := none }
            else if written > 0 then { b with cur := some (c.drop written) } else b
          let (out, total, e, b) := writeTo answers b
          (c.take written ++ out, written + total, e, b)
  termination_by answers => answers.length

/-- What a consumer may do. -/
inductive Op where
  | read (n : Nat)
  | writeTo (answers : List Answer)

/-- The bytes a sequence of operations delivers. -/
def consume : List Op → Buf → Bytes × Buf
  | [], b => ([], b)
  | .read n :: ops, b =>
    let (d, b) := read n b
    let (out, b) := consume ops b
    (d.getD [] ++ out, b)
  | .writeTo answers :: ops, b =>
    let (d, _, _, b) := writeTo answers b
    let (out, b) := consume ops b
    (d ++ out, b)

end Quark.RunnerLoop
