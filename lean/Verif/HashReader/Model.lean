/-!
# Hashing what is read

`HashReader` (/repo/common/inputmanager.go:378-427) and the comparison of hashes when an input is unpacked
(/repo/runner/input.go:189, 257-263, 426-448).

The reader below is given by its answers: for each call the bytes and whether there is an error (`io.EOF` or another; the code does not
distinguish them). After the last answer it is at the end of the file. How many bytes a call asks for is left out: any split into answers
is allowed. The hash is any function of the bytes written to it.
-/
namespace Quark.HashReader

variable {β : Type}

abbrev Answers (β : Type) := List (List β × Bool)

/-- `HashReader`: what was written to the hash, `length`, and what the reader below will answer. -/
structure Reader (β : Type) where
  hashed : List β := []
  length : Nat := 0
  rest : Answers β

/-- `NewHashReader` (common/inputmanager.go:388-393). -/
def new (answers : Answers β) : Reader β := { rest := answers }

/-- `Read` (common/inputmanager.go:397-402). -/
def Reader.read (r : Reader β) : (List β × Bool) × Reader β :=
  match r.rest with
  | [] => (([], true), r)
  | (b, e) :: q => ((b, e), { hashed := r.hashed ++ b, length := r.length + b.length, rest := q })

/-- `drain` (common/inputmanager.go:405-415) reads until there is an error; it adds to `length` what `Read` has already added. -/
def drain (hashed : List β) (length : Nat) : Answers β → Reader β
  | [] => { hashed := hashed, length := length, rest := [] }
  | (b, e) :: q =>
    if e then { hashed := hashed ++ b, length := length + b.length + b.length, rest := q }
    else drain (hashed ++ b) (length + b.length + b.length) q

/-- `Sum` (common/inputmanager.go:419-422). -/
def Reader.sum {η : Type} (H : List β → η) (r : Reader β) : η × Reader β :=
  let r := drain r.hashed r.length r.rest
  (H r.hashed, r)

/-- A number of calls of `Read`: what they returned, and the reader afterwards. -/
def Reader.reads (r : Reader β) : Nat → List (List β) × Reader β
  | 0 => ([], r)
  | n + 1 =>
    let x := r.read
    let y := x.2.reads n
    (x.1.1 :: y.1, y.2)

/-- The comparison in `persistFromTarStream` (runner/input.go:257-263) after unpacking made `n` calls of `Read`. -/
def accepts {η : Type} [DecidableEq η] (H : List β → η) (streamHash : η) (answers : Answers β) (n : Nat) : Bool :=
  decide (streamHash = (((new answers).reads n).2.sum H).1)

/-- `runnerTarInput.Persist` (runner/input.go:426-448): opens the embedded archive to get its hash and size, and once more to unpack it.
The result is whether the hashes agree, and the size that is passed on. -/
def persistEmbedded {η : Type} [DecidableEq η] (H : List β → η) (first second : Answers β) (n : Nat) : Bool × Nat :=
  let x := (new first).sum H
  (accepts H x.1 second n, x.2.length)

end Quark.HashReader
