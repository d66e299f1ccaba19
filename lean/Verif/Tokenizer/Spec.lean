import Verif.Tokenizer.Model

/-! Specification vocabulary for C01/C02: what the tokens of a stream *are*, independent of
buffers, windows and reads. -/
namespace Quark.Tokenizer

/-- The UTF-8 decoding of a byte string: each rune with the bytes it came from. -/
def runesOf (bytes : List UInt8) : List (Nat × List UInt8) :=
  match bytes with
  | [] => []
  | b :: rest =>
    ((decodeRune (b :: rest)).1, (b :: rest).take (decodeRune (b :: rest)).2) ::
      runesOf ((b :: rest).drop (decodeRune (b :: rest)).2)
termination_by bytes.length
decreasing_by have := decodeRune_pos b rest; simp only [List.length_drop, List.length_cons]; omega

/-- `IsRuns q l rs`: `rs` are the maximal runs of `q`-elements of `l`, in order. -/
inductive IsRuns {α : Type} (q : α → Bool) : List α → List (List α) → Prop
  | done (sep : List α) : (∀ x ∈ sep, q x = false) → IsRuns q sep []
  | run (sep r rest : List α) (rs : List (List α)) :
      (∀ x ∈ sep, q x = false) →          -- what precedes the run is not part of it
      r ≠ [] → (∀ x ∈ r, q x = true) →    -- the run is non-empty and consists of q-elements
      (∀ x ∈ rest.head?, q x = false) →   -- the run cannot be extended
      IsRuns q rest rs →
      IsRuns q (sep ++ r ++ rest) (r :: rs)

/-- `IsTokenization p stream toks`: the texts `toks` are exactly the maximal runs of token
runes of the decoded stream. -/
def IsTokenization (p : Nat → Bool) (stream : List UInt8) (toks : List (List UInt8)) : Prop :=
  ∃ rs, IsRuns (fun rb => p rb.1) (runesOf stream) rs ∧ toks = rs.map (fun r => r.flatMap Prod.snd)

/-- What a user of the tokenizer sees: token texts, and whether it stopped with
token-too-long. `none` would mean that scanning does not terminate. -/
def outcome (p : Nat → Bool) (lim : Nat) (stream : List UInt8) (reads : List ReadChoice) :
    Option (List (List UInt8) × Bool) :=
  (tokenize p lim stream reads).map fun r => (r.1.map Token.text, r.2)

end Quark.Tokenizer
