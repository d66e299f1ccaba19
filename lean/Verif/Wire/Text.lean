import Verif.Tokenizer.Model
import Mathlib.Tactic.SplitIfs
/-!
# JSON strings as Go writes and reads them

`encoding/json` is not part of /repo; the runs and results of /repo travel through it
(`common/run.go` 35-84, `runner/runner.go` 36-231), and whether they arrive unchanged depends on
what it does with strings.  This file models `encodeState.string` (with HTML escaping, the
default), `unquoteBytes` and `utf8.EncodeRune` of Go's standard library, on bytes;
`utf8.DecodeRune` is the model used for the tokenizer.  These readings of the standard library are
part of the trusted base.
-/
namespace Quark.Wire
open Quark.Tokenizer (decodeRune runeError decodeRune_pos)

abbrev Bytes := List UInt8

/-- `utf16.IsSurrogate` -/
def isSurrogate (r : Nat) : Bool := 0xD800 ≤ r && r < 0xE000

/-- The Unicode scalar values. -/
def IsScalar (r : Nat) : Prop := r < 0xD800 ∨ (0xE000 ≤ r ∧ r < 0x110000)

instance (r : Nat) : Decidable (IsScalar r) := by unfold IsScalar; infer_instance

/-- `utf8.EncodeRune` -/
def encodeRune (r : Nat) : Bytes :=
  if r < 0x80 then [UInt8.ofNat r]
  else if r < 0x800 then [UInt8.ofNat (0xC0 + r / 64), UInt8.ofNat (0x80 + r % 64)]
  else if 0x110000 ≤ r || isSurrogate r then [0xEF, 0xBF, 0xBD]
  else if r < 0x10000 then
    [UInt8.ofNat (0xE0 + r / 4096), UInt8.ofNat (0x80 + r / 64 % 64), UInt8.ofNat (0x80 + r % 64)]
  else
    [UInt8.ofNat (0xF0 + r / 262144), UInt8.ofNat (0x80 + r / 4096 % 64),
     UInt8.ofNat (0x80 + r / 64 % 64), UInt8.ofNat (0x80 + r % 64)]

/-- The digits `0123456789abcdef` of `encoding/json`. -/
def hexDigit (n : Nat) : UInt8 := UInt8.ofNat (if n < 10 then 0x30 + n else 0x57 + n)

/-- The value of a hexadecimal digit in `getu4`. -/
def hexVal (b : UInt8) : Option Nat :=
  if 0x30 ≤ b.toNat ∧ b.toNat ≤ 0x39 then some (b.toNat - 0x30)
  else if 0x61 ≤ b.toNat ∧ b.toNat ≤ 0x66 then some (b.toNat - 0x57)
  else if 0x41 ≤ b.toNat ∧ b.toNat ≤ 0x46 then some (b.toNat - 0x37)
  else none

/-- The table `htmlSafeSet`: ASCII from space on, except `"`, `&`, `<`, `>` and the backslash. -/
def safe (b : UInt8) : Bool :=
  0x20 ≤ b.toNat && b.toNat < 0x80 && b.toNat ≠ 0x22 && b.toNat ≠ 0x26 && b.toNat ≠ 0x3C &&
    b.toNat ≠ 0x3E && b.toNat ≠ 0x5C

/-- One ASCII character inside a JSON string literal (`encodeState.string`). -/
def quoteAscii (b : UInt8) : Bytes :=
  if safe b then [b]
  else if b.toNat = 0x5C ∨ b.toNat = 0x22 then [0x5C, b]
  else if b.toNat = 0x0A then [0x5C, 0x6E]
  else if b.toNat = 0x0D then [0x5C, 0x72]
  else if b.toNat = 0x09 then [0x5C, 0x74]
  else [0x5C, 0x75, 0x30, 0x30, hexDigit (b.toNat / 16), hexDigit (b.toNat % 16)]

/-- `encodeState.string`, without the two quotes. -/
def quote (s : Bytes) : Bytes :=
  match s with
  | [] => []
  | b :: rest =>
    if b.toNat < 0x80 then quoteAscii b ++ quote rest
    else
      let d := decodeRune (b :: rest)
      if d.1 = runeError ∧ d.2 = 1 then [0x5C, 0x75, 0x66, 0x66, 0x66, 0x64] ++ quote rest
      else if d.1 = 0x2028 ∨ d.1 = 0x2029 then
        [0x5C, 0x75, 0x32, 0x30, 0x32, hexDigit (d.1 % 16)] ++ quote ((b :: rest).drop d.2)
      else (b :: rest).take d.2 ++ quote ((b :: rest).drop d.2)
termination_by s.length
decreasing_by
  all_goals
    have := decodeRune_pos b rest
    simp only [List.length_drop, List.length_cons]; omega

/-- `getu4` after the `\u`: the value of four hexadecimal digits and what follows. -/
def getu4 : Bytes → Option (Nat × Bytes)
  | a :: b :: c :: d :: t =>
    match hexVal a, hexVal b, hexVal c, hexVal d with
    | some x, some y, some z, some w => some (x * 4096 + y * 256 + z * 16 + w, t)
    | _, _, _, _ => none
  | _ => none

/-- The second half of a surrogate pair (`unquoteBytes`): the rune and what follows it, if the
text goes on with `\u` and a low surrogate, `hi` being a high one. -/
def pair (hi : Nat) : Bytes → Option (Nat × Bytes)
  | 0x5C :: 0x75 :: t =>
    match getu4 t with
    | some (lo, t') =>
      if 0xD800 ≤ hi ∧ hi < 0xDC00 ∧ 0xDC00 ≤ lo ∧ lo < 0xE000 then
        some ((hi - 0xD800) * 1024 + (lo - 0xDC00) + 0x10000, t')
      else none
    | none => none
  | _ => none

theorem getu4_length {s : Bytes} {r t} (h : getu4 s = some (r, t)) : t.length < s.length := by
  unfold getu4 at h
  split at h
  · split at h
    · simp only [Option.some.injEq, Prod.mk.injEq] at h
      rw [← h.2]; simp only [List.length_cons]; omega
    · simp at h
  · simp at h

theorem pair_length {hi s r t} (h : pair hi s = some (r, t)) : t.length < s.length := by
  unfold pair at h
  split at h
  · split at h
    · rename_i hg
      split at h
      · simp only [Option.some.injEq, Prod.mk.injEq] at h
        have := getu4_length hg
        rw [← h.2]; simp only [List.length_cons]; omega
      · simp at h
    · simp at h
  · simp at h

/-- The one-letter escapes of `unquoteBytes` (which also knows an escaped apostrophe, but the scanner refuses it before). -/
def unescape (e : UInt8) : Option UInt8 :=
  if e = 0x22 ∨ e = 0x5C ∨ e = 0x2F then some e
  else if e = 0x62 then some 0x08
  else if e = 0x66 then some 0x0C
  else if e = 0x6E then some 0x0A
  else if e = 0x72 then some 0x0D
  else if e = 0x74 then some 0x09
  else none

/-- `unquoteBytes`, on the text between the quotes; `none` if it is not a string literal. -/
def unquote (s : Bytes) : Option Bytes :=
  match s with
  | [] => some []
  | c :: rest =>
    if c = 0x5C then
      match rest with
      | [] => none
      | e :: tail =>
        if e = 0x75 then
          match _hg : getu4 tail with
          | none => none
          | some (r, t) =>
            if isSurrogate r then
              match _hp : pair r t with
              | some (r', t') => (unquote t').map (encodeRune r' ++ ·)
              | none => (unquote t).map (encodeRune runeError ++ ·)
            else (unquote t).map (encodeRune r ++ ·)
        else match unescape e with
          | some x => (unquote tail).map (x :: ·)
          | none => none
    else if c = 0x22 ∨ c.toNat < 0x20 then none
    else if c.toNat < 0x80 then (unquote rest).map (c :: ·)
    else
      let d := decodeRune (c :: rest)
      (unquote ((c :: rest).drop d.2)).map (encodeRune d.1 ++ ·)
termination_by s.length
decreasing_by
  · have := getu4_length _hg; have := pair_length _hp; simp only [List.length_cons]; omega
  · have := getu4_length _hg; simp only [List.length_cons]; omega
  · have := getu4_length _hg; simp only [List.length_cons]; omega
  · simp only [List.length_cons]; omega
  · simp only [List.length_cons]; omega
  · have := decodeRune_pos c rest
    simp only [List.length_drop, List.length_cons]; omega

/-! ## Specification: valid UTF-8, and what becomes of the rest -/

/-- A byte string is valid UTF-8 if it is the concatenation of the encodings of Unicode scalar
values. -/
def ValidUtf8 (s : Bytes) : Prop := ∃ rs : List Nat, (∀ r ∈ rs, IsScalar r) ∧ s = rs.flatMap encodeRune

/-- Every byte that is not part of a well-formed sequence replaced by U+FFFD. -/
def clean (s : Bytes) : Bytes :=
  match s with
  | [] => []
  | b :: rest =>
    let d := decodeRune (b :: rest)
    if d.1 = runeError ∧ d.2 = 1 then [0xEF, 0xBF, 0xBD] ++ clean rest
    else (b :: rest).take d.2 ++ clean ((b :: rest).drop d.2)
termination_by s.length
decreasing_by
  all_goals
    have := decodeRune_pos b rest
    simp only [List.length_drop, List.length_cons]; omega

/-! ## UTF-8 -/

theorem toNat_ofNat_lt {n : Nat} (h : n < 256) : (UInt8.ofNat n).toNat = n := by
  simp [UInt8.toNat_ofNat', Nat.mod_eq_of_lt h]

theorem ofNat_eq {n : Nat} {b : UInt8} (h : n = b.toNat) : UInt8.ofNat n = b := by
  subst h; simp

theorem decode_encode (r : Nat) (hr : IsScalar r) (t : Bytes) :
    decodeRune (encodeRune r ++ t) = (r, (encodeRune r).length) := by
  unfold IsScalar at hr
  unfold encodeRune isSurrogate
  split
  · rename_i h
    simp [decodeRune, toNat_ofNat_lt (show r < 256 by omega), h]
  · rename_i h
    split
    · rename_i h2
      have e0 := toNat_ofNat_lt (show 0xC0 + r / 64 < 256 by omega)
      have e1 := toNat_ofNat_lt (show 0x80 + r % 64 < 256 by omega)
      have hs : Tokenizer.seqLen (UInt8.ofNat (0xC0 + r / 64)) = 2 := by
        unfold Tokenizer.seqLen Tokenizer.inRange
        rw [e0, if_pos]; simp; omega
      have ha : Tokenizer.inRange (Tokenizer.acceptLo (UInt8.ofNat (0xC0 + r / 64)))
          (Tokenizer.acceptHi (UInt8.ofNat (0xC0 + r / 64))) (UInt8.ofNat (0x80 + r % 64)) = true := by
        unfold Tokenizer.inRange Tokenizer.acceptLo Tokenizer.acceptHi
        rw [e0, e1]
        rw [if_neg (by omega), if_neg (by omega), if_neg (by omega), if_neg (by omega)]
        simp; omega
      simp only [List.cons_append, List.nil_append, decodeRune, e0, hs]
      rw [if_neg (by omega)]
      simp only [ha, if_true, e1, List.length_cons, List.length_nil, Prod.mk.injEq]
      exact ⟨by omega, trivial⟩
    · rename_i h2
      have h3 : ¬ ((decide (0x110000 ≤ r) || (decide (0xD800 ≤ r) && decide (r < 0xE000))) = true) := by
        simp; omega
      rw [if_neg h3]
      have h3' : r < 0xD800 ∨ (0xE000 ≤ r ∧ r < 0x110000) := hr
      clear h3
      split
      · rename_i h4
        have e0 := toNat_ofNat_lt (show 0xE0 + r / 4096 < 256 by omega)
        have e1 := toNat_ofNat_lt (show 0x80 + r / 64 % 64 < 256 by omega)
        have e2 := toNat_ofNat_lt (show 0x80 + r % 64 < 256 by omega)
        have hs : Tokenizer.seqLen (UInt8.ofNat (0xE0 + r / 4096)) = 3 := by
          unfold Tokenizer.seqLen Tokenizer.inRange
          rw [e0, if_neg, if_pos]
          · simp; omega
          · simp; omega
        have ha : Tokenizer.inRange (Tokenizer.acceptLo (UInt8.ofNat (0xE0 + r / 4096)))
            (Tokenizer.acceptHi (UInt8.ofNat (0xE0 + r / 4096))) (UInt8.ofNat (0x80 + r / 64 % 64))
              = true := by
          unfold Tokenizer.inRange Tokenizer.acceptLo Tokenizer.acceptHi
          rw [e0, e1]
          split_ifs <;> simp <;> omega
        have hb : Tokenizer.inRange 0x80 0xBF (UInt8.ofNat (0x80 + r % 64)) = true := by
          unfold Tokenizer.inRange
          rw [e2]; simp; omega
        simp only [List.cons_append, List.nil_append, decodeRune, e0, hs]
        rw [if_neg (by omega)]
        simp only [ha, hb, Bool.and_self, if_true, e1, e2, List.length_cons, List.length_nil,
          Prod.mk.injEq]
        exact ⟨by omega, trivial⟩
      · rename_i h4
        have e0 := toNat_ofNat_lt (show 0xF0 + r / 262144 < 256 by omega)
        have e1 := toNat_ofNat_lt (show 0x80 + r / 4096 % 64 < 256 by omega)
        have e2 := toNat_ofNat_lt (show 0x80 + r / 64 % 64 < 256 by omega)
        have e3 := toNat_ofNat_lt (show 0x80 + r % 64 < 256 by omega)
        have hs : Tokenizer.seqLen (UInt8.ofNat (0xF0 + r / 262144)) = 4 := by
          unfold Tokenizer.seqLen Tokenizer.inRange
          rw [e0, if_neg, if_neg, if_pos]
          · simp; omega
          · simp; omega
          · simp; omega
        have ha : Tokenizer.inRange (Tokenizer.acceptLo (UInt8.ofNat (0xF0 + r / 262144)))
            (Tokenizer.acceptHi (UInt8.ofNat (0xF0 + r / 262144)))
              (UInt8.ofNat (0x80 + r / 4096 % 64)) = true := by
          unfold Tokenizer.inRange Tokenizer.acceptLo Tokenizer.acceptHi
          rw [e0, e1]
          split_ifs <;> simp <;> omega
        have hb : Tokenizer.inRange 0x80 0xBF (UInt8.ofNat (0x80 + r / 64 % 64)) = true := by
          unfold Tokenizer.inRange
          rw [e2]; simp; omega
        have hc : Tokenizer.inRange 0x80 0xBF (UInt8.ofNat (0x80 + r % 64)) = true := by
          unfold Tokenizer.inRange
          rw [e3]; simp; omega
        simp only [List.cons_append, List.nil_append, decodeRune, e0, hs]
        rw [if_neg (by omega)]
        simp only [ha, hb, hc, Bool.and_self, if_true, e1, e2, e3, List.length_cons,
          List.length_nil, Prod.mk.injEq]
        exact ⟨by omega, trivial⟩

theorem encode_decode (b : UInt8) (t : Bytes)
    (h : ¬ ((decodeRune (b :: t)).1 = runeError ∧ (decodeRune (b :: t)).2 = 1)) :
    IsScalar (decodeRune (b :: t)).1 ∧
      encodeRune (decodeRune (b :: t)).1 = (b :: t).take (decodeRune (b :: t)).2 := by
  have hb := b.toNat_lt
  revert h
  unfold decodeRune
  by_cases h0 : b.toNat < 0x80
  · simp only [h0, if_true]
    intro _
    refine ⟨Or.inl (by omega), ?_⟩
    unfold encodeRune
    rw [if_pos h0]
    simp
  · simp only [h0, if_false]
    split
    · rename_i b1 t' hs
      have hb1 := b1.toNat_lt
      split
      · rename_i ha
        intro _
        unfold Tokenizer.seqLen Tokenizer.inRange at hs
        unfold Tokenizer.inRange Tokenizer.acceptLo Tokenizer.acceptHi at ha
        have hr : 0xC2 ≤ b.toNat ∧ b.toNat ≤ 0xDF := by
          split_ifs at hs <;> simp_all
        have ha' : 0x80 ≤ b1.toNat ∧ b1.toNat ≤ 0xBF := by
          rw [if_neg (by omega), if_neg (by omega), if_neg (by omega), if_neg (by omega)] at ha
          simpa using ha
        refine ⟨Or.inl (by simp only; omega), ?_⟩
        unfold encodeRune
        simp only
        rw [if_neg (by omega), if_pos (by omega)]
        simp only [List.take_succ_cons, List.take_zero, List.cons.injEq, and_true]
        exact ⟨ofNat_eq (by omega), ofNat_eq (by omega)⟩
      · intro h; simp at h
    · rename_i b1 b2 t' hs
      have hb1 := b1.toNat_lt
      have hb2 := b2.toNat_lt
      split
      · rename_i ha
        intro _
        unfold Tokenizer.seqLen Tokenizer.inRange at hs
        unfold Tokenizer.inRange Tokenizer.acceptLo Tokenizer.acceptHi at ha
        have hr : 0xE0 ≤ b.toNat ∧ b.toNat ≤ 0xEF := by
          split_ifs at hs <;> simp_all
        have ha' : 0x80 ≤ b1.toNat ∧ b1.toNat ≤ 0xBF ∧ 0x80 ≤ b2.toNat ∧ b2.toNat ≤ 0xBF ∧
            (b.toNat = 0xE0 → 0xA0 ≤ b1.toNat) ∧ (b.toNat = 0xED → b1.toNat ≤ 0x9F) := by
          split_ifs at ha <;> simp at ha <;> omega
        have hsc : IsScalar (b.toNat % 16 * 4096 + b1.toNat % 64 * 64 + b2.toNat % 64) := by
          unfold IsScalar; omega
        refine ⟨hsc, ?_⟩
        unfold encodeRune isSurrogate
        simp only
        unfold IsScalar at hsc
        rw [if_neg (by omega), if_neg (by omega), if_neg (by simp; omega), if_pos (by omega)]
        simp only [List.take_succ_cons, List.take_zero, List.cons.injEq, and_true]
        exact ⟨ofNat_eq (by omega), ofNat_eq (by omega), ofNat_eq (by omega)⟩
      · intro h; simp at h
    · rename_i b1 b2 b3 t' hs
      have hb1 := b1.toNat_lt
      have hb2 := b2.toNat_lt
      have hb3 := b3.toNat_lt
      split
      · rename_i ha
        intro _
        unfold Tokenizer.seqLen Tokenizer.inRange at hs
        unfold Tokenizer.inRange Tokenizer.acceptLo Tokenizer.acceptHi at ha
        have hr : 0xF0 ≤ b.toNat ∧ b.toNat ≤ 0xF4 := by
          split_ifs at hs <;> simp_all
        have ha' : 0x80 ≤ b1.toNat ∧ b1.toNat ≤ 0xBF ∧ 0x80 ≤ b2.toNat ∧ b2.toNat ≤ 0xBF ∧
            0x80 ≤ b3.toNat ∧ b3.toNat ≤ 0xBF ∧
            (b.toNat = 0xF0 → 0x90 ≤ b1.toNat) ∧ (b.toNat = 0xF4 → b1.toNat ≤ 0x8F) := by
          split_ifs at ha <;> simp at ha <;> omega
        have hsc : IsScalar (b.toNat % 8 * 262144 + b1.toNat % 64 * 4096 + b2.toNat % 64 * 64
            + b3.toNat % 64) := by
          unfold IsScalar; omega
        refine ⟨hsc, ?_⟩
        unfold encodeRune isSurrogate
        simp only
        unfold IsScalar at hsc
        rw [if_neg (by omega), if_neg (by omega), if_neg (by simp; omega), if_neg (by omega)]
        simp only [List.take_succ_cons, List.take_zero, List.cons.injEq, and_true]
        exact ⟨ofNat_eq (by omega), ofNat_eq (by omega), ofNat_eq (by omega), ofNat_eq (by omega)⟩
      · intro h; simp at h
    · intro h; simp at h

theorem encodeRune_length_pos (r : Nat) : 0 < (encodeRune r).length := by
  unfold encodeRune; split_ifs <;> simp

theorem encodeRune_width (r : Nat) (h : encodeRune r = [0xEF, 0xBF, 0xBD] ∨ IsScalar r) :
    ¬ (r = runeError ∧ (encodeRune r).length = 1) := by
  rintro ⟨rfl, hl⟩
  have : encodeRune runeError = [0xEF, 0xBF, 0xBD] := by decide
  rw [this] at hl; simp at hl

/-- Cleaning one rune at a time. -/
theorem clean_encode (r : Nat) (hr : IsScalar r) (t : Bytes) :
    clean (encodeRune r ++ t) = encodeRune r ++ clean t := by
  have hd := decode_encode r hr t
  have hw := encodeRune_width r (Or.inr hr)
  have hpos := encodeRune_length_pos r
  rcases he : encodeRune r with _ | ⟨b, l⟩
  · rw [he] at hpos; simp at hpos
  · rw [he] at hd hw
    rw [List.cons_append, clean]
    rw [List.cons_append] at hd
    simp only [hd]
    rw [if_neg hw]
    simp

/-- What is not well-formed is replaced, the rest is kept: the clean text is the same text exactly
when it is valid UTF-8. -/
theorem clean_eq_iff (s : Bytes) : clean s = s ↔ ValidUtf8 s := by
  constructor
  · intro h
    induction hn : s.length using Nat.strongRecOn generalizing s with
    | _ n ih =>
      match s, h with
      | [], _ => exact ⟨[], by simp, rfl⟩
      | b :: rest, h =>
        have hpos := decodeRune_pos b rest
        rw [clean] at h
        try simp only at h
        split at h
        · -- the replacement is longer than one byte: lengths disagree
          have hge : ∀ s : Bytes, s.length ≤ (clean s).length := by
            intro s
            induction hm : s.length using Nat.strongRecOn generalizing s with
            | _ m ihm =>
              match s with
              | [] => simp at hm; omega
              | c :: r =>
                have hp := decodeRune_pos c r
                rw [clean]
                try simp only
                split
                · have := ihm r.length (by rw [← hm]; simp) r rfl
                  simp only [List.length_append, List.length_cons, List.length_nil] at this hm ⊢
                  omega
                · have hl : ((c :: r).drop (decodeRune (c :: r)).2).length < m := by
                    rw [← hm]; simp only [List.length_drop, List.length_cons]; omega
                  have := ihm _ hl _ rfl
                  simp only [List.length_append, List.length_take, List.length_drop,
                    List.length_cons] at this hm ⊢
                  omega
          have hl := congrArg List.length h
          have := hge rest
          simp only [List.length_append, List.length_cons, List.length_nil] at hl
          omega
        · rename_i hv
          obtain ⟨hsc, henc⟩ := encode_decode b rest hv
          have htd := List.take_append_drop (decodeRune (b :: rest)).2 (b :: rest)
          have hrest : clean ((b :: rest).drop (decodeRune (b :: rest)).2) =
              (b :: rest).drop (decodeRune (b :: rest)).2 := by
            conv at h => rhs; rw [← htd]
            exact List.append_cancel_left h
          have hl : ((b :: rest).drop (decodeRune (b :: rest)).2).length < n := by
            rw [← hn]; simp only [List.length_drop, List.length_cons]; omega
          obtain ⟨rs, hrs, hrest'⟩ := ih _ hl _ hrest rfl
          refine ⟨(decodeRune (b :: rest)).1 :: rs, ?_, ?_⟩
          · intro r hr
            rcases List.mem_cons.1 hr with rfl | hr'
            · exact hsc
            · exact hrs r hr'
          · rw [List.flatMap_cons, henc, ← hrest', htd]
  · rintro ⟨rs, hrs, rfl⟩
    induction rs with
    | nil => simp [clean]
    | cons r rs ih =>
      rw [List.flatMap_cons, clean_encode r (hrs r List.mem_cons_self),
        ih (fun x hx => hrs x (List.mem_cons_of_mem _ hx))]

/-! ## Quoting and unquoting -/

theorem hexVal_hexDigit (n : Nat) (h : n < 16) : hexVal (hexDigit n) = some n := by
  have : ∀ n : Fin 16, hexVal (hexDigit n.1) = some n.1 := by decide
  exact this ⟨n, h⟩

theorem unquote_u {a b c d : UInt8} {x y z w : Nat} (ha : hexVal a = some x) (hb : hexVal b = some y)
    (hc : hexVal c = some z) (hd : hexVal d = some w)
    (hr : isSurrogate (x * 4096 + y * 256 + z * 16 + w) = false) (t : Bytes) :
    unquote (0x5C :: 0x75 :: a :: b :: c :: d :: t) =
      (unquote t).map (encodeRune (x * 4096 + y * 256 + z * 16 + w) ++ ·) := by
  have hg : getu4 (a :: b :: c :: d :: t) = some (x * 4096 + y * 256 + z * 16 + w, t) := by
    simp [getu4, ha, hb, hc, hd]
  rw [unquote]
  simp only [if_true]
  split
  · rename_i h; rw [hg] at h; simp at h
  · rename_i r t' h
    rw [hg] at h
    simp only [Option.some.injEq, Prod.mk.injEq] at h
    obtain ⟨rfl, rfl⟩ := h
    rw [if_neg (by simp [hr])]

theorem unquote_ascii (b : UInt8) (hb : b.toNat < 0x80) (t : Bytes) :
    unquote (quoteAscii b ++ t) = (unquote t).map (b :: ·) := by
  unfold quoteAscii
  split
  · rename_i hs
    simp only [safe, Bool.and_eq_true, decide_eq_true_eq, ne_eq] at hs
    have h1 : b ≠ 0x5C := by rintro rfl; simp at hs
    have h2 : ¬ (b = 0x22 ∨ b.toNat < 0x20) := by
      rintro (rfl | h)
      · simp at hs
      · omega
    rw [List.cons_append, List.nil_append, unquote.eq_def]
    simp only [if_neg h1, if_neg h2, if_pos hb]
  · split
    · rename_i h
      have hu : unescape b = some b := by
        unfold unescape
        rw [if_pos]
        rcases h with h | h
        · right; left; exact UInt8.toNat_inj.1 h
        · left; exact UInt8.toNat_inj.1 h
      have h75 : b ≠ 0x75 := by rintro rfl; simp at h
      rw [List.cons_append, List.cons_append, List.nil_append, unquote]
      simp only [if_true, if_neg h75, hu]
    · split
      · rename_i h
        have : b = 0x0A := UInt8.toNat_inj.1 h
        subst this
        simp [unquote, unescape]
      · split
        · rename_i h
          have : b = 0x0D := UInt8.toNat_inj.1 h
          subst this
          simp [unquote, unescape]
        · split
          · rename_i h
            have : b = 0x09 := UInt8.toNat_inj.1 h
            subst this
            simp [unquote, unescape]
          · have h30 : hexVal 0x30 = some 0 := by decide
            have hx := hexVal_hexDigit (b.toNat / 16) (by omega)
            have hy := hexVal_hexDigit (b.toNat % 16) (by omega)
            have e : 0 * 4096 + 0 * 256 + b.toNat / 16 * 16 + b.toNat % 16 = b.toNat := by omega
            have := unquote_u h30 h30 hx hy (by rw [e]; simp [isSurrogate]; omega) t
            rw [e] at this
            have henc : encodeRune b.toNat = [b] := by
              unfold encodeRune; rw [if_pos hb]; simp
            rw [henc] at this
            simpa using this

/-- Go's JSON strings: what is read back is the clean version of what was written. -/
theorem unquote_quote (s : Bytes) : unquote (quote s) = some (clean s) := by
  induction hn : s.length using Nat.strongRecOn generalizing s with
  | _ n ih =>
    match s with
    | [] => simp [quote, unquote, clean]
    | b :: rest =>
      have hpos := decodeRune_pos b rest
      have hlr : rest.length < n := by rw [← hn]; simp
      have hld : ((b :: rest).drop (decodeRune (b :: rest)).2).length < n := by
        rw [← hn]; simp only [List.length_drop, List.length_cons]; omega
      rw [quote]
      by_cases hb : b.toNat < 0x80
      · have hd : decodeRune (b :: rest) = (b.toNat, 1) := by simp [decodeRune, hb]
        rw [if_pos hb, unquote_ascii b hb, ih _ hlr rest rfl, clean]
        simp only [hd]
        rw [if_neg (by unfold runeError; omega)]
        simp
      · rw [if_neg hb]
        simp only
        rw [clean]
        try simp only
        split
        · have h66 : hexVal 0x66 = some 15 := by decide
          have h64 : hexVal 0x64 = some 13 := by decide
          have := unquote_u h66 h66 h66 h64 (by decide) (quote rest)
          rw [List.cons_append, List.cons_append, List.cons_append, List.cons_append, List.cons_append,
            List.cons_append, List.nil_append, this, ih _ hlr rest rfl]
          rfl
        · rename_i hv
          obtain ⟨hsc, henc⟩ := encode_decode b rest hv
          have hd := decode_encode _ hsc (quote ((b :: rest).drop (decodeRune (b :: rest)).2))
          have hih := ih _ hld _ rfl
          split
          · rename_i h2028
            have h32 : hexVal 0x32 = some 2 := by decide
            have h30 : hexVal 0x30 = some 0 := by decide
            have hx := hexVal_hexDigit ((decodeRune (b :: rest)).1 % 16) (by omega)
            have e : 2 * 4096 + 0 * 256 + 2 * 16 + (decodeRune (b :: rest)).1 % 16 =
                (decodeRune (b :: rest)).1 := by omega
            have := unquote_u h32 h30 h32 hx (by rw [e]; simp [isSurrogate]; omega)
              (quote ((b :: rest).drop (decodeRune (b :: rest)).2))
            rw [e] at this
            rw [List.cons_append, List.cons_append, List.cons_append, List.cons_append,
              List.cons_append, List.cons_append, List.nil_append, this, hih, henc]
            rfl
          · -- copied as it is
            rw [← henc]
            have hpl := encodeRune_length_pos (decodeRune (b :: rest)).1
            -- the first byte is b
            have hhead : ∃ l, encodeRune (decodeRune (b :: rest)).1 = b :: l := by
              rw [henc]
              obtain ⟨k, hk⟩ : ∃ k, (decodeRune (b :: rest)).2 = k + 1 := ⟨_, (Nat.succ_pred_eq_of_pos hpos).symm⟩
              rw [hk, List.take_succ_cons]
              exact ⟨_, rfl⟩
            obtain ⟨l, hl⟩ := hhead
            generalize hQ : quote ((b :: rest).drop (decodeRune (b :: rest)).2) = Q at hd hih
            generalize hr : (decodeRune (b :: rest)).1 = r at hd hl
            have h5C : b ≠ 0x5C := by rintro rfl; simp at hb
            have h22 : ¬ (b = 0x22 ∨ b.toNat < 0x20) := by
              rintro (rfl | h)
              · simp at hb
              · omega
            rw [hl, List.cons_append, unquote.eq_def]
            simp only [if_neg h5C, if_neg h22, if_neg hb]
            rw [hl, List.cons_append] at hd
            simp only [hd]
            rw [← List.cons_append, ← hl, List.drop_left, hih]
            rfl

end Quark.Wire
