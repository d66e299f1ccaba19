import Verif.Wire.Names
import Verif.Tokenizer.Props

/-!
# C138: texts in JSON

What a JSON string literal of any writer denotes, by RFC 8259 section 7, and that it is what is read.
-/
namespace Quark.Wire
open Quark.Tokenizer (utf8Encode)

/-! ## Specification -/

/-- The hexadecimal digits. -/
def Digit (v : Nat) (b : UInt8) : Prop :=
  (v < 10 ∧ b.toNat = '0'.toNat + v) ∨
  (10 ≤ v ∧ v < 16 ∧ (b.toNat = 'a'.toNat + (v - 10) ∨ b.toNat = 'A'.toNat + (v - 10)))

/-- `\uXXXX`. -/
def Unit16 (n : Nat) (s : Bytes) : Prop :=
  n < 0x10000 ∧ ∃ a b c d, Digit (n / 4096) a ∧ Digit (n / 256 % 16) b ∧ Digit (n / 16 % 16) c ∧ Digit (n % 16) d ∧
    s = [0x5C, 0x75, a, b, c, d]

/-- The ways to write a character: as it is (unless it is a control character, a quotation mark or a backslash), with a
letter, or as its UTF-16 code, in one unit or two. -/
inductive Writes : Nat → Bytes → Prop
  | raw {r} : IsScalar r → 0x20 ≤ r → r ≠ 0x22 → r ≠ 0x5C → Writes r ((utf8Encode r).map UInt8.ofNat)
  | letter {r e} : (r, e) ∈ [(0x22, 0x22), (0x5C, 0x5C), (0x2F, 0x2F), (0x08, 0x62), (0x0C, 0x66), (0x0A, 0x6E),
      (0x0D, 0x72), (0x09, 0x74)] → Writes r [0x5C, e]
  | unit {r s} : IsScalar r → Unit16 r s → Writes r s
  | units {r s t} : 0x10000 ≤ r → r < 0x110000 → Unit16 (0xD800 + (r - 0x10000) / 1024) s →
      Unit16 (0xDC00 + (r - 0x10000) % 1024) t → Writes r (s ++ t)

/-! ## Lemmas -/

theorem encodeRune_utf8 (r : Nat) (h : IsScalar r) : encodeRune r = (utf8Encode r).map UInt8.ofNat := by
  unfold IsScalar at h
  unfold encodeRune utf8Encode
  by_cases h1 : r < 0x80
  · rw [if_pos h1, if_pos h1]; rfl
  rw [if_neg h1, if_neg h1]
  by_cases h2 : r < 0x800
  · rw [if_pos h2, if_pos h2]; rfl
  rw [if_neg h2, if_neg h2, if_neg (by simp only [isSurrogate, Bool.or_eq_true, Bool.and_eq_true, decide_eq_true_eq]; omega)]
  by_cases h3 : r < 0x10000
  · rw [if_pos h3, if_pos h3]; rfl
  rw [if_neg h3, if_neg h3]; rfl

theorem hexVal_digit {v : Nat} {b : UInt8} (h : Digit v b) : hexVal b = some v := by
  unfold Digit at h
  have e1 : '0'.toNat = 48 := rfl
  have e2 : 'a'.toNat = 97 := rfl
  have e3 : 'A'.toNat = 65 := rfl
  rw [e1, e2, e3] at h
  unfold hexVal
  rcases h with ⟨h1, h2⟩ | ⟨h1, h2, h3 | h3⟩
  · rw [if_pos (by omega)]; congr 1; omega
  · rw [if_neg (by omega), if_pos (by omega)]; congr 1; omega
  · rw [if_neg (by omega), if_neg (by omega), if_pos (by omega)]; congr 1; omega

theorem getu4_unit {n : Nat} {s : Bytes} (h : Unit16 n s) :
    ∃ ds, s = 0x5C :: 0x75 :: ds ∧ ∀ t, getu4 (ds ++ t) = some (n, t) := by
  obtain ⟨hn, a, b, c, d, ha, hb, hc, hd, rfl⟩ := h
  refine ⟨[a, b, c, d], rfl, fun t => ?_⟩
  simp only [List.cons_append, List.nil_append, getu4, hexVal_digit ha, hexVal_digit hb, hexVal_digit hc, hexVal_digit hd,
    Option.some.injEq, Prod.mk.injEq, and_true]
  omega

theorem digit_of_hexVal {v : Nat} {b : UInt8} (h : hexVal b = some v) : Digit v b := by
  have e1 : '0'.toNat = 48 := rfl
  have e2 : 'a'.toNat = 97 := rfl
  have e3 : 'A'.toNat = 65 := rfl
  unfold hexVal at h
  unfold Digit
  rw [e1, e2, e3]
  split at h
  · obtain rfl := Option.some.inj h; omega
  · split at h
    · obtain rfl := Option.some.inj h; omega
    · split at h
      · obtain rfl := Option.some.inj h; omega
      · cases h

theorem digit_lt {v : Nat} {b : UInt8} (h : Digit v b) : v < 16 := by
  unfold Digit at h; omega

theorem unit_of_getu4 {s t : Bytes} {n : Nat} (h : getu4 s = some (n, t)) :
    ∃ ds, s = ds ++ t ∧ Unit16 n (0x5C :: 0x75 :: ds) := by
  unfold getu4 at h
  split at h
  · rename_i a b c d t'
    split at h
    · rename_i x y z w hx hy hz hw
      simp only [Option.some.injEq, Prod.mk.injEq] at h
      obtain ⟨rfl, rfl⟩ := h
      have dx := digit_of_hexVal hx
      have dy := digit_of_hexVal hy
      have dz := digit_of_hexVal hz
      have dw := digit_of_hexVal hw
      have := digit_lt dx; have := digit_lt dy; have := digit_lt dz; have := digit_lt dw
      refine ⟨[a, b, c, d], rfl, by omega, a, b, c, d, ?_, ?_, ?_, ?_, rfl⟩
      · rwa [show (x * 4096 + y * 256 + z * 16 + w) / 4096 = x by omega]
      · rwa [show (x * 4096 + y * 256 + z * 16 + w) / 256 % 16 = y by omega]
      · rwa [show (x * 4096 + y * 256 + z * 16 + w) / 16 % 16 = z by omega]
      · rwa [show (x * 4096 + y * 256 + z * 16 + w) % 16 = w by omega]
    · cases h
  · cases h

theorem unquote_unit {n : Nat} {s t : Bytes} (h : getu4 s = some (n, t)) :
    unquote (0x5C :: 0x75 :: s) = if isSurrogate n then
        match pair n t with
        | some (r', t') => (unquote t').map (encodeRune r' ++ ·)
        | none => (unquote t).map (encodeRune Tokenizer.runeError ++ ·)
      else (unquote t).map (encodeRune n ++ ·) := by
  rw [unquote.eq_def]
  dsimp only
  rw [if_pos rfl, if_pos rfl]
  split
  · rename_i hg; rw [hg] at h; cases h
  · rename_i r t' hg
    rw [hg] at h
    obtain ⟨rfl, rfl⟩ := Prod.mk.inj (Option.some.inj h)
    by_cases hs : isSurrogate r = true
    · rw [if_pos hs, if_pos hs]
      split <;> rename_i hp <;> simp only [hp]
    · rw [if_neg hs, if_neg hs]

theorem unquote_writes {r : Nat} {s : Bytes} (h : Writes r s) (t : Bytes) :
    unquote (s ++ t) = (unquote t).map ((utf8Encode r).map UInt8.ofNat ++ ·) := by
  cases h with
  | raw hs h1 h2 h3 =>
    rw [← encodeRune_utf8 r hs]
    have hd := decode_encode r hs t
    by_cases hr : r < 0x80
    · have e : encodeRune r = [UInt8.ofNat r] := by unfold encodeRune; rw [if_pos hr]
      have hb : (UInt8.ofNat r).toNat = r := toNat_ofNat_lt (by omega)
      have n1 : UInt8.ofNat r ≠ 0x5C := fun h => h3 (by rw [← hb, h]; rfl)
      have n2 : UInt8.ofNat r ≠ 0x22 := fun h => h2 (by rw [← hb, h]; rfl)
      rw [e, List.cons_append, List.nil_append, unquote.eq_def]
      dsimp only
      rw [if_neg n1, if_neg (by rw [hb]; simp [n2]; omega), if_pos (by omega)]
      rfl
    · obtain ⟨c, rest, hc⟩ : ∃ c rest, encodeRune r = c :: rest := by
        have := encodeRune_length_pos r
        cases he : encodeRune r with
        | nil => rw [he] at this; simp at this
        | cons c rest => exact ⟨c, rest, rfl⟩
      have hge : 0x80 ≤ c.toNat := by
        unfold encodeRune at hc
        rw [if_neg hr] at hc
        unfold IsScalar at hs
        split at hc
        · obtain ⟨rfl, -⟩ := List.cons.inj hc
          rw [toNat_ofNat_lt (by omega)]; omega
        · split at hc
          · obtain ⟨rfl, -⟩ := List.cons.inj hc
            decide
          · split at hc
            · obtain ⟨rfl, -⟩ := List.cons.inj hc
              rw [toNat_ofNat_lt (by omega)]; omega
            · obtain ⟨rfl, -⟩ := List.cons.inj hc
              rw [toNat_ofNat_lt (by omega)]; omega
      have hlen : (encodeRune r).length = rest.length + 1 := by rw [hc]; rfl
      rw [hc, List.cons_append] at hd ⊢
      have n1 : c ≠ 0x5C := by rintro rfl; exact absurd hge (by decide)
      have n2 : c ≠ 0x22 := by rintro rfl; exact absurd hge (by decide)
      rw [unquote.eq_def]
      dsimp only
      rw [if_neg n1, if_neg (by simp [n2]; omega), if_neg (by omega), hd]
      dsimp only
      rw [hc]
      simp
  | letter h =>
    simp only [List.mem_cons, List.not_mem_nil, or_false, Prod.mk.injEq] at h
    rcases h with ⟨rfl, rfl⟩ | ⟨rfl, rfl⟩ | ⟨rfl, rfl⟩ | ⟨rfl, rfl⟩ | ⟨rfl, rfl⟩ | ⟨rfl, rfl⟩ | ⟨rfl, rfl⟩ | ⟨rfl, rfl⟩ <;>
    · simp only [List.cons_append, List.nil_append]
      rw [unquote.eq_def]
      rfl
  | unit hs h =>
    obtain ⟨ds, rfl, hg⟩ := getu4_unit h
    rw [List.cons_append, List.cons_append, unquote_unit (hg t), if_neg, encodeRune_utf8 r hs]
    unfold IsScalar at hs
    simp only [isSurrogate, Bool.and_eq_true, decide_eq_true_eq]
    omega
  | units h1 h2 h3 h4 =>
    obtain ⟨ds, rfl, hg⟩ := getu4_unit h3
    obtain ⟨es, rfl, hg'⟩ := getu4_unit h4
    have hp : pair (0xD800 + (r - 0x10000) / 1024) (0x5C :: 0x75 :: (es ++ t)) = some (r, t) := by
      simp only [pair, hg' t]
      rw [if_pos (by omega)]
      simp only [Option.some.injEq, Prod.mk.injEq, and_true]
      omega
    rw [List.append_assoc, List.cons_append, List.cons_append, unquote_unit (hg _), if_pos]
    · simp only [List.cons_append]
      rw [hp, ← encodeRune_utf8 r (by unfold IsScalar; omega)]
    · simp only [isSurrogate, Bool.and_eq_true, decide_eq_true_eq]
      omega

/-- **C138** However a text is written in JSON — characters as they are, with letters, or as UTF-16 codes — it is read as
the text it denotes, in UTF-8. -/
theorem C138_text (rs : List Nat) (ss : List Bytes) (h : List.Forall₂ Writes rs ss) (old : Bytes) :
    decStr old (.str ss.flatten) = some (rs.flatMap fun r => (utf8Encode r).map UInt8.ofNat) := by
  show unquote _ = _
  induction h with
  | nil => simp [unquote]
  | cons h _ ih => rw [List.flatten_cons, unquote_writes h, ih]; rfl

/-- **C138** Half of a surrogate pair is read as U+FFFD, if what follows is not the other half. -/
theorem C138_half_pair (n : Nat) (s t : Bytes) (hn : 0xD800 ≤ n ∧ n < 0xE000) (h : Unit16 n s)
    (ht : ¬ ∃ m u v, n < 0xDC00 ∧ 0xDC00 ≤ m ∧ m < 0xE000 ∧ Unit16 m u ∧ t = u ++ v) :
    unquote (s ++ t) = (unquote t).map ([0xEF, 0xBF, 0xBD] ++ ·) := by
  obtain ⟨ds, rfl, hg⟩ := getu4_unit h
  rw [List.cons_append, List.cons_append, unquote_unit (hg _), if_pos]
  · rw [show pair n t = none from ?_]
    · rfl
    · rw [← Option.not_isSome_iff_eq_none]
      intro hsome
      apply ht
      unfold pair at hsome
      split at hsome
      · rename_i u
        split at hsome
        · rename_i lo t' hlo
          split at hsome
          · rename_i hc
            obtain ⟨ds, rfl, hu⟩ := unit_of_getu4 hlo
            exact ⟨lo, _, t', hc.2.1, hc.2.2.1, hc.2.2.2, hu, rfl⟩
          · simp at hsome
        · simp at hsome
      · simp at hsome
  · simp only [isSurrogate, Bool.and_eq_true, decide_eq_true_eq]
    exact hn

/-- The letter é, a slash and an emoji, written in three ways. -/
example : decStr [] (.str [0xC3, 0xA9, 0x2F, 0xF0, 0x9F, 0x98, 0x80]) = some [0xC3, 0xA9, 0x2F, 0xF0, 0x9F, 0x98, 0x80] ∧
    decStr [] (.str [0x5C, 0x75, 0x30, 0x30, 0x45, 0x39, 0x5C, 0x2F, 0x5C, 0x75, 0x64, 0x38, 0x33, 0x64, 0x5C, 0x75, 0x44,
      0x45, 0x30, 0x30]) = some [0xC3, 0xA9, 0x2F, 0xF0, 0x9F, 0x98, 0x80] := by
  decide +kernel

end Quark.Wire
