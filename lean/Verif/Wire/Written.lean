import Verif.Wire.Escapes

/-!
# C153: the texts that are written

Every text that /repo sends as JSON (runs, results, details, broadcast messages) is written by `encodeState.string`:
what it writes is, by RFC 8259 section 7, the text, and it holds none of the bytes that a line, an event or a page
would be broken by.
-/
namespace Quark.Wire
open Quark.Tokenizer (utf8Encode decodeRune runeError decodeRune_pos)

/-- The bytes that may appear as they are in what is written: no control characters (so no ends of lines), and none of
`<`, `>` and `&`. -/
def Harmless (b : UInt8) : Prop := 0x20 ≤ b.toNat ∧ b ≠ 0x3C ∧ b ≠ 0x3E ∧ b ≠ 0x26

instance (b : UInt8) : Decidable (Harmless b) := by unfold Harmless; infer_instance

/-- The literal `s` writes the character `r`, without harm; the separators U+2028 and U+2029 are not written as they
are. -/
def Harmlessly (r : Nat) (s : Bytes) : Prop :=
  Writes r s ∧ (∀ b ∈ s, Harmless b) ∧ s ≠ [0xE2, 0x80, 0xA8] ∧ s ≠ [0xE2, 0x80, 0xA9]

theorem digit_hexDigit (n : Nat) (h : n < 16) : Digit n (hexDigit n) := digit_of_hexVal (hexVal_hexDigit n h)

theorem harmless_hexDigit (n : Nat) (h : n < 16) : Harmless (hexDigit n) := by
  have : ∀ n : Fin 16, Harmless (hexDigit n.1) := by decide
  exact this ⟨n, h⟩

theorem harmless_high (b : UInt8) (h : 0x80 ≤ b.toNat) : Harmless b := by
  refine ⟨by omega, ?_, ?_, ?_⟩ <;> rintro rfl <;> simp at h

theorem harmlessly_ascii (b : UInt8) (hb : b.toNat < 0x80) : Harmlessly b.toNat (quoteAscii b) := by
  have hsc : IsScalar b.toNat := Or.inl (by omega)
  have henc : (utf8Encode b.toNat).map UInt8.ofNat = [b] := by
    rw [← encodeRune_utf8 _ hsc]
    unfold encodeRune; rw [if_pos hb]; simp
  unfold quoteAscii
  by_cases hs : safe b
  · rw [if_pos hs]
    simp only [safe, Bool.and_eq_true, decide_eq_true_eq, ne_eq] at hs
    obtain ⟨⟨⟨⟨⟨⟨h1, h2⟩, h3⟩, h4⟩, h5⟩, h6⟩, h7⟩ := hs
    refine ⟨?_, ?_, by simp, by simp⟩
    · rw [← henc]; exact .raw hsc h1 h3 h7
    · intro x hx
      obtain rfl := List.mem_singleton.mp hx
      refine ⟨h1, ?_, ?_, ?_⟩ <;> rintro rfl <;> simp_all
  rw [if_neg hs]
  by_cases h1 : b.toNat = 0x5C ∨ b.toNat = 0x22
  · rw [if_pos h1]
    rcases h1 with h | h
    · obtain rfl : b = 0x5C := UInt8.toNat_inj.1 h
      exact ⟨.letter (by decide), by decide, by simp, by simp⟩
    · obtain rfl : b = 0x22 := UInt8.toNat_inj.1 h
      exact ⟨.letter (by decide), by decide, by simp, by simp⟩
  rw [if_neg h1]
  by_cases h2 : b.toNat = 0x0A
  · rw [if_pos h2, h2]; exact ⟨.letter (by decide), by decide, by simp, by simp⟩
  rw [if_neg h2]
  by_cases h3 : b.toNat = 0x0D
  · rw [if_pos h3, h3]; exact ⟨.letter (by decide), by decide, by simp, by simp⟩
  rw [if_neg h3]
  by_cases h4 : b.toNat = 0x09
  · rw [if_pos h4, h4]; exact ⟨.letter (by decide), by decide, by simp, by simp⟩
  rw [if_neg h4]
  refine ⟨.unit hsc ⟨by omega, 0x30, 0x30, _, _, ?_, ?_, ?_, ?_, rfl⟩, ?_, by simp, by simp⟩
  · exact Or.inl ⟨by omega, by rw [show b.toNat / 4096 = 0 by omega]; rfl⟩
  · exact Or.inl ⟨by omega, by rw [show b.toNat / 256 % 16 = 0 by omega]; rfl⟩
  · rw [show b.toNat / 16 % 16 = b.toNat / 16 by omega]; exact digit_hexDigit _ (by omega)
  · exact digit_hexDigit _ (by omega)
  · intro x hx
    simp only [List.mem_cons, List.not_mem_nil, or_false] at hx
    rcases hx with rfl | rfl | rfl | rfl | rfl | rfl
    · decide
    · decide
    · decide
    · decide
    · exact harmless_hexDigit _ (by omega)
    · exact harmless_hexDigit _ (by omega)

theorem high_bytes (r : Nat) (h : 0x80 ≤ r) : ∀ x ∈ encodeRune r, 0x80 ≤ x.toNat := by
  intro x hx
  unfold encodeRune at hx
  rw [if_neg (by omega)] at hx
  split_ifs at hx <;> simp only [List.mem_cons, List.not_mem_nil, or_false] at hx
  · rcases hx with rfl | rfl <;> rw [toNat_ofNat_lt (by omega)] <;> omega
  · rcases hx with rfl | rfl | rfl <;> decide
  · rcases hx with rfl | rfl | rfl <;> rw [toNat_ofNat_lt (by omega)] <;> omega
  · rename_i h1 h2 h3
    simp only [Bool.or_eq_true, decide_eq_true_eq, not_or] at h2
    rcases hx with rfl | rfl | rfl | rfl <;> rw [toNat_ofNat_lt (by omega)] <;> omega

theorem encodeRune_sep (r : Nat) (hr : IsScalar r) (c : Nat) (hc : c = 0x2028 ∨ c = 0x2029)
    (h : encodeRune r = encodeRune c) : r = c := by
  have hcs : IsScalar c := by rcases hc with rfl | rfl <;> decide
  have h1 := decode_encode r hr []
  have h2 := decode_encode c hcs []
  rw [h, h2] at h1
  exact (Prod.mk.inj h1).1.symm

/-- **C153** Whatever the bytes of a text are, it is written as a sequence of JSON characters that, by RFC 8259, are
those of the text (every ill-formed byte being read as U+FFFD); no end of line or other control character, no `<`, `>`
or `&`, and no separator U+2028 or U+2029 is in what is written. -/
theorem C153_written (s : Bytes) :
    ∃ rs ss, quote s = List.flatten ss ∧ List.Forall₂ Harmlessly rs ss ∧
      clean s = rs.flatMap fun r => (utf8Encode r).map UInt8.ofNat := by
  induction hn : s.length using Nat.strongRecOn generalizing s with
  | _ n ih =>
    match s with
    | [] => exact ⟨[], [], by simp [quote], .nil, by simp [clean]⟩
    | b :: rest =>
      have hpos := decodeRune_pos b rest
      have hlr : rest.length < n := by rw [← hn]; simp
      have hld : ((b :: rest).drop (decodeRune (b :: rest)).2).length < n := by
        rw [← hn]; simp only [List.length_drop, List.length_cons]; omega
      rw [quote]
      by_cases hb : b.toNat < 0x80
      · have hd : decodeRune (b :: rest) = (b.toNat, 1) := by simp [decodeRune, hb]
        obtain ⟨rs, ss, h1, h2, h3⟩ := ih _ hlr rest rfl
        refine ⟨b.toNat :: rs, quoteAscii b :: ss, ?_, .cons (harmlessly_ascii b hb) h2, ?_⟩
        · rw [if_pos hb, h1]; rfl
        · have hsc : IsScalar b.toNat := Or.inl (by omega)
          rw [clean]
          simp only [hd]
          rw [if_neg (by unfold runeError; omega), List.flatMap_cons, ← h3, ← encodeRune_utf8 _ hsc]
          unfold encodeRune
          rw [if_pos hb]
          simp
      · rw [if_neg hb, clean]
        simp only
        by_cases hv : (decodeRune (b :: rest)).1 = runeError ∧ (decodeRune (b :: rest)).2 = 1
        · rw [if_pos hv, if_pos hv]
          obtain ⟨rs, ss, h1, h2, h3⟩ := ih _ hlr rest rfl
          refine ⟨0xFFFD :: rs, [0x5C, 0x75, 0x66, 0x66, 0x66, 0x64] :: ss, by rw [h1]; rfl, .cons ?_ h2, ?_⟩
          · refine ⟨.unit (by decide) ⟨by decide, 0x66, 0x66, 0x66, 0x64, ?_, ?_, ?_, ?_, rfl⟩, by decide, by simp,
              by simp⟩ <;> exact Or.inr ⟨by decide, by decide, Or.inl (by decide)⟩
          · rw [List.flatMap_cons, ← h3]; rfl
        · rw [if_neg hv, if_neg hv]
          obtain ⟨hsc, henc⟩ := encode_decode b rest hv
          obtain ⟨rs, ss, h1, h2, h3⟩ := ih _ hld _ rfl
          have hclean : (b :: rest).take (decodeRune (b :: rest)).2 ++
              clean ((b :: rest).drop (decodeRune (b :: rest)).2) =
              ((decodeRune (b :: rest)).1 :: rs).flatMap fun r => (utf8Encode r).map UInt8.ofNat := by
            rw [List.flatMap_cons, ← h3, ← henc, encodeRune_utf8 _ hsc]
          have hge : 0x80 ≤ (decodeRune (b :: rest)).1 := by
            by_contra hlt
            have : encodeRune (decodeRune (b :: rest)).1 = [UInt8.ofNat (decodeRune (b :: rest)).1] := by
              unfold encodeRune; rw [if_pos (by omega)]
            rw [this] at henc
            obtain ⟨k, hk⟩ : ∃ k, (decodeRune (b :: rest)).2 = k + 1 := ⟨_, (Nat.succ_pred_eq_of_pos hpos).symm⟩
            rw [hk, List.take_succ_cons] at henc
            have hbe := (List.cons.inj henc).1
            rw [← hbe, toNat_ofNat_lt (by omega)] at hb
            omega
          by_cases h2028 : (decodeRune (b :: rest)).1 = 0x2028 ∨ (decodeRune (b :: rest)).1 = 0x2029
          · rw [if_pos h2028]
            refine ⟨(decodeRune (b :: rest)).1 :: rs,
              [0x5C, 0x75, 0x32, 0x30, 0x32, hexDigit ((decodeRune (b :: rest)).1 % 16)] :: ss,
              by rw [h1]; rfl, .cons ?_ h2, hclean⟩
            have hall : ∀ c, c = 0x2028 ∨ c = 0x2029 →
                Harmlessly c [0x5C, 0x75, 0x32, 0x30, 0x32, hexDigit (c % 16)] := by
              intro c hc
              refine ⟨.unit (by rcases hc with rfl | rfl <;> decide)
                ⟨by omega, 0x32, 0x30, 0x32, _, ?_, ?_, ?_, digit_hexDigit _ (by omega), rfl⟩, ?_, by simp, by simp⟩
              · rcases hc with rfl | rfl <;> exact Or.inl ⟨by decide, by decide⟩
              · rcases hc with rfl | rfl <;> exact Or.inl ⟨by decide, by decide⟩
              · rcases hc with rfl | rfl <;> exact Or.inl ⟨by decide, by decide⟩
              · rcases hc with rfl | rfl <;> decide
            exact hall _ h2028
          · rw [if_neg h2028]
            refine ⟨(decodeRune (b :: rest)).1 :: rs, (b :: rest).take (decodeRune (b :: rest)).2 :: ss,
              by rw [h1]; rfl, .cons ⟨?_, ?_, ?_, ?_⟩ h2, hclean⟩
            · rw [← henc, encodeRune_utf8 _ hsc]
              exact .raw hsc (by omega) (by omega) (by omega)
            · rw [← henc]
              exact fun x hx => harmless_high x (high_bytes _ hge x hx)
            · rw [← henc]
              intro he
              exact h2028 (Or.inl (encodeRune_sep _ hsc _ (Or.inl rfl) (he.trans (by decide))))
            · rw [← henc]
              intro he
              exact h2028 (Or.inr (encodeRune_sep _ hsc _ (Or.inr rfl) (he.trans (by decide))))

/-- **C153** In particular no byte that is written ends a line, opens a tag or starts an entity. -/
theorem C153_one_line (s : Bytes) (b : UInt8) (hb : b ∈ quote s) :
    b ≠ 0x0A ∧ b ≠ 0x0D ∧ b ≠ 0x00 ∧ b ≠ 0x3C ∧ b ≠ 0x3E ∧ b ≠ 0x26 := by
  obtain ⟨rs, ss, h1, h2, -⟩ := C153_written s
  rw [h1] at hb
  obtain ⟨l, hl, hbl⟩ := List.mem_flatten.mp hb
  have : ∀ {rs ss}, List.Forall₂ Harmlessly rs ss → ∀ l ∈ ss, ∀ b ∈ l, Harmless b := by
    intro rs ss h
    induction h with
    | nil => simp
    | cons h _ ih =>
      intro l hl b hb
      rcases List.mem_cons.mp hl with rfl | hl
      · exact h.2.1 b hb
      · exact ih l hl b hb
  obtain ⟨g1, g2, g3, g4⟩ := this h2 l hl b hbl
  refine ⟨?_, ?_, ?_, g2, g3, g4⟩ <;> rintro rfl <;> simp at g1

/-- A tag, an end of line, a quotation mark, a separator and an ill-formed byte. -/
example : quote [0x3C, 0x62, 0x3E, 0x0A, 0x22, 0xE2, 0x80, 0xA8, 0xFF, 0xC3, 0xB1] =
    "\\u003cb\\u003e\\n\\\"\\u2028\\ufffdñ".toUTF8.toList := by decide +kernel

end Quark.Wire
