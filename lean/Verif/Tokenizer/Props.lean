import Verif.Tokenizer.SpecLemmas

/-! Properties C01 and C02. -/
namespace Quark.Tokenizer

/-- The scan functions the validators use (runner/validator.go:32-41). -/
def UsedScanFunc (p : Nat → Bool) : Prop := p = isNonWhitespace ∨ p = isNumeric

theorem UsedScanFunc.good {p} (h : UsedScanFunc p) : Good p := by
  rcases h with rfl | rfl
  · exact good_nonWhitespace
  · exact good_numeric

/-- **C01** For readers that report end-of-file separately from data (`os.File`), the token
texts and the final error do not depend on how the stream is cut into reads. -/
theorem C01_tokens_independent_of_reads (p : Nat → Bool) (hp : UsedScanFunc p)
    (lim : Nat) (hlim : 4 ≤ lim) (stream : List UInt8) (reads₁ reads₂ : List ReadChoice)
    (h₁ : ∀ c ∈ reads₁, c.eofWithData = false) (h₂ : ∀ c ∈ reads₂, c.eofWithData = false) :
    outcome p lim stream reads₁ = outcome p lim stream reads₂ := by
  obtain ⟨ts, e, -, he, h3, h4⟩ :=
    tokenize_eq_ref p hp.good lim hlim false stream reads₁ (fun _ => h₁)
  obtain ⟨ts', e', -, he', h3', h4'⟩ :=
    tokenize_eq_ref p hp.good lim hlim false stream reads₂ (fun _ => h₂)
  rw [he rfl] at h3 h4
  rw [he' rfl] at h3' h4'
  simp [outcome, h3, h3', h4, h4']

/-- **C01** for arbitrary readers (end-of-file may come together with the last bytes), when no
token of the stream has exactly the limit's length. -/
theorem C01_tokens_independent_of_all_reads (p : Nat → Bool) (hp : UsedScanFunc p)
    (lim : Nat) (hlim : 4 ≤ lim) (stream : List UInt8) (reads₁ reads₂ : List ReadChoice)
    (hx : ∀ toks, IsTokenization p stream toks → ∀ t ∈ toks, t.length ≠ lim) :
    outcome p lim stream reads₁ = outcome p lim stream reads₂ := by
  obtain ⟨tk, htk⟩ := isTokenization_exists p stream
  have hr := ref_exact p lim stream tk htk (hx tk htk)
  have aux : ∀ e, e ≤ 1 → ref p lim e stream = ref p lim 0 stream := by
    intro e he
    match e, he with
    | 0, _ => rfl
    | 1, _ => exact hr
  obtain ⟨ts, e, he, -, h3, h4⟩ :=
    tokenize_eq_ref p hp.good lim hlim true stream reads₁ (by simp)
  obtain ⟨ts', e', he', -, h3', h4'⟩ :=
    tokenize_eq_ref p hp.good lim hlim true stream reads₂ (by simp)
  rw [aux e he] at h3 h4
  rw [aux e' he'] at h3' h4'
  simp [outcome, h3, h3', h4, h4']

-- Non-vacuity: three very different chunkings of a stream whose second token ends in a
-- two-byte space cut by the reads ("a\u00a0\u00e9 b"), including one byte at a time.
example : (∀ c ∈ List.replicate 9 ({ n := 1 } : ReadChoice), c.eofWithData = false) ∧
    outcome isNonWhitespace 4096 [0x61, 0xC2, 0xA0, 0xC3, 0xA9, 0x20, 0x62]
      (List.replicate 9 { n := 1 }) = some ([[0x61], [0xC3, 0xA9], [0x62]], false) := by
  decide +kernel

/-- The remaining gap of C01 is real: with the last token exactly as long as the limit, a reader
that reports end-of-file with the data yields the token, one that reports it later yields
token-too-long. -/
theorem C01_exact_length_depends_on_eof :
    outcome isNonWhitespace 4 [0x61, 0x62, 0x63, 0x64] [{ n := 4, eofWithData := true }]
      = some ([[0x61, 0x62, 0x63, 0x64]], false) ∧
    outcome isNonWhitespace 4 [0x61, 0x62, 0x63, 0x64] [{ n := 4, eofWithData := false }]
      = some ([], true) := by
  decide +kernel

/-- Token *positions* are not covered by C01: with the stream "\n\na", whether the first newline
arrives in a read of its own changes the reported line of the token (2 instead of 3). -/
theorem C01_positions_depend_on_reads :
    tokenize isNonWhitespace 4096 [0x0A, 0x0A, 0x61] []
      = some ([{ text := [0x61], line := 3, column := 1 }], false) ∧
    tokenize isNonWhitespace 4096 [0x0A, 0x0A, 0x61] [{ n := 1 }]
      = some ([{ text := [0x61], line := 2, column := 1 }], false) := by
  decide +kernel

/-- **C02** If every maximal run of token runes is at least four bytes shorter than the limit,
scanning yields exactly the maximal runs, in order, and no error — for every reader. -/
theorem C02_tokens_are_maximal_runs (p : Nat → Bool) (hp : UsedScanFunc p)
    (lim : Nat) (hlim : 4 ≤ lim) (stream : List UInt8) (reads : List ReadChoice)
    (toks : List (List UInt8)) (ht : IsTokenization p stream toks)
    (hshort : ∀ t ∈ toks, t.length + 4 ≤ lim) :
    outcome p lim stream reads = some (toks, false) := by
  obtain ⟨ts, e, he, -, h3, h4⟩ :=
    tokenize_eq_ref p hp.good lim hlim true stream reads (by simp)
  obtain ⟨more, h5, -, h7, h8⟩ := ref_spec p lim e he stream
  have hu := h5.unique ht
  rcases hb : (ref p lim e stream).2 with _ | _
  · rw [h7 hb, List.append_nil] at hu
    simp [outcome, h3, h4, hb, hu]
  · obtain ⟨t, more', h9, h10⟩ := h8 hb
    have := hshort t (by rw [← hu, h9]; simp)
    omega

/-- **C02**, over-long tokens: whatever the stream, the tokens returned are a prefix of the
maximal runs; they are all of them when no error is reported; an error is only reported when the
next run is within three bytes of the limit or beyond; and no token longer than the limit is
ever returned. -/
theorem C02_tokens_are_prefix_of_runs (p : Nat → Bool) (hp : UsedScanFunc p)
    (lim : Nat) (hlim : 4 ≤ lim) (stream : List UInt8) (reads : List ReadChoice) :
    ∃ toks tooLong more, outcome p lim stream reads = some (toks, tooLong) ∧
      IsTokenization p stream (toks ++ more) ∧
      (∀ t ∈ toks, t.length ≤ lim) ∧
      (tooLong = false → more = []) ∧
      (tooLong = true → ∃ t rest, more = t :: rest ∧ lim < t.length + 4) := by
  obtain ⟨ts, e, he, -, h3, h4⟩ :=
    tokenize_eq_ref p hp.good lim hlim true stream reads (by simp)
  obtain ⟨more, h5, h6, h7, h8⟩ := ref_spec p lim e he stream
  refine ⟨_, _, more, by simp [outcome, h3, h4], h5, ?_, h7, h8⟩
  intro t ht
  have := h6 t ht
  omega

/-- **C02** The token runes, spelled out: '.', '-' and the ASCII digits for numeric comparison; for
the others everything but Unicode white space and the four ASCII separators 0x1C-0x1F. -/
theorem C02_token_runes (r : Nat) :
    (isNumeric r = true ↔ r = '.'.toNat ∨ r = '-'.toNat ∨ ('0'.toNat ≤ r ∧ r ≤ '9'.toNat)) ∧
    (isNonWhitespace r = false ↔ r ∈ [0x09, 0x0A, 0x0B, 0x0C, 0x0D, 0x1C, 0x1D, 0x1E, 0x1F, 0x20,
      0x85, 0xA0, 0x1680, 0x2000, 0x2001, 0x2002, 0x2003, 0x2004, 0x2005, 0x2006, 0x2007, 0x2008,
      0x2009, 0x200A, 0x2028, 0x2029, 0x202F, 0x205F, 0x3000]) := by
  constructor
  · have h1 : '.'.toNat = 0x2e := rfl
    have h2 : '-'.toNat = 0x2d := rfl
    have h3 : '0'.toNat = 0x30 := rfl
    have h4 : '9'.toNat = 0x39 := rfl
    simp only [h1, h2, h3, h4, isNumeric, Bool.or_eq_true, Bool.and_eq_true, beq_iff_eq,
      decide_eq_true_eq]
    omega
  · simp only [isNonWhitespace, isSpace, List.mem_cons, List.not_mem_nil, or_false,
      Bool.and_eq_false_iff, Bool.not_eq_false', Bool.or_eq_true, Bool.and_eq_true, beq_iff_eq,
      decide_eq_true_eq]
    omega

/-- UTF-8 encoding (RFC 3629). -/
def utf8Encode (c : Nat) : List Nat :=
  if c < 0x80 then [c]
  else if c < 0x800 then [0xC0 + c / 64, 0x80 + c % 64]
  else if c < 0x10000 then [0xE0 + c / 4096, 0x80 + c / 64 % 64, 0x80 + c % 64]
  else [0xF0 + c / 262144, 0x80 + c / 4096 % 64, 0x80 + c / 64 % 64, 0x80 + c % 64]

theorem decode_two (b0 b1 : UInt8) (rest : List UInt8) (h0 : ¬ b0.toNat < 0x80) (h : seqLen b0 = 2)
    (h1 : acceptLo b0 ≤ b1.toNat ∧ b1.toNat ≤ acceptHi b0) :
    decodeRune (b0 :: b1 :: rest) = (b0.toNat % 32 * 64 + b1.toNat % 64, 2) := by
  simp [decodeRune, if_neg h0, h, inRange, h1]

theorem decode_three (b0 b1 b2 : UInt8) (rest : List UInt8) (h0 : ¬ b0.toNat < 0x80)
    (h : seqLen b0 = 3) (h1 : acceptLo b0 ≤ b1.toNat ∧ b1.toNat ≤ acceptHi b0)
    (h2 : 0x80 ≤ b2.toNat ∧ b2.toNat ≤ 0xBF) :
    decodeRune (b0 :: b1 :: b2 :: rest)
      = (b0.toNat % 16 * 4096 + b1.toNat % 64 * 64 + b2.toNat % 64, 3) := by
  simp [decodeRune, if_neg h0, h, inRange, h1, h2]

theorem decode_four (b0 b1 b2 b3 : UInt8) (rest : List UInt8) (h0 : ¬ b0.toNat < 0x80)
    (h : seqLen b0 = 4) (h1 : acceptLo b0 ≤ b1.toNat ∧ b1.toNat ≤ acceptHi b0)
    (h2 : 0x80 ≤ b2.toNat ∧ b2.toNat ≤ 0xBF) (h3 : 0x80 ≤ b3.toNat ∧ b3.toNat ≤ 0xBF) :
    decodeRune (b0 :: b1 :: b2 :: b3 :: rest) = (b0.toNat % 8 * 262144 + b1.toNat % 64 * 4096
      + b2.toNat % 64 * 64 + b3.toNat % 64, 4) := by
  simp [decodeRune, if_neg h0, h, inRange, h1, h2, h3]

/-- **C02** Decoding is UTF-8: a Unicode scalar value encoded as UTF-8 is read back, whatever
follows it. -/
theorem C02_decode_utf8 (c : Nat) (h : c < 0xD800 ∨ (0xE000 ≤ c ∧ c < 0x110000)) (rest : List UInt8) :
    decodeRune ((utf8Encode c).map UInt8.ofNat ++ rest) = (c, (utf8Encode c).length) := by
  have t : ∀ n, n < 256 → (UInt8.ofNat n).toNat = n := by
    intro n hn; simp [UInt8.toNat_ofNat, Nat.mod_eq_of_lt hn]
  have sl : ∀ n, n < 256 → seqLen (UInt8.ofNat n)
      = if 0xC2 ≤ n ∧ n ≤ 0xDF then 2 else if 0xE0 ≤ n ∧ n ≤ 0xEF then 3
        else if 0xF0 ≤ n ∧ n ≤ 0xF4 then 4 else 1 := by
    intro n hn; simp only [seqLen, inRange, t n hn, Bool.and_eq_true, decide_eq_true_eq]
  unfold utf8Encode
  split
  · simp only [List.map_cons, List.map_nil, List.cons_append, decodeRune]
    rw [t c (by omega)]
    rw [if_pos (by omega)]; rfl
  · split
    · have a0 := t (0xC0 + c / 64) (by omega)
      have a1 := t (0x80 + c % 64) (by omega)
      simp only [List.map_cons, List.map_nil, List.cons_append, List.nil_append]
      rw [decode_two, a0, a1]
      · refine Prod.ext ?_ rfl
        simp only
        omega
      · omega
      · rw [sl _ (by omega), if_pos (by omega)]
      · unfold acceptLo acceptHi
        rw [a0, a1]
        (repeat' split) <;> omega
    · split
      · have a0 := t (0xE0 + c / 4096) (by omega)
        have a1 := t (0x80 + c / 64 % 64) (by omega)
        have a2 := t (0x80 + c % 64) (by omega)
        simp only [List.map_cons, List.map_nil, List.cons_append, List.nil_append]
        rw [decode_three, a0, a1, a2]
        · refine Prod.ext ?_ rfl
          simp only
          omega
        · omega
        · rw [sl _ (by omega), if_neg (by omega), if_pos (by omega)]
        · unfold acceptLo acceptHi
          rw [a0, a1]
          (repeat' split) <;> omega
        · omega
      · have a0 := t (0xF0 + c / 262144) (by omega)
        have a1 := t (0x80 + c / 4096 % 64) (by omega)
        have a2 := t (0x80 + c / 64 % 64) (by omega)
        have a3 := t (0x80 + c % 64) (by omega)
        simp only [List.map_cons, List.map_nil, List.cons_append, List.nil_append]
        rw [decode_four, a0, a1, a2, a3]
        · refine Prod.ext ?_ rfl
          simp only
          omega
        · omega
        · rw [sl _ (by omega), if_neg (by omega), if_neg (by omega), if_pos (by omega)]
        · unfold acceptLo acceptHi
          rw [a0, a1]
          (repeat' split) <;> omega
        · omega
        · omega

-- a euro sign
example : decodeRune [0xE2, 0x82, 0xAC, 0x20] = (0x20AC, 3) := by decide

/-- **C02** Every stream has exactly one decomposition into maximal runs. -/
theorem C02_runs_unique (p : Nat → Bool) (stream : List UInt8) :
    ∃ toks, IsTokenization p stream toks ∧ ∀ toks', IsTokenization p stream toks' → toks' = toks := by
  obtain ⟨ts, h⟩ := isTokenization_exists p stream
  exact ⟨ts, h, fun _ h' => h'.unique h⟩

-- Non-vacuity: the numeric scan function on "x1.5,-2\u00e9 3" has three runs.
example : outcome isNumeric 4096 [0x78, 0x31, 0x2e, 0x35, 0x2c, 0x2d, 0x32, 0xC3, 0xA9, 0x20, 0x33]
    [{ n := 8 }] = some ([[0x31, 0x2e, 0x35], [0x2d, 0x32], [0x33]], false) := by
  decide +kernel

example : IsTokenization isNumeric [0x78, 0x31, 0x2e, 0x20] [[0x31, 0x2e]] := by
  refine ⟨[[(0x31, [0x31]), (0x2e, [0x2e])]], ?_, rfl⟩
  have h : runesOf [0x78, 0x31, 0x2e, 0x20]
      = [(0x78, [0x78])] ++ [(0x31, [0x31]), (0x2e, [0x2e])] ++ [(0x20, [0x20])] := by
    decide +kernel
  rw [h]
  exact .run _ _ _ _ (by decide) (by decide) (by decide) (by decide) (.done _ (by decide))

/-- **C02** The limit of the code: with all runs up to 4 MiB less four bytes every token is returned; and scanning ends, with
an error, before a run of more than 4 MiB. -/
theorem C02_four_mebibytes (p : Nat → Bool) (hp : UsedScanFunc p) (stream : List UInt8) (reads : List ReadChoice)
    (toks : List (List UInt8)) (ht : IsTokenization p stream toks) :
    ((∀ t ∈ toks, t.length ≤ 4194300) → outcome p maxTokenLength stream reads = some (toks, false)) ∧
    ((∃ t ∈ toks, 4194304 < t.length) → ∃ some', outcome p maxTokenLength stream reads = some (some', true) ∧
      some'.length < toks.length) := by
  constructor
  · intro h
    exact C02_tokens_are_maximal_runs p hp _ (by decide) stream reads toks ht
      (fun t htm => Nat.le_trans (Nat.add_le_add_right (h t htm) 4) (by decide))
  · rintro ⟨t, htm, hlt⟩
    obtain ⟨ts, tl, more, h1, h2, h3, h4, h5⟩ :=
      C02_tokens_are_prefix_of_runs p hp maxTokenLength (by decide) stream reads
    have e := h2.unique ht
    cases tl with
    | false =>
      rw [h4 rfl, List.append_nil] at e
      exact absurd (h3 t (e ▸ htm)) (Nat.not_le.mpr hlt)
    | true =>
      obtain ⟨u, rest, hm, -⟩ := h5 rfl
      exact ⟨ts, h1, by rw [← e, hm]; simp⟩

end Quark.Tokenizer
