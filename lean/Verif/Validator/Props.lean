import Verif.Validator.Model
import Verif.Tokenizer.Props
import Verif.Float.Props

/-! Properties C03, C04, C05 and C08. -/
namespace Quark.Validator
open Quark.Tokenizer

/-! ### Specification vocabulary -/

/-- The three token validators. -/
inductive TokenValidator where
  | token
  | caseless
  | numeric (tolerance : Option ℚ)

def TokenValidator.settings : TokenValidator → Settings
  | .token => ⟨"token", none⟩
  | .caseless => ⟨"token-caseless", none⟩
  | .numeric t => ⟨"token-numeric", t⟩

/-- What each validator takes as the tokens of an output. -/
def TokenValidator.tokenRune : TokenValidator → Nat → Bool
  | .token => isNonWhitespace
  | .caseless => isNonWhitespace
  | .numeric _ => isNumeric

/-- The float64 next to a millionth. -/
def millionth : ℚ := 4722366482869645 / 4722366482869645213696

/-- When two tokens count as equal. A numeric validator without a tolerance uses a millionth. -/
def TokenValidator.Agree (env : Env) : TokenValidator → List UInt8 → List UInt8 → Prop
  | .token, a, b => a = b
  | .caseless, a, b =>
      (runesOf a).map (fun r => env.foldRep r.1) = (runesOf b).map (fun r => env.foldRep r.1)
  | .numeric t, a, b => Float.tokenNumericEquals a b (t.getD millionth) = true

/-- Position `i` is the first where the two token sequences differ. -/
def FirstDifference (env : Env) (v : TokenValidator) (te tc : List (List UInt8)) (i : Nat) : Prop :=
  (∀ j < i, ∃ a b, te[j]? = some a ∧ tc[j]? = some b ∧ v.Agree env a b) ∧
  ((∃ a b, te[i]? = some a ∧ tc[i]? = some b ∧ ¬ v.Agree env a b) ∨
   (∃ a, te[i]? = some a ∧ tc[i]? = none) ∨ (∃ b, te[i]? = none ∧ tc[i]? = some b))

/-- The stream's tokens fit the tokenizer's buffer. -/
def Fits (p : Nat → Bool) (lim : Nat) (stream : List UInt8) (toks : List (List UInt8)) : Prop :=
  IsTokenization p stream toks ∧ ∀ t ∈ toks, t.length + 4 ≤ lim

/-! ### Helper lemmas -/

theorem defaultTolerance_eq : defaultTolerance = millionth := by
  unfold defaultTolerance millionth
  decide +kernel

/-- `millionth` is within 2⁻⁷³ of a millionth: half the distance of neighbouring float64 numbers there. -/
example : |millionth - 1 / 10 ^ 6| ≤ 1 / 2 ^ 73 := by
  unfold millionth
  rw [abs_le]
  constructor <;> norm_num

theorem foldEqualRunes_iff (rep : Nat → Nat) (a b : List Nat) :
    foldEqualRunes rep a b = true ↔ a.map rep = b.map rep := by
  induction a generalizing b with
  | nil => cases b <;> simp [foldEqualRunes]
  | cons x a ih => cases b <;> simp [foldEqualRunes, ih]

theorem compare_iff (env : Env) (v : TokenValidator) (a b : List UInt8) :
    ∃ c, compare env v.settings a b = some c ∧ (c = true ↔ v.Agree env a b) := by
  match v with
  | .token => exact ⟨decide (a = b), by simp [compare, TokenValidator.settings], by
      simp [TokenValidator.Agree]⟩
  | .caseless => exact ⟨tokenCaselessEquals env a b, by simp [compare, TokenValidator.settings], by
      simp [TokenValidator.Agree, tokenCaselessEquals, foldEqualRunes_iff, Function.comp_def]⟩
  | .numeric t => exact ⟨Float.tokenNumericEquals a b (t.getD defaultTolerance), by simp [compare, TokenValidator.settings], by
      simp [TokenValidator.Agree, defaultTolerance_eq]⟩

theorem scanFunc_settings (v : TokenValidator) : scanFunc v.settings = v.tokenRune := by
  match v with
  | .token => rfl
  | .caseless => rfl
  | .numeric _ => rfl

theorem scanFunc_used (s : Settings) : UsedScanFunc (scanFunc s) := by
  unfold scanFunc; split
  · exact Or.inr rfl
  · exact Or.inl rfl

theorem tokenize_total (s : Settings) (lim : Nat) (hl : 4 ≤ lim) (st : List UInt8)
    (r : List ReadChoice) : ∃ ts e, tokenize (scanFunc s) lim st r = some (ts, e) := by
  obtain ⟨ts, e, -, -, h, -⟩ :=
    tokenize_eq_ref (scanFunc s) (scanFunc_used s).good lim hl true st r (by simp)
  exact ⟨ts, _, h⟩

theorem compareLoop_score (env : Env) (s : Settings) (eErr cErr : Bool) (te tc : List Token) :
    let r := compareLoop env s eErr cErr te tc
    (r.score = 0 ∨ r.score = 1) ∧ (r.err ≠ none → r.score = 0) := by
  induction te generalizing tc with
  | nil => cases tc <;> simp only [compareLoop] <;> (repeat' split) <;> simp
  | cons e te ih =>
    cases tc with
    | nil => simp only [compareLoop]; split <;> simp
    | cons c tc =>
      simp only [compareLoop]
      split
      · simp
      · exact ih tc
      · simp

theorem ratClamp_range (v : ℚ) : 0 ≤ ratClamp v 0 1 ∧ ratClamp v 0 1 ≤ 1 := by
  unfold ratClamp
  split
  · simp
  · split
    · simp
    · constructor <;> linarith

/-! ### C03 -/

/-- **C03** Whatever the validator, the outputs and the readers, `CalculateScore` returns, the
score is in [0,1], an error return carries score 0, and every validator other than `literal` and
`custom` only gives 0 or 1. -/
theorem C03_score_range (env : Env) (s : Settings) (expected contestant : List UInt8)
    (readsE readsC : List ReadChoice) (lim : Nat) (hl : 4 ≤ lim) :
    ∃ r, calculateScore env s expected contestant readsE readsC lim = some r ∧
      0 ≤ r.score ∧ r.score ≤ 1 ∧ (r.err ≠ none → r.score = 0) ∧
      (s.name ≠ "literal" → s.name ≠ "custom" → r.score = 0 ∨ r.score = 1) := by
  obtain ⟨tc, ce, hc⟩ := tokenize_total s lim hl contestant readsC
  obtain ⟨te, ee, he⟩ := tokenize_total s lim hl expected readsE
  unfold calculateScore
  rw [hc]
  simp only
  split
  · rename_i hn
    have hh : (s.name ≠ "literal" → s.name ≠ "custom" → False) := by tauto
    match tc with
    | [] => exact ⟨_, rfl, by simp⟩
    | t :: _ =>
      simp only
      match env.parseRational t.text with
      | none => exact ⟨_, rfl, by simp⟩
      | some v =>
        have := ratClamp_range v
        exact ⟨_, rfl, this.1, this.2, by simp, fun h1 h2 => (hh h1 h2).elim⟩
  · rw [he]
    simp only
    obtain ⟨h1, h2⟩ := compareLoop_score env s ee ce te tc
    refine ⟨_, rfl, ?_, ?_, h2, fun _ _ => h1⟩ <;> rcases h1 with h | h <;> rw [h] <;> norm_num

example : (4 : Nat) ≤ maxTokenLength := by decide

/-- **C03** A `literal` or `custom` validator's score is the number in the first token of the
validator's output, clamped to [0,1]; later tokens are ignored. -/
theorem C03_literal_score (env : Env) (s : Settings) (expected contestant : List UInt8)
    (readsE readsC : List ReadChoice) (lim : Nat) (hl : 4 ≤ lim) (t : List UInt8)
    (ts : List (List UInt8)) (hn : s.name = "literal" ∨ s.name = "custom")
    (hc : Fits isNonWhitespace lim contestant (t :: ts)) (q : ℚ) (hq : env.parseRational t = some q) :
    calculateScore env s expected contestant readsE readsC lim
      = some ⟨max 0 (min q 1), none, none⟩ := by
  have hs : scanFunc s = isNonWhitespace := by
    unfold scanFunc
    rw [if_neg]
    rcases hn with h | h <;> rw [h] <;> decide
  have := C02_tokens_are_maximal_runs isNonWhitespace (Or.inl rfl) lim hl contestant readsC
    (t :: ts) hc.1 hc.2
  unfold outcome at this
  rw [Option.map_eq_some_iff] at this
  obtain ⟨⟨tt, b⟩, h1, h2⟩ := this
  simp only [Prod.mk.injEq] at h2
  unfold calculateScore
  rw [hs, h1]
  match tt, h2.1 with
  | t' :: ts', h =>
    simp only [List.map_cons, List.cons.injEq] at h
    have hr : ratClamp q 0 1 = max 0 (min q 1) := by
      unfold ratClamp
      split
      · rename_i h
        rw [max_eq_left]
        exact (min_le_left _ _).trans h
      · split
        · rename_i _ h
          rw [min_eq_right h]; norm_num
        · rename_i h1 h2
          rw [min_eq_left (by linarith), max_eq_right (by linarith)]
    simp only [if_pos hn, h.1, hq, hr]

-- a validator that prints "7 x" gives 1; one that prints nothing gives 0 and an error
example :
    calculateScore ⟨id, fun _ => some 7⟩ ⟨"custom", none⟩ [] [0x37, 0x20, 0x78] [] [{ n := 1 }] 4096
      = some ⟨1, none, none⟩ ∧
    calculateScore ⟨id, fun _ => some 7⟩ ⟨"custom", none⟩ [] [0x20] [] [{ n := 1 }] 4096
      = some ⟨0, none, some .unexpectedEOF⟩ := by
  decide +kernel

/-! ### C04 -/

theorem compareLoop_spec (env : Env) (v : TokenValidator) (te tc : List Token) :
    (compareLoop env v.settings false false te tc = ⟨1, none, none⟩ ∧
      List.Forall₂ (v.Agree env) (te.map Token.text) (tc.map Token.text)) ∨
    (∃ m i, compareLoop env v.settings false false te tc = ⟨0, some m, none⟩ ∧
      m.expected = te[i]? ∧ m.contestant = tc[i]? ∧
      FirstDifference env v (te.map Token.text) (tc.map Token.text) i) := by
  induction te generalizing tc with
  | nil =>
    cases tc with
    | nil => left; simp [compareLoop]
    | cons c tc =>
      right
      exact ⟨_, 0, rfl, by simp, by simp, by intro j hj; omega, Or.inr (Or.inr ⟨c.text, by simp⟩)⟩
  | cons e te ih =>
    cases tc with
    | nil =>
      right
      exact ⟨_, 0, rfl, by simp, by simp, by intro j hj; omega,
        Or.inr (Or.inl ⟨e.text, by simp⟩)⟩
    | cons c tc =>
      obtain ⟨b, hb, hiff⟩ := compare_iff env v e.text c.text
      simp only [compareLoop, hb]
      match b with
      | true =>
        have hag := hiff.mp rfl
        rcases ih tc with ⟨h1, h2⟩ | ⟨m, i, h1, h2, h3, h4, h5⟩
        · left
          exact ⟨h1, List.Forall₂.cons hag h2⟩
        · right
          refine ⟨m, i + 1, h1, by simpa using h2, by simpa using h3, ?_, by simpa using h5⟩
          intro j hj
          match j with
          | 0 => exact ⟨e.text, c.text, by simp, by simp, hag⟩
          | j + 1 => simpa using h4 j (by omega)
      | false =>
        right
        refine ⟨_, 0, rfl, by simp, by simp, by intro j hj; omega, Or.inl ⟨e.text, c.text, by simp,
          by simp, fun h => ?_⟩⟩
        exact absurd (hiff.mpr h) (by simp)

theorem calculateScore_token (env : Env) (v : TokenValidator) (expected contestant : List UInt8)
    (readsE readsC : List ReadChoice) (lim : Nat) (hl : 4 ≤ lim) (te tc : List (List UInt8))
    (he : Fits v.tokenRune lim expected te) (hc : Fits v.tokenRune lim contestant tc) :
    ∃ te' tc' : List Token, te'.map Token.text = te ∧ tc'.map Token.text = tc ∧
      calculateScore env v.settings expected contestant readsE readsC lim
        = some (compareLoop env v.settings false false te' tc') := by
  have aux : ∀ st toks reads, Fits v.tokenRune lim st toks →
      ∃ ts, tokenize (scanFunc v.settings) lim st reads = some (ts, false) ∧
        ts.map Token.text = toks := by
    intro st toks reads h
    rw [scanFunc_settings]
    have := C02_tokens_are_maximal_runs v.tokenRune
      (by rw [← scanFunc_settings]; exact scanFunc_used _) lim hl st reads toks h.1 h.2
    unfold outcome at this
    rw [Option.map_eq_some_iff] at this
    obtain ⟨⟨ts, b⟩, h1, h2⟩ := this
    simp only [Prod.mk.injEq] at h2
    exact ⟨ts, by rw [h1, h2.2], h2.1⟩
  obtain ⟨te', h1, h2⟩ := aux expected te readsE he
  obtain ⟨tc', h3, h4⟩ := aux contestant tc readsC hc
  refine ⟨te', tc', h2, h4, ?_⟩
  unfold calculateScore
  rw [h3]
  simp only
  rw [if_neg, h1]
  match v with
  | .token => simp [TokenValidator.settings]
  | .caseless => simp [TokenValidator.settings]
  | .numeric _ => simp [TokenValidator.settings]

/-- **C04** With outputs whose tokens fit, no error occurs, and either the score is 1, there is no
mismatch and the token sequences agree position by position, or the score is 0, and the reported
mismatch is the first position where they differ, with a missing token on a side that ended. -/
theorem C04_accept_iff_agree (env : Env) (v : TokenValidator) (expected contestant : List UInt8)
    (readsE readsC : List ReadChoice) (lim : Nat) (hl : 4 ≤ lim) (te tc : List (List UInt8))
    (he : Fits v.tokenRune lim expected te) (hc : Fits v.tokenRune lim contestant tc) :
    ∃ r, calculateScore env v.settings expected contestant readsE readsC lim = some r ∧
      r.err = none ∧
      (r.score = 1 ↔ List.Forall₂ (v.Agree env) te tc) ∧
      (r.score = 1 → r.mismatch = none) ∧
      (r.score ≠ 1 → r.score = 0 ∧ ∃ m i, r.mismatch = some m ∧
        m.expected.map Token.text = te[i]? ∧ m.contestant.map Token.text = tc[i]? ∧
        FirstDifference env v te tc i) := by
  obtain ⟨te', tc', rfl, rfl, h⟩ :=
    calculateScore_token env v expected contestant readsE readsC lim hl te tc he hc
  refine ⟨_, h, ?_⟩
  rcases compareLoop_spec env v te' tc' with ⟨h1, h2⟩ | ⟨m, i, h1, h2, h3, h4⟩
  · rw [h1]; simp [h2]
  · rw [h1]
    refine ⟨rfl, ?_, by simp, fun _ => ⟨rfl, m, i, rfl, by rw [h2]; simp, by rw [h3]; simp, h4⟩⟩
    simp only [zero_ne_one, false_iff]
    intro hf
    obtain ⟨-, hd⟩ := h4
    have hlen := hf.length_eq
    rcases hd with ⟨a, b, ha, hb, hn⟩ | ⟨a, ha, hb⟩ | ⟨b, ha, hb⟩
    · apply hn
      rw [List.getElem?_eq_some_iff] at ha hb
      obtain ⟨ha1, rfl⟩ := ha
      obtain ⟨hb1, rfl⟩ := hb
      exact hf.get (i := i) ha1 hb1
    · rw [List.getElem?_eq_some_iff] at ha
      rw [List.getElem?_eq_none_iff] at hb
      obtain ⟨ha1, -⟩ := ha
      omega
    · rw [List.getElem?_eq_none_iff] at ha
      rw [List.getElem?_eq_some_iff] at hb
      obtain ⟨hb1, -⟩ := hb
      omega

/-- Lower-casing of ASCII as a sample fold table, and a parser that accepts nothing. -/
def sampleEnv : Env :=
  { foldRep := fun r => if 0x41 ≤ r ∧ r ≤ 0x5A then r + 32 else r, parseRational := fun _ => none }

-- "Ab\nc" against "aB C": equal for the caseless validator, a mismatch at token 0 for the plain one.
example :
    (calculateScore sampleEnv TokenValidator.caseless.settings [0x41, 0x62, 0x0A, 0x63]
      [0x61, 0x42, 0x20, 0x43] [] [{ n := 1 }] 4096).map Result.score = some 1 ∧
    (calculateScore sampleEnv TokenValidator.token.settings [0x41, 0x62, 0x0A, 0x63]
      [0x61, 0x42, 0x20, 0x43] [] [{ n := 1 }] 4096).map Result.score = some 0 := by
  decide +kernel

example : Fits isNumeric 4096 [0x78, 0x31, 0x2e, 0x20] [[0x31, 0x2e]] := by
  refine ⟨⟨[[(0x31, [0x31]), (0x2e, [0x2e])]], ?_, rfl⟩, by decide⟩
  have h : runesOf [0x78, 0x31, 0x2e, 0x20]
      = [(0x78, [0x78])] ++ [(0x31, [0x31]), (0x2e, [0x2e])] ++ [(0x20, [0x20])] := by
    decide +kernel
  rw [h]
  exact .run _ _ _ _ (by decide) (by decide) (by decide) (by decide) (.done _ (by decide))

/-! ### C05 -/

/-- What a caller sees of a result, apart from token positions (which C01 shows to depend on the
reads): score, error, and the texts of the mismatched tokens. -/
def visible (r : Result) : ℚ × Option Err × Option (Option (List UInt8) × Option (List UInt8)) :=
  (r.score, r.err, r.mismatch.map fun m => (m.expected.map Token.text, m.contestant.map Token.text))

theorem compareLoop_visible (env : Env) (s : Settings) (eErr cErr : Bool)
    (te te' tc tc' : List Token) (he : te.map Token.text = te'.map Token.text)
    (hc : tc.map Token.text = tc'.map Token.text) :
    visible (compareLoop env s eErr cErr te tc) = visible (compareLoop env s eErr cErr te' tc') := by
  induction te generalizing tc te' tc' with
  | nil =>
    match te', he with
    | [], _ =>
      match tc, tc', hc with
      | [], [], _ => rfl
      | c :: _, c' :: _, hc =>
        simp only [List.map_cons, List.cons.injEq] at hc
        simp only [compareLoop]
        split <;> simp [visible, hc.1]
  | cons e te ih =>
    match te', he with
    | e' :: te', he =>
      simp only [List.map_cons, List.cons.injEq] at he
      match tc, tc', hc with
      | [], [], _ =>
        simp only [compareLoop]
        split <;> simp [visible, he.1]
      | c :: tc, c' :: tc', hc =>
        simp only [List.map_cons, List.cons.injEq] at hc
        simp only [compareLoop, he.1, hc.1]
        split
        · rfl
        · exact ih te' tc tc' he.2 hc.2
        · simp [visible, he.1, hc.1]

/-- **C05** Outputs with the same token sequence get the same score, error and mismatched texts
against any expected output, whatever the whitespace layout and the readers. -/
theorem C05_layout_irrelevant (env : Env) (v : TokenValidator)
    (expected contestant contestant' : List UInt8)
    (readsE readsE' readsC readsC' : List ReadChoice) (lim : Nat) (hl : 4 ≤ lim)
    (te tc : List (List UInt8)) (he : Fits v.tokenRune lim expected te)
    (hc : Fits v.tokenRune lim contestant tc) (hc' : Fits v.tokenRune lim contestant' tc) :
    (calculateScore env v.settings expected contestant readsE readsC lim).map visible =
    (calculateScore env v.settings expected contestant' readsE' readsC' lim).map visible := by
  obtain ⟨te1, tc1, h1, h2, h3⟩ :=
    calculateScore_token env v expected contestant readsE readsC lim hl te tc he hc
  obtain ⟨te2, tc2, h4, h5, h6⟩ :=
    calculateScore_token env v expected contestant' readsE' readsC' lim hl te tc he hc'
  rw [h3, h6]
  simp only [Option.map_some, Option.some.injEq]
  exact compareLoop_visible env v.settings false false te1 te2 tc1 tc2 (h1.trans h4.symm)
    (h2.trans h5.symm)

theorem Agree_refl (env : Env) (v : TokenValidator) (a : List UInt8) : v.Agree env a a := by
  match v with
  | .token => rfl
  | .caseless => rfl
  | .numeric t => exact Float.C06_reflexive a _

theorem Agree_symm (env : Env) (v : TokenValidator) {a b : List UInt8} (h : v.Agree env a b) :
    v.Agree env b a := by
  match v, h with
  | .token, h => exact Eq.symm h
  | .caseless, h => exact Eq.symm h
  | .numeric t, h => exact (Float.C06_symmetric b a _).trans h

/-- **C05** Every output scores 1 against itself. -/
theorem C05_self_score (env : Env) (v : TokenValidator) (output : List UInt8)
    (readsE readsC : List ReadChoice) (lim : Nat) (hl : 4 ≤ lim) (toks : List (List UInt8))
    (h : Fits v.tokenRune lim output toks) :
    (calculateScore env v.settings output output readsE readsC lim).map Result.score = some 1 := by
  obtain ⟨r, h1, -, h2, -, -⟩ :=
    C04_accept_iff_agree env v output output readsE readsC lim hl toks toks h h
  rw [h1]
  simp only [Option.map_some, Option.some.injEq]
  rw [h2, List.forall₂_same]
  exact fun x _ => Agree_refl env v x

theorem compareLoop_symm (env : Env) (v : TokenValidator) (eErr cErr : Bool) (te tc : List Token) :
    (compareLoop env v.settings eErr cErr te tc).score
      = (compareLoop env v.settings cErr eErr tc te).score := by
  induction te generalizing tc with
  | nil =>
    cases tc with
    | nil => simp only [compareLoop]; cases eErr <;> cases cErr <;> rfl
    | cons c tc => simp only [compareLoop]; split <;> rfl
  | cons e te ih =>
    cases tc with
    | nil => simp only [compareLoop]; split <;> rfl
    | cons c tc =>
      obtain ⟨b, hb, hiff⟩ := compare_iff env v e.text c.text
      obtain ⟨b', hb', hiff'⟩ := compare_iff env v c.text e.text
      have : b = b' := by
        rw [Bool.eq_iff_iff, hiff, hiff']
        exact ⟨Agree_symm env v, Agree_symm env v⟩
      subst this
      simp only [compareLoop, hb, hb']
      cases b
      · rfl
      · exact ih tc

/-- **C05** Swapping expected and contestant output never changes the score of a token validator
(no assumption on the outputs, token-too-long included). -/
theorem C05_symmetric (env : Env) (v : TokenValidator) (x y : List UInt8)
    (readsX readsY : List ReadChoice) (lim : Nat) (hl : 4 ≤ lim) :
    (calculateScore env v.settings x y readsX readsY lim).map Result.score =
    (calculateScore env v.settings y x readsY readsX lim).map Result.score := by
  obtain ⟨tx, ex, hx⟩ := tokenize_total v.settings lim hl x readsX
  obtain ⟨ty, ey, hy⟩ := tokenize_total v.settings lim hl y readsY
  have hn : ¬ (v.settings.name = "literal" ∨ v.settings.name = "custom") := by
    match v with
    | .token => simp [TokenValidator.settings]
    | .caseless => simp [TokenValidator.settings]
    | .numeric _ => simp [TokenValidator.settings]
  unfold calculateScore
  rw [hx, hy]
  simp only [if_neg hn, Option.map_some, Option.some.injEq]
  exact compareLoop_symm env v ex ey tx ty

/-! ### C08 -/

/-- **C08 (partial)** An unknown validator name is reported as an error with score 0 as soon as
both outputs have a first token that fits the buffer. Missing: the case of an output without
tokens, where the claim is false, see below. -/
theorem C08_unknown_validator_partial (env : Env) (s : Settings) (expected contestant : List UInt8)
    (readsE readsC : List ReadChoice) (lim : Nat) (hl : 4 ≤ lim) (te tc : List (List UInt8))
    (hname : s.name ∉ ["token", "token-caseless", "token-numeric", "literal", "custom"])
    (he : Fits (scanFunc s) lim expected te) (hc : Fits (scanFunc s) lim contestant tc)
    (hte : te ≠ []) (htc : tc ≠ []) :
    calculateScore env s expected contestant readsE readsC lim
      = some ⟨0, none, some .unknownValidator⟩ := by
  simp only [List.mem_cons, List.not_mem_nil, or_false, not_or] at hname
  have aux : ∀ st toks reads, Fits (scanFunc s) lim st toks → toks ≠ [] →
      ∃ t ts, tokenize (scanFunc s) lim st reads = some (t :: ts, false) := by
    intro st toks reads h hne
    have := C02_tokens_are_maximal_runs (scanFunc s) (scanFunc_used s) lim hl st reads toks h.1 h.2
    unfold outcome at this
    rw [Option.map_eq_some_iff] at this
    obtain ⟨⟨ts, b⟩, h1, h2⟩ := this
    simp only [Prod.mk.injEq] at h2
    match ts, h1, h2 with
    | [], _, h2 => exact absurd h2.1.symm hne
    | t :: ts, h1, h2 => exact ⟨t, ts, by rw [h1, h2.2]⟩
  obtain ⟨e, es, h1⟩ := aux expected te readsE he hte
  obtain ⟨c, cs, h2⟩ := aux contestant tc readsC hc htc
  unfold calculateScore
  rw [h2]
  simp only
  rw [if_neg (by tauto), h1]
  simp [compareLoop, compare, hname]

/-- C08 is false for empty outputs: an unknown validator gives them full score and no error. -/
theorem C08_empty_outputs_accepted :
    calculateScore sampleEnv ⟨"no-such-validator", none⟩ [0x20] [] [] [] 4096
      = some ⟨1, none, none⟩ := by
  decide +kernel

/-- The hypotheses of C08 hold of two one-token outputs. -/
example : calculateScore sampleEnv ⟨"no-such-validator", none⟩ [0x61] [0x61] [] [{ n := 1 }] 4096
    = some ⟨0, none, some .unknownValidator⟩ := by
  have h : Fits (scanFunc ⟨"no-such-validator", none⟩) 4096 [0x61] [[0x61]] := by
    refine ⟨⟨[[(0x61, [0x61])]], ?_, rfl⟩, by decide⟩
    have h : runesOf [0x61] = [] ++ [(0x61, [0x61])] ++ [] := by decide +kernel
    rw [h]
    exact .run _ _ _ _ (by decide) (by decide) (by decide) (by decide) (.done _ (by decide))
  exact C08_unknown_validator_partial _ _ _ _ _ _ _ (by decide) _ _ (by decide) h h (by simp) (by simp)

end Quark.Validator
