import Verif.Validator.Props

/-! C04 for outputs of any size: an accepted output agrees, whatever the lengths of its tokens. -/
namespace Quark.Validator
open Quark.Tokenizer

theorem compareLoop_accepts (env : Env) (v : TokenValidator) (eErr cErr : Bool) (te tc : List Token)
    (h : (compareLoop env v.settings eErr cErr te tc).score = 1) :
    eErr = false ∧ cErr = false ∧ List.Forall₂ (v.Agree env) (te.map Token.text) (tc.map Token.text) := by
  induction te generalizing tc with
  | nil =>
    cases tc with
    | nil => cases eErr <;> cases cErr <;> simp [compareLoop] at h ⊢
    | cons c tc => cases eErr <;> simp [compareLoop] at h
  | cons e te ih =>
    cases tc with
    | nil => cases cErr <;> simp [compareLoop] at h
    | cons c tc =>
      obtain ⟨b, hb, hiff⟩ := compare_iff env v e.text c.text
      simp only [compareLoop, hb] at h
      cases b with
      | true =>
        obtain ⟨h1, h2, h3⟩ := ih tc h
        exact ⟨h1, h2, List.Forall₂.cons (hiff.mp rfl) h3⟩
      | false => simp at h

theorem tokenize_runs (v : TokenValidator) (lim : Nat) (hl : 4 ≤ lim) (st : List UInt8) (reads : List ReadChoice)
    (toks : List (List UInt8)) (ht : IsTokenization v.tokenRune st toks) :
    ∃ ts e, tokenize (scanFunc v.settings) lim st reads = some (ts, e) ∧
      (e = false → ts.map Token.text = toks ∧ ∀ t ∈ toks, t.length ≤ lim) := by
  obtain ⟨ts, e, more, h1, h2, h3, h4, -⟩ := C02_tokens_are_prefix_of_runs v.tokenRune
    (by rw [← scanFunc_settings]; exact scanFunc_used _) lim hl st reads
  unfold outcome at h1
  rw [Option.map_eq_some_iff] at h1
  obtain ⟨⟨ts', b⟩, h5, h6⟩ := h1
  simp only [Prod.mk.injEq] at h6
  refine ⟨ts', b, by rw [scanFunc_settings]; exact h5, ?_⟩
  intro hb
  have hm : more = [] := h4 (by rw [← h6.2, hb])
  subst hm
  have hu := (h2.unique ht)
  rw [List.append_nil] at hu
  subst hu
  exact ⟨h6.1, h3⟩

theorem not_literal (v : TokenValidator) : ¬ (v.settings.name = "literal" ∨ v.settings.name = "custom") := by
  match v with
  | .token => simp [TokenValidator.settings]
  | .caseless => simp [TokenValidator.settings]
  | .numeric _ => simp [TokenValidator.settings]

/-- **C04** For outputs of any size: an output is only accepted if all tokens were compared and agree, and none of them
is longer than the limit. -/
theorem C04_accepted_agree (env : Env) (v : TokenValidator) (expected contestant : List UInt8)
    (readsE readsC : List ReadChoice) (lim : Nat) (hl : 4 ≤ lim) (te tc : List (List UInt8))
    (he : IsTokenization v.tokenRune expected te) (hc : IsTokenization v.tokenRune contestant tc) :
    ∃ r, calculateScore env v.settings expected contestant readsE readsC lim = some r ∧
      (r.score ≠ 0 → List.Forall₂ (v.Agree env) te tc ∧ ∀ t, t ∈ te ∨ t ∈ tc → t.length ≤ lim) := by
  obtain ⟨ts, e, h1, h2⟩ := tokenize_runs v lim hl expected readsE te he
  obtain ⟨ts', e', h3, h4⟩ := tokenize_runs v lim hl contestant readsC tc hc
  refine ⟨compareLoop env v.settings e e' ts ts', ?_, ?_⟩
  · unfold calculateScore
    rw [h3]
    simp only
    rw [if_neg (not_literal v), h1]
  · intro hs
    have hs1 : (compareLoop env v.settings e e' ts ts').score = 1 :=
      ((compareLoop_score env v.settings e e' ts ts').1).resolve_left hs
    obtain ⟨h5, h6, h7⟩ := compareLoop_accepts env v e e' ts ts' hs1
    obtain ⟨h8, h9⟩ := h2 h5
    obtain ⟨h10, h11⟩ := h4 h6
    rw [h8, h10] at h7
    exact ⟨h7, fun t ht => ht.elim (h9 t) (h11 t)⟩

/-- **C04** A token longer than 4 MiB in either output costs the whole score, however equal the outputs are. -/
theorem C04_too_long (env : Env) (v : TokenValidator) (expected contestant : List UInt8)
    (readsE readsC : List ReadChoice) (te tc : List (List UInt8))
    (he : IsTokenization v.tokenRune expected te) (hc : IsTokenization v.tokenRune contestant tc)
    (t : List UInt8) (ht : t ∈ te ∨ t ∈ tc) (hlong : 4194304 < t.length) :
    (calculateScore env v.settings expected contestant readsE readsC).map Result.score = some 0 := by
  obtain ⟨r, h1, h2⟩ := C04_accepted_agree env v expected contestant readsE readsC 4194304 (by omega) te tc he hc
  rw [show maxTokenLength = 4194304 from rfl, h1, Option.map_some, Option.some.injEq]
  by_contra hs
  have := (h2 hs).2 t ht
  omega

/-- With a limit of 8 bytes: a token of nine bytes, in both outputs. -/
example : (calculateScore sampleEnv ⟨"token", none⟩ [0x61, 0x61, 0x61, 0x61, 0x61, 0x61, 0x61, 0x61, 0x61]
    [0x61, 0x61, 0x61, 0x61, 0x61, 0x61, 0x61, 0x61, 0x61] [] [] 8).map Result.score = some 0 := by
  decide +kernel

end Quark.Validator
