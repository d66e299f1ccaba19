import Verif.Tool.Model
import Verif.Validator.Props

/-!
# The stand-alone validator (C149)
-/

namespace Quark.Tool
open Quark.Validator Quark.Tokenizer

/-! ## Specification -/

/-- What the runner makes of a custom validator (runner/runner.go:1085-1169): its output if it ended well, nothing otherwise. -/
def handedOver (o : Outcome) : List UInt8 := if o.exitCode = 0 then o.stdout else []

/-- `base.ParseRational`, which is not in /repo, reads numbers with two decimals. -/
def ReadsHundredths (env : Env) : Prop :=
  ∀ d0 d1 d2 : Fin 10, env.parseRational [UInt8.ofNat (48 + d0.val), 46, UInt8.ofNat (48 + d1.val), UInt8.ofNat (48 + d2.val)] =
    some ((d0.val : ℚ) + (d1.val : ℚ) / 10 + (d2.val : ℚ) / 100)

/-! ## Proofs -/

theorem roundQ_zero_one : Float.roundQ 0 = 0 ∧ Float.roundQ 1 = 1 := by
  constructor
  · exact Float.roundQ_zero
  · have := Float.roundQ_pow 0 (by norm_num)
    simpa using this

theorem hundredths_zero : hundredths 0 = 0 := by
  unfold hundredths
  rw [roundQ_zero_one.1, zero_mul]
  have := Float.rne_int 0
  simp only [Int.cast_zero] at this
  rw [this]; rfl

theorem hundredths_one : hundredths 1 = 100 := by
  unfold hundredths
  rw [roundQ_zero_one.2, one_mul]
  have := Float.rne_int 100
  simp only [Int.cast_ofNat] at this
  rw [this]; rfl

theorem hundredths_spec {q : ℚ} (h0 : 0 ≤ q) (h1 : q ≤ 1) :
    hundredths q ≤ 100 ∧ |(hundredths q : ℚ) / 100 - q| ≤ 1 / 200 + 1 / 2 ^ 52 := by
  have hr0 := Float.roundQ_nonneg h0
  have hr1 : Float.roundQ q ≤ 1 := by
    have := Float.roundQ_mono h1
    rwa [roundQ_zero_one.2] at this
  have hn0 : 0 ≤ Float.rne (Float.roundQ q * 100) := Float.rne_nonneg (by linarith)
  have hn1 : Float.rne (Float.roundQ q * 100) ≤ 100 := by
    have := Float.rne_mono (x := Float.roundQ q * 100) (y := ((100 : ℤ) : ℚ)) (by push_cast; linarith)
    rwa [Float.rne_int] at this
  have hcast : ((hundredths q : ℕ) : ℚ) = (Float.rne (Float.roundQ q * 100) : ℚ) := by
    unfold hundredths
    have : (((Float.rne (Float.roundQ q * 100)).toNat : ℤ) : ℚ) = (Float.rne (Float.roundQ q * 100) : ℚ) := by
      rw [Int.toNat_of_nonneg hn0]
    exact_mod_cast this
  refine ⟨by unfold hundredths; omega, ?_⟩
  have he := Float.rne_err (Float.roundQ q * 100)
  have he2 := Float.roundQ_err q h0
  have hb : q / 2 ^ (53 : ℕ) + 1 / 2 ^ (1075 : ℕ) ≤ 1 / 2 ^ 52 := by
    have a1 : q / 2 ^ (53 : ℕ) ≤ 1 / 2 ^ (53 : ℕ) := div_le_div_of_nonneg_right h1 (by positivity)
    have a2 : (1 : ℚ) / 2 ^ (1075 : ℕ) ≤ 1 / 2 ^ (53 : ℕ) :=
      one_div_le_one_div_of_le (by positivity) (pow_le_pow_right₀ (by norm_num) (by norm_num))
    have a3 : (1 : ℚ) / 2 ^ (53 : ℕ) + 1 / 2 ^ (53 : ℕ) = 1 / 2 ^ 52 := by norm_num
    linarith
  rw [hcast]
  rw [abs_le] at he he2 ⊢
  constructor <;> linarith [he.1, he.2, he2.1, he2.2]

theorem calculateScore_tolerance (env : Env) (s s' : Settings) (hn : s.name = s'.name) (hne : s.name ≠ "token-numeric")
    (expected contestant : List UInt8) (readsE readsC : List ReadChoice) (lim : Nat) :
    calculateScore env s expected contestant readsE readsC lim =
      calculateScore env s' expected contestant readsE readsC lim := by
  have hscan : scanFunc s = scanFunc s' := by unfold scanFunc; rw [hn]
  have hcmp : ∀ a b, Validator.compare env s a b = Validator.compare env s' a b := by
    intro a b
    unfold Validator.compare
    rw [hn] at hne
    rw [hn]
    simp only [hne, if_false]
  have hloop : ∀ eErr cErr te tc, compareLoop env s eErr cErr te tc = compareLoop env s' eErr cErr te tc := by
    intro eErr cErr te
    induction te with
    | nil => intro tc; cases tc <;> rfl
    | cons e te ih =>
      intro tc
      cases tc with
      | nil => rfl
      | cons c tc => simp only [compareLoop, hcmp, ih]
  unfold calculateScore
  rw [hscan, hn]
  simp only [hloop]

theorem digits_value (n : Nat) : ((n / 100 : ℕ) : ℚ) + ((n / 10 % 10 : ℕ) : ℚ) / 10 + ((n % 10 : ℕ) : ℚ) / 100 = n / 100 := by
  have e : n = 100 * (n / 100) + 10 * (n / 10 % 10) + n % 10 := by omega
  have e' : (n : ℚ) = 100 * ((n / 100 : ℕ) : ℚ) + 10 * ((n / 10 % 10 : ℕ) : ℚ) + ((n % 10 : ℕ) : ℚ) := by
    exact_mod_cast e
  rw [e']
  ring

/-- The line the tool prints is one token for the runner. -/
theorem printed_fits : ∀ n : Fin 101, Fits isNonWhitespace maxTokenLength (printed n.val) [(printed n.val).take 4] := by
  intro n
  have h : ∀ n : Fin 101, runesOf (printed n.val) =
      [] ++ ((printed n.val).take 4).map (fun b => (b.toNat, [b])) ++ [(10, [10])] ∧
      (((printed n.val).take 4).map (fun b => (b.toNat, [b]))).all (fun r => isNonWhitespace r.1) = true ∧
      (printed n.val).take 4 ≠ [] := by decide +kernel
  obtain ⟨h1, h2, h3⟩ := h n
  refine ⟨⟨[((printed n.val).take 4).map (fun b => (b.toNat, [b]))], ?_, ?_⟩, ?_⟩
  · rw [h1]
    refine .run _ _ _ _ (by simp) (by simpa using h3) ?_ ?_ (.done _ (by decide))
    · simpa using h2
    · intro r hr
      simp only [List.head?_cons, Option.mem_def, Option.some.injEq] at hr
      subst hr; decide
  · simp only [List.map_cons, List.map_nil, List.flatMap_map, List.cons.injEq, and_true]
    generalize (printed n.val).take 4 = l
    induction l with
    | nil => rfl
    | cons b l ih => rw [List.flatMap_cons, ← ih]; rfl
  · intro t ht
    simp only [List.mem_singleton] at ht
    subst ht
    have : maxTokenLength = 4194304 := rfl
    have h4 := List.length_take_le 4 (printed n.val)
    omega

/-- C149: reading the tool's line as that of a custom validator gives the printed number. -/
theorem custom_reads (env : Env) (hp : ReadsHundredths env) (n : Nat) (hn : n ≤ 100) (tol : Option ℚ)
    (readsC : List ReadChoice) :
    calculateScore env ⟨"custom", tol⟩ [] (printed n) [] readsC = some ⟨n / 100, none, none⟩ := by
  have hfit := printed_fits ⟨n, by omega⟩
  have hq : env.parseRational ((printed n).take 4) = some ((n : ℚ) / 100) := by
    have := hp ⟨n / 100, by omega⟩ ⟨n / 10 % 10, by omega⟩ ⟨n % 10, by omega⟩
    simp only at this
    rw [show (printed n).take 4 = [UInt8.ofNat (48 + n / 100), 46, UInt8.ofNat (48 + n / 10 % 10), UInt8.ofNat (48 + n % 10)]
      from rfl, this]
    rw [digits_value]
  have := C03_literal_score env ⟨"custom", tol⟩ [] (printed n) [] readsC maxTokenLength (by decide) _ [] (Or.inr rfl)
    hfit _ hq
  rw [this]
  have h0 : (0 : ℚ) ≤ n / 100 := by positivity
  have h1 : (n : ℚ) / 100 ≤ 1 := by
    rw [div_le_one (by norm_num)]
    exact_mod_cast hn
  rw [min_eq_left h1, max_eq_right h0]

/-! ## C149 -/

/-- C149: the tool ends well exactly when it has a validator and two files it can read, and calculating the score of the
runner gives no error. Then it prints the score, in hundredths and within half a hundredth; otherwise it prints nothing. -/
theorem C149_prints (env : Env) (a : Args) :
    ((main env a).exitCode = 0 ∨ (main env a).exitCode = 1 ∨ (main env a).exitCode = 2) ∧
    ((main env a).exitCode ≠ 0 → (main env a).stdout = []) ∧
    ((main env a).exitCode = 0 ↔ ∃ expected readsE contestant readsC r, a.name ≠ "" ∧
      a.files = [some (expected, readsE), some (contestant, readsC)] ∧
      calculateScore env ⟨a.name, some a.tolerance⟩ expected contestant readsE readsC = some r ∧ r.err = none) ∧
    ∀ expected readsE contestant readsC r, a.name ≠ "" →
      a.files = [some (expected, readsE), some (contestant, readsC)] →
      calculateScore env ⟨a.name, some a.tolerance⟩ expected contestant readsE readsC = some r → r.err = none →
      ∃ d0 d1 d2 : Nat, d0 ≤ 1 ∧ d1 < 10 ∧ d2 < 10 ∧
        (main env a).stdout = [UInt8.ofNat (48 + d0), 46, UInt8.ofNat (48 + d1), UInt8.ofNat (48 + d2), 10] ∧
        |((d0 : ℚ) + (d1 : ℚ) / 10 + (d2 : ℚ) / 100) - r.score| ≤ 1 / 200 + 1 / 2 ^ 52 := by
  unfold main
  split
  · rename_i fe fc hf
    by_cases hn : a.name = ""
    · rw [if_pos hn]
      simp [hn]
    · rw [if_neg hn, hf]
      cases fe with
      | none => simp
      | some e =>
        obtain ⟨expected, readsE⟩ := e
        cases fc with
        | none => simp
        | some c =>
          obtain ⟨contestant, readsC⟩ := c
          simp only
          obtain ⟨r, hr, h0, h1, -, -⟩ := C03_score_range env ⟨a.name, some a.tolerance⟩ expected contestant readsE readsC
            maxTokenLength (by decide)
          rw [hr]
          simp only
          by_cases he : r.err = none
          · rw [if_neg (by simp [he])]
            refine ⟨Or.inl rfl, by simp, ⟨fun _ => ⟨expected, readsE, contestant, readsC, r, hn, rfl, hr, he⟩, fun _ => rfl⟩, ?_⟩
            intro expected' readsE' contestant' readsC' r' _ hf' hr' _
            simp only [List.cons.injEq, Option.some.injEq, Prod.mk.injEq, and_true] at hf'
            obtain ⟨⟨rfl, rfl⟩, rfl, rfl⟩ := hf'
            rw [hr] at hr'
            cases hr'
            obtain ⟨hle, herr⟩ := hundredths_spec h0 h1
            refine ⟨hundredths r.score / 100, hundredths r.score / 10 % 10, hundredths r.score % 10, by omega, by omega,
              by omega, rfl, ?_⟩
            rwa [digits_value]
          · rw [if_pos he]
            refine ⟨Or.inr (Or.inl rfl), fun _ => rfl, ⟨fun h => by simp at h, ?_⟩, ?_⟩
            · rintro ⟨expected', readsE', contestant', readsC', r', -, hf', hr', he'⟩
              simp only [List.cons.injEq, Option.some.injEq, Prod.mk.injEq, and_true] at hf'
              obtain ⟨⟨rfl, rfl⟩, rfl, rfl⟩ := hf'
              rw [hr] at hr'
              cases hr'
              exact absurd he' he
            · intro expected' readsE' contestant' readsC' r' _ hf' hr' he'
              simp only [List.cons.injEq, Option.some.injEq, Prod.mk.injEq, and_true] at hf'
              obtain ⟨⟨rfl, rfl⟩, rfl, rfl⟩ := hf'
              rw [hr] at hr'
              cases hr'
              exact absurd he' he
  · rename_i hf
    refine ⟨Or.inr (Or.inr rfl), fun _ => rfl, ⟨fun h => by simp at h, ?_⟩, ?_⟩
    · rintro ⟨expected, readsE, contestant, readsC, r, -, hf', -, -⟩
      exact absurd hf' (hf _ _)
    · intro expected readsE contestant readsC r _ hf' _ _
      exact absurd hf' (hf _ _)

/-- C149: with a token validator the tool prints 1.00 if the tokens of the two files agree and 0.00 if not. -/
theorem C149_tokens (env : Env) (v : TokenValidator) (tol : ℚ) (hv : ∀ t, v = .numeric t → t = some tol)
    (expected contestant : List UInt8) (readsE readsC : List ReadChoice) (te tc : List (List UInt8))
    (he : Fits v.tokenRune maxTokenLength expected te) (hc : Fits v.tokenRune maxTokenLength contestant tc) :
    main env ⟨v.settings.name, tol, [some (expected, readsE), some (contestant, readsC)]⟩ =
      ⟨0, open Classical in
        if List.Forall₂ (v.Agree env) te tc then [0x31, 0x2e, 0x30, 0x30, 0x0a] else [0x30, 0x2e, 0x30, 0x30, 0x0a]⟩ := by
  obtain ⟨r, hr, herr, hone, -, hz⟩ :=
    C04_accept_iff_agree env v expected contestant readsE readsC maxTokenLength (by decide) te tc he hc
  have hs : calculateScore env ⟨v.settings.name, some tol⟩ expected contestant readsE readsC =
      calculateScore env v.settings expected contestant readsE readsC := by
    cases v with
    | token => exact calculateScore_tolerance env ⟨"token", some tol⟩ ⟨"token", none⟩ rfl (by simp) _ _ _ _ _
    | caseless => exact calculateScore_tolerance env ⟨"token-caseless", some tol⟩ ⟨"token-caseless", none⟩ rfl (by simp) _ _ _ _ _
    | numeric t => rw [hv t rfl]; rfl
  have hname : v.settings.name ≠ "" := by cases v <;> simp [TokenValidator.settings]
  have h01 : r.score = 0 ∨ r.score = 1 := by
    obtain ⟨r', hr', -, -, -, h⟩ := C03_score_range env v.settings expected contestant readsE readsC maxTokenLength (by decide)
    rw [hr] at hr'
    cases hr'
    refine h ?_ ?_ <;> cases v <;> simp [TokenValidator.settings]
  simp only [main, if_neg hname]
  rw [hs, hr]
  simp only [herr, ne_eq, not_true, if_false]
  by_cases ha : List.Forall₂ (v.Agree env) te tc
  · rw [if_pos ha, hone.mpr ha, hundredths_one]
    rfl
  · rw [if_neg ha]
    have : r.score = 0 := h01.resolve_right fun h => ha (hone.mp h)
    rw [this, hundredths_zero]
    rfl

/-- C149: used as a custom validator, the tool gives every output exactly the score that the built-in token validator
gives it, also when the comparison fails with an error. -/
theorem C149_same_score (env : Env) (hp : ReadsHundredths env) (name : String) (tol : ℚ) (hn : name ≠ "")
    (hl : name ≠ "literal") (hc : name ≠ "custom") (expected contestant : List UInt8) (readsE readsC readsV : List ReadChoice)
    (tol' : Option ℚ) :
    (calculateScore env ⟨"custom", tol'⟩ []
      (handedOver (main env ⟨name, tol, [some (expected, readsE), some (contestant, readsC)]⟩)) [] readsV).map Result.score =
    (calculateScore env ⟨name, some tol⟩ expected contestant readsE readsC).map Result.score := by
  obtain ⟨r, hr, -, -, herr, h01⟩ := C03_score_range env ⟨name, some tol⟩ expected contestant readsE readsC
    maxTokenLength (by decide)
  have h01 := h01 hl hc
  simp only [main, if_neg hn]
  rw [hr]
  simp only
  by_cases he : r.err = none
  · rw [if_neg (by simp [he])]
    have hh : (hundredths r.score = 0 ∧ r.score = 0) ∨ (hundredths r.score = 100 ∧ r.score = 1) := by
      rcases h01 with h | h
      · exact Or.inl ⟨by rw [h, hundredths_zero], h⟩
      · exact Or.inr ⟨by rw [h, hundredths_one], h⟩
    rw [handedOver, if_pos rfl, custom_reads env hp _ (by omega)]
    simp only [Option.map_some]
    rcases hh with ⟨h, h'⟩ | ⟨h, h'⟩ <;> rw [h, h'] <;> norm_num
  · rw [if_pos he, handedOver, if_neg (by decide)]
    have hsf : scanFunc ⟨"custom", tol'⟩ = isNonWhitespace := by simp [scanFunc]
    have ho := C02_tokens_are_maximal_runs isNonWhitespace (Or.inl rfl) maxTokenLength (by decide) [] readsV []
      ⟨[], by rw [show runesOf [] = [] from by decide +kernel]; exact .done [] (by simp), rfl⟩ (by simp)
    obtain ⟨ts, e, ht⟩ := tokenize_total ⟨"custom", tol'⟩ maxTokenLength (by decide) [] readsV
    have hempty : ts = [] := by
      rw [hsf] at ht
      simp only [outcome, ht, Option.map_some, Option.some.injEq, Prod.mk.injEq, List.map_eq_nil_iff] at ho
      exact ho.1
    simp only [calculateScore, ht, hempty, Option.map_some]
    rw [herr he]
    rfl

/-- Why the same is not said of the validator `literal`: a score of 249/250 is printed as 1.00, which is full score. -/
theorem C149_literal_rounds : ∃ env : Env, ReadsHundredths env ∧
    (calculateScore env ⟨"literal", none⟩ [] [0x78] [] []).map Result.score = some (249 / 250) ∧
    (main env ⟨"literal", 0, [some ([], []), some ([0x78], [])]⟩).stdout = [0x31, 0x2e, 0x30, 0x30, 0x0a] := by
  refine ⟨⟨id, fun t => match t with
    | [a, 46, b, c] => some (((a.toNat - 48 : ℕ) : ℚ) + ((b.toNat - 48 : ℕ) : ℚ) / 10 + ((c.toNat - 48 : ℕ) : ℚ) / 100)
    | _ => some (249 / 250)⟩, ?_, by decide +kernel, by decide +kernel⟩
  unfold ReadsHundredths
  decide +kernel

/-- Two files with the same numbers, written differently. -/
example : main ⟨id, fun _ => none⟩ ⟨"token-numeric", 1 / 4, [some ([0x31, 0x20, 0x32], [{ n := 1 }]), some ([0x31, 0x2e, 0x30, 0x0a, 0x32], [])]⟩ =
    ⟨0, [0x31, 0x2e, 0x30, 0x30, 0x0a]⟩ := by decide +kernel

end Quark.Tool
