import Verif.Literal.Props

/-!
# C129: which literal inputs are accepted
-/
namespace Quark.Literal

variable {ι : Type}

/-! ## Specification -/

/-- The languages in which the main program of an interactive problem may be written, each with the
extension of its file. -/
def parentLanguages : List (String × String) :=
  [("c", "c"), ("c11-gcc", "c"), ("c11-clang", "c"), ("cpp", "cpp"), ("cpp11", "cpp"),
    ("cpp17-gcc", "cpp"), ("cpp17-clang", "cpp"), ("kj", "kj"), ("kp", "kp"), ("java", "java"),
    ("py", "py"), ("py2", "py"), ("py3", "py"), ("pas", "pas"), ("rb", "rb"), ("cat", "cat")]

/-- An ASCII letter, by its code. -/
def Letter (c : Char) : Prop := (65 ≤ c.toNat ∧ c.toNat ≤ 90) ∨ (97 ≤ c.toNat ∧ c.toNat ≤ 122)

/-- A letter or an underscore, followed by one or more letters and digits; at most 32 in all. -/
def InterfaceName (n : Str) : Prop :=
  ∃ c cs, n = c :: cs ∧ cs ≠ [] ∧ n.length ≤ 32 ∧ (Letter c ∨ c = '_') ∧
    ∀ d ∈ cs, Letter d ∨ (48 ≤ d.toNat ∧ d.toNat ≤ 57)

/-- The validator is absent, one of the four known ones, or custom and given. -/
def ValidatorAllowed : Option Validator → Prop
  | none => True
  | some v => (∃ n ∈ ["token", "token-caseless", "token-numeric", "literal"], v.name = n.toList) ∨
      (v.name = "custom".toList ∧ v.custom ≠ none)

/-- The interactive part is absent, or names a known language and a proper interface, and
libinteractive accepts it. -/
def InteractiveAllowed (T : Tools ι) : Option Interactive → Prop
  | none => True
  | some i => ∃ e ∈ parentLanguages, i.parentLang = e.1.toList ∧ InterfaceName i.moduleName ∧
      T.libinteractive i.moduleName e.2.toList i.idl ≠ none

/-- 1 second, 5 seconds in all, 256 MiB, 10 KiB. -/
def filledLimits : Limits where
  timeLimit := 1000000000
  overallWallTimeLimit := 5000000000
  extraWallTime := 0
  memoryLimit := 268435456
  outputLimit := 10240

/-! ## Lemmas -/

theorem languages_table (l : Str) :
    l ∈ validLanguages ↔ ∃ e ∈ parentLanguages, l = e.1.toList := by
  have h : validLanguages = parentLanguages.map fun e => e.1.toList := by decide +kernel
  rw [h]
  simp only [List.mem_map]
  exact ⟨fun ⟨e, he, h⟩ => ⟨e, he, h.symm⟩, fun ⟨e, he, h⟩ => ⟨e, he, h.symm⟩⟩

theorem extension_table : ∀ e ∈ parentLanguages, languageFileExtension e.1.toList = e.2.toList := by
  decide +kernel

theorem isLetter_iff (c : Char) : isLetter c = true ↔ Letter c := by
  unfold isLetter Letter
  simp only [Bool.or_eq_true, Bool.and_eq_true, decide_eq_true_eq, Char.le_def, UInt32.le_iff_toNat_le]
  constructor
  · rintro (⟨h1, h2⟩ | ⟨h1, h2⟩)
    · right; exact ⟨h1, h2⟩
    · left; exact ⟨h1, h2⟩
  · rintro (⟨h1, h2⟩ | ⟨h1, h2⟩)
    · right; exact ⟨h1, h2⟩
    · left; exact ⟨h1, h2⟩

theorem isDigit_iff (c : Char) : isDigit c = true ↔ 48 ≤ c.toNat ∧ c.toNat ≤ 57 := by
  unfold isDigit
  simp only [Bool.and_eq_true, decide_eq_true_eq, Char.le_def, UInt32.le_iff_toNat_le]
  exact Iff.rfl

theorem validInterface_iff (n : Str) : validInterface n = true ↔ InterfaceName n := by
  cases n with
  | nil =>
    simp only [validInterface, Bool.false_eq_true, false_iff]
    rintro ⟨c, cs, h, -⟩; cases h
  | cons c cs =>
    simp only [validInterface, Bool.and_eq_true, decide_eq_true_eq, Bool.or_eq_true, isLetter_iff,
      beq_iff_eq, Bool.not_eq_true', List.all_eq_true, isDigit_iff]
    constructor
    · rintro ⟨⟨⟨h1, h2⟩, h3⟩, h4⟩
      exact ⟨c, cs, rfl, (by intro h; rw [h] at h3; cases h3), h1, h2, fun d hd => (h4 d hd).symm⟩
    · rintro ⟨c', cs', h, h3, h1, h2, h4⟩
      cases h
      refine ⟨⟨⟨h1, h2⟩, ?_⟩, fun d hd => (h4 d hd).symm⟩
      cases cs with
      | nil => exact absurd rfl h3
      | cons a l => rfl

theorem validator_iff (v : Option Validator) :
    (∃ x, validatorStep v = .ok x) ↔ ValidatorAllowed v := by
  have hT : sToken = "token".toList := by decide +kernel
  have hC : sTokenCaseless = "token-caseless".toList := by decide +kernel
  have hN : sTokenNumeric = "token-numeric".toList := by decide +kernel
  have hL : sLiteral = "literal".toList := by decide +kernel
  have hU : sCustom = "custom".toList := by decide +kernel
  have d1 : sToken ≠ sCustom := by decide +kernel
  have d2 : sTokenCaseless ≠ sCustom := by decide +kernel
  have d3 : sTokenNumeric ≠ sCustom := by decide +kernel
  have d4 : sLiteral ≠ sCustom := by decide +kernel
  cases v with
  | none =>
    simp only [ValidatorAllowed, iff_true]
    simp only [validatorStep, Option.getD_none]
    rw [if_neg (show defaultValidator.name ≠ sCustom from d2),
      if_pos (show _ ∨ defaultValidator.name = sTokenCaseless ∨ _ from .inr (.inl rfl))]
    exact ⟨_, rfl⟩
  | some w =>
    simp only [ValidatorAllowed, validatorStep, Option.getD_some, List.mem_cons, List.not_mem_nil,
      or_false, exists_eq_or_imp, exists_eq_left, ← hT, ← hC, ← hN, ← hL, ← hU]
    by_cases h1 : w.name = sCustom
    · rw [if_pos h1]
      cases hc : w.custom with
      | none =>
        constructor
        · rintro ⟨x, h⟩; cases h
        · rintro (h | h)
          · rw [h1] at h
            rcases h with h | h | h | h
            · exact absurd h.symm d1
            · exact absurd h.symm d2
            · exact absurd h.symm d3
            · exact absurd h.symm d4
          · exact absurd rfl h.2
      | some c => exact ⟨fun _ => .inr ⟨h1, by simp⟩, fun _ => ⟨_, rfl⟩⟩
    · rw [if_neg h1]
      by_cases h2 : w.name = sToken ∨ w.name = sTokenCaseless ∨ w.name = sLiteral
      · rw [if_pos h2]
        refine ⟨fun _ => .inl ?_, fun _ => ⟨_, rfl⟩⟩
        rcases h2 with h | h | h
        · exact .inl h
        · exact .inr (.inl h)
        · exact .inr (.inr (.inr h))
      · rw [if_neg h2]
        by_cases h3 : w.name = sTokenNumeric
        · rw [if_pos h3]
          exact ⟨fun _ => .inl (.inr (.inr (.inl h3))), fun _ => ⟨_, rfl⟩⟩
        · rw [if_neg h3]
          constructor
          · rintro ⟨x, h⟩; cases h
          · rintro ((h | h | h | h) | h)
            · exact absurd (.inl h) h2
            · exact absurd (.inr (.inl h)) h2
            · exact absurd h h3
            · exact absurd (.inr (.inr h)) h2
            · exact absurd h.1 h1

theorem interactive_iff (T : Tools ι) (i : Option Interactive) (files : List (Str × Str)) :
    (∃ x, interactiveStep T i files = .ok x) ↔ InteractiveAllowed T i := by
  cases i with
  | none => exact ⟨fun _ => trivial, fun _ => ⟨_, rfl⟩⟩
  | some i =>
    simp only [InteractiveAllowed, interactiveStep]
    by_cases h1 : i.parentLang ∈ validLanguages
    · rw [if_neg (not_not.mpr h1)]
      by_cases h2 : validInterface i.moduleName = true
      · have hn : ¬ ((!validInterface i.moduleName) = true) := by rw [h2]; decide
        rw [if_neg hn]
        obtain ⟨e, he, hl⟩ := (languages_table _).mp h1
        have hx : languageFileExtension i.parentLang = e.2.toList := by rw [hl]; exact extension_table e he
        rw [hx]
        cases hj : T.libinteractive i.moduleName e.2.toList i.idl with
        | none =>
          constructor
          · rintro ⟨x, h⟩; cases h
          · rintro ⟨f, hf, hl', -, h⟩
            have : e.2.toList = f.2.toList := by
              rw [← extension_table e he, ← extension_table f hf, ← hl, ← hl']
            rw [← this] at h
            exact absurd hj h
        | some x =>
          exact ⟨fun _ => ⟨e, he, hl, (validInterface_iff _).mp h2, by rw [hj]; simp⟩, fun _ => ⟨_, rfl⟩⟩
      · have hn : (!validInterface i.moduleName) = true := by
          cases h : validInterface i.moduleName with
          | false => rfl
          | true => exact absurd h h2
        rw [if_pos hn]
        constructor
        · rintro ⟨x, h⟩; cases h
        · rintro ⟨e, he, hl, h, -⟩
          exact absurd ((validInterface_iff _).mpr h) h2
    · rw [if_pos h1]
      constructor
      · rintro ⟨x, h⟩; cases h
      · rintro ⟨e, he, hl, -⟩
        exact absurd ((languages_table _).mpr ⟨e, he, hl⟩) h1

/-! ## C129 -/

/-- **C129** A literal input is accepted exactly if it has cases, every case is there with a weight
that is not negative, some weight is positive, the validator and the interactive part are allowed
(and the settings can be encoded). -/
theorem C129_accepted_iff (R : Runtime) (T : Tools ι) (input : Input) (hm : IsMap input.cases)
    (hma : ∀ s, T.marshal s ≠ none) :
    (∃ o, newLiteralInput R T input = .ok o) ↔
      (input.cases ≠ [] ∧
        (∀ e ∈ input.cases, ∃ c w, e.2 = some c ∧ c.weight = some w ∧ 0 ≤ w) ∧
        ∃ e ∈ input.cases, ∃ c w, e.2 = some c ∧ c.weight = some w ∧ 0 < w) ∧
      ValidatorAllowed input.validator ∧ InteractiveAllowed T input.interactive := by
  constructor
  · rintro ⟨o, ho⟩
    have hv : ∃ x, validatorStep input.validator = .ok x := by
      unfold newLiteralInput at ho
      obtain ⟨x, h, -⟩ := bind_ok ho
      exact ⟨x, h⟩
    obtain ⟨-, -, -, -, -, ⟨i', hi, -⟩, -⟩ := accepted hm ho
    have hi0 : ∃ x, interactiveStep T input.interactive [] = .ok x := ⟨_, hi [] (by simp)⟩
    have hall : ∀ files, ∃ x, interactiveStep T input.interactive files = .ok x := fun files =>
      (interactive_iff T _ files).mpr ((interactive_iff T _ []).mp hi0)
    exact ⟨(C53_accepted_iff hm hv hall hma).mp ⟨o, ho⟩, (validator_iff _).mp hv,
      (interactive_iff T _ []).mp hi0⟩
  · rintro ⟨hc, hv, hi⟩
    exact (C53_accepted_iff hm ((validator_iff _).mpr hv) (fun files => (interactive_iff T _ files).mpr hi)
      hma).mpr hc

/-- **C129** The main program of an interactive problem goes into the archive under the extension of
its language. -/
theorem C129_main_file (R : Runtime) (T : Tools ι) (input : Input) (o : Output ι) (hm : IsMap input.cases)
    (h : newLiteralInput R T input = .ok o) (i : Interactive) (hi : input.interactive = some i)
    (e : String × String) (he : e ∈ parentLanguages) (hl : i.parentLang = e.1.toList) :
    ("interactive/Main.".toList ++ e.2.toList, i.mainSource) ∈ o.archive ∧
    ("interactive/".toList ++ i.moduleName ++ ".idl".toList, i.idl) ∈ o.archive := by
  obtain ⟨-, ha⟩ := C52_archive hm h
  have e1 : "interactive/Main.".toList = sInteractive ++ sMainDot := by decide +kernel
  have e2 : "interactive/".toList = sInteractive := by decide +kernel
  have e3 : ".idl".toList = ['.', 'i', 'd', 'l'] := by decide +kernel
  constructor
  · rw [ha]
    refine .inr (.inr (.inr ⟨i, hi, .inl ⟨?_, rfl⟩⟩))
    rw [e1, hl, extension_table e he]
  · rw [ha]
    refine .inr (.inr (.inr ⟨i, hi, .inr ⟨?_, rfl⟩⟩))
    rw [e2, e3]

/-- **C129** Which comparison is used: the one asked for, `token-caseless` if none was; only
`token-numeric` has a tolerance (10⁻⁶ if none was given) and only `custom` a language. -/
theorem C129_validator (R : Runtime) (T : Tools ι) (input : Input) (o : Output ι) (hm : IsMap input.cases)
    (h : newLiteralInput R T input = .ok o) :
    (input.validator = none → o.settings.validator.name = "token-caseless".toList ∧
      o.settings.validator.tolerance = none ∧ o.settings.validator.lang = none) ∧
    (∀ v, input.validator = some v → o.settings.validator.name = v.name ∧
      (v.name = "token-numeric".toList →
        o.settings.validator.tolerance = some (v.tolerance.getD (1 / 1000000))) ∧
      (v.name ≠ "token-numeric".toList → o.settings.validator.tolerance = none) ∧
      (v.name = "custom".toList → ∃ c, v.custom = some c ∧ o.settings.validator.lang = some c.language) ∧
      (v.name ≠ "custom".toList → o.settings.validator.lang = none)) := by
  have hC : sTokenCaseless = "token-caseless".toList := by decide +kernel
  have hN : sTokenNumeric = "token-numeric".toList := by decide +kernel
  have hU : sCustom = "custom".toList := by decide +kernel
  have d0 : sCustom ≠ sTokenNumeric := by decide +kernel
  have d1 : sToken ≠ sTokenNumeric := by decide +kernel
  have d2 : sTokenCaseless ≠ sTokenNumeric := by decide +kernel
  have d3 : sLiteral ≠ sTokenNumeric := by decide +kernel
  rw [← hC, ← hN, ← hU]
  obtain ⟨-, -, -, -, ⟨vs, v', hv, rfl, -⟩, -⟩ := accepted hm h
  constructor
  · intro hn
    rw [hn] at hv
    simp only [validatorStep, Option.getD_none] at hv
    have dd : defaultValidator.name ≠ sCustom := by decide +kernel
    rw [if_neg dd, if_pos (show _ ∨ defaultValidator.name = sTokenCaseless ∨ _ from .inr (.inl rfl))] at hv
    simp only [Res.ok.injEq, Prod.mk.injEq] at hv
    rw [← hv.1]
    exact ⟨rfl, rfl, rfl⟩
  · intro v hn
    rw [hn] at hv
    simp only [validatorStep, Option.getD_some] at hv
    by_cases h1 : v.name = sCustom
    · rw [if_pos h1] at hv
      cases hc : v.custom with
      | none => rw [hc] at hv; cases hv
      | some c =>
        rw [hc] at hv
        simp only [Res.ok.injEq, Prod.mk.injEq] at hv
        rw [← hv.1]
        exact ⟨rfl, fun h => absurd (h1.symm.trans h) d0, fun _ => rfl, fun _ => ⟨c, rfl, rfl⟩,
          fun h => absurd h1 h⟩
    · rw [if_neg h1] at hv
      by_cases h2 : v.name = sToken ∨ v.name = sTokenCaseless ∨ v.name = sLiteral
      · rw [if_pos h2] at hv
        simp only [Res.ok.injEq, Prod.mk.injEq] at hv
        rw [← hv.1]
        refine ⟨rfl, fun h => ?_, fun _ => rfl, fun h => absurd h h1, fun _ => rfl⟩
        rcases h2 with h2 | h2 | h2
        · exact absurd (h2.symm.trans h) d1
        · exact absurd (h2.symm.trans h) d2
        · exact absurd (h2.symm.trans h) d3
      · rw [if_neg h2] at hv
        by_cases h3 : v.name = sTokenNumeric
        · rw [if_pos h3] at hv
          simp only [Res.ok.injEq, Prod.mk.injEq] at hv
          rw [← hv.1]
          exact ⟨rfl, fun _ => rfl, fun h => absurd h3 h, fun h => absurd h h1, fun _ => rfl⟩
        · rw [if_neg h3] at hv; cases hv

/-- **C129** The limits filled in for a custom validator without limits (in the caller's input; they
never reach the settings, `C54_validator_limits_ignored`): 1 second, 5 seconds in all, 256 MiB and
10 KiB of output; limits that were given stay as they are. -/
theorem C129_validator_limits (R : Runtime) (T : Tools ι) (input : Input) (o : Output ι)
    (hm : IsMap input.cases) (h : newLiteralInput R T input = .ok o) (v : Validator)
    (hv : input.validator = some v) (hn : v.name = "custom".toList) :
    ∃ c w, v.custom = some c ∧ o.input.validator = some w ∧ w.name = v.name ∧
      w.custom = some { c with limits := some (match c.limits with
        | some l => l
        | none => filledLimits) } := by
  have hU : sCustom = "custom".toList := by decide +kernel
  obtain ⟨-, -, -, -, ⟨vs, v', hs, -, ov⟩, -⟩ := accepted hm h
  rw [hv] at hs
  simp only [validatorStep, Option.getD_some] at hs
  rw [if_pos (hn.trans hU.symm)] at hs
  cases hc : v.custom with
  | none => rw [hc] at hs; cases hs
  | some c =>
    rw [hc] at hs
    simp only [Res.ok.injEq, Prod.mk.injEq, Option.map_some] at hs
    refine ⟨c, { v with custom := some { c with limits := some (c.limits.getD defaultValidatorLimits) } },
      rfl, by rw [ov, ← hs.2.2], rfl, ?_⟩
    have : defaultValidatorLimits = filledLimits := by decide +kernel
    cases c.limits <;> simp [this]

-- an interactive problem in C++17 with a custom validator, accepted; and three that are not
def interactiveInput (lang name : String) : Input where
  cases := [(['a'], sampleCase 1)]
  limits := none
  validator := some { name := sCustom, tolerance := none, custom := some { source := ['x'], language := ['p', 'y'], limits := none } }
  interactive := some { idl := ['i'], moduleName := name.toList, parentLang := lang.toList, mainSource := ['m'] }

example : ValidatorAllowed (interactiveInput "cpp17-gcc" "_a1").validator ∧
    InteractiveAllowed plainTools (interactiveInput "cpp17-gcc" "_a1").interactive ∧
    IsMap (interactiveInput "cpp17-gcc" "_a1").cases ∧
    (∃ o, newLiteralInput plainRuntime plainTools (interactiveInput "cpp17-gcc" "_a1") = .ok o) ∧
    (¬ ∃ o, newLiteralInput plainRuntime plainTools (interactiveInput "cpp20" "_a1") = .ok o) ∧
    (¬ ∃ o, newLiteralInput plainRuntime plainTools (interactiveInput "cpp17-gcc" "a") = .ok o) ∧
    (¬ ∃ o, newLiteralInput plainRuntime plainTools (interactiveInput "cpp17-gcc" "a_b") = .ok o) := by
  have hm : ∀ l n, IsMap (interactiveInput l n).cases := by intro l n; exact List.nodup_singleton _
  have hma : ∀ s, plainTools.marshal s ≠ none := by intro s; simp [plainTools]
  have hv : ∀ l n, ValidatorAllowed (interactiveInput l n).validator := by
    intro l n
    exact (validator_iff _).mp ⟨_, rfl⟩
  have yes : validInterface "_a1".toList = true := by decide +kernel
  have hi : InteractiveAllowed plainTools (interactiveInput "cpp17-gcc" "_a1").interactive :=
    ⟨("cpp17-gcc", "cpp"), by simp [parentLanguages], rfl, (validInterface_iff _).mp yes, by simp [plainTools]⟩
  refine ⟨hv _ _, hi, hm _ _, ?_, ?_, ?_, ?_⟩
  · rw [C129_accepted_iff _ _ _ (hm _ _) hma]
    refine ⟨⟨by simp [interactiveInput], ?_, ?_⟩, hv _ _, hi⟩
    · intro e he
      simp only [interactiveInput, List.mem_singleton] at he
      subst he
      exact ⟨_, 1, rfl, rfl, by decide⟩
    · exact ⟨_, List.mem_singleton.mpr rfl, _, 1, rfl, rfl, by decide⟩
  · rw [C129_accepted_iff _ _ _ (hm _ _) hma]
    rintro ⟨-, -, e, he, hl, -⟩
    have : "cpp20".toList ∉ parentLanguages.map fun e => e.1.toList := by decide +kernel
    exact this (List.mem_map.mpr ⟨e, he, hl.symm⟩)
  · rw [C129_accepted_iff _ _ _ (hm _ _) hma]
    rintro ⟨-, -, e, he, hl, h, -⟩
    have no : validInterface "a".toList = false := by decide +kernel
    have := (validInterface_iff _).mpr h
    rw [show (Interactive.moduleName _) = "a".toList from rfl, no] at this
    cases this
  · rw [C129_accepted_iff _ _ _ (hm _ _) hma]
    rintro ⟨-, -, e, he, hl, h, -⟩
    have no : validInterface "a_b".toList = false := by decide +kernel
    have := (validInterface_iff _).mpr h
    rw [show (Interactive.moduleName _) = "a_b".toList from rfl, no] at this
    cases this

end Quark.Literal
