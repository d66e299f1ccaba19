import Verif.CIConfig.Model
import Verif.CI.Props
import Verif.Literal.Props

/-!
# C101-C104: what a CI request tests, and with what input
-/

namespace Quark.CIConfig

open Quark.Literal (Str Case Limits CustomValidator Validator Interactive Input ValidatorSettings Runtime Tools Output
  languageFileExtension newLiteralInput IsMap BeforeDot)

variable {ι : Type}

/-! ## Specification -/

/-- `e` is what follows the last dot in the last element of the path `p`. -/
def HasExtension (p e : Str) : Prop := '.' ∉ e ∧ '/' ∉ e ∧ ∃ stem, p = stem ++ '.' :: e

/-- The language of a test program: the declared one; otherwise the extension of its file, `cpp` meaning `cpp11`. -/
def LanguageOf (declared filename language : Str) : Prop :=
  (declared ≠ [] ∧ language = declared) ∨
  (declared = [] ∧ ∃ e, HasExtension filename e ∧
    ((e = ['c', 'p', 'p'] ∧ language = ['c', 'p', 'p', '1', '1']) ∨ (e ≠ ['c', 'p', 'p'] ∧ language = e)))

/-- All the cases of the problem, group by group. -/
def ProblemSettings.cases (ps : ProblemSettings) : List ProblemCase := ps.groups.flatMap ProblemGroup.cases

/-- The files of the cases are in the commit. -/
def CasesThere (blob : Str → Option Str) (ps : ProblemSettings) : Prop :=
  ∀ c ∈ ps.cases, blob ("cases/".toList ++ c.name ++ ".in".toList) ≠ none ∧
    blob ("cases/".toList ++ c.name ++ ".out".toList) ≠ none

/-- The source of a custom validator is in the commit. -/
def ValidatorThere (blob : Str → Option Str) (ps : ProblemSettings) : Prop :=
  ps.validator.name = "custom".toList → ∃ lang, ps.validator.lang = some lang ∧ blob ("validator.".toList ++ lang) ≠ none

/-- The sources of an interactive problem are in the commit, where the CI looks for them. -/
def InteractiveThere (blob : Str → Option Str) (ps : ProblemSettings) : Prop :=
  ∀ i, ps.interactive = some i →
    blob ("interactive/".toList ++ languageFileExtension i.moduleName ++ ".idl".toList) ≠ none ∧
    blob ("interactive/Main.".toList ++ languageFileExtension i.parentLang) ≠ none

/-- The test programs are in the commit and have a language. -/
def ProgramsThere (blob : Str → Option Str) (ts : TestsSettings) : Prop :=
  (∀ s ∈ ts.solutions, blob ("tests/".toList ++ s.filename) ≠ none ∧ ∃ l, LanguageOf s.language s.filename l) ∧
  ∀ v, ts.inputs = some v → blob ("tests/".toList ++ v.filename) ≠ none ∧ ∃ l, LanguageOf v.language v.filename l

/-- The two settings files of a commit. -/
def Declares (D : Decoders) (blob : Str → Option Str) (ts : TestsSettings) (ps : ProblemSettings) : Prop :=
  (∃ x, blob "tests/tests.json".toList = some x ∧ D.tests x = some ts) ∧
    ∃ x, blob "settings.json".toList = some x ∧ D.settings x = some ps

/-! ## The pieces -/

theorem not_mem_takeWhile (c : Char) (l : Str) : c ∉ l.takeWhile (· ≠ c) := by
  induction l with
  | nil => simp
  | cons a l ih =>
    by_cases h : a = c
    · simp [h]
    · rw [List.takeWhile_cons_of_pos (by simpa using h), List.mem_cons, not_or]
      exact ⟨fun e => h e.symm, ih⟩

theorem takeWhile_split {c : Char} {l : Str} (h : c ∈ l) : ∃ b, l = l.takeWhile (· ≠ c) ++ c :: b := by
  induction l with
  | nil => cases h
  | cons a l ih =>
    by_cases hc : a = c
    · exact ⟨l, by simp [hc]⟩
    · obtain ⟨b, hb⟩ := ih (by rcases List.mem_cons.mp h with h | h; exact absurd h.symm hc; exact h)
      refine ⟨b, ?_⟩
      rw [List.takeWhile_cons_of_pos (by simpa using hc), List.cons_append, ← hb]

theorem takeWhile_sub {c d : Char} {l : Str} (h : d ∈ l.takeWhile (· ≠ c)) : d ∈ l :=
  (List.takeWhile_sublist _).mem h

theorem takeWhile_prefix {c : Char} {a b : Str} (h : c ∉ a) :
    (a ++ b).takeWhile (· ≠ c) = a ++ b.takeWhile (· ≠ c) := by
  rw [List.takeWhile_append_of_pos]
  intro x hx
  simp only [decide_eq_true_eq]
  rintro rfl; exact h hx

theorem ext_of_hasExtension {p e : Str} (h : HasExtension p e) : ext p = '.' :: e := by
  obtain ⟨h1, h2, stem, rfl⟩ := h
  unfold ext
  have hr : (stem ++ '.' :: e).reverse = e.reverse ++ '.' :: stem.reverse := by simp
  simp only [hr]
  rw [takeWhile_prefix (by simpa using h2), List.takeWhile_cons_of_pos (by decide), if_pos (by simp),
    takeWhile_prefix (by simpa using h1), List.takeWhile_cons_of_neg (by simp)]
  simp

theorem hasExtension_of_ext {p : Str} (h : ext p ≠ []) : ∃ e, ext p = '.' :: e ∧ HasExtension p e := by
  unfold ext at h ⊢
  simp only at h ⊢
  by_cases hdot : '.' ∈ p.reverse.takeWhile (· ≠ '/')
  swap
  · rw [if_neg hdot] at h; exact absurd rfl h
  rw [if_pos hdot]
  refine ⟨_, rfl, ?_, ?_, ?_⟩
  · rw [List.mem_reverse]; exact not_mem_takeWhile _ _
  · rw [List.mem_reverse]
    exact fun hm => not_mem_takeWhile _ _ (takeWhile_sub hm)
  · obtain ⟨b, hb⟩ := takeWhile_split hdot
    refine ⟨(b ++ p.reverse.dropWhile (· ≠ '/')).reverse, ?_⟩
    have hp : p.reverse = p.reverse.takeWhile (· ≠ '/') ++ p.reverse.dropWhile (· ≠ '/') :=
      (List.takeWhile_append_dropWhile ..).symm
    conv_lhs => rw [← p.reverse_reverse, hp, hb]
    simp

theorem testLanguage_iff (declared filename l : Str) :
    testLanguage declared filename = some l ↔ LanguageOf declared filename l := by
  unfold testLanguage LanguageOf
  by_cases hd : declared = []
  · simp only [hd, if_true, ne_eq, not_true_eq_false, false_and, true_and, false_or]
    by_cases he : ext filename = []
    · rw [if_pos he]
      constructor
      · intro h; cases h
      · rintro ⟨e, h1, -⟩
        rw [ext_of_hasExtension h1] at he; cases he
    · rw [if_neg he]
      obtain ⟨e, h1, h2⟩ := hasExtension_of_ext he
      rw [h1]
      simp only [List.drop_succ_cons, List.drop_zero, Option.some.injEq, fileExtensionLanguage]
      constructor
      · rintro rfl
        refine ⟨e, h2, ?_⟩
        by_cases hc : e = sCpp
        · exact .inl ⟨hc, by simp [hc, sCpp11]⟩
        · exact .inr ⟨hc, by simp [hc]⟩
      · rintro ⟨e', h3, h4⟩
        have : e' = e := by
          have := ext_of_hasExtension h3
          rw [h1] at this
          cases this; rfl
        subst this
        rcases h4 with ⟨h4, rfl⟩ | ⟨h4, rfl⟩
        · rw [if_pos (show e' = sCpp from h4)]; rfl
        · rw [if_neg (show ¬ _ = sCpp from h4)]
  · rw [if_neg hd]
    simp only [Option.some.injEq, ne_eq, hd, not_false_eq_true, true_and, false_and, or_false]
    exact eq_comm

theorem bind_done {α β : Type} {x : Build α} {f : α → Build β} {b : β} :
    x.bind f = .done b ↔ ∃ a, x = .done a ∧ f a = .done b := by
  cases x <;> simp [Build.bind]

theorem orError_done {α : Type} {x : Option α} {a : α} : orError x = .done a ↔ x = some a := by
  cases x <;> simp [orError]

/-- The case as it is read from the commit. -/
def readCase (blob : Str → Option Str) (c : ProblemCase) : Str × Option Case :=
  (c.name, some { input := (blob (sCasesDir ++ c.name ++ sDotIn)).getD []
                  output := (blob (sCasesDir ++ c.name ++ sDotOut)).getD [], weight := c.weight })

def addAll (blob : Str → Option Str) (cs : List ProblemCase) (m : List (Str × Option Case)) :
    List (Str × Option Case) :=
  cs.foldl (fun m c => Literal.put m (readCase blob c).1 (readCase blob c).2) m

def There (blob : Str → Option Str) (c : ProblemCase) : Prop :=
  blob (sCasesDir ++ c.name ++ sDotIn) ≠ none ∧ blob (sCasesDir ++ c.name ++ sDotOut) ≠ none

open Classical in
theorem readCases_eq (blob : Str → Option Str) (cs : List ProblemCase) (m : List (Str × Option Case)) :
    readCases blob cs m = if ∀ c ∈ cs, There blob c then .done (addAll blob cs m) else .error := by
  induction cs generalizing m with
  | nil => simp [readCases, addAll]
  | cons c cs ih =>
    unfold readCases
    cases hi : blob (sCasesDir ++ c.name ++ sDotIn) with
    | none =>
      rw [if_neg]
      · rfl
      · exact fun h => (h c (by simp)).1 hi
    | some x =>
      cases ho : blob (sCasesDir ++ c.name ++ sDotOut) with
      | none =>
        rw [if_neg]
        · rfl
        · exact fun h => (h c (by simp)).2 ho
      | some y =>
        simp only [orError, Build.bind]
        rw [ih]
        have hc : There blob c := ⟨by rw [hi]; exact Option.some_ne_none _, by rw [ho]; exact Option.some_ne_none _⟩
        by_cases h : ∀ c ∈ cs, There blob c
        · rw [if_pos h, if_pos (by rintro d (_ | ⟨_, hd⟩); exacts [hc, h d hd])]
          simp only [addAll, List.foldl_cons, readCase, hi, ho, Option.getD_some]
        · rw [if_neg h, if_neg (fun h' => h fun d hd => h' d (List.mem_cons_of_mem _ hd))]

open Classical in
theorem readGroups_eq (blob : Str → Option Str) (gs : List ProblemGroup) (m : List (Str × Option Case)) :
    readGroups blob gs m =
      if ∀ c ∈ gs.flatMap ProblemGroup.cases, There blob c then
        .done (addAll blob (gs.flatMap ProblemGroup.cases) m) else .error := by
  induction gs generalizing m with
  | nil => simp [readGroups, addAll]
  | cons g gs ih =>
    unfold readGroups
    rw [readCases_eq]
    by_cases hg : ∀ c ∈ g.cases, There blob c
    · rw [if_pos hg]
      simp only [Build.bind]
      rw [ih]
      by_cases h : ∀ c ∈ gs.flatMap ProblemGroup.cases, There blob c
      · rw [if_pos h, if_pos]
        · simp [addAll, List.foldl_append]
        · intro c hc
          rw [List.flatMap_cons, List.mem_append] at hc
          exact hc.elim (hg c) (h c)
      · rw [if_neg h, if_neg]
        exact fun h' => h fun c hc => h' c (by rw [List.flatMap_cons, List.mem_append]; exact .inr hc)
    · rw [if_neg hg, if_neg]
      · rfl
      · exact fun h' => hg fun c hc => h' c (by rw [List.flatMap_cons, List.mem_append]; exact .inl hc)

/-- The test made of a solution. -/
def solutionTest (blob : Str → Option Str) (s : Solution) : Test where
  filename := s.filename
  language := (testLanguage s.language s.filename).getD []
  source := (blob (sTests ++ s.filename)).getD []
  solution := some s.expects
  input := none

def ProgramThere (blob : Str → Option Str) (language filename : Str) : Prop :=
  blob (sTests ++ filename) ≠ none ∧ testLanguage language filename ≠ none

open Classical in
theorem readSolutions_eq (blob : Str → Option Str) (ss : List Solution) :
    readSolutions blob ss =
      if ∀ s ∈ ss, ProgramThere blob s.language s.filename then .done (ss.map (solutionTest blob)) else .error := by
  induction ss with
  | nil => simp [readSolutions]
  | cons s ss ih =>
    unfold readSolutions
    cases hl : testLanguage s.language s.filename with
    | none =>
      rw [if_neg]
      · rfl
      · exact fun h => (h s (by simp)).2 hl
    | some l =>
      cases hb : blob (sTests ++ s.filename) with
      | none =>
        rw [if_neg]
        · rfl
        · exact fun h => (h s (by simp)).1 hb
      | some x =>
        simp only [orError, Build.bind]
        rw [ih]
        have hs : ProgramThere blob s.language s.filename := ⟨by simp [hb], by simp [hl]⟩
        by_cases h : ∀ s ∈ ss, ProgramThere blob s.language s.filename
        · rw [if_pos h, if_pos (by rintro d (_ | ⟨_, hd⟩); exacts [hs, h d hd])]
          simp [solutionTest, hl, hb]
        · rw [if_neg h, if_neg (fun h' => h fun d hd => h' d (List.mem_cons_of_mem _ hd))]

def inputsTest (blob : Str → Option Str) (cases : List (Str × Option Case)) (v : InputsValidator) : Test where
  filename := v.filename
  language := sCpp11
  source := copyProgram
  solution := none
  input := some
    { cases := cases, limits := none, interactive := none
      validator := some { name := sCustom, tolerance := none
                          custom := some { source := (blob (sTests ++ v.filename)).getD []
                                           language := (testLanguage v.language v.filename).getD []
                                           limits := none } } }

open Classical in
theorem readInputs_eq (blob : Str → Option Str) (cases : List (Str × Option Case)) (v : Option InputsValidator) :
    readInputs blob cases v =
      if ∀ x, v = some x → ProgramThere blob x.language x.filename then
        .done (v.toList.map (inputsTest blob cases)) else .error := by
  cases v with
  | none => simp [readInputs]
  | some v =>
    unfold readInputs
    cases hl : testLanguage v.language v.filename with
    | none =>
      rw [if_neg]
      · simp only [hl, orError, Build.bind]
      · exact fun h => (h v rfl).2 hl
    | some l =>
      cases hb : blob (sTests ++ v.filename) with
      | none =>
        rw [if_neg]
        · simp only [hl, hb, orError, Build.bind]
        · exact fun h => (h v rfl).1 hb
      | some x =>
        rw [if_pos]
        · simp [orError, Build.bind, inputsTest, hl, hb]
        · rintro y ⟨⟩; exact ⟨by simp [hb], by simp [hl]⟩

/-! ## How it ends -/

theorem there_iff (blob : Str → Option Str) (ps : ProblemSettings) :
    (∀ c ∈ ps.groups.flatMap ProblemGroup.cases, There blob c) ↔ CasesThere blob ps := Iff.rfl

theorem program_iff (blob : Str → Option Str) (l f : Str) :
    ProgramThere blob l f ↔ blob ("tests/".toList ++ f) ≠ none ∧ ∃ x, LanguageOf l f x := by
  unfold ProgramThere
  have : (∃ x, LanguageOf l f x) ↔ testLanguage l f ≠ none := by
    constructor
    · rintro ⟨x, hx⟩ h
      rw [(testLanguage_iff l f x).mpr hx] at h; cases h
    · intro h
      obtain ⟨x, hx⟩ := Option.ne_none_iff_exists'.mp h
      exact ⟨x, (testLanguage_iff l f x).mp hx⟩
  rw [this]
  exact Iff.rfl

theorem programs_iff (blob : Str → Option Str) (ts : TestsSettings) :
    ((∀ s ∈ ts.solutions, ProgramThere blob s.language s.filename) ∧
      ∀ x, ts.inputs = some x → ProgramThere blob x.language x.filename) ↔ ProgramsThere blob ts := by
  unfold ProgramsThere
  simp only [program_iff]

/-- The configuration of a complete commit. -/
def configOf (blob : Str → Option Str) (ts : TestsSettings) (ps : ProblemSettings) : Config :=
  let cases := addAll blob ps.cases []
  { input :=
      { cases := cases, limits := some ps.limits
        validator := some
          { name := ps.validator.name, tolerance := ps.validator.tolerance
            custom := if ps.validator.name = sCustom then
                some { source := (blob (sValidator ++ ps.validator.lang.getD [])).getD []
                       language := ps.validator.lang.getD [], limits := ps.validator.limits }
              else none }
        interactive := ps.interactive.map fun i =>
          { idl := (blob (sInteractiveDir ++ languageFileExtension i.moduleName ++ sDotIdl)).getD []
            moduleName := i.moduleName, parentLang := i.parentLang
            mainSource := (blob (sInteractiveDir ++ sMain ++ languageFileExtension i.parentLang)).getD [] } }
    tests := ts.solutions.map (solutionTest blob) ++ ts.inputs.toList.map (inputsTest blob cases) }

theorem declares_iff (D : Decoders) (blob : Str → Option Str) (ts : TestsSettings) (ps : ProblemSettings) :
    Declares D blob ts ps ↔ (blob sTestsJson).bind D.tests = some ts ∧ (blob sSettingsJson).bind D.settings = some ps := by
  unfold Declares
  simp only [Option.bind_eq_some_iff]
  exact Iff.rfl

theorem validatorThere_iff (blob : Str → Option Str) (ps : ProblemSettings) :
    ValidatorThere blob ps ↔
      (ps.validator.name = sCustom → ∃ lang, ps.validator.lang = some lang ∧ blob (sValidator ++ lang) ≠ none) := Iff.rfl

theorem interactive_done (blob : Str → Option Str) (ps : ProblemSettings) (h : InteractiveThere blob ps)
    (ts : TestsSettings) : readInteractive blob ps.interactive = .done (configOf blob ts ps).input.interactive := by
  unfold configOf
  cases hi : ps.interactive with
  | none => rfl
  | some i =>
    obtain ⟨h1, h2⟩ := h i hi
    obtain ⟨x, hx⟩ := Option.ne_none_iff_exists'.mp h1
    obtain ⟨y, hy⟩ := Option.ne_none_iff_exists'.mp h2
    have hx' : blob (sInteractiveDir ++ languageFileExtension i.moduleName ++ sDotIdl) = some x := hx
    have hy' : blob (sInteractiveDir ++ sMain ++ languageFileExtension i.parentLang) = some y := hy
    simp only [readInteractive, hx', hy', orError, Build.bind, Option.map_some, Option.getD_some]

theorem interactive_error (blob : Str → Option Str) (ps : ProblemSettings) (h : ¬ InteractiveThere blob ps) :
    readInteractive blob ps.interactive = .error := by
  unfold InteractiveThere at h
  push Not at h
  obtain ⟨i, hi, h⟩ := h
  rw [hi]
  unfold readInteractive
  cases hx : blob (sInteractiveDir ++ languageFileExtension i.moduleName ++ sDotIdl) with
  | none => simp only [hx, orError, Build.bind]
  | some x =>
    have hy : blob (sInteractiveDir ++ sMain ++ languageFileExtension i.parentLang) = none := by
      refine h ?_
      have : blob ("interactive/".toList ++ languageFileExtension i.moduleName ++ ".idl".toList) = some x := hx
      rw [this]; simp
    simp only [orError, Build.bind, hx, hy]

open Classical in
theorem config_rest {blob : Str → Option Str} {ts : TestsSettings} {ps : ProblemSettings} {v : Validator}
    (hv : (configOf blob ts ps).input.validator = some v) :
    ((readInteractive blob ps.interactive).bind fun interactive =>
      (readSolutions blob ts.solutions).bind fun solutions =>
      (readInputs blob (addAll blob ps.cases []) ts.inputs).bind fun inputs =>
      .done (some ({ input := { cases := addAll blob ps.cases [], limits := some ps.limits, validator := some v
                                interactive := interactive }
                     tests := solutions ++ inputs } : Config))) =
      if InteractiveThere blob ps ∧ ProgramsThere blob ts then .done (some (configOf blob ts ps)) else .error := by
  by_cases hi : InteractiveThere blob ps
  swap
  · rw [interactive_error blob ps hi, if_neg (fun h => hi h.1)]; rfl
  rw [interactive_done blob ps hi ts]
  simp only [Build.bind]
  rw [readSolutions_eq, readInputs_eq]
  by_cases hp : ProgramsThere blob ts
  · obtain ⟨hp1, hp2⟩ := (programs_iff blob ts).mpr hp
    rw [if_pos hp1]
    simp only
    rw [if_pos hp2, if_pos ⟨hi, hp⟩, ← hv]
    rfl
  · rw [if_neg (show ¬ (InteractiveThere blob ps ∧ ProgramsThere blob ts) from fun h => hp h.2)]
    by_cases hp1 : ∀ s ∈ ts.solutions, ProgramThere blob s.language s.filename
    · rw [if_pos hp1]
      simp only
      rw [if_neg (fun hp2 => hp ((programs_iff blob ts).mp ⟨hp1, hp2⟩))]
    · rw [if_neg hp1]

open Classical in
theorem createConfig_eq {D : Decoders} {blob : Str → Option Str} {ts : TestsSettings} {ps : ProblemSettings}
    (h : Declares D blob ts ps) :
    createConfig D (.tree blob) =
      if ¬ CasesThere blob ps then .error
      else if ps.validator.name = "custom".toList ∧ ps.validator.lang = none then .done none
      else if ValidatorThere blob ps ∧ InteractiveThere blob ps ∧ ProgramsThere blob ts then
        .done (some (configOf blob ts ps))
      else .error := by
  obtain ⟨h1, h2⟩ := (declares_iff ..).mp h
  unfold createConfig
  simp only [h1, h2]
  rw [readGroups_eq]
  by_cases hc : CasesThere blob ps
  swap
  · rw [if_neg (by rw [there_iff]; exact hc), if_pos hc]; rfl
  rw [if_pos ((there_iff ..).mpr hc), if_neg (not_not.mpr hc)]
  simp only [Build.bind]
  by_cases hcust : ps.validator.name = sCustom
  · cases hlang : ps.validator.lang with
    | none =>
      rw [if_pos ⟨hcust, rfl⟩]
      simp [readValidator, hcust, hlang]
    | some lang =>
      rw [if_neg (by simp)]
      cases hb : blob (sValidator ++ lang) with
      | none =>
        rw [if_neg]
        · simp [readValidator, hcust, hlang, hb, orError, Build.bind]
        · rintro ⟨hv, -⟩
          obtain ⟨l, hl, hl'⟩ := hv hcust
          rw [hlang] at hl
          cases hl
          exact hl' hb
      | some src =>
        have hv : ValidatorThere blob ps := fun _ => ⟨lang, hlang, by
          have : blob ("validator.".toList ++ lang) = some src := hb
          rw [this]; simp⟩
        have hrv : readValidator blob ps.validator = .done (configOf blob ts ps).input.validator := by
          simp [readValidator, configOf, hcust, hlang, hb, orError, Build.bind]
        obtain ⟨v, hsome⟩ : ∃ v, (configOf blob ts ps).input.validator = some v := ⟨_, rfl⟩
        rw [hrv, hsome]
        simp only [hv, true_and]
        exact config_rest hsome
  · rw [if_neg (fun h => hcust h.1)]
    have hv : ValidatorThere blob ps := fun h => absurd h hcust
    have hrv : readValidator blob ps.validator = .done (configOf blob ts ps).input.validator := by
      simp [readValidator, configOf, hcust]
    obtain ⟨v, hsome⟩ : ∃ v, (configOf blob ts ps).input.validator = some v := ⟨_, rfl⟩
    rw [hrv, hsome]
    simp only [hv, true_and]
    exact config_rest hsome

/-! ## C101 -/

theorem languageOf_unique {d f l l' : Str} (h : LanguageOf d f l) (h' : LanguageOf d f l') : l = l' := by
  rw [← testLanguage_iff] at h h'
  rw [h] at h'
  cases h'; rfl

/-- The test made of a declared solution: the program in the commit, in the declared language or the one its name
suggests, with the declared expectations, on the input of the problem. -/
def TestsSolution (blob : Str → Option Str) (s : Solution) (t : Test) : Prop :=
  t.filename = s.filename ∧ LanguageOf s.language s.filename t.language ∧
    blob ("tests/".toList ++ s.filename) = some t.source ∧ t.solution = some s.expects ∧ t.input = none

/-- The test made of a declared validator of the inputs: a C++ program that copies its input is judged by it, on the
cases of the problem. -/
def TestsInputs (blob : Str → Option Str) (cases : List (Str × Option Case)) (v : InputsValidator) (t : Test) : Prop :=
  t.filename = v.filename ∧ t.language = "cpp11".toList ∧ t.source = copyProgram ∧ t.solution = none ∧
  ∃ source language, blob ("tests/".toList ++ v.filename) = some source ∧
    LanguageOf v.language v.filename language ∧
    t.input = some
      { cases := cases, limits := none, interactive := none
        validator := some { name := "custom".toList, tolerance := none
                            custom := some { source := source, language := language, limits := none } } }

theorem done_cases {D : Decoders} {blob : Str → Option Str} {ts : TestsSettings} {ps : ProblemSettings} {cfg : Config}
    (h : Declares D blob ts ps) (hc : createConfig D (.tree blob) = .done (some cfg)) :
    CasesThere blob ps ∧ ValidatorThere blob ps ∧ InteractiveThere blob ps ∧ ProgramsThere blob ts ∧
      cfg = configOf blob ts ps := by
  rw [createConfig_eq h] at hc
  split_ifs at hc with h1 h2 h3
  · cases hc
  · simp only [Build.done.injEq, Option.some.injEq] at hc
    exact ⟨h1, h3.1, h3.2.1, h3.2.2, hc.symm⟩

theorem forall₂_map_right {α β : Type} {P : α → β → Prop} {f : α → β} {l : List α} (h : ∀ a ∈ l, P a (f a)) :
    List.Forall₂ P l (l.map f) := by
  induction l with
  | nil => exact .nil
  | cons a l ih =>
    exact .cons (h a (by simp)) (ih fun b hb => h b (List.mem_cons_of_mem _ hb))

/-- C101: the tests of a CI run are those the commit declares: one for each solution, in their order, and one for the
validator of the inputs, if there is one. -/
theorem C101_tests {D : Decoders} {blob : Str → Option Str} {ts : TestsSettings} {ps : ProblemSettings} {cfg : Config}
    (h : Declares D blob ts ps) (hc : createConfig D (.tree blob) = .done (some cfg)) :
    ∃ sols ins : List Test, cfg.tests = sols ++ ins ∧ List.Forall₂ (TestsSolution blob) ts.solutions sols ∧
      List.Forall₂ (TestsInputs blob cfg.input.cases) ts.inputs.toList ins := by
  obtain ⟨-, -, -, ⟨hp1, hp2⟩, rfl⟩ := done_cases h hc
  refine ⟨_, _, rfl, forall₂_map_right ?_, forall₂_map_right ?_⟩
  · intro s hs
    obtain ⟨h1, l, hl⟩ := hp1 s hs
    obtain ⟨x, hx⟩ := Option.ne_none_iff_exists'.mp h1
    have hx' : blob (sTests ++ s.filename) = some x := hx
    refine ⟨rfl, ?_, ?_, rfl, rfl⟩
    · simp only [solutionTest, (testLanguage_iff ..).mpr hl, Option.getD_some]; exact hl
    · simp only [solutionTest, hx', Option.getD_some]; exact hx
  · intro v hv
    obtain ⟨h1, l, hl⟩ := hp2 v (Option.mem_toList.mp hv)
    obtain ⟨x, hx⟩ := Option.ne_none_iff_exists'.mp h1
    have hx' : blob (sTests ++ v.filename) = some x := hx
    refine ⟨rfl, rfl, by dsimp only [inputsTest], rfl, x, l, hx, hl, ?_⟩
    simp only [inputsTest, (testLanguage_iff ..).mpr hl, hx', Option.getD_some]
    rfl

/-- C101: what becomes of a request. Nothing is tested unless both settings files are there and can be read, and
everything they refer to is in the commit. -/
theorem C101_classified (D : Decoders) (blob : Str → Option Str) :
    (createConfig D (.tree blob) = .skipped ↔ ¬ ∃ ts ps, Declares D blob ts ps) ∧
    createConfig D (.tree blob) ≠ .crash ∧
    ∀ ts ps, Declares D blob ts ps →
      ((∃ cfg, createConfig D (.tree blob) = .done (some cfg)) ↔
        CasesThere blob ps ∧ ValidatorThere blob ps ∧ InteractiveThere blob ps ∧ ProgramsThere blob ts) ∧
      (createConfig D (.tree blob) = .done none ↔
        CasesThere blob ps ∧ ps.validator.name = "custom".toList ∧ ps.validator.lang = none) := by
  have key : ∀ ts ps, Declares D blob ts ps → createConfig D (.tree blob) ≠ .skipped ∧
      createConfig D (.tree blob) ≠ .crash := by
    intro ts ps h
    rw [createConfig_eq h]
    split_ifs <;> exact ⟨by simp, by simp⟩
  have hskip : (¬ ∃ ts ps, Declares D blob ts ps) → createConfig D (.tree blob) = .skipped := by
    intro h
    unfold createConfig
    cases h1 : (blob sTestsJson).bind D.tests with
    | none => simp only [h1]
    | some ts =>
      cases h2 : (blob sSettingsJson).bind D.settings with
      | none => simp only [h1, h2]
      | some ps => exact absurd ⟨ts, ps, (declares_iff ..).mpr ⟨h1, h2⟩⟩ h
  refine ⟨⟨?_, hskip⟩, ?_, ?_⟩
  · rintro h ⟨ts, ps, hd⟩
    exact (key ts ps hd).1 h
  · by_cases h : ∃ ts ps, Declares D blob ts ps
    · obtain ⟨ts, ps, hd⟩ := h
      exact (key ts ps hd).2
    · rw [hskip h]; simp
  · intro ts ps hd
    rw [createConfig_eq hd]
    have hne : ∀ (x : Build (Option Config)) (P : Prop), (∀ cfg, x ≠ .done (some cfg)) → ¬ P →
        ((∃ cfg, x = .done (some cfg)) ↔ P) := by
      intro x P h1 h2
      exact ⟨fun ⟨c, h⟩ => absurd h (h1 c), fun h => absurd h h2⟩
    have hne' : ∀ (x : Build (Option Config)) (P : Prop), x ≠ .done none → ¬ P → (x = .done none ↔ P) :=
      fun x P h1 h2 => ⟨fun h => absurd h h1, fun h => absurd h h2⟩
    by_cases h1 : CasesThere blob ps
    swap
    · rw [if_pos h1]
      exact ⟨hne _ _ (by simp) (fun h => h1 h.1), hne' _ _ (by simp) (fun h => h1 h.1)⟩
    rw [if_neg (not_not.mpr h1)]
    by_cases h2 : ps.validator.name = "custom".toList ∧ ps.validator.lang = none
    · rw [if_pos h2]
      refine ⟨hne _ _ (by simp) fun h => ?_, ⟨fun _ => ⟨h1, h2⟩, fun _ => rfl⟩⟩
      obtain ⟨l, hl, -⟩ := h.2.1 h2.1
      rw [h2.2] at hl; cases hl
    rw [if_neg h2]
    by_cases h3 : ValidatorThere blob ps ∧ InteractiveThere blob ps ∧ ProgramsThere blob ts
    · rw [if_pos h3]
      exact ⟨⟨fun _ => ⟨h1, h3⟩, fun _ => ⟨_, rfl⟩⟩, hne' _ _ (by simp) fun h => h2 h.2⟩
    · rw [if_neg h3]
      exact ⟨hne _ _ (by simp) fun h => h3 h.2, hne' _ _ (by simp) fun h => h2 h.2⟩

/-! ## The cases -/

theorem mem_put {β : Type} {m : List (Str × β)} {k k' : Str} {v v' : β} :
    (k', v') ∈ Literal.put m k v ↔ (k' = k ∧ v' = v) ∨ (k' ≠ k ∧ (k', v') ∈ m) := by
  unfold Literal.put
  split_ifs with h
  · simp only [List.any_eq_true, beq_iff_eq, Prod.exists] at h
    obtain ⟨a, b, hab, rfl⟩ := h
    simp only [List.mem_map, Prod.exists]
    constructor
    · rintro ⟨x, y, hxy, he⟩
      split_ifs at he with hx
      · cases he; exact .inl ⟨rfl, rfl⟩
      · cases he; exact .inr ⟨hx, hxy⟩
    · rintro (⟨rfl, rfl⟩ | ⟨h1, h2⟩)
      · exact ⟨_, _, hab, by simp⟩
      · exact ⟨_, _, h2, by simp [h1]⟩
  · simp only [List.any_eq_true, beq_iff_eq, Prod.exists, not_exists, not_and] at h
    simp only [List.mem_append, List.mem_singleton, Prod.mk.injEq]
    constructor
    · rintro (h1 | h1)
      · exact .inr ⟨fun e => h _ _ h1 e, h1⟩
      · exact .inl h1
    · rintro (h1 | h1)
      · exact .inr h1
      · exact .inl h1.2

theorem isMap_put {β : Type} {m : List (Str × β)} (h : IsMap m) (k : Str) (v : β) : IsMap (Literal.put m k v) := by
  unfold IsMap at h ⊢
  unfold Literal.put
  split_ifs with hk
  · rw [List.map_map]
    have : (Prod.fst ∘ fun e : Str × β => if e.1 = k then (k, v) else e) = Prod.fst := by
      funext e
      simp only [Function.comp]
      split_ifs with he
      · exact he.symm
      · rfl
    rw [this]; exact h
  · simp only [List.any_eq_true, beq_iff_eq, Prod.exists, not_exists, not_and] at hk
    rw [List.map_append, List.nodup_append]
    refine ⟨h, by simp, ?_⟩
    intro a ha b hb
    simp only [List.map_cons, List.map_nil, List.mem_singleton] at hb
    subst hb
    obtain ⟨⟨x, y⟩, hxy, rfl⟩ := List.mem_map.mp ha
    exact hk x y hxy

theorem isMap_addAll (blob : Str → Option Str) (cs : List ProblemCase) {m : List (Str × Option Case)} (h : IsMap m) :
    IsMap (addAll blob cs m) := by
  induction cs generalizing m with
  | nil => exact h
  | cons c cs ih => exact ih (isMap_put h _ _)

/-- `c` is the last of `cs` with its name. -/
def LastOfName (c : ProblemCase) (cs : List ProblemCase) : Prop :=
  ∃ before after, cs = before ++ c :: after ∧ ∀ d ∈ after, d.name ≠ c.name

theorem mem_addAll (blob : Str → Option Str) (cs : List ProblemCase) (m : List (Str × Option Case)) (e : Str × Option Case) :
    e ∈ addAll blob cs m ↔
      (∃ c, LastOfName c cs ∧ e = readCase blob c) ∨ ((∀ c ∈ cs, c.name ≠ e.1) ∧ e ∈ m) := by
  induction cs generalizing m with
  | nil =>
    simp only [addAll, List.foldl_nil, List.not_mem_nil, false_imp_iff, implies_true, true_and, LastOfName]
    constructor
    · exact .inr
    · rintro (⟨c, ⟨b, a, h, -⟩, -⟩ | h)
      · simp at h
      · exact h
  | cons c cs ih =>
    have : addAll blob (c :: cs) m = addAll blob cs (Literal.put m (readCase blob c).1 (readCase blob c).2) := rfl
    rw [this, ih]
    have hput : e ∈ Literal.put m (readCase blob c).1 (readCase blob c).2 ↔
        e = readCase blob c ∨ (e.1 ≠ c.name ∧ e ∈ m) := by
      obtain ⟨k, v⟩ := e
      rw [mem_put]
      simp only [readCase, Prod.mk.injEq]
    rw [hput]
    constructor
    · rintro (⟨d, ⟨b, a, rfl, ha⟩, he⟩ | ⟨h1, rfl | ⟨h2, h3⟩⟩)
      · exact .inl ⟨d, ⟨c :: b, a, rfl, ha⟩, he⟩
      · exact .inl ⟨c, ⟨[], cs, rfl, h1⟩, rfl⟩
      · refine .inr ⟨?_, h3⟩
        rintro d (_ | ⟨_, hd⟩)
        · exact h2.symm
        · exact h1 d hd
    · rintro (⟨d, ⟨b, a, hb, ha⟩, he⟩ | ⟨h1, h2⟩)
      · cases b with
        | nil =>
          simp only [List.nil_append, List.cons.injEq] at hb
          obtain ⟨rfl, rfl⟩ := hb
          right
          rw [he]
          exact ⟨ha, .inl rfl⟩
        | cons x b =>
          simp only [List.cons_append, List.cons.injEq] at hb
          exact .inl ⟨d, ⟨b, a, hb.2, ha⟩, he⟩
      · exact .inr ⟨fun d hd => h1 d (List.mem_cons_of_mem _ hd), .inr ⟨(h1 c (by simp)).symm, h2⟩⟩

/-- C102: the cases are those of the problem, with the contents they have in the commit; of several cases with the same
name, the last counts. -/
theorem C102_cases {D : Decoders} {blob : Str → Option Str} {ts : TestsSettings} {ps : ProblemSettings} {cfg : Config}
    (h : Declares D blob ts ps) (hc : createConfig D (.tree blob) = .done (some cfg)) :
    IsMap cfg.input.cases ∧ ∀ name c, (name, c) ∈ cfg.input.cases ↔
      ∃ x input output, LastOfName x ps.cases ∧ name = x.name ∧
        blob ("cases/".toList ++ x.name ++ ".in".toList) = some input ∧
        blob ("cases/".toList ++ x.name ++ ".out".toList) = some output ∧
        c = some { input := input, output := output, weight := x.weight } := by
  obtain ⟨hcases, -, -, -, rfl⟩ := done_cases h hc
  refine ⟨isMap_addAll _ _ (by simp [IsMap]), fun name c => ?_⟩
  show (name, c) ∈ addAll blob ps.cases [] ↔ _
  rw [mem_addAll]
  simp only [List.not_mem_nil, and_false, or_false]
  constructor
  · rintro ⟨x, hx, he⟩
    obtain ⟨b, a, hb, -⟩ := id hx
    obtain ⟨h1, h2⟩ := hcases x (by rw [hb]; exact List.mem_append_right b (List.mem_cons_self ..))
    obtain ⟨i, hi⟩ := Option.ne_none_iff_exists'.mp h1
    obtain ⟨o, ho⟩ := Option.ne_none_iff_exists'.mp h2
    have hi' : blob (sCasesDir ++ x.name ++ sDotIn) = some i := hi
    have ho' : blob (sCasesDir ++ x.name ++ sDotOut) = some o := ho
    simp only [readCase, hi', ho', Option.getD_some, Prod.mk.injEq] at he
    exact ⟨x, i, o, hx, he.1, hi, ho, he.2⟩
  · rintro ⟨x, i, o, hx, rfl, hi, ho, rfl⟩
    have hi' : blob (sCasesDir ++ x.name ++ sDotIn) = some i := hi
    have ho' : blob (sCasesDir ++ x.name ++ sDotOut) = some o := ho
    exact ⟨x, hx, by simp only [readCase, hi', ho', Option.getD_some]⟩

end Quark.CIConfig
