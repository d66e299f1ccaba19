import Verif.CIConfig.Runs

/-!
# C101-C104: commits that show what the theorems say

-/

namespace Quark.CIConfig

open Quark.Literal (Str Limits ValidatorSettings Runtime Tools Output newLiteralInput plainRuntime backwardsRuntime
  plainTools)

/-- A tree given by its files. -/
def filesOf (l : List (Str × Str)) (p : Str) : Option Str := (l.find? fun e => e.1 = p).map Prod.snd

/-- A decoder that knows one text for each. -/
def decodersOf (ts : TestsSettings) (ps : ProblemSettings) : Decoders where
  tests x := if x = ['T'] then some ts else none
  settings x := if x = ['S'] then some ps else none

def sampleLimits : Limits where
  timeLimit := 1000000000
  overallWallTimeLimit := 5000000000
  extraWallTime := 0
  memoryLimit := 33554432
  outputLimit := 10240

/-- A problem with two groups of three cases. -/
def sampleProblem : ProblemSettings where
  groups := [⟨['a'], [⟨['a', '.', '1'], some (1 / 4)⟩, ⟨['a', '.', '2'], some (1 / 4)⟩]⟩,
    ⟨['b'], [⟨['b'], some (1 / 2)⟩]⟩]
  interactive := none
  limits := sampleLimits
  validator := { lang := none, name := ['t', 'o', 'k', 'e', 'n'], tolerance := none, limits := none }

/-- Two solutions, the language of the first taken from its name, and a validator of the inputs. -/
def sampleTests : TestsSettings where
  solutions := [{ filename := ['s', '.', 'c', 'p', 'p'], language := [], expects := { verdict := "AC", scoreRange := none } },
    { filename := ['w'], language := ['p', 'y', '3'], expects := { verdict := "WA", scoreRange := none } }]
  inputs := some { filename := ['v', '.', 'p', 'y'], language := [] }

def caseFilesOf (names : List Str) : List (Str × Str) :=
  names.flatMap fun n => [(sCasesDir ++ n ++ sDotIn, ['1']), (sCasesDir ++ n ++ sDotOut, ['2'])]

def sampleFiles : List (Str × Str) :=
  [(sTestsJson, ['T']), (sSettingsJson, ['S']), (sTests ++ ['s', '.', 'c', 'p', 'p'], ['x']),
    (sTests ++ ['w'], ['y']), (sTests ++ ['v', '.', 'p', 'y'], ['z'])] ++
    caseFilesOf [['a', '.', '1'], ['a', '.', '2'], ['b']]

def sampleDecoders : Decoders := decodersOf sampleTests sampleProblem

theorem sample_declares : Declares sampleDecoders (filesOf sampleFiles) sampleTests sampleProblem :=
  ⟨⟨['T'], rfl, rfl⟩, ['S'], rfl, rfl⟩

/-- What was queued for each test: language, program, maximum score, and the groups. -/
def summary (f : Finished Unit) : List (Option (Str × Str × ℚ × List Literal.Group)) :=
  match f with
  | .ran l _ => l.map fun p => p.2.queued.map fun q => (q.language, q.source, q.maxScore, q.input.settings.cases)
  | _ => []

def sampleEnv : Nat → Runtime × Env
  | 0 => (plainRuntime, .finishes { verdict := "AC", score := 1 })
  | 1 => (backwardsRuntime, .unsaved { verdict := "WA", score := 0 })
  | _ => (plainRuntime, .finishes { verdict := "AC", score := 1 })

def sampleGroups : List Literal.Group :=
  [⟨['a'], [⟨['a', '.', '1'], 1 / 4⟩, ⟨['a', '.', '2'], 1 / 4⟩]⟩, ⟨['b'], [⟨['b'], 1 / 2⟩]⟩]

def isRan : Finished Unit → Bool
  | .ran _ _ => true
  | _ => false

/-- A commit whose three tests are all run. -/
theorem sample_ran : ∃ l st, process sampleDecoders plainTools (.tree (filesOf sampleFiles)) sampleEnv = .ran l st := by
  have h : isRan (process sampleDecoders plainTools (.tree (filesOf sampleFiles)) sampleEnv) = true := by decide +kernel
  revert h
  cases process sampleDecoders plainTools (.tree (filesOf sampleFiles)) sampleEnv with
  | ran l st => exact fun _ => ⟨l, st, rfl⟩
  | crash => intro h; cases h
  | stopped s => intro h; cases h

example : summary (process sampleDecoders plainTools (.tree (filesOf sampleFiles)) sampleEnv) =
    [some (['c', 'p', 'p', '1', '1'], ['x'], 1, sampleGroups), some (['p', 'y', '3'], ['y'], 1, sampleGroups),
      some (['c', 'p', 'p', '1', '1'], copyProgram, 1, sampleGroups)] := by decide +kernel

theorem sample_canonical : Canonical sampleProblem where
  groupsSorted := by decide +kernel
  casesSorted := by
    intro g hg
    simp only [sampleProblem, List.mem_cons, List.not_mem_nil, or_false] at hg
    rcases hg with rfl | rfl <;> decide +kernel
  nonempty := by
    intro g hg
    simp only [sampleProblem, List.mem_cons, List.not_mem_nil, or_false] at hg
    rcases hg with rfl | rfl <;> simp
  inGroup := by
    intro g hg c hc
    simp only [sampleProblem, List.mem_cons, List.not_mem_nil, or_false] at hg
    rcases hg with rfl | rfl
    · simp only [List.mem_cons, List.not_mem_nil, or_false] at hc
      rcases hc with rfl | rfl
      · exact ⟨by decide, .inr ⟨['1'], rfl⟩⟩
      · exact ⟨by decide, .inr ⟨['2'], rfl⟩⟩
    · rcases List.mem_singleton.mp hc with rfl
      exact ⟨by decide, .inl rfl⟩
  sumOne := by decide +kernel

/-- The configuration of a commit is accepted. -/
def acceptedConfig (D : Decoders) (blob : Str → Option Str) : Bool :=
  match createConfig D (.tree blob) with
  | .done (some cfg) => match newLiteralInput plainRuntime plainTools cfg.input with
    | .ok _ => true
    | _ => false
  | _ => false

theorem of_acceptedConfig {D : Decoders} {blob : Str → Option Str} (h : acceptedConfig D blob = true) :
    ∃ cfg o, createConfig D (.tree blob) = .done (some cfg) ∧
      newLiteralInput plainRuntime plainTools cfg.input = .ok o := by
  unfold acceptedConfig at h
  cases hc : createConfig D (.tree blob) with
  | crash => rw [hc] at h; cases h
  | skipped => rw [hc] at h; cases h
  | error => rw [hc] at h; cases h
  | done x =>
    cases x with
    | none => rw [hc] at h; cases h
    | some cfg =>
      rw [hc] at h
      simp only at h
      cases ho : newLiteralInput plainRuntime plainTools cfg.input with
      | panic => rw [ho] at h; cases h
      | err e => rw [ho] at h; cases h
      | ok o => exact ⟨cfg, o, rfl, ho⟩

/-- C102 holds of the sample: its solutions are graded with its own settings. -/
example : ∃ cfg o, createConfig sampleDecoders (.tree (filesOf sampleFiles)) = .done (some cfg) ∧
    newLiteralInput plainRuntime plainTools cfg.input = .ok o ∧ outline o.settings = sampleProblem.outline ∧
    o.settings.limits = sampleProblem.limits := by
  obtain ⟨cfg, o, hc, ho⟩ := of_acceptedConfig (D := sampleDecoders) (blob := filesOf sampleFiles) (by decide +kernel)
  exact ⟨cfg, o, hc, ho, (C102_groups_iff sample_declares hc ho).mpr sample_canonical,
    (C102_limits_iff sample_declares hc ho).mpr (by unfold WithinCaps; decide)⟩

/-- The same problem with a group named after something else, and a minute for all cases together. -/
def ownProblem : ProblemSettings :=
  { sampleProblem with
    groups := [⟨['g'], [⟨['a', '.', '1'], some (1 / 4)⟩, ⟨['a', '.', '2'], some (1 / 4)⟩, ⟨['b'], some (1 / 2)⟩]⟩]
    limits := { sampleLimits with overallWallTimeLimit := 60000000000 } }

/-- C102 does not hold: the solutions of this commit are graded in other groups, each with its own score, and with less
time than the problem gives. -/
theorem C102_false : Declares (decodersOf sampleTests ownProblem) (filesOf sampleFiles) sampleTests ownProblem ∧
    ∃ cfg o, createConfig (decodersOf sampleTests ownProblem) (.tree (filesOf sampleFiles)) = .done (some cfg) ∧
      newLiteralInput plainRuntime plainTools cfg.input = .ok o ∧ outline o.settings ≠ ownProblem.outline ∧
      o.settings.limits ≠ ownProblem.limits := by
  have hd : Declares (decodersOf sampleTests ownProblem) (filesOf sampleFiles) sampleTests ownProblem :=
    ⟨⟨['T'], rfl, rfl⟩, ['S'], rfl, rfl⟩
  obtain ⟨cfg, o, hc, ho⟩ := of_acceptedConfig (D := decodersOf sampleTests ownProblem) (blob := filesOf sampleFiles)
    (by decide +kernel)
  refine ⟨hd, cfg, o, hc, ho, fun h => ?_, fun h => ?_⟩
  · have hb := ((C102_groups_iff hd hc ho).mp h).inGroup _ (List.mem_cons_self ..) _ (List.mem_cons_self ..)
    obtain ⟨-, hb | ⟨r, hb⟩⟩ := hb
    · exact absurd hb (by decide)
    · simp only [List.cons_append, List.cons.injEq] at hb
      exact absurd hb.1 (by decide)
  · have := ((C102_limits_iff hd hc ho).mp h).2.1
    exact absurd this (by decide)

/-- The sample with a custom validator that has no language. -/
def nilLangProblem : ProblemSettings :=
  { sampleProblem with validator := { lang := none, name := ['c', 'u', 's', 't', 'o', 'm'], tolerance := none, limits := none } }

/-- A case that is `null` in the file. -/
def nullCaseProblem : ProblemSettings :=
  { sampleProblem with groups := [⟨['a'], [⟨[], none⟩]⟩] }

/-- C103 does not hold: a commit can take the grader down. -/
theorem C103_false :
    process (decodersOf sampleTests nilLangProblem) plainTools (.tree (filesOf sampleFiles)) sampleEnv = .crash ∧
    process (decodersOf sampleTests nullCaseProblem) plainTools
      (.tree (filesOf (sampleFiles ++ caseFilesOf [[]]))) sampleEnv = .crash := by
  refine ⟨(C103_crash_iff_partial ..).mpr (.inr ⟨_, sampleTests, nilLangProblem, rfl, ⟨⟨['T'], rfl, rfl⟩, ['S'], rfl, rfl⟩, ?_,
    .inl ⟨rfl, rfl⟩⟩), (C103_crash_iff_partial ..).mpr (.inr ⟨_, sampleTests, nullCaseProblem, rfl,
      ⟨⟨['T'], rfl, rfl⟩, ['S'], rfl, rfl⟩, ?_, .inr ⟨?_, ?_, ?_, .inl ?_, ⟨[], none⟩, ⟨[], [], rfl, by simp⟩, rfl⟩⟩)⟩
  · intro c hc
    have : c ∈ [(⟨['a', '.', '1'], some (1 / 4)⟩ : ProblemCase), ⟨['a', '.', '2'], some (1 / 4)⟩, ⟨['b'], some (1 / 2)⟩] := hc
    simp only [List.mem_cons, List.not_mem_nil, or_false] at this
    rcases this with rfl | rfl | rfl <;> decide +kernel
  · intro c hc
    have : c ∈ [(⟨[], none⟩ : ProblemCase)] := hc
    rcases List.mem_singleton.mp this with rfl
    decide +kernel
  · intro h; exact absurd h (by decide +kernel)
  · intro i hi; cases hi
  · refine ⟨?_, ?_⟩
    · intro s hs
      simp only [sampleTests, List.mem_cons, List.not_mem_nil, or_false] at hs
      rcases hs with rfl | rfl
      · exact ⟨by decide +kernel, ['c', 'p', 'p', '1', '1'],
          .inr ⟨rfl, ['c', 'p', 'p'], ⟨by decide, by decide, ['s'], rfl⟩, .inl ⟨rfl, rfl⟩⟩⟩
      · exact ⟨by decide +kernel, ['p', 'y', '3'], .inl ⟨by simp, rfl⟩⟩
    · rintro v ⟨⟩
      exact ⟨by decide +kernel, ['p', 'y'], .inr ⟨rfl, ['p', 'y'], ⟨by decide, by decide, ['v'], rfl⟩, .inr ⟨by decide, rfl⟩⟩⟩
  · simp [sampleTests]

/-- A request whose repository was deleted meanwhile. -/
example : process sampleDecoders plainTools .gone sampleEnv = .crash := (C103_crash_iff_partial ..).mpr (.inl rfl)

end Quark.CIConfig
