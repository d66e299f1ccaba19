import Verif.Settings.Model
import Verif.Grade.Props
import Mathlib.Algebra.Order.BigOperators.Group.List
import Mathlib.Tactic.FieldSimp

/-!
# C131-C133: what the runner makes of a problem's settings
-/
namespace Quark.Settings
open Quark.Float (F64 fl roundQ)
open Quark.Wire hiding encCase decCase encGroup decGroup CaseResult GroupResult RunResult RawCase

variable {ι : Type}

/-! ## Specification -/

/-- Every text is valid UTF-8. -/
def Problem.Clean (p : Problem ι) : Prop :=
  (∀ gs, p.cases = some gs → ∀ g ∈ gs, ValidUtf8 g.name ∧
    ∀ cs, g.cases = some cs → ∀ c ∈ cs, ValidUtf8 c.name) ∧
  ValidUtf8 p.validator.name ∧ ∀ l, p.validator.lang = some l → ValidUtf8 l

/-- The same case with another weight. -/
def Case.reweigh (f : ℚ → ℚ) (c : Case) : Case := { c with weight := c.weight.map f }

def Group.reweigh (f : ℚ → ℚ) (g : Group) : Group :=
  { g with cases := g.cases.map (List.map (Case.reweigh f)) }

/-- The same problem with other weights: nothing else differs. -/
def Problem.reweigh (f : ℚ → ℚ) (p : Problem ι) : Problem ι :=
  { p with cases := p.cases.map (List.map (Group.reweigh f)) }

/-- Nothing that cannot be written: every weight is there and in the range of binary64, and the tolerance is a number. -/
def Problem.Writable (p : Problem ι) : Prop :=
  (∀ gs, p.cases = some gs → ∀ g ∈ gs, ∀ cs, g.cases = some cs → ∀ c ∈ cs,
    ∃ w, c.weight = some w ∧ |roundQ w| < 2 ^ (1024 : ℕ)) ∧
  ∀ x, p.validator.tolerance = some x → ∃ q, x = .fin q

/-! How `encoding/json` looks at the names written. -/
@[simp] theorem foldName_Cases : foldName "Cases" = "cases" := by decide +kernel
@[simp] theorem foldName_ExtraWallTime : foldName "ExtraWallTime" = "extrawalltime" := by decide +kernel
@[simp] theorem foldName_Interactive : foldName "Interactive" = "interactive" := by decide +kernel
@[simp] theorem foldName_Lang : foldName "Lang" = "lang" := by decide +kernel
@[simp] theorem foldName_Limits : foldName "Limits" = "limits" := by decide +kernel
@[simp] theorem foldName_MemoryLimit : foldName "MemoryLimit" = "memorylimit" := by decide +kernel
@[simp] theorem foldName_Name : foldName "Name" = "name" := by decide +kernel
@[simp] theorem foldName_OutputLimit : foldName "OutputLimit" = "outputlimit" := by decide +kernel
@[simp] theorem foldName_OverallWallTimeLimit : foldName "OverallWallTimeLimit" = "overallwalltimelimit" := by decide +kernel
@[simp] theorem foldName_Slow : foldName "Slow" = "slow" := by decide +kernel
@[simp] theorem foldName_TimeLimit : foldName "TimeLimit" = "timelimit" := by decide +kernel
@[simp] theorem foldName_Tolerance : foldName "Tolerance" = "tolerance" := by decide +kernel
@[simp] theorem foldName_Validator : foldName "Validator" = "validator" := by decide +kernel
@[simp] theorem foldName_Weight : foldName "Weight" = "weight" := by decide +kernel
@[simp] theorem foldName_in : foldName "in" = "in" := by decide +kernel
@[simp] theorem foldName_out : foldName "out" = "out" := by decide +kernel
@[simp] theorem foldName_weight : foldName "weight" = "weight" := by decide +kernel

/-! ## C131: the settings arrive -/

theorem limits_trip (C : Codecs ι) (l old : Limits) : decLimits C old (encLimits C l) = some l := by
  simp [encLimits, decLimits, fields, Limits.set, Codec.trip]

theorem decFltPtr_encFlt {x : F64} {j : J} (h : encFlt x = some j) : decFltPtr j = some (some x) := by
  cases x <;> simp [encFlt] at h
  subst h; rfl

theorem decLimitsPtr_enc (C : Codecs ι) (l : Limits) : decLimitsPtr C (encLimits C l) = some (some l) := by
  have := limits_trip C l {}
  unfold decLimitsPtr
  unfold encLimits at *
  simp only [this, Option.map_some]

theorem validator_trip (C : Codecs ι) (v : Validator) (j : J) (h : encValidator C v = some j) :
    decValidator C {} j = some { v with lang := v.lang.map clean, name := clean v.name } := by
  unfold encValidator at h
  cases ht : encTolerance v.tolerance with
  | none => rw [ht] at h; simp at h
  | some t =>
    rw [ht] at h
    simp only [Option.some.injEq] at h
    subst h
    obtain ⟨lang, name, tol, lim⟩ := v
    simp only at ht ⊢
    have hl := decLimitsPtr_enc C
    cases tol with
    | none =>
      simp only [encTolerance, Option.some.injEq] at ht
      subst ht
      cases lang <;> cases lim <;>
        simp [decValidator, fields, opt, Validator.set, decStr_encStr, decPtr_encStr, hl]
    | some x =>
      simp only [encTolerance, Option.map_eq_some_iff] at ht
      obtain ⟨jx, hx, rfl⟩ := ht
      have hx' := decFltPtr_encFlt hx
      cases lang <;> cases lim <;>
        simp [decValidator, fields, opt, Validator.set, decStr_encStr, decPtr_encStr, hl, hx']

theorem case_trip (ofF : ℚ → ℚ) (c : Case) (j : J) (h : encCase c = some j) :
    decCase ofF j = some ⟨clean c.name, c.weight.map (scoreTrip ofF)⟩ := by
  unfold encCase at h
  cases hs : encScore c.weight with
  | none => rw [hs] at h; simp at h
  | some s =>
    obtain ⟨q, hq, hd⟩ := decFlt_score hs (.fin 0)
    rw [hs] at h
    simp only [Option.some.injEq] at h
    subst h
    simp [decCase, fields, RawCase.set, decStr_encStr, hd, ofScore, hq, scoreTrip]

theorem group_trip (ofF : ℚ → ℚ) (g : Group) (j : J) (h : encGroup g = some j) :
    decGroup ofF j = some ⟨g.cases.map (List.map fun c => ⟨clean c.name, c.weight.map (scoreTrip ofF)⟩),
      clean g.name⟩ := by
  unfold encGroup at h
  cases hs : encSlice encCase g.cases with
  | none => rw [hs] at h; simp at h
  | some s =>
    rw [hs] at h
    simp only [Option.some.injEq] at h
    subst h
    have := slice_trip encCase (decCase ofF) (fun c => (⟨clean c.name, c.weight.map (scoreTrip ofF)⟩ : Case))
      (fun a b => case_trip ofF a b) g.cases s hs
    simp [decGroup, fields, Group.set, decStr_encStr, this]

theorem decInteractive_enc (C : Codecs ι) (zero i : ι) :
    decInteractive C zero (C.interactive.enc i) = some (some i) := by
  unfold decInteractive
  split
  · rename_i h; exact absurd h (C.interactive.not_null i)
  · simp [Codec.trip]

theorem problem_trip (C : Codecs ι) (zero : ι) (ofF : ℚ → ℚ) (p : Problem ι) (j : J)
    (h : encProblem C p = some j) :
    decProblem C zero ofF j = some { p with
      cases := p.cases.map (List.map fun g =>
        ⟨g.cases.map (List.map fun c => ⟨clean c.name, c.weight.map (scoreTrip ofF)⟩), clean g.name⟩)
      validator := { p.validator with lang := p.validator.lang.map clean, name := clean p.validator.name } } := by
  unfold encProblem at h
  cases h1 : encSlice encGroup p.cases with
  | none => rw [h1] at h; simp at h
  | some gs =>
    cases h2 : encValidator C p.validator with
    | none => rw [h1, h2] at h; simp at h
    | some v =>
      rw [h1, h2] at h
      simp only [Option.some.injEq] at h
      subst h
      have a1 := slice_trip encGroup (decGroup ofF) _ (fun a b => group_trip ofF a b) p.cases gs h1
      have a2 := validator_trip C p.validator v h2
      have a3 := limits_trip C p.limits {}
      obtain ⟨cases, inter, lim, slow, val⟩ := p
      simp only at a1 a2 a3 ⊢
      cases inter with
      | none => simp [decProblem, fields, Problem.set, a1, a2, a3, decBool]
      | some i =>
        simp [decProblem, fields, Problem.set, a1, a2, a3, decBool, decInteractive_enc]

/-- **C131** The runner reads the settings that the grader wrote: the same groups, cases, limits, validator and
interactive part, in the same order; only the weights went through `float64` and `base.FloatToRational`. -/
theorem C131_settings_arrive (C : Codecs ι) (zero : ι) (ofF : ℚ → ℚ) (p : Problem ι) (hp : p.Clean) (j : J)
    (h : encProblem C p = some j) :
    decProblem C zero ofF j = some (p.reweigh fun w => ofF (roundQ w)) := by
  rw [problem_trip C zero ofF p j h]
  obtain ⟨h1, h2, h3⟩ := hp
  obtain ⟨cases, inter, lim, slow, val⟩ := p
  obtain ⟨lang, name, tol, vl⟩ := val
  simp only at h1 h2 h3
  simp only [Problem.reweigh, Option.some.injEq, Problem.mk.injEq, true_and, Validator.mk.injEq, and_true]
  refine ⟨?_, clean_opt lang h3, clean_of_valid h2⟩
  cases cases with
  | none => rfl
  | some gs =>
    simp only [Option.map_some, Option.some.injEq]
    apply List.map_congr_left
    intro g hg
    obtain ⟨hn, hc⟩ := h1 gs rfl g hg
    obtain ⟨cs, n⟩ := g
    simp only [Group.reweigh, Group.mk.injEq]
    refine ⟨?_, clean_of_valid hn⟩
    cases cs with
    | none => rfl
    | some cs =>
      simp only [Option.map_some, Option.some.injEq]
      apply List.map_congr_left
      intro c hcm
      simp only [Case.reweigh, Case.mk.injEq]
      exact ⟨clean_of_valid (hc cs rfl c hcm), rfl⟩

/-- **C131** Exactly the settings with a weight for every case (in range) and a finite tolerance can be written. -/
theorem C131_writable_iff (C : Codecs ι) (p : Problem ι) : (encProblem C p).isSome ↔ p.Writable := by
  have hc : ∀ c : Case, (encCase c).isSome ↔ ∃ w, c.weight = some w ∧ |roundQ w| < 2 ^ (1024 : ℕ) := by
    intro c
    have := encScore_isSome c.weight
    unfold encCase
    cases hw : c.weight with
    | none => simp [encScore]
    | some w =>
      rw [hw] at this
      simp only [Sendable] at this
      cases hs : encScore (some w) with
      | none => rw [hs] at this; simpa using this
      | some s => rw [hs] at this; simpa using this
  have hg : ∀ g : Group, (encGroup g).isSome ↔ ∀ cs, g.cases = some cs → ∀ c ∈ cs,
      ∃ w, c.weight = some w ∧ |roundQ w| < 2 ^ (1024 : ℕ) := by
    intro g
    have := slice_sendable encCase g.cases
    unfold encGroup
    simp only [hc] at this
    rw [← this]
    cases hs : encSlice encCase g.cases <;> simp
  have hv : (encValidator C p.validator).isSome ↔ ∀ x, p.validator.tolerance = some x → ∃ q, x = .fin q := by
    unfold encValidator
    cases ht : p.validator.tolerance with
    | none => simp [encTolerance]
    | some x => cases x <;> simp [encTolerance, encFlt]
  have hs := slice_sendable encGroup p.cases
  simp only [hg] at hs
  unfold Problem.Writable
  rw [← hs, ← hv]
  unfold encProblem
  cases h1 : encSlice encGroup p.cases <;> cases h2 : encValidator C p.validator <;> simp

end Quark.Settings
