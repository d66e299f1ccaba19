import Verif.Noop.Model
import Verif.Grade.Props2

namespace Quark.Noop
open Quark.Grade (RunResult GroupResult CaseResult Problem Compiles weightSum grade)

/-- C63: whatever the result was, after the fix-up the run is AC with score 1 and all its points, and every case is AC
with the score declared as its maximum; the maxima, the names and the measurements are what they were. -/
theorem C63_noop_ac (r : RunResult) :
    (fixup r).verdict = .AC ∧ (fixup r).score = 1 ∧ (fixup r).contestScore = r.maxScore ∧
    (fixup r).maxScore = r.maxScore ∧
    (∀ c ∈ (fixup r).cases, c.verdict = .AC ∧ c.score = c.maxScore) ∧
    (∀ g ∈ (fixup r).groups, g.score = g.maxScore) ∧
    (fixup r).groups.map (fun g => (g.name, g.maxScore, g.cases.map fun c => (c.name, c.maxScore, c.wallTime))) =
      r.groups.map (fun g => (g.name, g.maxScore, g.cases.map fun c => (c.name, c.maxScore, c.wallTime))) ∧
    (fixup r).time = r.time ∧ (fixup r).wallTime = r.wallTime ∧ (fixup r).memory = r.memory := by
  refine ⟨rfl, rfl, by simp [fixup], rfl, ?_, ?_, ?_, rfl, rfl, rfl⟩
  · intro c hc
    simp only [RunResult.cases, fixup, List.flatMap_map, List.mem_flatMap] at hc
    obtain ⟨g, hg, hc⟩ := hc
    simp only [fixGroup, List.mem_map] at hc
    obtain ⟨c', -, rfl⟩ := hc
    exact ⟨rfl, by simp [fixCase]⟩
  · intro g hg
    simp only [fixup, List.mem_map] at hg
    obtain ⟨g', -, rfl⟩ := hg
    simp [fixGroup]
  · simp [fixup, fixGroup, fixCase, Function.comp_def]

/-- C63: a case's points and a group's points are its declared maximum times the points of the run; every other field of the
report is the number it was, and no group or case is added or left out. -/
theorem C63_points (r : RunResult) :
    (∀ g ∈ (fixup r).groups, g.contestScore = g.maxScore * r.maxScore) ∧
    (∀ c ∈ (fixup r).cases, c.contestScore = c.maxScore * r.maxScore) ∧
    (fixup r).groups.length = r.groups.length ∧ (fixup r).cases.length = r.cases.length := by
  have hk : (fixup r).contestScore = r.maxScore := by simp [fixup]
  refine ⟨?_, ?_, by simp [fixup], ?_⟩
  · intro g hg
    simp only [fixup, List.mem_map] at hg
    obtain ⟨g', -, rfl⟩ := hg
    simp [fixGroup]
  · intro c hc
    simp only [RunResult.cases, fixup, List.flatMap_map, List.mem_flatMap] at hc
    obtain ⟨g, hg, hc⟩ := hc
    simp only [fixGroup, List.mem_map] at hc
    obtain ⟨c', -, rfl⟩ := hc
    simp [fixCase]
  · simp [RunResult.cases, fixup, fixGroup, Function.comp_def, List.length_flatMap]

/-- What a reader of the report expects: the points of the groups add up to the points of the run, and no group gets
more points than its maximum. -/
def AddsUp (r : RunResult) : Prop :=
  (r.groups.map GroupResult.contestScore).sum = r.contestScore

theorem sum_mul (l : List GroupResult) (k : ℚ) :
    ((l.map (fixGroup k)).map GroupResult.contestScore).sum = (l.map GroupResult.maxScore).sum * k := by
  induction l with
  | nil => simp
  | cons a l ih =>
    simp only [List.map_cons, List.sum_cons, ih]
    simp only [fixGroup]
    ring

/-- C75: the points the no-op runner reports for the groups of a graded run add up to the square of the run's maximum,
since the maxima of the groups are already expressed in points. -/
theorem C75_noop_groups_sum (env : Validator.Env) (p : Problem) (hc : Compiles p) (hw : 0 < weightSum p) :
    ((fixup (grade env p)).groups.map GroupResult.contestScore).sum = p.maxScore * p.maxScore := by
  obtain ⟨h1, h2, -⟩ := Grade.C13_max_scores_partition env p hc hw
  simp only [fixup, sum_mul]
  rw [h1, h2]
  ring

/-- So they add up to the run's points exactly for runs worth one point or none. -/
theorem C75_noop_adds_up_partial (env : Validator.Env) (p : Problem) (hc : Compiles p) (hw : 0 < weightSum p) :
    AddsUp (fixup (grade env p)) ↔ p.maxScore = 0 ∨ p.maxScore = 1 := by
  have h2 := (Grade.C13_max_scores_partition env p hc hw).2.1
  unfold AddsUp
  rw [C75_noop_groups_sum env p hc hw, (C63_noop_ac _).2.2.1, h2]
  constructor
  · intro h
    have : p.maxScore * (p.maxScore - 1) = 0 := by linarith
    rcases mul_eq_zero.1 this with h | h
    · exact Or.inl h
    · right; linarith
  · rintro (h | h) <;> rw [h] <;> norm_num

/-- The sample run is worth 100 points; the no-op runner gives its groups 7500 and 2500. -/
theorem C75_noop_false : Compiles Grade.sample ∧ 0 < weightSum Grade.sample ∧
    (fixup (grade Validator.sampleEnv Grade.sample)).contestScore = 100 ∧
    (fixup (grade Validator.sampleEnv Grade.sample)).groups.map GroupResult.contestScore = [7500, 2500] ∧
    ¬ AddsUp (fixup (grade Validator.sampleEnv Grade.sample)) := by
  obtain ⟨h1, -, -, -, h2⟩ := Grade.sample_hyps
  refine ⟨h1, h2, by decide +kernel, by decide +kernel, ?_⟩
  rw [C75_noop_adds_up_partial _ _ h1 h2]
  decide +kernel

end Quark.Noop
