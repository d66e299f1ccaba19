import Verif.Grade.Props2

/-!
# C134: only the ratios of the weights matter, and the maximum score is only a unit
-/
namespace Quark.Grade
open Quark.Validator (Env sampleEnv)

/-- The same problem with every weight multiplied by `a` and the maximum score by `k`. -/
def Problem.scale (a k : ℚ) (p : Problem) : Problem :=
  { p with
    maxScore := k * p.maxScore
    groups := p.groups.map fun g => { g with cases := g.cases.map fun c => { c with weight := a * c.weight } } }

/-- The same result with contest scores and maximum scores multiplied by `k`. -/
def RunResult.scale (k : ℚ) (r : RunResult) : RunResult :=
  { r with
    contestScore := k * r.contestScore
    maxScore := k * r.maxScore
    groups := r.groups.map fun g => { g with
      contestScore := k * g.contestScore
      maxScore := k * g.maxScore
      cases := g.cases.map fun c => { c with contestScore := k * c.contestScore, maxScore := k * c.maxScore } } }

/-! ## Proof -/

def sc (a : ℚ) (c : Case) : Case := { c with weight := a * c.weight }
def sr (k : ℚ) (c : CaseResult) : CaseResult := { c with contestScore := k * c.contestScore, maxScore := k * c.maxScore }
def sg (a : ℚ) (g : Group) : Group := { g with cases := g.cases.map (sc a) }
def sgr (k : ℚ) (g : GroupResult) : GroupResult :=
  { g with contestScore := k * g.contestScore, maxScore := k * g.maxScore, cases := g.cases.map (sr k) }

theorem scale_groups (a k : ℚ) (p : Problem) : (p.scale a k).groups = p.groups.map (sg a) := rfl

theorem group_weight_scale (a : ℚ) (g : Group) : (sg a g).weight = a * g.weight := by
  unfold Group.weight sg
  generalize g.cases = cs
  induction cs with
  | nil => simp
  | cons c cs ih =>
    simp only [List.map_cons, List.sum_cons] at ih ⊢
    rw [ih]
    simp only [sc]
    ring

theorem total_scale (a k : ℚ) (p : Problem) : totalWeight (p.scale a k) = a * totalWeight p := by
  unfold totalWeight
  rw [scale_groups, List.map_map]
  generalize p.groups = gs
  induction gs with
  | nil => simp
  | cons g gs ih =>
    simp only [List.map_cons, List.sum_cons, Function.comp_apply, group_weight_scale] at ih ⊢
    rw [ih]; ring

section
variable {a k : ℚ} {p : Problem}

theorem runCase_scale (hf : a * factor (p.scale a k) = factor p) (s : RunState) (c : Case) :
    runCase (p.scale a k) s (sc a c) = ((runCase p s c).1, sr k (runCase p s c).2) := by
  have he : execCase (p.scale a k) s.wallTime (sc a c) = execCase p s.wallTime c := rfl
  have hi : individualOf (p.scale a k) s.wallTime (sc a c) = individualOf p s.wallTime c := rfl
  unfold runCase
  rw [he, hi]
  simp only [sr, Prod.mk.injEq, true_and, CaseResult.mk.injEq, and_true, mul_zero]
  refine ⟨rfl, ?_⟩
  show k * p.maxScore * (a * c.weight * factor (p.scale a k)) = k * (p.maxScore * (c.weight * factor p))
  rw [← hf]; ring

theorem runCases_scale (hf : a * factor (p.scale a k) = factor p) (s : RunState) (cs : List Case) :
    runCases (p.scale a k) s (cs.map (sc a))
      = ((runCases p s cs).1, (runCases p s cs).2.map fun x => (sc a x.1, sr k x.2)) := by
  induction cs generalizing s with
  | nil => rfl
  | cons c cs ih => simp only [List.map_cons, runCases, runCase_scale hf, ih]

theorem runGroups_scale (hf : a * factor (p.scale a k) = factor p) (s : RunState) (gs : List Group) :
    runGroups (p.scale a k) s (gs.map (sg a))
      = ((runGroups p s gs).1,
        (runGroups p s gs).2.map fun y => (sg a y.1, y.2.map fun x => (sc a x.1, sr k x.2))) := by
  induction gs generalizing s with
  | nil => rfl
  | cons g gs ih =>
    have : (sg a g).cases = g.cases.map (sc a) := rfl
    simp only [List.map_cons, runGroups, this, runCases_scale hf, ih]

theorem validateCase_scale (env : Env) (hf : a * factor (p.scale a k) = factor p) (s : ValState) (c : Case)
    (r : CaseResult) :
    validateCase env (p.scale a k) s (sc a c) (sr k r)
      = ((validateCase env p s c r).1, sr k (validateCase env p s c r).2) := by
  have hcmp : comparedFiles (p.scale a k) (sc a c) = comparedFiles p c := rfl
  have hsc : ∀ x y, caseScore env (p.scale a k) (sc a c) x y = caseScore env p c x y := fun _ _ => rfl
  have hw : (sc a c).weight * factor (p.scale a k) = c.weight * factor p := by
    rw [← hf]; simp only [sc]; ring
  have hv : (sr k r).verdict = r.verdict := rfl
  have hs : (sr k r).score = r.score := rfl
  have hm : (p.scale a k).maxScore = k * p.maxScore := rfl
  have hn : (sc a c).name = c.name := rfl
  unfold validateCase
  rw [hcmp, hv]
  by_cases h : r.verdict = .OK
  · rw [if_pos h, if_pos h]
    rcases comparedFiles p c with ⟨_ | x, _ | y⟩
    · rfl
    · rfl
    · rfl
    · simp only [hsc, hw, hs, hm, hn]
      have e : k * p.maxScore * (c.weight * factor p) * (r.score + caseScore env p c y x)
          = k * (p.maxScore * (c.weight * factor p) * (r.score + caseScore env p c y x)) := by ring
      rw [e]
      by_cases h1 : caseScore env p c y x = 1
      · rw [if_pos h1, if_pos h1]; rfl
      · rw [if_neg h1, if_neg h1]
        by_cases h0 : caseScore env p c y x = 0
        · rw [if_pos h0, if_pos h0]; rfl
        · rw [if_neg h0, if_neg h0]; rfl
  · rw [if_neg h, if_neg h]

theorem validateCases_scale (env : Env) (hf : a * factor (p.scale a k) = factor p) (s : ValState)
    (l : List (Case × CaseResult)) :
    validateCases env (p.scale a k) s (l.map fun x => (sc a x.1, sr k x.2))
      = ((validateCases env p s l).1, (validateCases env p s l).2.map (sr k)) := by
  induction l generalizing s with
  | nil => rfl
  | cons x l ih =>
    obtain ⟨c, r⟩ := x
    simp only [List.map_cons, validateCases, validateCase_scale env hf, ih]

theorem validateGroups_scale (env : Env) (hf : a * factor (p.scale a k) = factor p) (v : MetaFile.Verdict) (sc' : ℚ)
    (ev : List Event) (ys : List (Group × List (Case × CaseResult))) :
    validateGroups env (p.scale a k) v sc' ev
        (ys.map fun y => (sg a y.1, y.2.map fun x => (sc a x.1, sr k x.2)))
      = ((validateGroups env p v sc' ev ys).1, (validateGroups env p v sc' ev ys).2.1,
          (validateGroups env p v sc' ev ys).2.2.1, (validateGroups env p v sc' ev ys).2.2.2.map (sgr k)) := by
  induction ys generalizing v sc' ev with
  | nil => rfl
  | cons y ys ih =>
    obtain ⟨g, cs⟩ := y
    have hm : (p.scale a k).maxScore = k * p.maxScore := rfl
    simp only [List.map_cons, validateGroups, validateCases_scale env hf, ih]
    simp only [Prod.mk.injEq, List.cons.injEq, true_and, and_true, sgr, GroupResult.mk.injEq, hm]
    refine ⟨rfl, ?_, ?_⟩
    · split
      · ring
      · simp
    · rw [group_weight_scale, ← hf]; ring

theorem grade_scale (env : Env) (hf : a * factor (p.scale a k) = factor p) :
    grade env (p.scale a k) = (grade env p).scale k := by
  have h1 : (p.scale a k).setup = p.setup := rfl
  have h2 : (p.scale a k).compiles = p.compiles := rfl
  have h3 : (p.scale a k).maxScore = k * p.maxScore := rfl
  unfold grade
  rw [h1, h2, h3]
  cases p.setup with
  | ioError => simp [RunResult.scale]
  | unsupportedLanguage => simp [RunResult.scale]
  | ok =>
    simp only
    by_cases hc : (compileAll p.compiles).2 = true
    · simp only [hc, Bool.not_true, Bool.false_eq_true, if_false]
      rw [scale_groups, runGroups_scale hf]
      simp only
      rw [validateGroups_scale env hf]
      simp only [RunResult.scale, RunResult.mk.injEq, true_and, and_true]
      refine ⟨by ring, ?_⟩
      rfl
    · simp only [Bool.not_eq_true] at hc
      simp [hc, RunResult.scale]

end

/-- **C134** Multiplying all weights by a positive number changes nothing at all in the result. -/
theorem C134_only_ratios_matter (env : Env) (p : Problem) (a : ℚ) (ha : 0 < a) (hw : 0 < weightSum p) :
    grade env (p.scale a 1) = grade env p := by
  rw [weightSum_eq] at hw
  have hf : a * factor (p.scale a 1) = factor p := by
    unfold factor
    rw [total_scale, if_neg (not_le.mpr (mul_pos ha hw)), if_neg (not_le.mpr hw)]
    field_simp
  rw [grade_scale env hf]
  have : ∀ r : RunResult, r.scale 1 = r := by
    intro r
    obtain ⟨_, _, _, _, _, _, _, gs, _⟩ := r
    simp only [RunResult.scale, one_mul, RunResult.mk.injEq, true_and, and_true]
    conv_rhs => rw [← List.map_id gs]
    apply List.map_congr_left
    intro g _
    obtain ⟨_, _, _, _, cs⟩ := g
    simp
  exact this _

/-- **C134** Multiplying the maximum score multiplies contest scores and maximum scores, and changes nothing else:
neither verdicts, scores, resources nor what is executed. -/
theorem C134_max_score_is_a_unit (env : Env) (p : Problem) (k : ℚ) :
    grade env (p.scale 1 k) = (grade env p).scale k := by
  apply grade_scale
  unfold factor
  rw [total_scale, one_mul, one_mul]

/-- Weights 1, 2, 1 and 7, 14, 7: the same result, which is neither 0 nor full marks. -/
example : 0 < weightSum sample ∧
    ((sample.scale 7 1).groups.flatMap Group.cases).map Case.weight = [7, 14, 7] ∧
    (grade sampleEnv (sample.scale 7 1)).contestScore = 75 ∧
    (grade sampleEnv (sample.scale 1 (1 / 50))).contestScore = 3 / 2 := by
  decide +kernel

end Quark.Grade
