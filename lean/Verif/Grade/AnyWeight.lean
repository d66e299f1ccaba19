import Verif.Grade.Monotone

/-!
# C173: weights that are not positive

The settings of a problem are decoded without looking at the weights (common/problemsettings.go:77-94), so that they may be negative, or
add up to nothing.
-/
namespace Quark.Grade
open Quark.MetaFile (Verdict worse)
open Quark.Validator (Env sampleEnv)

/-- The part of the maximum score that a weight stands for: its part of the total, but the weight itself if the total is not positive. -/
def share (p : Problem) (w : ℚ) : ℚ := if 0 < weightSum p then w / weightSum p else w

theorem weight_factor (p : Problem) (w : ℚ) : w * factor p = share p w := by
  unfold factor share
  rw [← weightSum_eq]
  by_cases h : weightSum p ≤ 0
  · rw [if_pos h, if_neg (not_lt.mpr h), mul_one]
  · rw [if_neg h, if_pos (not_le.mp h), mul_one_div]

/-- **C173**, exactly: the maximum scores, for weights of any sign. -/
theorem C173_maximum_scores (env : Env) (p : Problem) (hc : Compiles p) :
    List.Forall₂ (fun (s : Group) (g : GroupResult) =>
        g.maxScore = p.maxScore * share p (s.cases.map Case.weight).sum ∧
        List.Forall₂ (fun (k : Case) (c : CaseResult) =>
          c.maxScore = p.maxScore * share p k.weight ∧ c.contestScore = p.maxScore * share p k.weight * c.score)
          s.cases g.cases)
      p.groups (grade env p).groups := by
  obtain ⟨ys, -, hf, hm, hg, -⟩ := grade_ok env p hc.1 (compileAll_ok _ hc.2)
  rw [hg, ← (groups_of hm).2, List.forall₂_map_left_iff, List.forall₂_map_right_iff, List.forall₂_same]
  intro y hy
  have hys := (groups_of hm).1 y hy
  refine ⟨?_, ?_⟩
  · show p.maxScore * (y.1.weight * factor p) = _
    rw [weight_factor]
    rfl
  · show List.Forall₂ _ y.1.cases (y.2.map (fin env p))
    rw [← hys.2, List.forall₂_map_left_iff, List.forall₂_map_right_iff, List.forall₂_same]
    intro x hx
    obtain ⟨-, e1, -, -, -, e4, -⟩ := fin_spec env p x (hf y hy x hx)
    have e : (fin env p x).maxScore = p.maxScore * share p x.1.weight := by
      rw [e1, (hf y hy x hx).2.2.2.1, weight_factor]
    exact ⟨e, by rw [e4, e]⟩

/-- **C173**, exactly: the scores of the groups, for weights of any sign. -/
theorem C173_group_scores (env : Env) (p : Problem) (hc : Compiles p) (hfs : FromSandbox p) :
    List.Forall₂ (fun (s : Group) (g : GroupResult) =>
      ((∃ c ∈ g.cases, c.verdict ∉ [Verdict.AC, .PA, .OK]) → g.score = 0 ∧ g.contestScore = 0) ∧
      ((∀ c ∈ g.cases, c.verdict ∈ [Verdict.AC, .PA, .OK]) →
        g.score = (List.zipWith (fun (k : Case) (c : CaseResult) => c.score * share p k.weight) s.cases g.cases).sum ∧
        g.contestScore = p.maxScore * g.score))
      p.groups (grade env p).groups := by
  obtain ⟨ys, -, hf, hm, hg, -⟩ := grade_ok env p hc.1 (compileAll_ok _ hc.2)
  have hsv := fresh_sandbox hfs hm hf
  rw [hg, ← (groups_of hm).2, List.forall₂_map_left_iff, List.forall₂_map_right_iff,
    List.forall₂_same]
  intro y hy
  have hys := (groups_of hm).1 y hy
  have hclean : ∀ x ∈ y.2, clean env p x = true ↔ (fin env p x).verdict ∈ [Verdict.AC, .PA, .OK] := by
    intro x hx
    obtain ⟨-, -, -, -, -, -, h7, h8⟩ := fin_spec env p x (hf y hy x hx)
    have hs := hsv y hy x hx
    unfold clean
    by_cases hv : x.2.verdict = .OK
    · rcases h8 hv with h | h | h | h <;> simp [h.1, hv]
    · rw [(h7 hv).1]
      revert hs
      unfold SandboxVerdict
      cases x.2.verdict <;> simp_all
  constructor
  · rintro ⟨c, hcm, hnot⟩
    obtain ⟨x, hx, rfl⟩ := List.mem_map.mp hcm
    have : ¬ (y.2.all (clean env p) = true) := by
      rw [List.all_eq_true]
      intro h
      exact hnot ((hclean x hx).mp (h x hx))
    simp [groupRes, this]
  · intro hall
    have : y.2.all (clean env p) = true := by
      rw [List.all_eq_true]
      exact fun x hx => (hclean x hx).mpr (hall _ (List.mem_map.mpr ⟨x, hx, rfl⟩))
    simp only [groupRes, this, if_true]
    rw [← hys.2]
    have gen : ∀ xs : List (Case × CaseResult), wsum env p xs = (List.zipWith (fun (k : Case) (c : CaseResult) =>
          c.score * share p k.weight) (xs.map Prod.fst) (xs.map (fin env p))).sum := by
      intro xs
      induction xs with
      | nil => simp [wsum]
      | cons x xs ih =>
        have e : wsum env p (x :: xs)
          = (fin env p x).score * (x.1.weight * factor p) + wsum env p xs := by simp [wsum]
        simp only [List.map_cons, List.zipWith_cons_cons, List.sum_cons]
        rw [← ih, e, weight_factor]
    exact ⟨gen y.2, trivial⟩

/-- **C173**, exactly: an accepted run has score 1 whatever its groups have, any other one the sum of its groups'; its points are
that part of the maximum score. -/
theorem C173_run_score_partial (env : Env) (p : Problem) (hc : Compiles p) (hfs : FromSandbox p) :
    (grade env p).score =
      (if (grade env p).verdict = .AC then 1 else ((grade env p).groups.map GroupResult.score).sum) ∧
    (grade env p).contestScore = p.maxScore * (grade env p).score := by
  obtain ⟨ys, -, hf, hm, hg, hmax, hcs, v, hv, sc, hsc, hvs⟩ := grade_ok env p hc.1 (compileAll_ok _ hc.2)
  refine ⟨?_, hcs⟩
  have hsum : ((grade env p).groups.map GroupResult.score).sum = sc := by
    rw [hg, hsc, List.map_map]
    rfl
  have hnac : v ≠ .AC := by
    have hb : SandboxVerdict (((ys.flatMap Prod.snd).map (fun x => x.2.verdict)).foldl worse .OK) := by
      have hall : ∀ x ∈ (ys.flatMap Prod.snd), SandboxVerdict x.2.verdict := by
        intro x hx
        obtain ⟨y, hy, hxy⟩ := List.mem_flatMap.mp hx
        exact fresh_sandbox hfs hm hf y hy x hxy
      have key : ∀ (l : List (Case × CaseResult)) (v : Verdict), SandboxVerdict v → (∀ x ∈ l, SandboxVerdict x.2.verdict) →
          SandboxVerdict ((l.map (fun x => x.2.verdict)).foldl worse v) := by
        intro l
        induction l with
        | nil => intro v h _; exact h
        | cons x l ih =>
          intro v h hl
          refine ih _ ?_ (fun y hy => hl y (by simp [hy]))
          have := hl x (by simp)
          unfold worse
          split
          · exact h
          · exact this
      exact key _ _ (by unfold SandboxVerdict; decide) hall
    rw [hv]
    revert hb
    generalize ((ys.flatMap Prod.snd).map (fun x => x.2.verdict)).foldl worse .OK = w
    unfold SandboxVerdict
    intro hb
    split <;> revert hb <;> cases w <;> decide
  rw [hsum]
  by_cases h1 : v = .PA ∧ sc = 0
  · rw [if_pos h1] at hvs
    obtain ⟨e1, e2⟩ := Prod.mk.inj hvs
    rw [e1, e2]
    rfl
  · rw [if_neg h1] at hvs
    by_cases h2 : v = .OK
    · rw [if_pos h2] at hvs
      obtain ⟨e1, e2⟩ := Prod.mk.inj hvs
      rw [e1, e2]
      rfl
    · rw [if_neg h2] at hvs
      obtain ⟨e1, e2⟩ := Prod.mk.inj hvs
      rw [e1, e2, if_neg hnac]

/-- Two groups with these weights; the second answer is wrong if `bad`. -/
def twoGroups (w1 w2 : ℚ) (bad : Bool) : Problem :=
  { sample with groups :=
      [{ name := "a", cases := [sampleCase "a" w1 .OK (some [0x31])] },
       { name := "b", cases := [sampleCase "b" w2 .OK (some (if bad then [0x32] else [0x31]))] }] }

theorem twoGroups_meets (w1 w2 : ℚ) (bad : Bool) : Compiles (twoGroups w1 w2 bad) ∧ FromSandbox (twoGroups w1 w2 bad) ∧ Openable (twoGroups w1 w2 bad) := by
  refine ⟨⟨rfl, ?_⟩, ?_, ?_⟩
  · intro b hb
    simp only [twoGroups, sample, List.mem_singleton] at hb
    subst hb; exact ⟨rfl, rfl⟩
  · simp [FromSandbox, twoGroups, sampleCase, proc, SandboxVerdict]
  · simp [Openable, twoGroups, sampleCase, sample]

/-- **C173 is false**: a partly wrong submission gets three times the maximum score. -/
theorem C173_above_maximum : ∃ p, Compiles p ∧ FromSandbox p ∧ Openable p ∧ (grade sampleEnv p).verdict = .PA ∧
    (grade sampleEnv p).score = 3 ∧ (grade sampleEnv p).contestScore = 3 * p.maxScore ∧ 0 < p.maxScore :=
  ⟨twoGroups 3 (-5) true, (twoGroups_meets _ _ _).1, (twoGroups_meets _ _ _).2.1, (twoGroups_meets _ _ _).2.2, by decide +kernel⟩

/-- **C173 is false**: a partly wrong submission gets less than nothing. -/
theorem C173_below_zero : ∃ p, Compiles p ∧ FromSandbox p ∧ Openable p ∧ (grade sampleEnv p).verdict = .PA ∧
    (grade sampleEnv p).score = -1 ∧ (grade sampleEnv p).contestScore = - p.maxScore ∧ 0 < p.maxScore ∧ 0 < weightSum p :=
  ⟨twoGroups (-1) 2 true, (twoGroups_meets _ _ _).1, (twoGroups_meets _ _ _).2.1, (twoGroups_meets _ _ _).2.2, by decide +kernel⟩

/-- **C173 is false**: when all the weights are 0, an accepted submission gets the maximum score although its groups are worth nothing, and a
submission with a single wrong answer gets nothing. -/
theorem C173_zero_weights : ∃ p p', Compiles p ∧ Compiles p' ∧ NonNegative p ∧
    (grade sampleEnv p).verdict = .AC ∧ (grade sampleEnv p).contestScore = p.maxScore ∧ 0 < p.maxScore ∧
    (∀ g ∈ (grade sampleEnv p).groups, g.contestScore = 0 ∧ g.maxScore = 0) ∧
    (grade sampleEnv p').verdict = .WA ∧ (grade sampleEnv p').contestScore = 0 ∧
    (grade sampleEnv p').cases.map CaseResult.verdict = [.AC, .WA] := by
  refine ⟨twoGroups 0 0 false, twoGroups 0 0 true, (twoGroups_meets _ _ _).1, (twoGroups_meets _ _ _).1, ?_, by decide +kernel⟩
  simp [NonNegative, twoGroups, sample, sampleCase]

/-- The exact formulas at work: shares of a total that is negative. -/
example : (grade sampleEnv (twoGroups 3 (-5) true)).groups.map GroupResult.maxScore = [300, -500] ∧
    share (twoGroups 3 (-5) true) 3 = 3 ∧ share (twoGroups 3 (-1) true) 3 = 3 / 2 := by decide +kernel

end Quark.Grade
