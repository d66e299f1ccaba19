import Verif.Grade.Lemmas
import Mathlib.Tactic.Ring

namespace Quark.Grade
open Quark.MetaFile (Verdict worse worse_rank rank_inj)
open Quark.Validator (Env Settings)

/-! ### Specification -/

/-- The verdicts the sandbox reports (C09_known_verdict). -/
def SandboxVerdict (v : Verdict) : Prop := v ∈ [Verdict.JE, .MLE, .RFE, .RTE, .TLE, .OLE, .OK]

/-- Every process of every case ends with a verdict of the sandbox. -/
def FromSandbox (p : Problem) : Prop :=
  ∀ g ∈ p.groups, ∀ c ∈ g.cases, ∀ r ∈ c.procs, SandboxVerdict r.result.verdict

/-- All files the validation reads can be opened. -/
def Openable (p : Problem) : Prop :=
  ∀ g ∈ p.groups, ∀ c ∈ g.cases,
    if p.validator.name = "custom" then c.validatorVerdict = .OK → c.validatorOut ≠ none
    else c.contestantOut ≠ none ∧ c.expectedOut ≠ none

/-- Preparation succeeds and every binary compiles. -/
def Compiles (p : Problem) : Prop :=
  p.setup = .ok ∧ ∀ b ∈ p.compiles, b.err = false ∧ b.verdict = .OK

/-- All weights and the maximum score are non-negative. -/
def NonNegative (p : Problem) : Prop :=
  0 ≤ p.maxScore ∧ ∀ g ∈ p.groups, ∀ c ∈ g.cases, 0 ≤ c.weight

/-- The sum of all case weights. -/
def weightSum (p : Problem) : ℚ := ((p.groups.flatMap Group.cases).map Case.weight).sum

/-- All the cases of a result. -/
def RunResult.cases (r : RunResult) : List CaseResult := r.groups.flatMap GroupResult.cases

/-! ### Lemmas -/

theorem compileAll_ok (bs : List Compile) (h : ∀ b ∈ bs, b.err = false ∧ b.verdict = .OK) :
    (compileAll bs).2 = true := by
  induction bs with
  | nil => rfl
  | cons b bs ih =>
    obtain ⟨h1, h2⟩ := h b (by simp)
    rw [compileAll, if_neg (by simp [h1, h2])]
    exact ih (fun b hb => h b (by simp [hb]))

theorem weightSum_eq (p : Problem) : weightSum p = totalWeight p := by
  unfold weightSum totalWeight Group.weight
  induction p.groups with
  | nil => rfl
  | cons g gs ih => simp [ih]

theorem factor_nonneg (p : Problem) : 0 ≤ factor p := by
  unfold factor
  split
  · norm_num
  · rename_i h; push Not at h; positivity

theorem groups_of {p : Problem} {ys : List (Group × List (Case × CaseResult))}
    (h : ys.map (fun x => (x.1, x.2.map Prod.fst)) = p.groups.map (fun g => (g, g.cases))) :
    (∀ y ∈ ys, y.1 ∈ p.groups ∧ y.2.map Prod.fst = y.1.cases) ∧ ys.map Prod.fst = p.groups := by
  constructor
  · intro y hy
    have : (y.1, y.2.map Prod.fst) ∈ p.groups.map (fun g => (g, g.cases)) := by
      rw [← h]; exact List.mem_map.mpr ⟨y, hy, rfl⟩
    obtain ⟨g, hg, he⟩ := List.mem_map.mp this
    simp only [Prod.mk.injEq] at he
    rw [← he.1, ← he.2]
    exact ⟨hg, rfl⟩
  · have := congrArg (List.map Prod.fst) h
    simpa [List.map_map, Function.comp_def] using this

theorem case_of {p : Problem} {ys : List (Group × List (Case × CaseResult))}
    (h : ys.map (fun x => (x.1, x.2.map Prod.fst)) = p.groups.map (fun g => (g, g.cases))) :
    ∀ y ∈ ys, ∀ x ∈ y.2, y.1 ∈ p.groups ∧ x.1 ∈ y.1.cases := by
  intro y hy x hx
  obtain ⟨h1, h2⟩ := (groups_of h).1 y hy
  exact ⟨h1, h2 ▸ List.mem_map.mpr ⟨x, hx, rfl⟩⟩

theorem wsum_bounds (env : Env) (p : Problem) (xs : List (Case × CaseResult))
    (hf : ∀ x ∈ xs, Fresh p x) (hw : ∀ x ∈ xs, 0 ≤ x.1.weight) :
    0 ≤ wsum env p xs ∧ wsum env p xs ≤ ((xs.map Prod.fst).map Case.weight).sum * factor p := by
  induction xs with
  | nil => simp [wsum]
  | cons x xs ih =>
    obtain ⟨i1, i2⟩ := ih (fun y hy => hf y (by simp [hy])) (fun y hy => hw y (by simp [hy]))
    obtain ⟨-, -, -, h0, h1, -⟩ := fin_spec env p x (hf x (by simp))
    have h2 := mul_nonneg (hw x (by simp)) (factor_nonneg p)
    have e : wsum env p (x :: xs)
        = (fin env p x).score * (x.1.weight * factor p) + wsum env p xs := by simp [wsum]
    rw [e]
    simp only [List.map_cons, List.sum_cons, add_mul]
    have h3 := mul_nonneg h0 h2
    have h4 := mul_le_mul_of_nonneg_right h1 h2
    rw [one_mul] at h4
    constructor <;> linarith

theorem groupScore_bounds (env : Env) (p : Problem) (y : Group × List (Case × CaseResult))
    (hc : y.2.map Prod.fst = y.1.cases) (hf : ∀ x ∈ y.2, Fresh p x) (hw : ∀ x ∈ y.2, 0 ≤ x.1.weight) :
    0 ≤ (groupRes env p y).score ∧ (groupRes env p y).score ≤ y.1.weight * factor p ∧
    (groupRes env p y).contestScore = p.maxScore * (groupRes env p y).score := by
  obtain ⟨h1, h2⟩ := wsum_bounds env p y.2 hf hw
  rw [hc] at h2
  unfold groupRes Group.weight
  simp only
  split
  · exact ⟨h1, h2, rfl⟩
  · exact ⟨_root_.le_refl _, by linarith, by simp⟩

theorem total_factor (p : Problem) (hw : ∀ g ∈ p.groups, ∀ c ∈ g.cases, 0 ≤ c.weight) :
    totalWeight p * factor p ≤ 1 ∧ 0 ≤ totalWeight p := by
  have h0 : 0 ≤ totalWeight p := by
    unfold totalWeight
    apply List.sum_nonneg
    intro x hx
    obtain ⟨g, hg, rfl⟩ := List.mem_map.mp hx
    apply List.sum_nonneg
    intro x hx
    obtain ⟨c, hc, rfl⟩ := List.mem_map.mp hx
    exact hw g hg c hc
  refine ⟨?_, h0⟩
  unfold factor
  split
  · have : totalWeight p = 0 := by linarith
    rw [this]; norm_num
  · rename_i h
    push Not at h
    rw [mul_one_div_cancel (ne_of_gt h)]

theorem sum_scores_le (env : Env) (p : Problem) (ys : List (Group × List (Case × CaseResult)))
    (h : ∀ y ∈ ys, 0 ≤ (groupRes env p y).score ∧ (groupRes env p y).score ≤ y.1.weight * factor p) :
    0 ≤ (ys.map fun y => (groupRes env p y).score).sum ∧
    (ys.map fun y => (groupRes env p y).score).sum ≤ ((ys.map Prod.fst).map Group.weight).sum * factor p := by
  induction ys with
  | nil => simp
  | cons y ys ih =>
    obtain ⟨i1, i2⟩ := ih (fun z hz => h z (by simp [hz]))
    obtain ⟨h1, h2⟩ := h y (by simp)
    simp only [List.map_cons, List.sum_cons, add_mul]
    constructor <;> linarith

theorem grade_score_range (env : Env) (p : Problem) (hn : NonNegative p) :
    0 ≤ (grade env p).score ∧ (grade env p).score ≤ 1 := by
  by_cases hs : p.setup = .ok
  · by_cases hc : (compileAll p.compiles).2 = true
    · obtain ⟨ys, -, hf, hm, -, -, -, v, -, sc, hsc, hvs⟩ := grade_ok env p hs hc
      have hys := sum_scores_le env p ys (fun y hy => by
        obtain ⟨h1, h2⟩ := (groups_of hm).1 y hy
        obtain ⟨h3, h4, -⟩ := groupScore_bounds env p y h2 (hf y hy) (fun x hx =>
          hn.2 y.1 h1 x.1 (case_of hm y hy x hx).2)
        exact ⟨h3, h4⟩)
      rw [(groups_of hm).2, ← hsc] at hys
      have ht := total_factor p hn.2
      have h2 : (grade env p).score = _ := congrArg Prod.snd hvs
      rw [h2]
      have hr : 0 ≤ sc ∧ sc ≤ 1 := ⟨hys.1, _root_.le_trans hys.2 ht.1⟩
      split
      · exact hr
      · split
        · norm_num
        · exact hr
    · unfold grade; rw [hs]; simp [hc]
  · unfold grade
    cases h : p.setup with
    | ok => exact absurd h hs
    | _ => simp

/-! ### C12 -/

/-- **C12** Bounds of all scores. -/
theorem C12_score_bounds (env : Env) (p : Problem) (hn : NonNegative p) :
    let r := grade env p
    0 ≤ r.score ∧ r.score ≤ 1 ∧ r.maxScore = p.maxScore ∧ r.contestScore = r.maxScore * r.score ∧
    0 ≤ r.contestScore ∧ r.contestScore ≤ r.maxScore ∧
    (∀ g ∈ r.groups, 0 ≤ g.score ∧ g.score ≤ 1 ∧ 0 ≤ g.contestScore ∧ g.contestScore ≤ g.maxScore ∧
      ∀ c ∈ g.cases, 0 ≤ c.score ∧ c.score ≤ 1 ∧ 0 ≤ c.contestScore ∧ c.contestScore ≤ c.maxScore) := by
  obtain ⟨h0, h1⟩ := grade_score_range env p hn
  have hrest : (grade env p).maxScore = p.maxScore ∧
      (grade env p).contestScore = p.maxScore * (grade env p).score ∧
      (∀ g ∈ (grade env p).groups, 0 ≤ g.score ∧ g.score ≤ 1 ∧ 0 ≤ g.contestScore ∧
        g.contestScore ≤ g.maxScore ∧
        ∀ c ∈ g.cases, 0 ≤ c.score ∧ c.score ≤ 1 ∧ 0 ≤ c.contestScore ∧ c.contestScore ≤ c.maxScore) := by
    by_cases hs : p.setup = .ok
    · by_cases hc : (compileAll p.compiles).2 = true
      · obtain ⟨ys, -, hf, hm, hg, hmax, hcs, v, -, sc, hsc, hvs⟩ := grade_ok env p hs hc
        refine ⟨hmax, hcs, ?_⟩
        rw [hg]
        intro g hgm
        obtain ⟨y, hy, rfl⟩ := List.mem_map.mp hgm
        obtain ⟨k1, k2⟩ := (groups_of hm).1 y hy
        have hwx : ∀ x ∈ y.2, 0 ≤ x.1.weight := fun x hx =>
          hn.2 y.1 k1 x.1 (case_of hm y hy x hx).2
        obtain ⟨h3, h4, h5⟩ := groupScore_bounds env p y k2 (hf y hy) hwx
        have hle : y.1.weight * factor p ≤ 1 := by
          have ht := total_factor p hn.2
          have : y.1.weight ≤ totalWeight p := by
            unfold totalWeight
            apply List.single_le_sum
            · intro x hx
              obtain ⟨g, hg, rfl⟩ := List.mem_map.mp hx
              apply List.sum_nonneg
              intro x hx
              obtain ⟨c, hc, rfl⟩ := List.mem_map.mp hx
              exact hn.2 g hg c hc
            · exact List.mem_map.mpr ⟨y.1, k1, rfl⟩
          exact _root_.le_trans (mul_le_mul_of_nonneg_right this (factor_nonneg p)) ht.1
        refine ⟨h3, by linarith, ?_, ?_, ?_⟩
        · rw [h5]; exact mul_nonneg hn.1 h3
        · rw [h5]; exact mul_le_mul_of_nonneg_left h4 hn.1
        · intro c hcm
          obtain ⟨x, hx, rfl⟩ := List.mem_map.mp hcm
          obtain ⟨-, e1, -, e2, e3, e4, -⟩ := fin_spec env p x (hf y hy x hx)
          have hmx : 0 ≤ (fin env p x).maxScore := by
            rw [e1, (hf y hy x hx).2.2.2.1]
            exact mul_nonneg hn.1 (mul_nonneg (hwx x hx) (factor_nonneg p))
          refine ⟨e2, e3, ?_, ?_⟩
          · rw [e4]; exact mul_nonneg hmx e2
          · rw [e4]; exact mul_le_of_le_one_right hmx e3
      · unfold grade; rw [hs]; simp [hc]
    · unfold grade
      cases h : p.setup with
      | ok => exact absurd h hs
      | _ => simp
  obtain ⟨a, b, c⟩ := hrest
  refine ⟨h0, h1, a, by rw [b, a], ?_, ?_, c⟩
  · rw [b]; exact mul_nonneg hn.1 h0
  · rw [b, a]; exact mul_le_of_le_one_right hn.1 h1

/-! ### C13 -/

/-- **C13** With positive total weight, the maximum scores partition the run's, exactly. -/
theorem C13_max_scores_partition (env : Env) (p : Problem) (hc : Compiles p) (hw : 0 < weightSum p) :
    let r := grade env p
    (r.groups.map GroupResult.maxScore).sum = r.maxScore ∧ r.maxScore = p.maxScore ∧
    ∀ g ∈ r.groups, (g.cases.map CaseResult.maxScore).sum = g.maxScore := by
  obtain ⟨ys, -, hf, hm, hg, hmax, -⟩ := grade_ok env p hc.1 (compileAll_ok _ hc.2)
  simp only
  rw [hg, hmax]
  refine ⟨?_, rfl, ?_⟩
  · have : ((ys.map (groupRes env p)).map GroupResult.maxScore).sum
        = p.maxScore * (((ys.map Prod.fst).map Group.weight).sum * factor p) := by
      clear hm hg hf
      induction ys with
      | nil => simp
      | cons y ys ih =>
        simp only [List.map_cons, List.sum_cons]
        rw [ih]
        simp only [groupRes]
        ring
    rw [this, (groups_of hm).2]
    have : (p.groups.map Group.weight).sum = totalWeight p := rfl
    rw [this]
    rw [weightSum_eq] at hw
    unfold factor
    rw [if_neg (by linarith), mul_one_div_cancel (ne_of_gt hw), mul_one]
  · intro g hgm
    obtain ⟨y, hy, rfl⟩ := List.mem_map.mp hgm
    have h2 := ((groups_of hm).1 y hy).2
    unfold groupRes Group.weight
    simp only
    rw [← h2]
    have : ∀ xs : List (Case × CaseResult), (∀ x ∈ xs, Fresh p x) →
        ((xs.map (fin env p)).map CaseResult.maxScore).sum
          = p.maxScore * (((xs.map Prod.fst).map Case.weight).sum * factor p) := by
      intro xs hx
      induction xs with
      | nil => simp
      | cons x xs ih =>
        have := ih (fun y hy => hx y (by simp [hy]))
        simp only [List.map_cons, List.sum_cons]
        rw [this, (fin_spec env p x (hx x (by simp))).2.1, (hx x (by simp)).2.2.2.1]
        ring
    exact this y.2 (hf y hy)

/-- **C13** The result has exactly the groups and cases of the settings, in the same order. -/
theorem C13_shape (env : Env) (p : Problem) (hc : Compiles p) :
    (grade env p).groups.map (fun g => (g.name, g.cases.map CaseResult.name))
      = p.groups.map (fun g => (g.name, g.cases.map Case.name)) := by
  obtain ⟨ys, -, hf, hm, hg, -⟩ := grade_ok env p hc.1 (compileAll_ok _ hc.2)
  rw [hg]
  have := congrArg (List.map fun z : Group × List Case => (z.1.name, z.2.map Case.name)) hm
  simp only [List.map_map, Function.comp_def] at this
  rw [← this, List.map_map]
  apply List.map_congr_left
  intro y hy
  simp only [Function.comp_def, groupRes, List.map_map, Prod.mk.injEq, true_and]
  apply List.map_congr_left
  intro x hx
  exact (fin_spec env p x (hf y hy x hx)).1

/-! ### Verdicts of executed cases -/

theorem sandbox_worse {a b : Verdict} (ha : SandboxVerdict a) (hb : SandboxVerdict b) :
    SandboxVerdict (worse a b) := by
  unfold worse; split <;> assumption

theorem collectStep_sandbox (s : Collect) (r : Proc) (hs : SandboxVerdict s.verdict)
    (hr : SandboxVerdict r.result.verdict) : SandboxVerdict (collectStep s r).verdict := by
  unfold collectStep
  split
  · exact hs
  · simp only
    split
    · exact sandbox_worse hs hr
    · exact sandbox_worse hs hr

theorem collect_sandbox (procs : List Proc) (h : ∀ r ∈ procs, SandboxVerdict r.result.verdict) :
    SandboxVerdict (collect procs).verdict := by
  have hf : ∀ (s : Collect), SandboxVerdict s.verdict →
      SandboxVerdict (procs.foldl collectStep s).verdict := by
    induction procs with
    | nil => intro s hs; exact hs
    | cons r procs ih =>
      intro s hs
      exact ih (fun r hr => h r (by simp [hr])) _ (collectStep_sandbox s r hs (h r (by simp)))
  have := hf {} (by simp [SandboxVerdict])
  unfold collect
  simp only
  split
  · split
    · simp only [parentVerdict]; split_ifs <;> simp [SandboxVerdict]
    · exact this
  · exact this

theorem exec_sandbox (p : Problem) (wall : ℚ) (c : Case)
    (h : ∀ r ∈ c.procs, SandboxVerdict r.result.verdict) :
    SandboxVerdict (execCase p wall c).1.verdict := by
  unfold execCase
  split
  · simp [SandboxVerdict]
  · split
    · cases c.catFile with
      | none => simp [SandboxVerdict]
      | some b => cases b <;> simp [SandboxVerdict]
    · exact collect_sandbox _ h

theorem fresh_sandbox {p : Problem} (hfs : FromSandbox p)
    {ys : List (Group × List (Case × CaseResult))}
    (hm : ys.map (fun x => (x.1, x.2.map Prod.fst)) = p.groups.map (fun g => (g, g.cases)))
    (hf : ∀ y ∈ ys, ∀ x ∈ y.2, Fresh p x) :
    ∀ y ∈ ys, ∀ x ∈ y.2, SandboxVerdict x.2.verdict := by
  intro y hy x hx
  obtain ⟨-, -, -, -, wall, hv⟩ := hf y hy x hx
  obtain ⟨h1, h2⟩ := case_of hm y hy x hx
  rw [hv]
  exact exec_sandbox p wall x.1 (hfs y.1 h1 x.1 h2)

theorem foldl_worse (l : List Verdict) (a : Verdict) :
    (l.foldl worse a ∈ l ∨ l.foldl worse a = a) ∧ (l.foldl worse a).rank ≤ a.rank ∧
      ∀ w ∈ l, (l.foldl worse a).rank ≤ w.rank := by
  induction l generalizing a with
  | nil => simp
  | cons x l ih =>
    obtain ⟨h1, h2, h3⟩ := ih (worse a x)
    simp only [List.foldl_cons]
    rw [worse_rank] at h2
    refine ⟨?_, by omega, ?_⟩
    · rcases h1 with h1 | h1
      · left; simp [h1]
      · unfold worse at h1 ⊢
        split at h1
        · right; simpa [*] using h1
        · left; rename_i hh; rw [if_neg hh, h1]; simp
    · intro w hw
      rcases List.mem_cons.mp hw with rfl | hw
      · omega
      · exact h3 w hw

theorem sandbox_rank {v : Verdict} (h : SandboxVerdict v) : v = .OK ∨ v.rank ≤ 6 := by
  unfold SandboxVerdict at h
  cases v <;> revert h <;> decide

/-- **C11** (for whole runs) The run's verdict is the worst verdict of its cases if some case failed
to execute cleanly; otherwise, if some case did not get full score, it is WA for score zero and PA
for a positive score; otherwise it is AC. -/
theorem C11_run_verdict (env : Env) (p : Problem) (hc : Compiles p) (hfs : FromSandbox p) :
    let r := grade env p
    let vs := r.cases.map CaseResult.verdict
    ((∃ v ∈ vs, v ∉ [Verdict.WA, .PA, .AC, .OK]) →
      r.verdict ∈ vs ∧ ∀ w ∈ vs, r.verdict.rank ≤ w.rank) ∧
    ((∀ v ∈ vs, v ∈ [Verdict.WA, .PA, .AC, .OK]) →
      ((∃ v ∈ vs, v = .WA ∨ v = .PA) → r.verdict = if r.score = 0 then .WA else .PA) ∧
      ((∀ v ∈ vs, v = .AC ∨ v = .OK) → r.verdict = .AC ∧ r.score = 1)) := by
  obtain ⟨ys, -, hf, hm, hg, -, -, v, hv, sc, hsc, hvs⟩ :=
    grade_ok env p hc.1 (compileAll_ok _ hc.2)
  have hsv := fresh_sandbox hfs hm hf
  set xs := ys.flatMap Prod.snd with hxs
  have hfx : ∀ x ∈ xs, Fresh p x := by
    intro x hx
    obtain ⟨y, hy, hxy⟩ := List.mem_flatMap.mp hx
    exact hf y hy x hxy
  have hsx : ∀ x ∈ xs, SandboxVerdict x.2.verdict := by
    intro x hx
    obtain ⟨y, hy, hxy⟩ := List.mem_flatMap.mp hx
    exact hsv y hy x hxy
  have hcases : (grade env p).cases = xs.map (fin env p) := by
    unfold RunResult.cases
    rw [hg, hxs, List.flatMap_map, List.map_flatMap]
    rfl
  have hvd : (grade env p).verdict = _ := congrArg Prod.fst hvs
  have hscd : (grade env p).score = _ := congrArg Prod.snd hvs
  simp only [hcases, List.map_map]
  obtain ⟨w1, w2, w3⟩ := foldl_worse (xs.map (fun x => x.2.verdict)) .OK
  have hfail : (∃ x ∈ xs, x.2.verdict ≠ .OK) →
      (grade env p).verdict = (xs.map (fun x => x.2.verdict)).foldl worse .OK ∧
      ((xs.map (fun x => x.2.verdict)).foldl worse .OK).rank ≤ 6 := by
    rintro ⟨x, hx, hne⟩
    have h6 : ((xs.map (fun x => x.2.verdict)).foldl worse .OK).rank ≤ 6 := by
      have := w3 _ (List.mem_map.mpr ⟨x, hx, rfl⟩)
      rcases sandbox_rank (hsx x hx) with h | h
      · exact absurd h hne
      · omega
    refine ⟨?_, h6⟩
    have hvv : v = (xs.map (fun x => x.2.verdict)).foldl worse .OK := by
      rw [hv]
      split
      · apply rank_inj
        rw [worse_rank]
        have : Verdict.PA.rank = 8 := rfl
        omega
      · rfl
    rw [hvd, ← hvv]
    rw [← hvv] at h6
    have h1 : v ≠ .PA := by rintro rfl; exact absurd h6 (by decide)
    have h2 : v ≠ .OK := by rintro rfl; exact absurd h6 (by decide)
    simp [h1, h2]
  have hokv : (∀ x ∈ xs, x.2.verdict = .OK) →
      (xs.map (fun x => x.2.verdict)).foldl worse .OK = .OK := by
    intro h
    rcases w1 with w1 | w1
    · obtain ⟨x, hx, he⟩ := List.mem_map.mp w1
      rw [← he, h x hx]
    · exact w1
  constructor
  · rintro ⟨u, hu, hnot⟩
    obtain ⟨x, hx, rfl⟩ := List.mem_map.mp hu
    have hne : x.2.verdict ≠ .OK := by
      intro h
      obtain ⟨-, -, -, -, -, -, -, h8⟩ := fin_spec env p x (hfx x hx)
      simp only [Function.comp_apply] at hnot
      rcases h8 h with h | h | h | h <;> (rw [h.1] at hnot; exact hnot (by decide))
    obtain ⟨e1, e2⟩ := hfail ⟨x, hx, hne⟩
    rw [e1]
    constructor
    · rcases w1 with w1 | w1
      · obtain ⟨x', hx', he⟩ := List.mem_map.mp w1
        have hne' : x'.2.verdict ≠ .OK := by
          intro h; rw [← he, h] at e2; exact absurd e2 (by decide)
        refine List.mem_map.mpr ⟨x', hx', ?_⟩
        obtain ⟨-, -, -, -, -, -, h7, -⟩ := fin_spec env p x' (hfx x' hx')
        simp only [Function.comp_apply]
        rw [(h7 hne').1, he]
      · rw [w1] at e2; exact absurd e2 (by decide)
    · intro w hw
      obtain ⟨x', hx', rfl⟩ := List.mem_map.mp hw
      obtain ⟨-, -, -, -, -, -, h7, h8⟩ := fin_spec env p x' (hfx x' hx')
      simp only [Function.comp_apply]
      by_cases hx'v : x'.2.verdict = .OK
      · rcases h8 hx'v with h | h | h | h <;> rw [h.1] <;> exact _root_.le_trans e2 (by decide)
      · rw [(h7 hx'v).1]
        exact w3 _ (List.mem_map.mpr ⟨x', hx', rfl⟩)
  · intro hall
    have hok : ∀ x ∈ xs, x.2.verdict = .OK := by
      intro x hx
      by_contra hne
      have h := hall _ (List.mem_map.mpr ⟨x, hx, rfl⟩)
      obtain ⟨-, -, -, -, -, -, h7, -⟩ := fin_spec env p x (hfx x hx)
      simp only [Function.comp_apply] at h
      rw [(h7 hne).1] at h
      have hs := hsx x hx
      revert h hs hne
      unfold SandboxVerdict
      cases x.2.verdict <;> decide
    rw [hokv hok] at hv
    constructor
    · rintro ⟨u, hu, hwp⟩
      obtain ⟨x, hx, rfl⟩ := List.mem_map.mp hu
      simp only [Function.comp_apply] at hwp
      have hany : xs.any (flawed env p) = true := by
        rw [List.any_eq_true]
        exact ⟨x, hx, by simp [flawed, hok x hx, hwp]⟩
      rw [if_pos hany] at hv
      have : v = .PA := by rw [hv]; decide
      rw [hvd, hscd, this]
      by_cases h0 : sc = 0
      · simp [h0]
      · simp [h0]
    · intro hgood
      have hany : ¬ xs.any (flawed env p) = true := by
        rw [List.any_eq_true]
        rintro ⟨x, hx, hfl⟩
        have := hgood _ (List.mem_map.mpr ⟨x, hx, rfl⟩)
        simp only [Function.comp_apply] at this
        simp only [flawed, Bool.and_eq_true, Bool.or_eq_true, decide_eq_true_eq] at hfl
        rcases this with h | h <;> rw [h] at hfl <;> simp at hfl
      rw [if_neg hany] at hv
      rw [hvd, hscd, hv]
      simp

/-! ### C14 -/

/-- **C14** Result groups correspond to the settings' groups; a group with a case whose verdict is
not AC, PA (or OK: executed, but its files could not be opened) scores zero, any other group scores
the sum of its case scores weighted by the share of each case in the total weight. -/
theorem C14_group_all_or_nothing (env : Env) (p : Problem) (hc : Compiles p) (hfs : FromSandbox p)
    (hw : 0 < weightSum p) :
    List.Forall₂ (fun (s : Group) (g : GroupResult) =>
      ((∃ c ∈ g.cases, c.verdict ∉ [Verdict.AC, .PA, .OK]) → g.score = 0 ∧ g.contestScore = 0) ∧
      ((∀ c ∈ g.cases, c.verdict ∈ [Verdict.AC, .PA, .OK]) →
        g.score = (List.zipWith (fun (k : Case) (c : CaseResult) => c.score * (k.weight / weightSum p))
          s.cases g.cases).sum ∧
        g.contestScore = (g.cases.map CaseResult.contestScore).sum))
      p.groups (grade env p).groups := by
  obtain ⟨ys, -, hf, hm, hg, -⟩ := grade_ok env p hc.1 (compileAll_ok _ hc.2)
  have hsv := fresh_sandbox hfs hm hf
  rw [hg, ← (groups_of hm).2, List.forall₂_map_left_iff, List.forall₂_map_right_iff,
    List.forall₂_same]
  intro y hy
  have hys := (groups_of hm).1 y hy
  have hfac : factor p = 1 / weightSum p := by
    unfold factor; rw [← weightSum_eq, if_neg (by linarith)]
  have hclean : ∀ x ∈ y.2, clean env p x = true ↔ (fin env p x).verdict ∈ [Verdict.AC, .PA, .OK] := by
    intro x hx
    obtain ⟨-, -, -, -, -, -, h7, h8⟩ := fin_spec env p x (hf y hy x hx)
    have hs := hsv y hy x hx
    unfold clean
    by_cases hv : x.2.verdict = .OK
    · rcases h8 hv with h | h | h | h <;> simp [h.1, hv]
    · rw [(h7 hv).1]
      revert hs
      unfold SandboxVerdict
      cases x.2.verdict <;> simp_all
  constructor
  · rintro ⟨c, hcm, hnot⟩
    obtain ⟨x, hx, rfl⟩ := List.mem_map.mp hcm
    have : ¬ (y.2.all (clean env p) = true) := by
      rw [List.all_eq_true]
      intro h
      exact hnot ((hclean x hx).mp (h x hx))
    simp [groupRes, this]
  · intro hall
    have : y.2.all (clean env p) = true := by
      rw [List.all_eq_true]
      exact fun x hx => (hclean x hx).mpr (hall _ (List.mem_map.mpr ⟨x, hx, rfl⟩))
    simp only [groupRes, this, if_true]
    rw [← hys.2]
    have gen : ∀ xs : List (Case × CaseResult), (∀ x ∈ xs, Fresh p x) →
        wsum env p xs = (List.zipWith (fun (k : Case) (c : CaseResult) =>
          c.score * (k.weight / weightSum p)) (xs.map Prod.fst) (xs.map (fin env p))).sum ∧
        p.maxScore * wsum env p xs = ((xs.map (fin env p)).map CaseResult.contestScore).sum := by
      intro xs hx
      induction xs with
      | nil => simp [wsum]
      | cons x xs ih =>
        obtain ⟨i1, i2⟩ := ih (fun y hy => hx y (by simp [hy]))
        have e : wsum env p (x :: xs)
          = (fin env p x).score * (x.1.weight * factor p) + wsum env p xs := by simp [wsum]
        obtain ⟨-, e1, -, -, -, e4, -⟩ := fin_spec env p x (hx x (by simp))
        simp only [List.map_cons, List.zipWith_cons_cons, List.sum_cons]
        rw [← i1, ← i2, e, e4, e1, (hx x (by simp)).2.2.2.1]
        constructor
        · rw [hfac]; ring
        · ring
    exact gen y.2 (hf y hy)

/-- No case of an openable problem ends with verdict OK. -/
theorem not_ok_of_openable (env : Env) (p : Problem) (hc : Compiles p) (ho : Openable p) :
    ∀ g ∈ (grade env p).groups, ∀ c ∈ g.cases, c.verdict ≠ .OK ∧
      (c.verdict ∈ [Verdict.AC, .PA] → c.score ≠ 0) ∨ c.score = 0 ∧ c.verdict ≠ .OK := by
  obtain ⟨ys, -, hf, hm, hg, -⟩ := grade_ok env p hc.1 (compileAll_ok _ hc.2)
  rw [hg]
  intro g hgm c hcm
  obtain ⟨y, hy, rfl⟩ := List.mem_map.mp hgm
  obtain ⟨x, hx, rfl⟩ := List.mem_map.mp hcm
  obtain ⟨-, -, -, -, -, -, h7, h8⟩ := fin_spec env p x (hf y hy x hx)
  by_cases hv : x.2.verdict = .OK
  · rcases h8 hv with h | h | h | h
    · left; rw [h.1, h.2]; simp
    · left; rw [h.1]; simp [h.2.1]
    · left; rw [h.1]; simp
    · exfalso
      obtain ⟨h1, h2⟩ := case_of hm y hy x hx
      have := ho y.1 h1 x.1 h2
      have h3 := h.2.2
      unfold comparedFiles at h3
      split at this
      · rename_i hn
        rw [if_pos hn] at h3
        by_cases hvv : x.1.validatorVerdict = .OK
        · simp [hvv, this hvv] at h3
        · simp [hvv] at h3
      · rename_i hn
        rw [if_neg hn] at h3
        rcases h3 with h3 | h3
        · exact this.1 h3
        · exact this.2 h3
  · right
    rw [(h7 hv).1]
    exact ⟨(h7 hv).2, hv⟩

/-- **C14 (partial)** If all output files can be opened, a group with any case of score zero
contributes nothing. Missing: unopenable files (see C14_unopenable_counts). -/
theorem C14_zero_case_partial (env : Env) (p : Problem) (hc : Compiles p) (hfs : FromSandbox p)
    (ho : Openable p) (hw : 0 < weightSum p) :
    ∀ g ∈ (grade env p).groups, (∃ c ∈ g.cases, c.score = 0) → g.score = 0 ∧ g.contestScore = 0 := by
  intro g hg
  rintro ⟨c, hcm, h0⟩
  have h14 := C14_group_all_or_nothing env p hc hfs hw
  have hno := not_ok_of_openable env p hc ho g hg c hcm
  have hs : (∃ c ∈ g.cases, c.verdict ∉ [Verdict.AC, .PA, .OK]) →
      g.score = 0 ∧ g.contestScore = 0 := by
    obtain ⟨i, hi, rfl⟩ := List.mem_iff_getElem.mp hg
    have hl := h14.length_eq
    exact (h14.get (i := i) (by omega) hi).1
  refine hs ⟨c, hcm, ?_⟩
  rcases hno with ⟨h1, h2⟩ | ⟨h1, h2⟩
  · intro hmem
    simp only [List.mem_cons, List.not_mem_nil, or_false] at hmem h2
    rcases hmem with h | h | h
    · exact h2 (Or.inl h) h0
    · exact h2 (Or.inr h) h0
    · exact h1 h
  · intro hmem
    obtain ⟨ys, -, hf, hm, hgg, -⟩ := grade_ok env p hc.1 (compileAll_ok _ hc.2)
    have hsv := fresh_sandbox hfs hm hf
    rw [hgg] at hg
    obtain ⟨y, hy, rfl⟩ := List.mem_map.mp hg
    obtain ⟨x, hx, rfl⟩ := List.mem_map.mp hcm
    obtain ⟨-, -, -, -, -, -, h7, h8⟩ := fin_spec env p x (hf y hy x hx)
    by_cases hv : x.2.verdict = .OK
    · rcases h8 hv with h | h | h | h
      · rw [h.2] at h0; norm_num at h0
      · exact h.2.1 h0
      · rw [h.1] at hmem; simp at hmem
      · exact h2 h.1
    · have hs := hsv y hy x hx
      rw [(h7 hv).1] at hmem
      revert hs hmem
      unfold SandboxVerdict
      cases hxv : x.2.verdict <;> simp_all

/-! ### C15 -/

/-- **C15 (partial)** If all output files can be opened, the run is AC exactly when every case is
AC, and then its score is 1. Missing: unopenable files (see C15_unopenable_is_accepted). -/
theorem C15_ac_iff_all_ac_partial (env : Env) (p : Problem) (hc : Compiles p) (hfs : FromSandbox p)
    (ho : Openable p) :
    ((grade env p).verdict = .AC ↔ ∀ c ∈ (grade env p).cases, c.verdict = .AC) ∧
    ((grade env p).verdict = .AC → (grade env p).score = 1) := by
  have hno : ∀ c ∈ (grade env p).cases, c.verdict ≠ .OK := by
    intro c hcm
    obtain ⟨g, hg, hcg⟩ := List.mem_flatMap.mp hcm
    rcases not_ok_of_openable env p hc ho g hg c hcg with h | h
    · exact h.1
    · exact h.2
  obtain ⟨h1, h2⟩ := C11_run_verdict env p hc hfs
  have hiff : (grade env p).verdict = .AC → ∀ c ∈ (grade env p).cases, c.verdict = .AC := by
    intro hv
    by_cases hall : ∀ v ∈ (grade env p).cases.map CaseResult.verdict,
        v ∈ [Verdict.WA, .PA, .AC, .OK]
    · obtain ⟨h3, h4⟩ := h2 hall
      intro c hcm
      by_contra hne
      have hm := hall _ (List.mem_map.mpr ⟨c, hcm, rfl⟩)
      have : c.verdict = .WA ∨ c.verdict = .PA := by
        have := hno c hcm
        revert hm hne this
        cases c.verdict <;> simp
      have := h3 ⟨_, List.mem_map.mpr ⟨c, hcm, rfl⟩, this⟩
      rw [hv] at this
      split at this <;> simp at this
    · push Not at hall
      obtain ⟨v, hvm, hvn⟩ := hall
      obtain ⟨-, h4⟩ := h1 ⟨v, hvm, hvn⟩
      have h5 := h4 v hvm
      rw [hv] at h5
      exfalso
      revert h5 hvn
      cases v <;> decide
  have hback : (∀ c ∈ (grade env p).cases, c.verdict = .AC) →
      (grade env p).verdict = .AC ∧ (grade env p).score = 1 := by
    intro h
    have hv : ∀ v ∈ (grade env p).cases.map CaseResult.verdict, v = .AC := by
      intro v hv
      obtain ⟨c, hcm, rfl⟩ := List.mem_map.mp hv
      exact h c hcm
    exact (h2 (fun v hm => by rw [hv v hm]; simp)).2 (fun v hm => Or.inl (hv v hm))
  exact ⟨⟨hiff, fun h => (hback h).1⟩, fun h => (hback (hiff h)).2⟩

/-! ### C16 -/

/-- **C16** With positive total weight and openable files, the run's score and contest score are the
sums of its groups' scores and contest scores. -/
theorem C16_score_is_sum_of_groups (env : Env) (p : Problem) (hc : Compiles p) (hfs : FromSandbox p)
    (ho : Openable p) (hw : 0 < weightSum p) :
    (grade env p).score = ((grade env p).groups.map GroupResult.score).sum ∧
    (grade env p).contestScore = ((grade env p).groups.map GroupResult.contestScore).sum := by
  obtain ⟨ys, -, hf, hm, hg, hmax, hcs, v, hv, sc, hsc, hvs⟩ :=
    grade_ok env p hc.1 (compileAll_ok _ hc.2)
  have h15 := C15_ac_iff_all_ac_partial env p hc hfs ho
  have key : (grade env p).score = (ys.map fun y => (groupRes env p y).score).sum := by
    by_cases hac : (grade env p).verdict = .AC
    · have hall := h15.1.mp hac
      rw [h15.2 hac]
      have hfin : ∀ y ∈ ys, ∀ x ∈ y.2, (fin env p x).verdict = .AC := by
        intro y hy x hx
        apply hall
        unfold RunResult.cases
        rw [hg]
        exact List.mem_flatMap.mpr ⟨_, List.mem_map.mpr ⟨y, hy, rfl⟩, List.mem_map.mpr ⟨x, hx, rfl⟩⟩
      have hsv := fresh_sandbox hfs hm hf
      have hxs : ∀ y ∈ ys, ∀ x ∈ y.2, (fin env p x).score = 1 ∧ clean env p x = true := by
        intro y hy x hx
        obtain ⟨-, -, -, -, -, -, h7, h8⟩ := fin_spec env p x (hf y hy x hx)
        have hfv := hfin y hy x hx
        by_cases hxv : x.2.verdict = .OK
        · rcases h8 hxv with h | h | h | h
          · exact ⟨h.2, by simp [clean, hxv, hfv]⟩
          · rw [hfv] at h; exact absurd h.1 (by decide)
          · rw [hfv] at h; exact absurd h.1 (by decide)
          · rw [hfv] at h; exact absurd h.1 (by decide)
        · have hs := hsv y hy x hx
          rw [(h7 hxv).1] at hfv
          rw [hfv] at hs
          exact absurd hs (by unfold SandboxVerdict; decide)
      have hgs : ∀ y ∈ ys, (groupRes env p y).score = y.1.weight * factor p := by
        intro y hy
        have : y.2.all (clean env p) = true := by
          rw [List.all_eq_true]; exact fun x hx => (hxs y hy x hx).2
        simp only [groupRes, this, if_true]
        unfold Group.weight
        rw [← ((groups_of hm).1 y hy).2]
        have gen : ∀ xs : List (Case × CaseResult), (∀ x ∈ xs, (fin env p x).score = 1) →
            wsum env p xs = ((xs.map Prod.fst).map Case.weight).sum * factor p := by
          intro xs hx
          induction xs with
          | nil => simp [wsum]
          | cons x xs ih =>
            have e : wsum env p (x :: xs)
              = (fin env p x).score * (x.1.weight * factor p) + wsum env p xs := by simp [wsum]
            rw [e, ih (fun y hy => hx y (by simp [hy])), hx x (by simp)]
            simp only [List.map_cons, List.sum_cons]
            ring
        exact gen y.2 (fun x hx => (hxs y hy x hx).1)
      rw [List.map_congr_left hgs]
      have : (ys.map fun y => y.1.weight * factor p).sum = totalWeight p * factor p := by
        have h1 : (ys.map fun y => y.1.weight * factor p)
            = (ys.map Prod.fst).map (fun g => g.weight * factor p) := by
          rw [List.map_map]; rfl
        rw [h1, (groups_of hm).2, List.sum_map_mul_right]
        rfl
      rw [this]
      rw [weightSum_eq] at hw
      unfold factor
      rw [if_neg (by linarith), mul_one_div_cancel (ne_of_gt hw)]
    · have h1 : (grade env p).verdict = _ := congrArg Prod.fst hvs
      have h2 : (grade env p).score = _ := congrArg Prod.snd hvs
      rw [← hsc, h2]
      rw [h1] at hac
      split
      · rfl
      · split
        · rename_i h3 h4
          rw [if_neg h3, if_pos h4] at hac
          exact absurd rfl hac
        · rfl
  rw [hcs, key, hg, List.map_map, List.map_map]
  refine ⟨rfl, ?_⟩
  have hcon : ∀ y ∈ ys, (GroupResult.contestScore ∘ groupRes env p) y
      = p.maxScore * (groupRes env p y).score := by
    intro y _
    simp only [Function.comp_apply, groupRes]
    split <;> simp
  rw [List.map_congr_left hcon, List.sum_map_mul_left]

end Quark.Grade
