import Verif.Grade.Model
import Verif.Validator.Props
import Mathlib.Algebra.BigOperators.Group.List.Basic
import Mathlib.Algebra.Order.BigOperators.Group.List
import Mathlib.Algebra.BigOperators.Ring.List

namespace Quark.Grade
open Quark.MetaFile (Verdict worse worse_rank rank_inj)
open Quark.Validator (Env Settings)

theorem roundQ_idem (q : ℚ) : Float.roundQ (Float.roundQ q) = Float.roundQ q := by
  have pos : ∀ q : ℚ, 0 < q → Float.roundQ (Float.roundQ q) = Float.roundQ q := by
    intro q hq
    set K : ℤ := max (Int.log 2 |q| + 1) (-1074) with hK
    have hle : q ≤ 2 ^ K := by
      have h1 := Int.lt_zpow_succ_log_self (b := 2) (by norm_num) |q|
      rw [abs_of_pos hq] at h1 hK
      have h2 : ((2 : ℕ) : ℚ) ^ (Int.log 2 q + 1) ≤ 2 ^ K := by
        push_cast
        exact zpow_le_zpow_right₀ (by norm_num) (by omega)
      exact _root_.le_trans h1.le h2
    have hr : Float.roundQ q ≤ 2 ^ K := by
      have := Float.roundQ_mono hle
      rwa [Float.roundQ_pow K (by omega)] at this
    rcases hr.lt_or_eq with hlt | heq
    · rcases (Float.roundQ_nonneg hq.le).lt_or_eq with hp | hp
      · have hlog : Int.log 2 (Float.roundQ q) < K := by
          rw [← Int.lt_zpow_iff_log_lt (by norm_num) hp]
          exact_mod_cast hlt
        have hu : Float.ulpExp (Float.roundQ q) ≤ Float.ulpExp q := by
          unfold Float.ulpExp
          rw [abs_of_pos hp]
          omega
        obtain ⟨m, hm⟩ := Float.zpow_dvd _ _ hu
        refine Float.roundQ_exact _ (Float.rne (q / 2 ^ Float.ulpExp q) * m) ?_
        have : Float.roundQ q = Float.rne (q / 2 ^ Float.ulpExp q) * 2 ^ Float.ulpExp q := rfl
        rw [this, Int.cast_mul, mul_assoc, ← this, ← hm]; exact this
      · rw [← hp, Float.roundQ_zero]
    · rw [heq, Float.roundQ_pow K (by omega)]
  rcases lt_trichotomy q 0 with h | h | h
  · have := pos (-q) (by linarith)
    rw [Float.roundQ_neg, Float.roundQ_neg] at this
    linarith
  · rw [h, Float.roundQ_zero, Float.roundQ_zero]
  · exact pos q h

/-! ### Phase 1: execution -/

theorem runCases_fst (p : Problem) (s : RunState) (cs : List Case) :
    (runCases p s cs).2.map Prod.fst = cs := by
  induction cs generalizing s with
  | nil => rfl
  | cons c cs ih => simp [runCases, ih]

theorem runGroups_fst (p : Problem) (s : RunState) (gs : List Group) :
    (runGroups p s gs).2.map (fun x => (x.1, x.2.map Prod.fst)) = gs.map (fun g => (g, g.cases)) := by
  induction gs generalizing s with
  | nil => rfl
  | cons g gs ih => simp [runGroups, ih, runCases_fst]

/-- Facts about one executed case that do not depend on the state. -/
def Fresh (p : Problem) (x : Case × CaseResult) : Prop :=
  x.2.name = x.1.name ∧ x.2.score = 0 ∧ x.2.contestScore = 0 ∧
  x.2.maxScore = p.maxScore * (x.1.weight * factor p) ∧
  ∃ wall, x.2.verdict = (execCase p wall x.1).1.verdict

theorem runCases_fresh (p : Problem) (s : RunState) (cs : List Case) :
    ∀ x ∈ (runCases p s cs).2, Fresh p x := by
  induction cs generalizing s with
  | nil => simp [runCases]
  | cons c cs ih =>
    intro x hx
    simp only [runCases, List.mem_cons] at hx
    rcases hx with rfl | hx
    · exact ⟨rfl, rfl, rfl, rfl, s.wallTime, rfl⟩
    · exact ih _ x hx

theorem runGroups_fresh (p : Problem) (s : RunState) (gs : List Group) :
    ∀ y ∈ (runGroups p s gs).2, ∀ x ∈ y.2, Fresh p x := by
  induction gs generalizing s with
  | nil => simp [runGroups]
  | cons g gs ih =>
    intro y hy
    simp only [runGroups, List.mem_cons] at hy
    rcases hy with rfl | hy
    · exact runCases_fresh p s g.cases
    · exact ih _ y hy

theorem runCases_verdict (p : Problem) (s : RunState) (cs : List Case) :
    (runCases p s cs).1.verdict
      = ((runCases p s cs).2.map (fun x => x.2.verdict)).foldl worse s.verdict := by
  induction cs generalizing s with
  | nil => rfl
  | cons c cs ih => simp only [runCases, List.map_cons, List.foldl_cons]; rw [ih]; rfl

theorem runGroups_verdict (p : Problem) (s : RunState) (gs : List Group) :
    (runGroups p s gs).1.verdict
      = (((runGroups p s gs).2.flatMap Prod.snd).map (fun x => x.2.verdict)).foldl worse s.verdict := by
  induction gs generalizing s with
  | nil => rfl
  | cons g gs ih =>
    simp only [runGroups, List.flatMap_cons, List.map_append, List.foldl_append]
    rw [ih, runCases_verdict]

/-! ### Phase 2: validation -/

/-- The final result of a case. -/
def fin (env : Env) (p : Problem) (x : Case × CaseResult) : CaseResult :=
  (validateCase env p { verdict := .OK } x.1 x.2).2

/-- The case neither failed to execute nor scored zero. -/
def clean (env : Env) (p : Problem) (x : Case × CaseResult) : Bool :=
  decide (x.2.verdict = .OK) && decide ((fin env p x).verdict ≠ .WA)

/-- The case was compared and did not get full score. -/
def flawed (env : Env) (p : Problem) (x : Case × CaseResult) : Bool :=
  decide (x.2.verdict = .OK) &&
    (decide ((fin env p x).verdict = .WA) || decide ((fin env p x).verdict = .PA))

theorem validateCase_spec (env : Env) (p : Problem) (s : ValState) (x : Case × CaseResult)
    (hx : Fresh p x) :
    (validateCase env p s x.1 x.2).2 = fin env p x ∧
    (validateCase env p s x.1 x.2).1.score
      = s.score + (fin env p x).score * (x.1.weight * factor p) ∧
    (validateCase env p s x.1 x.2).1.correct = (s.correct && clean env p x) ∧
    (validateCase env p s x.1 x.2).1.verdict
      = (if flawed env p x then worse s.verdict .PA else s.verdict) := by
  obtain ⟨c, r⟩ := x
  obtain ⟨-, h1, -⟩ := hx
  simp only at h1
  unfold flawed clean fin validateCase
  simp only
  by_cases hv : r.verdict = .OK
  · simp only [hv, if_true, decide_true, Bool.true_and]
    rcases comparedFiles p c with ⟨_ | a, _ | b⟩ <;> simp only
    · simp [hv, h1]
    · simp [hv, h1]
    · simp [hv, h1]
    · by_cases hq : caseScore env p c b a = 1
      · simp [hq, h1]
      · by_cases hq' : caseScore env p c b a = 0 <;> simp [hq, hq', h1]
  · simp [hv, h1]

theorem validateCases_spec (env : Env) (p : Problem) (s : ValState) (xs : List (Case × CaseResult))
    (hx : ∀ x ∈ xs, Fresh p x) :
    (validateCases env p s xs).2 = xs.map (fin env p) ∧
    (validateCases env p s xs).1.score
      = s.score + (xs.map fun x => (fin env p x).score * (x.1.weight * factor p)).sum ∧
    (validateCases env p s xs).1.correct = (s.correct && xs.all (clean env p)) ∧
    (validateCases env p s xs).1.verdict
      = (if xs.any (flawed env p) then worse s.verdict .PA else s.verdict) := by
  induction xs generalizing s with
  | nil => simp [validateCases]
  | cons x xs ih =>
    obtain ⟨a1, a2, a3, a4⟩ := validateCase_spec env p s x (hx x (by simp))
    obtain ⟨b1, b2, b3, b4⟩ := ih (validateCase env p s x.1 x.2).1 (fun y hy => hx y (by simp [hy]))
    obtain ⟨c, r⟩ := x
    simp only [validateCases]
    refine ⟨by simp [a1, b1], ?_, ?_, ?_⟩
    · rw [b2, a2]; simp [add_assoc]
    · rw [b3, a3]; simp [Bool.and_assoc]
    · rw [b4, a4]
      have hw : ∀ v, worse (worse v .PA) .PA = worse v .PA := by
        intro v; cases v <;> decide
      simp only [List.any_cons]
      by_cases h1 : flawed env p (c, r) = true <;> by_cases h2 : xs.any (flawed env p) = true <;>
        simp only [h1, h2, hw, if_true, if_false, Bool.or_true, Bool.true_or, Bool.or_false, Bool.false_or, Bool.false_eq_true, Bool.or_self, Bool.not_eq_true] <;> simp_all

/-- The weighted sum of case scores. -/
def wsum (env : Env) (p : Problem) (xs : List (Case × CaseResult)) : ℚ :=
  (xs.map fun x => (fin env p x).score * (x.1.weight * factor p)).sum

/-- The result of a group. -/
def groupRes (env : Env) (p : Problem) (y : Group × List (Case × CaseResult)) : GroupResult :=
  { name := y.1.name
    score := if y.2.all (clean env p) then wsum env p y.2 else 0
    contestScore := if y.2.all (clean env p) then p.maxScore * wsum env p y.2 else 0
    maxScore := p.maxScore * (y.1.weight * factor p)
    cases := y.2.map (fin env p) }

theorem validateGroups_spec (env : Env) (p : Problem) (v : Verdict) (sc : ℚ) (ev : List Event)
    (ys : List (Group × List (Case × CaseResult))) (hy : ∀ y ∈ ys, ∀ x ∈ y.2, Fresh p x) :
    (validateGroups env p v sc ev ys).1
      = (if (ys.flatMap Prod.snd).any (flawed env p) then worse v .PA else v) ∧
    (validateGroups env p v sc ev ys).2.1 = sc + (ys.map fun y => (groupRes env p y).score).sum ∧
    (validateGroups env p v sc ev ys).2.2.2 = ys.map (groupRes env p) := by
  induction ys generalizing v sc ev with
  | nil => simp [validateGroups]
  | cons y ys ih =>
    obtain ⟨g, cs⟩ := y
    obtain ⟨a1, a2, a3, a4⟩ :=
      validateCases_spec env p { verdict := v, events := ev } cs (hy (g, cs) (by simp))
    simp only [Bool.true_and, zero_add] at a2 a3 a4
    obtain ⟨b1, b2, b3⟩ := ih (validateCases env p { verdict := v, events := ev } cs).1.verdict
      (sc + if (validateCases env p { verdict := v, events := ev } cs).1.correct then
        (validateCases env p { verdict := v, events := ev } cs).1.score else 0)
      (validateCases env p { verdict := v, events := ev } cs).1.events
      (fun y hy' => hy y (by simp [hy']))
    have hgr : (if (validateCases env p { verdict := v, events := ev } cs).1.correct then
        (validateCases env p { verdict := v, events := ev } cs).1.score else 0)
        = (groupRes env p (g, cs)).score := by
      rw [a2, a3]; rfl
    simp only [validateGroups]
    refine ⟨?_, ?_, ?_⟩
    · rw [b1, a4]
      have hw : ∀ v, worse (worse v .PA) .PA = worse v .PA := by
        intro v; cases v <;> decide
      simp only [List.flatMap_cons, List.any_append]
      by_cases h1 : cs.any (flawed env p) = true <;>
        by_cases h2 : (ys.flatMap Prod.snd).any (flawed env p) = true <;> simp [h1, h2, hw]
    · rw [b2, hgr]; simp [add_assoc]
    · rw [b3]
      simp only [List.map_cons, List.cons.injEq, and_true]
      rw [a1, a2, a3]
      rfl

/-! ### Facts about final case results -/

theorem caseScore_range (env : Env) (p : Problem) (c : Case) (e k : List UInt8) :
    0 ≤ caseScore env p c e k ∧ caseScore env p c e k ≤ 1 := by
  obtain ⟨r, h, h0, h1, -⟩ := Validator.C03_score_range env p.validator e k c.readsE c.readsC
    Quark.Tokenizer.maxTokenLength (by decide)
  unfold caseScore
  rw [h]
  exact ⟨h0, h1⟩

/-- Everything we need to know about the final result of a case. -/
theorem fin_spec (env : Env) (p : Problem) (x : Case × CaseResult) (hx : Fresh p x) :
    (fin env p x).name = x.1.name ∧ (fin env p x).maxScore = x.2.maxScore ∧
    (fin env p x).wallTime = x.2.wallTime ∧
    0 ≤ (fin env p x).score ∧ (fin env p x).score ≤ 1 ∧
    (fin env p x).contestScore = (fin env p x).maxScore * (fin env p x).score ∧
    (x.2.verdict ≠ .OK → (fin env p x).verdict = x.2.verdict ∧ (fin env p x).score = 0) ∧
    (x.2.verdict = .OK →
      ((fin env p x).verdict = .AC ∧ (fin env p x).score = 1) ∨
      ((fin env p x).verdict = .PA ∧ (fin env p x).score ≠ 0 ∧ (fin env p x).score ≠ 1) ∨
      ((fin env p x).verdict = .WA ∧ (fin env p x).score = 0) ∨
      ((fin env p x).verdict = .OK ∧ (fin env p x).score = 0 ∧
        ((comparedFiles p x.1).1 = none ∨ (comparedFiles p x.1).2 = none))) := by
  obtain ⟨c, r⟩ := x
  obtain ⟨h0, h1, h2, h3, -⟩ := hx
  simp only at h0 h1 h2 h3
  unfold fin validateCase
  simp only
  by_cases hv : r.verdict = .OK
  · simp only [hv, if_true]
    rcases hcf : comparedFiles p c with ⟨_ | a, _ | b⟩ <;> simp only
    · simp [hv, h0, h1, h2, h3]
    · simp [hv, h0, h1, h2, h3]
    · simp [hv, h0, h1, h2, h3]
    · obtain ⟨g0, g1⟩ := caseScore_range env p c b a
      by_cases hq : caseScore env p c b a = 1
      · simp [hq, h0, h1, h2, h3]
      · by_cases hq' : caseScore env p c b a = 0 <;> simp [hq, hq', h0, h1, h2, h3, g0, g1]
  · simp [hv, h0, h1, h2, h3]

/-! ### The result of `grade` -/

/-- What `grade` returns when nothing fails before the execution. -/
theorem grade_ok (env : Env) (p : Problem) (hs : p.setup = .ok) (hc : (compileAll p.compiles).2 = true) :
    ∃ ys : List (Group × List (Case × CaseResult)),
      ys = (runGroups p { events := (compileAll p.compiles).1 } p.groups).2 ∧
      (∀ y ∈ ys, ∀ x ∈ y.2, Fresh p x) ∧
      ys.map (fun x => (x.1, x.2.map Prod.fst)) = p.groups.map (fun g => (g, g.cases)) ∧
      (grade env p).groups = ys.map (groupRes env p) ∧
      (grade env p).maxScore = p.maxScore ∧
      (grade env p).contestScore = p.maxScore * (grade env p).score ∧
      ∃ v, v = (if (ys.flatMap Prod.snd).any (flawed env p) then
            worse (((ys.flatMap Prod.snd).map (fun x => x.2.verdict)).foldl worse .OK) .PA
            else ((ys.flatMap Prod.snd).map (fun x => x.2.verdict)).foldl worse .OK) ∧
        ∃ sc, sc = (ys.map fun y => (groupRes env p y).score).sum ∧
        ((grade env p).verdict, (grade env p).score)
          = (if v = .PA ∧ sc = 0 then (.WA, sc) else if v = .OK then (.AC, 1) else (v, sc)) := by
  refine ⟨_, rfl, runGroups_fresh p _ _, runGroups_fst p _ _, ?_⟩
  obtain ⟨a1, a2, a3⟩ := validateGroups_spec env p
    (runGroups p { events := (compileAll p.compiles).1 } p.groups).1.verdict 0
    (runGroups p { events := (compileAll p.compiles).1 } p.groups).1.events
    (runGroups p { events := (compileAll p.compiles).1 } p.groups).2 (runGroups_fresh p _ _)
  rw [zero_add] at a2
  have hg : grade env p = grade env p := rfl
  unfold grade
  rw [hs]
  simp only [hc, Bool.not_true, Bool.false_eq_true, if_false]
  refine ⟨a3, trivial, trivial, _, rfl, _, rfl, ?_⟩
  rw [a1, a2, runGroups_verdict]

end Quark.Grade
