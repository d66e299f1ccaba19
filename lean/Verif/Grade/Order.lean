import Verif.Grade.Resources

/-!
# C147: the order of what a run does
-/
namespace Quark.Grade
open Quark.MetaFile (Verdict worse worse_rank rank_inj)
open Quark.Validator (Env Settings sampleEnv)

/-! ## Specification -/

/-- The verdicts that say how an output compared. -/
def Compared (v : Verdict) : Bool := v = .AC || v = .PA || v = .WA

/-! ## Proofs -/

theorem validateCase_appends (env : Env) (p : Problem) (s : ValState) (x : Case × CaseResult) (hx : Fresh p x)
    (hs : SandboxVerdict x.2.verdict) :
    (validateCase env p s x.1 x.2).1.events = s.events ++
      (([fin env p x].filter fun r => Compared r.verdict).map fun r => Event.validate r.name) := by
  obtain ⟨c, r⟩ := x
  obtain ⟨h0, -⟩ := hx
  simp only at h0 hs
  unfold fin validateCase
  simp only
  by_cases hv : r.verdict = .OK
  · simp only [hv, if_true]
    rcases comparedFiles p c with ⟨_ | a, _ | b⟩ <;> simp only
    · simp [hv, Compared]
    · simp [hv, Compared]
    · simp [hv, Compared]
    · by_cases hq : caseScore env p c b a = 1
      · simp [hq, Compared, h0]
      · by_cases hq' : caseScore env p c b a = 0 <;> simp [hq, hq', Compared, h0]
  · rw [if_neg hv, if_neg hv]
    have : Compared r.verdict = false := by
      simp only [SandboxVerdict, List.mem_cons, List.not_mem_nil, or_false] at hs
      rcases hs with h | h | h | h | h | h | h <;> rw [h] <;> rfl
    simp [this]

theorem validateCases_appends (env : Env) (p : Problem) (s : ValState) (xs : List (Case × CaseResult))
    (hx : ∀ x ∈ xs, Fresh p x) (hs : ∀ x ∈ xs, SandboxVerdict x.2.verdict) :
    (validateCases env p s xs).1.events = s.events ++
      (((xs.map (fin env p)).filter fun r => Compared r.verdict).map fun r => Event.validate r.name) := by
  induction xs generalizing s with
  | nil => simp [validateCases]
  | cons x xs ih =>
    obtain ⟨c, r⟩ := x
    simp only [validateCases]
    rw [ih _ (fun y hy => hx y (List.mem_cons_of_mem _ hy)) (fun y hy => hs y (List.mem_cons_of_mem _ hy)),
      validateCase_appends env p s (c, r) (hx _ List.mem_cons_self) (hs _ List.mem_cons_self),
      List.append_assoc, ← List.map_append, ← List.filter_append]
    rfl

theorem validateGroups_appends (env : Env) (p : Problem) (v : Verdict) (sc : ℚ) (ev : List Event)
    (ys : List (Group × List (Case × CaseResult)))
    (hx : ∀ y ∈ ys, ∀ x ∈ y.2, Fresh p x) (hs : ∀ y ∈ ys, ∀ x ∈ y.2, SandboxVerdict x.2.verdict) :
    (validateGroups env p v sc ev ys).2.2.1 = ev ++
      ((((ys.flatMap Prod.snd).map (fin env p)).filter fun r => Compared r.verdict).map fun r => Event.validate r.name) := by
  induction ys generalizing v sc ev with
  | nil => simp [validateGroups]
  | cons y ys ih =>
    obtain ⟨g, cs⟩ := y
    simp only [validateGroups]
    rw [ih _ _ _ (fun y hy => hx y (List.mem_cons_of_mem _ hy)) (fun y hy => hs y (List.mem_cons_of_mem _ hy)),
      validateCases_appends env p _ cs (hx _ List.mem_cons_self) (hs _ List.mem_cons_self),
      List.append_assoc, ← List.map_append, ← List.filter_append, ← List.map_append]
    rfl

theorem runCases_appends (p : Problem) (s : RunState) (cs : List Case) :
    ∃ E, (runCases p s cs).1.events = s.events ++ E ∧ ∀ e ∈ E, ∃ c r, e = Event.exec c r := by
  induction cs generalizing s with
  | nil => exact ⟨[], by simp [runCases], by simp⟩
  | cons c cs ih =>
    obtain ⟨E, h1, h2⟩ := ih (runCase p s c).1
    refine ⟨(execCase p s.wallTime c).2 ++ E, ?_, ?_⟩
    · simp only [runCases]
      rw [h1, ← List.append_assoc]
      rfl
    · intro e he
      rcases List.mem_append.mp he with he | he
      · unfold execCase at he
        split at he
        · simp at he
        · split at he
          · cases hk : c.catFile <;> rw [hk] at he <;> simp at he
          · simp only [List.mem_map] at he
            obtain ⟨r, -, rfl⟩ := he
            exact ⟨_, _, rfl⟩
      · exact h2 e he

theorem compileAll_names (bs : List Compile) (h : ∀ b ∈ bs, b.err = false ∧ b.verdict = .OK) :
    (compileAll bs).1 = bs.map fun b => Event.compile b.name := by
  induction bs with
  | nil => rfl
  | cons b bs ih =>
    have hb := h b List.mem_cons_self
    rw [compileAll, if_neg (by simp [hb])]
    simp only [List.map_cons]
    rw [ih fun b hb => h b (List.mem_cons_of_mem _ hb)]

/-- **C147** A run whose programs compile first compiles all of them, each once and in order; then it executes
processes and nothing else; and then it compares outputs: exactly those of the cases that are reported as AC, PA or WA,
each once, in the order of the report. -/
theorem C147_order (env : Env) (p : Problem) (hc : Compiles p) (hfs : FromSandbox p) :
    ∃ E, (grade env p).events = (p.compiles.map fun b => Event.compile b.name) ++ E ++
        (((grade env p).cases.filter fun r => r.verdict = .AC || r.verdict = .PA || r.verdict = .WA).map
          fun r => Event.validate r.name) ∧
      ∀ e ∈ E, ∃ c r, e = Event.exec c r := by
  have hcc := compileAll_ok _ hc.2
  obtain ⟨ys, hys, hf, hm, hg, -⟩ := grade_ok env p hc.1 hcc
  obtain ⟨f1, f2⟩ := runGroups_flat p { events := (compileAll p.compiles).1 } p.groups
  obtain ⟨E, h1, h2⟩ := runCases_appends p { events := (compileAll p.compiles).1 } (p.groups.flatMap Group.cases)
  refine ⟨E, ?_, h2⟩
  have hcases : (grade env p).cases = (ys.flatMap Prod.snd).map (fin env p) := by
    unfold RunResult.cases
    rw [hg, List.flatMap_map, List.map_flatMap]
    rfl
  have hev : (grade env p).events = (validateGroups env p
      (runGroups p { events := (compileAll p.compiles).1 } p.groups).1.verdict 0
      (runGroups p { events := (compileAll p.compiles).1 } p.groups).1.events
      (runGroups p { events := (compileAll p.compiles).1 } p.groups).2).2.2.1 := by
    unfold grade
    rw [hc.1]
    simp only [hcc, Bool.not_true, Bool.false_eq_true, if_false]
  rw [hev, ← hys, validateGroups_appends env p _ _ _ ys hf (fresh_sandbox hfs hm hf), hcases, f1, h1,
    compileAll_names _ hc.2]
  rfl

/-- A run that compares all three outputs. -/
example : (grade sampleEnv sample).events =
    [.compile "Main", .exec "a.1" "Main", .exec "a.2" "Main", .exec "b" "Main",
      .validate "a.1", .validate "a.2", .validate "b"] := by decide +kernel

end Quark.Grade
