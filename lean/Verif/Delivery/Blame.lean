import Verif.Delivery.Props
import Verif.Grade.Resources

/-!
# Who is to blame: judge errors and compile errors as they are delivered

`Grade` (/repo/runner/runner.go:443-1257) returns a result and an error; `gradeAndUploadResults`
(/repo/cmd/omegaup-runner/main.go:540-545) replaces the result by a blank judge error whenever there is an error. The
result is modelled in `Grade`, its delivery in `Delivery`; here is the error, and the two put together.
-/
namespace Quark.Delivery
open Quark.MetaFile (Verdict)
open Quark.Validator (Env)
open Quark.Grade (Problem RunResult Compile)

/-- What can go wrong on the side of the judge, besides the answers of the sandbox that are part of `Grade.Problem`:
whether the input could be had (/repo/cmd/omegaup-runner/main.go:624-630), whether the sandbox is supported
(/repo/runner/runner.go:450-453), whether the output files could be packed and sent (/repo/runner/runner.go:1244-1254), and what
was sent of them. -/
structure Judge where
  input : Bool
  supported : Bool
  packed : Bool
  zip : String := ""

/-- `NewRunResult("JE", run.MaxScore)` (/repo/runner/runner.go:155-164). -/
def blank (p : Problem) : RunResult :=
  { verdict := .JE, score := 0, contestScore := 0, maxScore := p.maxScore }

/-- Whether the compilation loop (/repo/runner/runner.go:738-793) ends with `return runResult, err`, and with which error:
`some true` is an error, `some false` is nil. -/
def compileReturns : List Compile → Option Bool
  | [] => none
  | b :: bs => if b.err ∨ b.verdict ≠ .OK then some b.err else compileReturns bs

/-- `Grade` (/repo/runner/runner.go:443-1257): its result and whether its error is not nil. The files are packed only after
everything has been graded. -/
def gradeCall (env : Env) (j : Judge) (p : Problem) : RunResult × Bool :=
  if !j.supported then (blank p, true)
  else match p.setup with
    | .ioError => (Grade.grade env p, true)
    | .unsupportedLanguage => (Grade.grade env p, false)
    | .ok => match compileReturns p.compiles with
      | some e => (Grade.grade env p, e)
      | none => (Grade.grade env p, !j.packed)

/-- What `gradeRun` (/repo/cmd/omegaup-runner/main.go:593-641) hands to `gradeAndUploadResults`: of a result that comes with an error
nothing is used (:540-545). -/
def gradingOf (env : Env) (j : Judge) (p : Problem) : Grading RunResult where
  input := j.input
  zip := j.zip
  result := if (gradeCall env j p).2 then none else some (gradeCall env j p).1

/-! ## Specification -/

/-- The result `r` is sent to the grader as `details.json`. -/
def Delivered (env : Env) (j : Judge) (p : Problem) (r : RunResult) : Prop :=
  ∃ fixup encodes logs trace,
    Sent.details (some r) ∈ (body false fixup (blank p) encodes (gradingOf env j p) logs trace).1

/-- `b` is the first program that does not compile. -/
def FirstToFail (p : Problem) (b : Compile) : Prop :=
  ∃ pre post, p.compiles = pre ++ b :: post ∧ (∀ x ∈ pre, x.err = false ∧ x.verdict = .OK) ∧
    (b.err = true ∨ b.verdict ≠ .OK)

/-- The judge could not do its work. -/
inductive Failed (j : Judge) (p : Problem) : Prop
  | noInput : j.input = false → Failed j p
  | noSandbox : j.supported = false → Failed j p
  | preparing : p.setup = .ioError → Failed j p
  /-- the sandbox could not be started for the first program that does not compile, or its answer not be read -/
  | compiler {b : Compile} : p.setup = .ok → FirstToFail p b → b.err = true → Failed j p
  /-- everything was graded, and then the output files could not be packed or sent -/
  | packing : Grade.Compiles p → j.packed = false → Failed j p

/-! ## Lemmas -/

theorem compileReturns_some {bs : List Compile} {e : Bool} (h : compileReturns bs = some e) :
    ∃ pre b post, bs = pre ++ b :: post ∧ (∀ x ∈ pre, x.err = false ∧ x.verdict = .OK) ∧
      (b.err = true ∨ b.verdict ≠ .OK) ∧ b.err = e := by
  induction bs with
  | nil => cases h
  | cons b bs ih =>
    rw [compileReturns] at h
    by_cases hb : b.err = true ∨ b.verdict ≠ .OK
    · rw [if_pos hb] at h
      exact ⟨[], b, bs, rfl, by simp, hb, by simpa using h⟩
    · rw [if_neg hb] at h
      obtain ⟨pre, x, post, e1, e2, e3⟩ := ih h
      refine ⟨b :: pre, x, post, by rw [e1]; rfl, ?_, e3⟩
      intro y hy
      rcases List.mem_cons.mp hy with rfl | hy
      · rw [not_or, Bool.not_eq_true, not_not] at hb; exact hb
      · exact e2 y hy

theorem compileReturns_none {bs : List Compile} (h : compileReturns bs = none) :
    ∀ b ∈ bs, b.err = false ∧ b.verdict = .OK := by
  induction bs with
  | nil => simp
  | cons b bs ih =>
    rw [compileReturns] at h
    by_cases hb : b.err = true ∨ b.verdict ≠ .OK
    · rw [if_pos hb] at h; cases h
    · rw [if_neg hb] at h
      intro y hy
      rcases List.mem_cons.mp hy with rfl | hy
      · rw [not_or, Bool.not_eq_true, not_not] at hb; exact hb
      · exact ih h y hy

theorem compileReturns_first {pre post : List Compile} {b : Compile}
    (hp : ∀ x ∈ pre, x.err = false ∧ x.verdict = .OK) (hb : b.err = true ∨ b.verdict ≠ .OK) :
    compileReturns (pre ++ b :: post) = some b.err := by
  induction pre with
  | nil => rw [List.nil_append, compileReturns, if_pos hb]
  | cons x pre ih =>
    have hx := hp x (by simp)
    rw [List.cons_append, compileReturns, if_neg (by rw [hx.1, hx.2]; simp)]
    exact ih fun y hy => hp y (by simp [hy])

theorem compileReturns_all {bs : List Compile} (h : ∀ b ∈ bs, b.err = false ∧ b.verdict = .OK) :
    compileReturns bs = none := by
  induction bs with
  | nil => rfl
  | cons b bs ih =>
    have hb := h b (by simp)
    rw [compileReturns, if_neg (by rw [hb.1, hb.2]; simp)]
    exact ih fun y hy => h y (by simp [hy])

theorem failed_iff (env : Env) (j : Judge) (p : Problem) :
    Failed j p ↔ (j.input = false ∨ (gradeCall env j p).2 = true) := by
  constructor
  · intro h
    cases h with
    | noInput h => exact .inl h
    | noSandbox h => right; simp [gradeCall, h]
    | preparing h => right; unfold gradeCall; rw [h]; cases j.supported <;> rfl
    | compiler hs hf he =>
      obtain ⟨pre, post, e, hp, hb⟩ := hf
      right; unfold gradeCall; rw [hs, e, compileReturns_first hp hb, he]
      cases j.supported <;> rfl
    | packing hc hk =>
      right; unfold gradeCall; rw [hc.1, compileReturns_all hc.2, hk]
      cases j.supported <;> rfl
  · rintro (h | h)
    · exact .noInput h
    · unfold gradeCall at h
      cases hs : j.supported with
      | false => exact .noSandbox hs
      | true =>
        rw [hs] at h
        cases hp : p.setup with
        | ioError => exact .preparing hp
        | unsupportedLanguage => rw [hp] at h; cases h
        | ok =>
          rw [hp] at h
          cases hr : compileReturns p.compiles with
          | none =>
            rw [hr] at h
            exact .packing ⟨hp, compileReturns_none hr⟩ (by simpa using h)
          | some e =>
            rw [hr] at h
            obtain ⟨pre, b, post, e1, e2, e3, e4⟩ := compileReturns_some hr
            exact .compiler hp ⟨pre, post, e1, e2, e3⟩ (by rw [e4]; simpa using h)

theorem call_result (env : Env) (j : Judge) (p : Problem) (h : ¬ Failed j p) :
    (gradeCall env j p).1 = Grade.grade env p := by
  unfold gradeCall
  cases hs : j.supported with
  | false => exact absurd (.noSandbox hs) h
  | true =>
    cases p.setup with
    | ioError => rfl
    | unsupportedLanguage => rfl
    | ok => cases compileReturns p.compiles <;> rfl

/-- The result that was sent is the only one. -/
theorem details_unique {R : Type} {fixup : R → R} {judgeError : R} {encodes : R → Bool} {g : Grading R}
    {logs : Option String} {trace : Option (List String)} {r : R}
    (h : Sent.details (some r) ∈ (body false fixup judgeError encodes g logs trace).1) :
    r = (if g.input then g.result.getD judgeError else judgeError) := by
  unfold body gradeRun at h
  cases hi : g.input with
  | false =>
    rw [hi] at h
    cases he : encodes judgeError <;> cases logs <;> cases trace <;> simp_all
  | true =>
    rw [hi] at h
    cases he : encodes (g.result.getD judgeError) <;> cases logs <;> cases trace <;> simp_all

theorem verdict_JE (env : Env) (p : Problem) (hfs : Grade.FromSandbox p) (hs : p.setup ≠ .ioError) :
    (Grade.grade env p).verdict = .JE ↔ ∃ c ∈ (Grade.grade env p).cases, c.verdict = .JE := by
  have nothing : (∃ v, Grade.grade env p = v ∧ v.verdict = .CE ∧ v.groups = []) →
      ((Grade.grade env p).verdict = .JE ↔ ∃ c ∈ (Grade.grade env p).cases, c.verdict = .JE) := by
    rintro ⟨v, e, hv, hg⟩
    rw [e, hv]
    constructor
    · intro h; cases h
    · rintro ⟨c, hc, -⟩
      rw [Grade.RunResult.cases, hg] at hc
      cases hc
  cases hp : p.setup with
  | ioError => exact absurd hp hs
  | unsupportedLanguage => exact nothing ⟨_, rfl, by unfold Grade.grade; rw [hp], by unfold Grade.grade; rw [hp]⟩
  | ok =>
    cases hr : compileReturns p.compiles with
    | some e =>
      obtain ⟨pre, b, post, e1, e2, e3, -⟩ := compileReturns_some hr
      have := Grade.C19_compile_failure env p hp pre post b e1 e2 e3
      exact nothing ⟨_, rfl, this.1, this.2.2.2.1⟩
    | none =>
      have hc : Grade.Compiles p := ⟨hp, compileReturns_none hr⟩
      have h := Grade.C11_run_verdict env p hc hfs
      simp only at h
      constructor
      · intro hv
        by_cases hx : ∃ v ∈ (Grade.grade env p).cases.map Grade.CaseResult.verdict, v ∉ [Verdict.WA, .PA, .AC, .OK]
        · have := (h.1 hx).1
          rw [hv] at this
          obtain ⟨c, hc, e⟩ := List.mem_map.mp this
          exact ⟨c, hc, e⟩
        · have hx' : ∀ v ∈ (Grade.grade env p).cases.map Grade.CaseResult.verdict, v ∈ [Verdict.WA, .PA, .AC, .OK] :=
            fun v hv => by_contra fun hn => hx ⟨v, hv, hn⟩
          by_cases hy : ∃ v ∈ (Grade.grade env p).cases.map Grade.CaseResult.verdict, v = .WA ∨ v = .PA
          · have := (h.2 hx').1 hy
            rw [hv] at this
            by_cases h0 : (Grade.grade env p).score = 0
            · rw [if_pos h0] at this; cases this
            · rw [if_neg h0] at this; cases this
          · have hz : ∀ v ∈ (Grade.grade env p).cases.map Grade.CaseResult.verdict, v = .AC ∨ v = .OK := by
              intro v hm
              have h1 := hx' v hm
              have h2 := fun hn => hy ⟨v, hm, hn⟩
              revert h1 h2
              cases v <;> simp
            have := ((h.2 hx').2 hz).1
            rw [hv] at this; cases this
      · rintro ⟨c, hc, hv⟩
        have hm : c.verdict ∈ (Grade.grade env p).cases.map Grade.CaseResult.verdict := List.mem_map.mpr ⟨c, hc, rfl⟩
        have := (h.1 ⟨c.verdict, hm, by rw [hv]; decide⟩).2 _ hm
        rw [hv] at this
        revert this
        cases (Grade.grade env p).verdict <;> decide

/-! ## C171 -/

/-- **C171** (what is delivered). If the judge failed, a judge error without points or cases; otherwise the result of
grading, as it is. -/
theorem C171_result {env : Env} {j : Judge} {p : Problem} {r : RunResult} (h : Delivered env j p r) :
    (Failed j p → r.verdict = .JE ∧ r.score = 0 ∧ r.contestScore = 0 ∧ r.maxScore = p.maxScore ∧ r.groups = []) ∧
    (¬ Failed j p → r = Grade.grade env p) := by
  obtain ⟨fixup, encodes, logs, trace, h⟩ := h
  have hr := details_unique h
  constructor
  · intro hf
    have : r = blank p := by
      rw [hr]
      rcases (failed_iff env j p).mp hf with hi | he
      · rw [if_neg (by simp [gradingOf, hi])]
      · simp only [gradingOf, he, if_true, Option.getD_none, ite_self]
    rw [this]
    exact ⟨rfl, rfl, rfl, rfl, rfl⟩
  · intro hn
    have hn' := (not_congr (failed_iff env j p)).mp hn
    rw [not_or, Bool.not_eq_false, Bool.not_eq_true] at hn'
    rw [hr, if_pos (by simp [gradingOf, hn'.1])]
    simp only [gradingOf, hn'.2, Bool.false_eq_true, if_false, Option.getD_some]
    exact call_result env j p hn

/-- **C171** (judge errors). A submission is reported as a judge error exactly if the judge failed or one of its cases
ended as a judge error. -/
theorem C171_judge_error {env : Env} {j : Judge} {p : Problem} {r : RunResult} (h : Delivered env j p r)
    (hfs : Grade.FromSandbox p) :
    r.verdict = .JE ↔ Failed j p ∨ ∃ c ∈ r.cases, c.verdict = .JE := by
  by_cases hf : Failed j p
  · exact ⟨fun _ => .inl hf, fun _ => ((C171_result h).1 hf).1⟩
  · rw [(C171_result h).2 hf, verdict_JE env p hfs (fun e => hf (.preparing e))]
    exact ⟨.inr, fun o => o.resolve_left hf⟩

/-- **C171** (cases). A case ends as a judge error only if the sandbox answered JE for one of the processes of the
submission, or the problem setter's process, and none of the submission's, failed. -/
theorem C171_case {env : Env} {p : Problem} (hc : Grade.Compiles p) {r : Grade.CaseResult}
    (hr : r ∈ (Grade.grade env p).cases) (hv : r.verdict = .JE) :
    ∃ g ∈ p.groups, ∃ c ∈ g.cases, c.name = r.name ∧ p.cat = false ∧
      ((∃ q ∈ c.procs, q.kind = .contestant ∧ q.result.verdict = .JE) ∨
       ((∀ q ∈ c.procs, q.kind = .contestant → q.result.verdict = .OK) ∧
        ∃ q ∈ c.procs, q.kind = .problemsetter ∧ q.result.verdict ∉ [Verdict.OK, .OLE, .TLE] ∧
          q.result.exitStatus ∉ [239, 240, 241, 242] ∧ q.result.signal ≠ some "SIGPIPE")) := by
  obtain ⟨xs, hxs, h1, -⟩ := Grade.grade_cases env p hc
  rw [h1] at hr
  obtain ⟨x, hx, rfl⟩ := List.mem_map.mp hr
  rw [hxs] at hx
  have hf := Grade.runCases_fresh p _ _ x hx
  have hs := Grade.fin_spec env p x hf
  have hjx : x.2.verdict = .JE := by
    by_cases hok : x.2.verdict = .OK
    · rcases hs.2.2.2.2.2.2.2 hok with h | h | h | h <;> (rw [h.1] at hv; cases hv)
    · rw [← (hs.2.2.2.2.2.2.1 hok).1]; exact hv
  obtain ⟨wall, -, -, hd, -⟩ := Grade.runCases_details p _ _ x hx
  have hmem : x.1 ∈ p.groups.flatMap Grade.Group.cases := by
    have := Grade.runCases_fst p { events := (Grade.compileAll p.compiles).1 } (p.groups.flatMap Grade.Group.cases)
    rw [← this]
    exact List.mem_map.mpr ⟨x, hx, rfl⟩
  obtain ⟨g, hg, hcg⟩ := List.mem_flatMap.mp hmem
  refine ⟨g, hg, x.1, hcg, hs.1.symm, ?_⟩
  rw [hjx] at hd
  unfold Grade.execCase at hd
  by_cases hw : p.wallLimit < wall
  · rw [if_pos hw] at hd; cases hd
  rw [if_neg hw] at hd
  cases hcat : p.cat with
  | true =>
    rw [hcat, if_pos rfl] at hd
    cases hcf : x.1.catFile with
    | none => rw [hcf] at hd; cases hd
    | some ole => rw [hcf] at hd; cases ole <;> cases hd
  | false =>
    rw [hcat, if_neg (by decide)] at hd
    refine ⟨rfl, ?_⟩
    replace hd : (Grade.collect x.1.procs).verdict = .JE := hd.symm
    by_cases ha : ∃ q ∈ Grade.contestants x.1.procs, q.result.verdict ≠ .OK
    · obtain ⟨q, hq, he⟩ := ((Grade.C17_verdict_rule x.1.procs).1 ha).1
      have hq' := List.mem_filter.mp hq
      exact .inl ⟨q, hq'.1, by simpa using hq'.2, by rw [he, hd]⟩
    · right
      have hall : ∀ q ∈ Grade.contestants x.1.procs, q.result.verdict = .OK :=
        fun q hq => by_contra fun hn => ha ⟨q, hq, hn⟩
      refine ⟨fun q hq hk => hall q (List.mem_filter.mpr ⟨hq, by simpa using hk⟩), ?_⟩
      have ceq := (Grade.collect_eq x.1.procs).1
      have hV : ((Grade.contestants x.1.procs).map fun r => r.result.verdict).foldl MetaFile.worse .OK = .OK := by
        rcases (Grade.foldl_worse ((Grade.contestants x.1.procs).map fun r => r.result.verdict) .OK).1 with w | w
        · obtain ⟨y, hy, he⟩ := List.mem_map.mp w
          rw [← he, hall y hy]
        · exact w
      simp only [hV] at ceq
      rw [hd] at ceq
      cases hl : (Grade.parents x.1.procs).getLast? with
      | none => rw [hl] at ceq; cases ceq
      | some m =>
        rw [hl] at ceq
        have hm := List.mem_filter.mp (List.mem_of_getLast? hl)
        refine ⟨m, hm.1, by simpa using hm.2, ?_⟩
        by_cases hmo : m.result.verdict = .OK
        · simp [hmo] at ceq
        · simp only [ne_eq, hmo, not_false_eq_true, and_self, if_true] at ceq
          unfold Grade.parentVerdict at ceq
          split_ifs at ceq
          simp_all

/-- **C171** (the innocent). If the judge did not fail, no process of the submission got JE from the sandbox and every
process of the problem setter ended well, the submission is not reported as a judge error. -/
theorem C171_innocent {env : Env} {j : Judge} {p : Problem} {r : RunResult} (h : Delivered env j p r)
    (hfs : Grade.FromSandbox p) (hf : ¬ Failed j p)
    (hq : ∀ g ∈ p.groups, ∀ c ∈ g.cases, ∀ q ∈ c.procs, q.result.verdict ≠ .JE ∧
      (q.kind = .problemsetter → q.result.verdict = .OK)) : r.verdict ≠ .JE := by
  intro hv
  rcases (C171_judge_error h hfs).mp hv with hf' | ⟨c, hc, he⟩
  · exact hf hf'
  have e := (C171_result h).2 hf
  have hcomp : Grade.Compiles p := by
    by_contra hn
    have hg : (Grade.grade env p).groups = [] := by
      cases hp : p.setup with
      | ioError => unfold Grade.grade; rw [hp]
      | unsupportedLanguage => unfold Grade.grade; rw [hp]
      | ok =>
        cases hr : compileReturns p.compiles with
        | none => exact absurd ⟨hp, compileReturns_none hr⟩ hn
        | some e =>
          obtain ⟨pre, b, post, e1, e2, e3, -⟩ := compileReturns_some hr
          exact (Grade.C19_compile_failure env p hp pre post b e1 e2 e3).2.2.2.1
    rw [e, Grade.RunResult.cases, hg] at hc
    cases hc
  rw [e] at hc
  obtain ⟨g, hg, d, hd, -, -, h1 | h2⟩ := C171_case hcomp hc he
  · obtain ⟨q, hm, -, hb⟩ := h1
    exact (hq g hg d hd q hm).1 hb
  · obtain ⟨-, q, hm, hk, hb, -⟩ := h2
    exact hb (by rw [(hq g hg d hd q hm).2 hk]; simp)

/-- **C171** (compile errors). A submission is reported as a compile error exactly if the judge did not fail and its
files were refused, or the first program that does not compile was compiled and got a verdict other than OK. -/
theorem C171_compile_error {env : Env} {j : Judge} {p : Problem} {r : RunResult} (h : Delivered env j p r)
    (hfs : Grade.FromSandbox p) :
    r.verdict = .CE ↔ j.input = true ∧ j.supported = true ∧
      (p.setup = .unsupportedLanguage ∨ (p.setup = .ok ∧ ∃ b, FirstToFail p b ∧ b.err = false)) := by
  by_cases hf : Failed j p
  · rw [((C171_result h).1 hf).1]
    constructor
    · intro hh; cases hh
    · rintro ⟨hi, hs, h'⟩
      exfalso
      rcases (failed_iff env j p).mp hf with e | e
      · rw [hi] at e; cases e
      · unfold gradeCall at e
        rcases h' with h' | ⟨h', b, ⟨pre, post, e1, e2, e3⟩, e4⟩
        · rw [hs, h'] at e; cases e
        · rw [hs, h', e1, compileReturns_first e2 e3, e4] at e; cases e
  · rw [(C171_result h).2 hf]
    constructor
    · intro hv
      refine ⟨by_contra fun hn => hf (.noInput (by simpa using hn)),
        by_contra fun hn => hf (.noSandbox (by simpa using hn)), ?_⟩
      cases hp : p.setup with
      | ioError => exact absurd (.preparing hp) hf
      | unsupportedLanguage => exact .inl rfl
      | ok =>
        right
        refine ⟨rfl, ?_⟩
        cases hr : compileReturns p.compiles with
        | none => exact absurd hv (Grade.C19_no_ce_otherwise env p ⟨hp, compileReturns_none hr⟩ hfs)
        | some e =>
          obtain ⟨pre, b, post, e1, e2, e3, e4⟩ := compileReturns_some hr
          refine ⟨b, ⟨pre, post, e1, e2, e3⟩, ?_⟩
          by_contra hb
          exact hf (.compiler hp ⟨pre, post, e1, e2, e3⟩ (by simpa using hb))
    · rintro ⟨-, -, h' | ⟨h', b, ⟨pre, post, e1, e2, e3⟩, -⟩⟩
      · unfold Grade.grade; rw [h']
      · exact (Grade.C19_compile_failure env p h' pre post b e1 e2 e3).1

/-- **C171** fails as far as it says that a verdict that was found is delivered: a submission that solved everything is
reported as a judge error with no points if its output files cannot be packed afterwards. -/
theorem C171_accepted_lost_partial : ∃ (j : Judge) (p : Problem) (r : RunResult),
    Delivered Validator.sampleEnv j p r ∧ j.input = true ∧ j.supported = true ∧ Grade.Compiles p ∧
    (Grade.grade Validator.sampleEnv p).verdict = .AC ∧ (Grade.grade Validator.sampleEnv p).score = 1 ∧
    r.verdict = .JE ∧ r.score = 0 ∧ r.cases = [] := by
  let p : Problem := { Grade.sample with groups := Grade.sample.groups.take 1 }
  refine ⟨⟨true, true, false, ""⟩, p, blank p, ⟨id, fun _ => true, none, none, ?_⟩, rfl, rfl, ?_, ?_, ?_, rfl, rfl, rfl⟩
  · decide +kernel
  · exact ⟨rfl, by intro b hb; simp only [p, Grade.sample, List.mem_singleton] at hb; subst hb; exact ⟨rfl, rfl⟩⟩
  · decide +kernel
  · decide +kernel

/-! ## The hypotheses are met -/

/-- The sample problem, with a judge that does its work: two of its three cases are solved. -/
example : Delivered Validator.sampleEnv ⟨true, true, true, "z"⟩ Grade.sample
      (Grade.grade Validator.sampleEnv Grade.sample) ∧
    ¬ Failed ⟨true, true, true, "z"⟩ Grade.sample ∧ Grade.FromSandbox Grade.sample ∧
    (Grade.grade Validator.sampleEnv Grade.sample).verdict = .PA ∧
    (∀ g ∈ Grade.sample.groups, ∀ c ∈ g.cases, ∀ q ∈ c.procs, q.result.verdict ≠ .JE ∧
      (q.kind = .problemsetter → q.result.verdict = .OK)) := by
  refine ⟨⟨id, fun _ => true, none, none, by decide +kernel⟩, ?_, Grade.sample_hyps.2.1, by decide +kernel, by decide⟩
  rw [failed_iff Validator.sampleEnv]
  decide +kernel

/-- A program that the compiler refuses is a compile error; one that it could not be asked about is a judge error. -/
example : ∀ e, Delivered Validator.sampleEnv ⟨true, true, true, ""⟩
      { Grade.sample with compiles := [⟨"Main", false, .OK⟩, ⟨"Main2", e, .RTE⟩, ⟨"validator", true, .JE⟩] }
      { (if e then blank Grade.sample else { blank Grade.sample with verdict := .CE }) with
        events := if e then [] else [.compile "Main", .compile "Main2"] } := by
  intro e
  refine ⟨id, fun _ => true, none, none, ?_⟩
  cases e <;> decide +kernel

/-- The problem setter's process dies and the submission's does not. -/
def crashedCase : Grade.Case where
  name := "a"
  weight := 1
  contestantOut := some []
  expectedOut := some []
  procs := [⟨"Main", .contestant, { verdict := .OK }⟩,
    ⟨"parent", .problemsetter, { verdict := .RTE, signal := some "SIGSEGV" }⟩]

def crash : Problem where
  maxScore := 100
  groups := [⟨"a", [crashedCase]⟩]
  wallLimit := 60
  validator := ⟨"token", none⟩
  compiles := [⟨"Main", false, .OK⟩]

example : Grade.Compiles crash ∧ Grade.FromSandbox crash ∧
    (Grade.grade Validator.sampleEnv crash).cases.map Grade.CaseResult.verdict = [.JE] ∧
    (Grade.grade Validator.sampleEnv crash).verdict = .JE := by
  refine ⟨⟨rfl, by decide⟩, ?_, by decide +kernel, by decide +kernel⟩
  unfold Grade.FromSandbox Grade.SandboxVerdict
  decide

end Quark.Delivery
