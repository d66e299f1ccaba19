import Verif.Wire.Model
import Verif.Float.Lemmas
/-!
# C82, C83: runs and results arrive as they were sent

`roundQ` is rounding to the nearest binary64 (`Verif/Float/Model.lean`).
-/
namespace Quark.Wire
open Quark.Float (F64 fl roundQ)

/-! ## Specification: what arrives -/

/-- The value that arrives for a score. -/
def scoreTrip (ofF : ℚ → ℚ) (q : ℚ) : ℚ := ofF (roundQ q)

/-- A score that can be sent. -/
def Sendable : Option ℚ → Prop
  | some q => |roundQ q| < 2 ^ (1024 : ℕ)
  | none => False

def Finite : F64 → Prop
  | .fin _ => True
  | _ => False

def Meta.carried (m : Meta) : Meta :=
  { m with verdict := clean m.verdict, signal := m.signal.map clean, syscall := m.syscall.map clean }

def carriedEntries (acc : List (Bytes × Meta)) (l : List (Bytes × Meta)) : List (Bytes × Meta) :=
  l.foldl (fun acc e => upsert (clean e.1) e.2.carried acc) acc

def carriedMap (m : MetaMap) : MetaMap := m.map (carriedEntries [])

def CaseResult.carried (ofF : ℚ → ℚ) (c : CaseResult) : CaseResult where
  verdict := clean c.verdict
  name := clean c.name
  score := c.score.map (scoreTrip ofF)
  contestScore := c.contestScore.map (scoreTrip ofF)
  maxScore := c.maxScore.map (scoreTrip ofF)
  metadata := c.metadata.carried
  individualMeta := if (c.individualMeta.getD []).isEmpty then none else carriedMap c.individualMeta

def GroupResult.carried (ofF : ℚ → ℚ) (g : GroupResult) : GroupResult where
  group := clean g.group
  score := g.score.map (scoreTrip ofF)
  contestScore := g.contestScore.map (scoreTrip ofF)
  maxScore := g.maxScore.map (scoreTrip ofF)
  cases := g.cases.map (List.map (CaseResult.carried ofF))

def RunResult.carried (ofF : ℚ → ℚ) (r : RunResult) : RunResult where
  verdict := clean r.verdict
  compileError := r.compileError.map clean
  compileMeta := carriedMap r.compileMeta
  score := r.score.map (scoreTrip ofF)
  contestScore := r.contestScore.map (scoreTrip ofF)
  maxScore := r.maxScore.map (scoreTrip ofF)
  time := r.time
  wallTime := r.wallTime
  memory := r.memory
  judgedBy := clean r.judgedBy
  groups := r.groups.map (List.map (GroupResult.carried ofF))

/-! ## Fields -/

theorem decStr_encStr (old s : Bytes) : decStr old (encStr s) = some (clean s) := by
  simp [decStr, encStr, unquote_quote]

theorem decPtr_encStr (s : Bytes) : decPtr (encStr s) = some (some (clean s)) := by
  simp [decPtr, encStr, unquote_quote]

theorem decFlt_encFlt {x : F64} {j : J} (h : encFlt x = some j) (old : F64) : decFlt old j = some x := by
  cases x <;> simp [encFlt] at h
  subst h; rfl

theorem encScore_some {s : Option ℚ} {j : J} (h : encScore s = some j) :
    ∃ q, s = some q ∧ j = .flt (roundQ q) ∧ |roundQ q| < 2 ^ (1024 : ℕ) := by
  cases s with
  | none => simp [encScore] at h
  | some q =>
    simp only [encScore, fl] at h
    split at h
    · rename_i hlt
      simp only [encFlt, Option.some.injEq] at h
      exact ⟨q, rfl, h.symm, hlt⟩
    · simp [encFlt] at h

theorem encScore_isSome (s : Option ℚ) : (encScore s).isSome ↔ Sendable s := by
  cases s with
  | none => simp [encScore, Sendable]
  | some q =>
    simp only [encScore, Sendable, fl]
    split <;> simp_all [encFlt]

theorem encFlt_isSome (x : F64) : (encFlt x).isSome ↔ Finite x := by
  cases x <;> simp [encFlt, Finite]

theorem decFlt_score {s : Option ℚ} {j : J} (h : encScore s = some j) (old : F64) :
    ∃ q, s = some q ∧ decFlt old j = some (.fin (roundQ q)) := by
  obtain ⟨q, rfl, rfl, _⟩ := encScore_some h
  exact ⟨q, rfl, rfl⟩

theorem decInt64_enc (x old : Int64) : decInt64 old (.int x.toInt) = some x := by
  have h1 := x.le_toInt
  have h2 := x.toInt_lt
  simp only [decInt64]
  rw [if_pos ⟨h1, h2⟩, Int64.ofInt_toInt]

theorem decUInt64_enc (x old : UInt64) : decUInt64 old (.int x.toNat) = some x := by
  have h2 := x.toNat_lt
  simp only [decUInt64]
  rw [if_pos ⟨by omega, by omega⟩]
  simp

/-! The names of the fields are in small letters. -/
@[simp] theorem foldName_attempt_id : foldName "attempt_id" = "attempt_id" := by decide +kernel
@[simp] theorem foldName_cases : foldName "cases" = "cases" := by decide +kernel
@[simp] theorem foldName_compile_error : foldName "compile_error" = "compile_error" := by decide +kernel
@[simp] theorem foldName_compile_meta : foldName "compile_meta" = "compile_meta" := by decide +kernel
@[simp] theorem foldName_contest_score : foldName "contest_score" = "contest_score" := by decide +kernel
@[simp] theorem foldName_debug : foldName "debug" = "debug" := by decide +kernel
@[simp] theorem foldName_exit_status : foldName "exit_status" = "exit_status" := by decide +kernel
@[simp] theorem foldName_group : foldName "group" = "group" := by decide +kernel
@[simp] theorem foldName_groups : foldName "groups" = "groups" := by decide +kernel
@[simp] theorem foldName_individual_meta : foldName "individual_meta" = "individual_meta" := by decide +kernel
@[simp] theorem foldName_input_hash : foldName "input_hash" = "input_hash" := by decide +kernel
@[simp] theorem foldName_judged_by : foldName "judged_by" = "judged_by" := by decide +kernel
@[simp] theorem foldName_language : foldName "language" = "language" := by decide +kernel
@[simp] theorem foldName_max_score : foldName "max_score" = "max_score" := by decide +kernel
@[simp] theorem foldName_memory : foldName "memory" = "memory" := by decide +kernel
@[simp] theorem foldName_meta : foldName "meta" = "meta" := by decide +kernel
@[simp] theorem foldName_name : foldName "name" = "name" := by decide +kernel
@[simp] theorem foldName_problem : foldName "problem" = "problem" := by decide +kernel
@[simp] theorem foldName_score : foldName "score" = "score" := by decide +kernel
@[simp] theorem foldName_signal : foldName "signal" = "signal" := by decide +kernel
@[simp] theorem foldName_source : foldName "source" = "source" := by decide +kernel
@[simp] theorem foldName_sys_time : foldName "sys_time" = "sys_time" := by decide +kernel
@[simp] theorem foldName_syscall : foldName "syscall" = "syscall" := by decide +kernel
@[simp] theorem foldName_time : foldName "time" = "time" := by decide +kernel
@[simp] theorem foldName_verdict : foldName "verdict" = "verdict" := by decide +kernel
@[simp] theorem foldName_wall_time : foldName "wall_time" = "wall_time" := by decide +kernel

theorem fields_append {α} (set : α → String → J → Option α) (a : α) (l l' : List (String × J)) :
    fields set a (l ++ l') = (fields set a l).bind (fun a' => fields set a' l') := by
  induction l generalizing a with
  | nil => rfl
  | cons x l ih =>
    obtain ⟨k, j⟩ := x
    simp only [List.cons_append, fields]
    cases set a (foldName k) j with
    | none => rfl
    | some a' => exact ih a'

theorem allOf_trip {α β γ} (f : α → Option β) (g : β → Option γ) (h : α → γ) (l : List α)
    (hfg : ∀ a b, f a = some b → g b = some (h a)) (bs : List β) (hl : allOf f l = some bs) :
    allOf g bs = some (l.map h) := by
  induction l generalizing bs with
  | nil => simp [allOf] at hl; subst hl; rfl
  | cons a l ih =>
    simp only [allOf] at hl
    cases ha : f a with
    | none => simp [ha] at hl
    | some b =>
      cases hr : allOf f l with
      | none => simp [ha, hr] at hl
      | some bs' =>
        simp only [ha, hr, Option.some.injEq] at hl
        subst hl
        simp only [allOf, hfg a b ha, ih bs' hr, List.map_cons]

theorem allOf_isSome {α β} (f : α → Option β) (l : List α) :
    (allOf f l).isSome ↔ ∀ a ∈ l, (f a).isSome := by
  induction l with
  | nil => simp [allOf]
  | cons a l ih =>
    simp only [allOf, List.forall_mem_cons]
    cases ha : f a with
    | none => simp
    | some b =>
      cases hr : allOf f l with
      | none => rw [hr] at ih; simpa using ih
      | some bs' => rw [hr] at ih; simpa using ih

/-! ## The four encodings, one after another -/

theorem run_fields (a : UInt64) (ji : J) (hu : ∀ old, decUInt64 old ji = some a)
    (s1 s2 s3 s4 : Bytes) (s : J) (q : ℚ) (hd : decFlt (.fin 0) s = some (.fin (roundQ q)))
    (d : Bool) :
    fields RawRun.set {} [("attempt_id", ji), ("source", encStr s1),
        ("language", encStr s2), ("problem", encStr s3),
        ("input_hash", encStr s4), ("max_score", s), ("debug", .bool d)] =
        some ⟨a, clean s1, clean s2, clean s3, clean s4, .fin (roundQ q), d⟩ := by
  simp [fields, RawRun.set, hu, decStr_encStr, hd, decBool]

theorem decRun_struct (ofF : ℚ → ℚ) (ms : List (String × J)) :
    decRun ofF (.struct ms) = (fields RawRun.set {} ms).map (fun r =>
      ⟨r.attemptId, r.source, r.language, r.problem, r.inputHash, ofScore ofF r.maxScore, r.debug⟩) := by
  rw [decRun]
  cases fields RawRun.set {} ms <;> rfl

/-- `common.Run`: everything arrives; strings are cleaned, the score is rounded. -/
theorem C82_run_arrives (ofF : ℚ → ℚ) (r : Run) (j : J) (h : encRun r = some j) :
    decRun ofF j = some ⟨r.attemptId, clean r.source, clean r.language, clean r.problem,
      clean r.inputHash, r.maxScore.map (scoreTrip ofF), r.debug⟩ := by
  unfold encRun at h
  cases hs : encScore r.maxScore with
  | none => rw [hs] at h; simp at h
  | some s =>
    obtain ⟨q, hq, hd⟩ := decFlt_score hs (.fin 0)
    rw [hs] at h
    injection h with h
    rw [← h]
    rw [decRun_struct, run_fields r.attemptId _ (decUInt64_enc r.attemptId) r.source r.language r.problem
      r.inputHash s q hd r.debug]
    rw [hq]
    rfl

theorem meta_trip (m : Meta) (j : J) (h : encMeta m = some j) : decMeta j = some m.carried := by
  unfold encMeta at h
  cases h1 : encFlt m.time with
  | none => simp [h1] at h
  | some t =>
    cases h2 : encFlt m.sysTime with
    | none => simp [h1, h2] at h
    | some s =>
      cases h3 : encFlt m.wallTime with
      | none => simp [h1, h2, h3] at h
      | some w =>
        simp only [h1, h2, h3, Option.some.injEq] at h
        subst h
        have e1 := fun old => decFlt_encFlt h1 old
        have e2 := fun old => decFlt_encFlt h2 old
        have e3 := fun old => decFlt_encFlt h3 old
        simp only [decMeta, fields_append]
        by_cases hx : m.exitStatus = 0
        · cases hsig : m.signal <;> cases hsys : m.syscall <;>
            simp [hx, fields, Meta.set, opt, decStr_encStr, decPtr_encStr, decInt64_enc, e1, e2, e3,
              Meta.carried, hsig, hsys]
        · cases hsig : m.signal <;> cases hsys : m.syscall <;>
            simp [hx, fields, Meta.set, opt, decStr_encStr, decPtr_encStr, decInt64_enc, e1, e2, e3,
              Meta.carried, hsig, hsys]

theorem entries_trip (l : List (Bytes × Meta)) (es : List (Bytes × J))
    (h : allOf encEntry l = some es) (acc : List (Bytes × Meta)) :
    decEntries acc es = some (carriedEntries acc l) := by
  induction l generalizing es acc with
  | nil => simp [allOf] at h; subst h; rfl
  | cons a l ih =>
    obtain ⟨k, m⟩ := a
    simp only [allOf, encEntry] at h
    cases hm : encMeta m with
    | none => simp [hm] at h
    | some jm =>
      cases hr : allOf encEntry l with
      | none => simp [hm, hr] at h
      | some es' =>
        simp only [hm, hr, Option.map_some, Option.some.injEq] at h
        subst h
        simp only [decEntries, unquote_quote, meta_trip m jm hm]
        rw [ih es' hr]
        rfl

theorem map_trip (m : MetaMap) (j : J) (h : encMap m = some j) : decMap j = some (carriedMap m) := by
  cases m with
  | none => simp [encMap] at h; subst h; rfl
  | some l =>
    simp only [encMap, Option.map_eq_some_iff] at h
    obtain ⟨es, hes, rfl⟩ := h
    simp [decMap, entries_trip l es hes, carriedMap]

theorem case_trip (ofF : ℚ → ℚ) (c : CaseResult) (j : J) (h : encCase c = some j) :
    decCase ofF j = some (c.carried ofF) := by
  unfold encCase at h
  cases h1 : encScore c.score with
  | none => simp [h1] at h
  | some a =>
    cases h2 : encScore c.contestScore with
    | none => simp [h1, h2] at h
    | some b =>
      cases h3 : encScore c.maxScore with
      | none => simp [h1, h2, h3] at h
      | some d =>
        cases h4 : encMeta c.metadata with
        | none => simp [h1, h2, h3, h4] at h
        | some m =>
          cases h5 : encMap c.individualMeta with
          | none => simp [h1, h2, h3, h4, h5] at h
          | some i =>
            simp only [h1, h2, h3, h4, h5, Option.some.injEq] at h
            subst h
            obtain ⟨q1, hq1, e1⟩ := decFlt_score h1 (.fin 0)
            obtain ⟨q2, hq2, e2⟩ := decFlt_score h2 (.fin 0)
            obtain ⟨q3, hq3, e3⟩ := decFlt_score h3 (.fin 0)
            have e4 := meta_trip _ _ h4
            have e5 := map_trip _ _ h5
            simp only [decCase, fields_append]
            by_cases hx : (c.individualMeta.getD []).isEmpty = true
            · simp [fields, RawCase.set, decStr_encStr, e1, e2, e3, e4, hq1, hq2, hq3, ofScore,
                scoreTrip, CaseResult.carried, hx]
            · simp [fields, RawCase.set, decStr_encStr, e1, e2, e3, e4, e5, hq1, hq2, hq3, ofScore,
                scoreTrip, CaseResult.carried, hx]

theorem slice_trip {α} (f : α → Option J) (g : J → Option α) (h : α → α)
    (hfg : ∀ a j, f a = some j → g j = some (h a)) (l : Option (List α)) (j : J)
    (hl : encSlice f l = some j) : decSlice g j = some (l.map (List.map h)) := by
  cases l with
  | none => simp [encSlice] at hl; subst hl; rfl
  | some l =>
    simp only [encSlice, Option.map_eq_some_iff] at hl
    obtain ⟨es, hes, rfl⟩ := hl
    simp [decSlice, allOf_trip f g h l hfg es hes]

theorem group_trip (ofF : ℚ → ℚ) (g : GroupResult) (j : J) (h : encGroup g = some j) :
    decGroup ofF j = some (g.carried ofF) := by
  unfold encGroup at h
  cases h1 : encScore g.score with
  | none => simp [h1] at h
  | some a =>
    cases h2 : encScore g.contestScore with
    | none => simp [h1, h2] at h
    | some b =>
      cases h3 : encScore g.maxScore with
      | none => simp [h1, h2, h3] at h
      | some d =>
        cases h4 : encSlice encCase g.cases with
        | none => simp [h1, h2, h3, h4] at h
        | some cs =>
          simp only [h1, h2, h3, h4, Option.some.injEq] at h
          subst h
          obtain ⟨q1, hq1, e1⟩ := decFlt_score h1 (.fin 0)
          obtain ⟨q2, hq2, e2⟩ := decFlt_score h2 (.fin 0)
          obtain ⟨q3, hq3, e3⟩ := decFlt_score h3 (.fin 0)
          have e4 := slice_trip encCase (decCase ofF) _ (fun a j h => case_trip ofF a j h) _ _ h4
          simp [decGroup, fields, RawGroup.set, decStr_encStr, e1, e2, e3, e4, hq1, hq2, hq3, ofScore,
            scoreTrip, GroupResult.carried]

theorem clean_isEmpty (s : Bytes) (h : s.isEmpty = true) : clean s = [] := by
  cases s with
  | nil => simp [clean]
  | cons => simp at h

/-- What arrives of a result, in full generality: every field, with strings cleaned and scores
rounded; an empty `individual_meta` arrives as nil. -/
theorem C83_result_arrives (ofF : ℚ → ℚ) (r : RunResult) (j : J) (h : encResult r = some j) :
    decResult ofF j = some (r.carried ofF) := by
  unfold encResult at h
  cases h0 : encMap r.compileMeta with
  | none => simp [h0] at h
  | some cm =>
  cases h1 : encScore r.score with
  | none => simp [h0, h1] at h
  | some a =>
  cases h2 : encScore r.contestScore with
  | none => simp [h0, h1, h2] at h
  | some b =>
  cases h3 : encScore r.maxScore with
  | none => simp [h0, h1, h2, h3] at h
  | some d =>
  cases h4 : encFlt r.time with
  | none => simp [h0, h1, h2, h3, h4] at h
  | some t =>
  cases h5 : encFlt r.wallTime with
  | none => simp [h0, h1, h2, h3, h4, h5] at h
  | some w =>
  cases h6 : encSlice encGroup r.groups with
  | none => simp [h0, h1, h2, h3, h4, h5, h6] at h
  | some gs =>
  simp only [h0, h1, h2, h3, h4, h5, h6, Option.some.injEq] at h
  subst h
  have e0 := map_trip _ _ h0
  obtain ⟨q1, hq1, e1⟩ := decFlt_score h1 (.fin 0)
  obtain ⟨q2, hq2, e2⟩ := decFlt_score h2 (.fin 0)
  obtain ⟨q3, hq3, e3⟩ := decFlt_score h3 (.fin 0)
  have e4 := fun old => decFlt_encFlt h4 old
  have e5 := fun old => decFlt_encFlt h5 old
  have e6 := slice_trip encGroup (decGroup ofF) _ (fun a j h => group_trip ofF a j h) _ _ h6
  simp only [decResult, fields_append]
  cases hce : r.compileError <;> by_cases hx : r.judgedBy.isEmpty = true <;>
    simp [fields, RawResult.set, opt, decStr_encStr, decPtr_encStr, decInt64_enc, e0, e1, e2, e3, e4,
      e5, e6, hq1, hq2, hq3, ofScore, scoreTrip, RunResult.carried, hce, hx]
  all_goals exact clean_isEmpty _ hx

/-! ## C82: the runner gets the run that was queued -/

/-- A run can be sent exactly when it has a maximum score that does not overflow. -/
theorem C82_sendable (r : Run) : (encRun r).isSome ↔ Sendable r.maxScore := by
  rw [← encScore_isSome]
  unfold encRun
  cases encScore r.maxScore <;> simp

/-- The runner gets exactly the source, the language, the problem and the input that were queued,
under the same attempt, if and only if those texts are valid UTF-8. -/
theorem C82_run_identical_iff_partial (ofF : ℚ → ℚ) (r : Run) (j : J) (h : encRun r = some j) :
    (∃ r', decRun ofF j = some r' ∧ r'.attemptId = r.attemptId ∧ r'.debug = r.debug ∧
      r'.source = r.source ∧ r'.language = r.language ∧ r'.problem = r.problem ∧
      r'.inputHash = r.inputHash ∧ r'.maxScore = r.maxScore.map (scoreTrip ofF)) ↔
    ValidUtf8 r.source ∧ ValidUtf8 r.language ∧ ValidUtf8 r.problem ∧ ValidUtf8 r.inputHash := by
  rw [C82_run_arrives ofF r j h, ← clean_eq_iff, ← clean_eq_iff, ← clean_eq_iff, ← clean_eq_iff]
  constructor
  · rintro ⟨r', hr', _, _, h1, h2, h3, h4, _⟩
    injection hr' with hr'
    subst hr'
    exact ⟨h1, h2, h3, h4⟩
  · rintro ⟨h1, h2, h3, h4⟩
    exact ⟨_, rfl, rfl, rfl, h1, h2, h3, h4, rfl⟩

/-- `año` in Latin-1, as in a comment of a submission written with an old editor. -/
def latin1 : Bytes := [0x61, 0xF1, 0x6F]

/-- The claim without the condition is false: a source with one Latin-1 letter is graded as a
different program, in which the letter became the three bytes of U+FFFD. -/
theorem C82_source_changed (ofF : ℚ → ℚ) :
    ∃ r j r', encRun r = some j ∧ decRun ofF j = some r' ∧ r.source = latin1 ∧
      r'.source = [0x61, 0xEF, 0xBF, 0xBD, 0x6F] := by
  have hz : encScore (some 0) = some (.flt 0) := by
    simp only [encScore, fl, Float.roundQ_zero]
    rw [if_pos]
    · rfl
    · simp
  have hsend : (encRun ⟨0, latin1, [], [], [], some 0, false⟩).isSome := by
    rw [C82_sendable, ← encScore_isSome, hz]; rfl
  obtain ⟨j, hj⟩ := Option.isSome_iff_exists.1 hsend
  refine ⟨_, j, _, hj, C82_run_arrives ofF _ j hj, rfl, ?_⟩
  show clean latin1 = _
  decide +kernel

/-- The condition is met, for instance, by a text with quotes, line ends, non-ASCII letters and
characters outside the basic plane. -/
example : ValidUtf8 [0x22, 0x0A, 0xC3, 0xB1, 0xF0, 0x9F, 0x98, 0x80, 0xE2, 0x80, 0xA8] :=
  (clean_eq_iff _).1 (by decide +kernel)

/-! ## C83: the grader gets the result that was computed -/

theorem roundQ_err_abs (q : ℚ) : |roundQ q - q| ≤ |q| / 2 ^ (53 : ℕ) + 1 / 2 ^ (1075 : ℕ) := by
  rcases le_total 0 q with h | h
  · rw [abs_of_nonneg h]; exact Float.roundQ_err q h
  · have := Float.roundQ_err (-q) (by linarith)
    rw [Float.roundQ_neg] at this
    rw [abs_of_nonpos h]
    have e : -roundQ q - -q = -(roundQ q - q) := by ring
    rw [e, abs_neg] at this
    exact this

/-- If `FloatToRational` keeps its promise (a rational within 1e-6 of its argument), then a score
arrives within 1e-6 of the one sent, up to one binary64 rounding. -/
theorem C83_scores (ofF : ℚ → ℚ) (hof : ∀ x, |ofF x - x| ≤ 1 / 1000000) (q : ℚ) :
    |scoreTrip ofF q - q| ≤ 1 / 1000000 + |q| / 2 ^ (53 : ℕ) + 1 / 2 ^ (1075 : ℕ) := by
  have h1 := hof (roundQ q)
  have h2 := roundQ_err_abs q
  have h3 : scoreTrip ofF q - q = (ofF (roundQ q) - roundQ q) + (roundQ q - q) := by
    unfold scoreTrip; ring
  rw [h3]
  refine (abs_add_le _ _).trans ?_
  linarith

/-- A score sent as 0 arrives as what `FloatToRational` makes of 0. -/
theorem scoreTrip_zero (ofF : ℚ → ℚ) : scoreTrip ofF 0 = ofF 0 := by
  rw [scoreTrip, Float.roundQ_zero]

/-- Scores arrive in order, if `FloatToRational` is monotone. -/
theorem C83_scores_monotone (ofF : ℚ → ℚ) (hof : ∀ x y, x ≤ y → ofF x ≤ ofF y) (p q : ℚ)
    (h : p ≤ q) : scoreTrip ofF p ≤ scoreTrip ofF q :=
  hof _ _ (Float.roundQ_mono h)

/-! ### When nothing else changes -/

/-- Every text in a `RunMetadata` is valid UTF-8. -/
def Meta.Clean (m : Meta) : Prop :=
  ValidUtf8 m.verdict ∧ (∀ s, m.signal = some s → ValidUtf8 s) ∧
    (∀ s, m.syscall = some s → ValidUtf8 s)

/-- Every text in the map is valid UTF-8, and no key occurs twice (which a Go map guarantees). -/
def CleanMap : MetaMap → Prop
  | none => True
  | some l => (∀ e ∈ l, ValidUtf8 e.1 ∧ e.2.Clean) ∧ (l.map (·.1)).Nodup

def CaseResult.Clean (c : CaseResult) : Prop :=
  ValidUtf8 c.verdict ∧ ValidUtf8 c.name ∧ c.metadata.Clean ∧ CleanMap c.individualMeta ∧
    c.individualMeta ≠ some []

def GroupResult.Clean (g : GroupResult) : Prop :=
  ValidUtf8 g.group ∧ ∀ l, g.cases = some l → ∀ c ∈ l, c.Clean

/-- Every text in a result is valid UTF-8 and no case has an empty, non-nil map of individual
results. -/
def RunResult.Clean (r : RunResult) : Prop :=
  ValidUtf8 r.verdict ∧ (∀ s, r.compileError = some s → ValidUtf8 s) ∧ CleanMap r.compileMeta ∧
    ValidUtf8 r.judgedBy ∧ ∀ l, r.groups = some l → ∀ g ∈ l, g.Clean

/-- The same result, with another score in place of every score. -/
def CaseResult.mapScores (f : ℚ → ℚ) (c : CaseResult) : CaseResult :=
  { c with score := c.score.map f, contestScore := c.contestScore.map f, maxScore := c.maxScore.map f }

def GroupResult.mapScores (f : ℚ → ℚ) (g : GroupResult) : GroupResult :=
  { g with score := g.score.map f, contestScore := g.contestScore.map f, maxScore := g.maxScore.map f,
           cases := g.cases.map (List.map (CaseResult.mapScores f)) }

def RunResult.mapScores (f : ℚ → ℚ) (r : RunResult) : RunResult :=
  { r with score := r.score.map f, contestScore := r.contestScore.map f, maxScore := r.maxScore.map f,
           groups := r.groups.map (List.map (GroupResult.mapScores f)) }

theorem clean_of_valid {s : Bytes} (h : ValidUtf8 s) : clean s = s := (clean_eq_iff s).2 h

theorem clean_opt (o : Option Bytes) (h : ∀ s, o = some s → ValidUtf8 s) : o.map clean = o := by
  cases o with
  | none => rfl
  | some s => simp [clean_of_valid (h s rfl)]

theorem meta_carried (m : Meta) (h : m.Clean) : m.carried = m := by
  obtain ⟨h1, h2, h3⟩ := h
  unfold Meta.carried
  rw [clean_of_valid h1, clean_opt _ h2, clean_opt _ h3]

theorem upsert_new (k : Bytes) (v : Meta) (l : List (Bytes × Meta)) (h : k ∉ l.map (·.1)) :
    upsert k v l = l ++ [(k, v)] := by
  induction l with
  | nil => rfl
  | cons e l ih =>
    obtain ⟨k', v'⟩ := e
    simp only [List.map_cons, List.mem_cons, not_or] at h
    simp only [upsert]
    rw [if_neg (fun hh => h.1 hh.symm), ih h.2]
    rfl

theorem carriedEntries_clean (l acc : List (Bytes × Meta))
    (h : ∀ e ∈ l, ValidUtf8 e.1 ∧ e.2.Clean) (hn : ((acc ++ l).map (·.1)).Nodup) :
    carriedEntries acc l = acc ++ l := by
  induction l generalizing acc with
  | nil => simp [carriedEntries]
  | cons e l ih =>
    obtain ⟨k, m⟩ := e
    have he := h (k, m) List.mem_cons_self
    have hk : k ∉ acc.map (·.1) := by
      intro hk
      rw [List.map_append, List.nodup_append] at hn
      exact hn.2.2 k hk k (by simp) rfl
    have step : carriedEntries acc ((k, m) :: l) = carriedEntries (acc ++ [(k, m)]) l := by
      unfold carriedEntries
      rw [List.foldl_cons]
      simp only [clean_of_valid he.1, meta_carried m he.2, upsert_new k m acc hk]
    rw [step, ih _ (fun x hx => h x (List.mem_cons_of_mem _ hx)) (by simpa using hn)]
    simp

theorem carriedMap_clean (m : MetaMap) (h : CleanMap m) : carriedMap m = m := by
  cases m with
  | none => rfl
  | some l =>
    simp only [carriedMap, Option.map_some]
    rw [carriedEntries_clean l [] h.1 (by simpa using h.2)]
    simp

theorem case_carried (ofF : ℚ → ℚ) (c : CaseResult) (h : c.Clean) :
    c.carried ofF = c.mapScores (scoreTrip ofF) := by
  obtain ⟨h1, h2, h3, h4, h5⟩ := h
  unfold CaseResult.carried CaseResult.mapScores
  rw [clean_of_valid h1, clean_of_valid h2, meta_carried _ h3, carriedMap_clean _ h4]
  have : (if (c.individualMeta.getD []).isEmpty then none else c.individualMeta) = c.individualMeta := by
    split
    · rename_i he
      cases hm : c.individualMeta with
      | none => rfl
      | some l =>
        rw [hm] at he h5
        simp only [Option.getD_some, List.isEmpty_iff] at he
        subst he
        exact absurd rfl h5
    · rfl
  rw [this]

theorem group_carried (ofF : ℚ → ℚ) (g : GroupResult) (h : g.Clean) :
    g.carried ofF = g.mapScores (scoreTrip ofF) := by
  obtain ⟨h1, h2⟩ := h
  unfold GroupResult.carried GroupResult.mapScores
  rw [clean_of_valid h1]
  cases hc : g.cases with
  | none => rfl
  | some l =>
    have : l.map (CaseResult.carried ofF) = l.map (CaseResult.mapScores (scoreTrip ofF)) :=
      List.map_congr_left (fun c hc' => case_carried ofF c (h2 l hc c hc'))
    simp [this]

/-- A result whose texts are valid UTF-8 arrives as it was sent, except that every score is replaced
by `FloatToRational` of its nearest binary64. -/
theorem C83_result_identical_partial (ofF : ℚ → ℚ) (r : RunResult) (hr : r.Clean) (j : J)
    (h : encResult r = some j) : decResult ofF j = some (r.mapScores (scoreTrip ofF)) := by
  rw [C83_result_arrives ofF r j h]
  obtain ⟨h1, h2, h3, h4, h5⟩ := hr
  congr 1
  unfold RunResult.carried RunResult.mapScores
  rw [clean_of_valid h1, clean_opt _ h2, carriedMap_clean _ h3, clean_of_valid h4]
  cases hg : r.groups with
  | none => rfl
  | some l =>
    have : l.map (GroupResult.carried ofF) = l.map (GroupResult.mapScores (scoreTrip ofF)) :=
      List.map_congr_left (fun g hg' => group_carried ofF g (h5 l hg g hg'))
    simp [this]

/-- In general (keys that become equal when cleaned) each key that arrives has the value of the last
entry printed for it. -/
theorem C83_map_last_wins (l : List (Bytes × Meta)) (k : Bytes) :
    (carriedEntries [] l).lookup k =
      ((l.filter (fun e => clean e.1 == k)).getLast?).map (fun e => e.2.carried) := by
  have hup : ∀ (acc : List (Bytes × Meta)) k' v,
      (upsert k' v acc).lookup k = if k' = k then some v else acc.lookup k := by
    intro acc k' v
    induction acc with
    | nil =>
      simp only [upsert, List.lookup_cons, List.lookup_nil]
      by_cases h : k' = k
      · simp [h]
      · have : (k == k') = false := by simpa using fun hh => h hh.symm
        simp [h, this]
    | cons e acc ih =>
      obtain ⟨k2, v2⟩ := e
      simp only [upsert]
      by_cases h2 : k2 = k'
      · subst h2
        rw [if_pos rfl]
        simp only [List.lookup_cons]
        by_cases h : k2 = k
        · simp [h]
        · have : (k == k2) = false := by simpa using fun hh => h hh.symm
          simp [h, this]
      · rw [if_neg h2]
        simp only [List.lookup_cons, ih]
        by_cases h : k' = k
        · subst h
          have : (k' == k2) = false := by simpa using fun hh => h2 hh.symm
          simp [this]
        · simp only [if_neg h]
  have gen : ∀ (l acc : List (Bytes × Meta)), (carriedEntries acc l).lookup k =
      (((l.filter (fun e => clean e.1 == k)).getLast?).map (fun e => e.2.carried)).or (acc.lookup k) := by
    intro l
    induction l with
    | nil => intro acc; simp [carriedEntries]
    | cons e l ih =>
      intro acc
      have : carriedEntries acc (e :: l) = carriedEntries (upsert (clean e.1) e.2.carried acc) l := rfl
      rw [this, ih, hup, List.filter_cons]
      by_cases h : clean e.1 = k
      · have hb : (clean e.1 == k) = true := by simpa using h
        rw [if_pos h, if_pos hb, List.getLast?_cons]
        cases (l.filter (fun e => clean e.1 == k)).getLast? <;> simp
      · have hb : ¬ (clean e.1 == k) = true := by simpa using h
        rw [if_neg h, if_neg hb]
  rw [gen]
  simp

/-! ### Which results can be sent -/

def Meta.Sendable (m : Meta) : Prop := Finite m.time ∧ Finite m.sysTime ∧ Finite m.wallTime

def SendableMap : MetaMap → Prop
  | none => True
  | some l => ∀ e ∈ l, e.2.Sendable

def CaseResult.Sendable (c : CaseResult) : Prop :=
  Wire.Sendable c.score ∧ Wire.Sendable c.contestScore ∧ Wire.Sendable c.maxScore ∧
    c.metadata.Sendable ∧ SendableMap c.individualMeta

def GroupResult.Sendable (g : GroupResult) : Prop :=
  Wire.Sendable g.score ∧ Wire.Sendable g.contestScore ∧ Wire.Sendable g.maxScore ∧
    ∀ l, g.cases = some l → ∀ c ∈ l, c.Sendable

/-- Every score is there and does not overflow, every time is a finite number. -/
def RunResult.Sendable (r : RunResult) : Prop :=
  SendableMap r.compileMeta ∧ Wire.Sendable r.score ∧ Wire.Sendable r.contestScore ∧
    Wire.Sendable r.maxScore ∧ Finite r.time ∧ Finite r.wallTime ∧
    ∀ l, r.groups = some l → ∀ g ∈ l, g.Sendable

theorem meta_sendable (m : Meta) : (encMeta m).isSome ↔ m.Sendable := by
  unfold encMeta Meta.Sendable
  rw [← encFlt_isSome, ← encFlt_isSome, ← encFlt_isSome]
  cases encFlt m.time <;> cases encFlt m.sysTime <;> cases encFlt m.wallTime <;> simp

theorem map_sendable (m : MetaMap) : (encMap m).isSome ↔ SendableMap m := by
  cases m with
  | none => simp [encMap, SendableMap]
  | some l =>
    simp only [encMap, SendableMap, Option.isSome_map, allOf_isSome, encEntry, meta_sendable]

theorem slice_sendable {α} (f : α → Option J) (l : Option (List α)) :
    (encSlice f l).isSome ↔ ∀ l', l = some l' → ∀ a ∈ l', (f a).isSome := by
  cases l with
  | none => simp [encSlice]
  | some l => simp [encSlice, allOf_isSome]

theorem case_sendable (c : CaseResult) : (encCase c).isSome ↔ c.Sendable := by
  unfold encCase CaseResult.Sendable
  rw [← encScore_isSome, ← encScore_isSome, ← encScore_isSome, ← meta_sendable, ← map_sendable]
  cases encScore c.score <;> cases encScore c.contestScore <;> cases encScore c.maxScore <;>
    cases encMeta c.metadata <;> cases encMap c.individualMeta <;> simp

theorem group_sendable (g : GroupResult) : (encGroup g).isSome ↔ g.Sendable := by
  have h : (∀ l, g.cases = some l → ∀ c ∈ l, c.Sendable) ↔ (encSlice encCase g.cases).isSome := by
    rw [slice_sendable]; simp only [case_sendable]
  unfold encGroup GroupResult.Sendable
  rw [h, ← encScore_isSome, ← encScore_isSome, ← encScore_isSome]
  cases encScore g.score <;> cases encScore g.contestScore <;> cases encScore g.maxScore <;>
    cases encSlice encCase g.cases <;> simp

/-- A result can be sent exactly when all its scores are there and none overflows and all its times
are finite. -/
theorem C83_sendable (r : RunResult) : (encResult r).isSome ↔ r.Sendable := by
  have h : (∀ l, r.groups = some l → ∀ g ∈ l, g.Sendable) ↔ (encSlice encGroup r.groups).isSome := by
    rw [slice_sendable]; simp only [group_sendable]
  unfold encResult RunResult.Sendable
  rw [h, ← encScore_isSome, ← encScore_isSome, ← encScore_isSome, ← encFlt_isSome, ← encFlt_isSome,
    ← map_sendable]
  cases encMap r.compileMeta <;> cases encScore r.score <;> cases encScore r.contestScore <;>
    cases encScore r.maxScore <;> cases encFlt r.time <;> cases encFlt r.wallTime <;>
    cases encSlice encGroup r.groups <;> simp

def sampleCase : CaseResult where
  verdict := [0x57, 0x41]
  name := [0x31]
  score := some 0
  contestScore := some 0
  maxScore := some 0
  metadata := { verdict := [0x4F, 0x4B], exitStatus := 3 }

def sampleGroup : GroupResult where
  group := [0x67]
  score := some 0
  contestScore := some 0
  maxScore := some 0
  cases := some [sampleCase]

/-- A small result with every kind of field. -/
def sample : RunResult where
  verdict := [0x50, 0x41]
  compileError := none
  compileMeta := some [([0x4D], { verdict := [0x4F, 0x4B], time := .fin (1/2) })]
  score := some 0
  contestScore := some 0
  maxScore := some 0
  judgedBy := [0x72]
  groups := some [sampleGroup]

/-- The hypotheses of the theorems are met by it. -/
example : sample.Clean ∧ (encResult sample).isSome := by
  have hv : ∀ l ∈ ([[0x50, 0x41], [0x4D], [0x4F, 0x4B], [0x72], [0x67], [0x57, 0x41], [0x31]] : List Bytes),
      ValidUtf8 l := by
    intro l hl
    rw [← clean_eq_iff]
    revert l
    decide +kernel
  have hz : Wire.Sendable (some 0) := by
    simp [Wire.Sendable, Float.roundQ_zero]
  refine ⟨⟨hv _ (by simp [sample]), by simp [sample], ?_, hv _ (by simp [sample]), ?_⟩, ?_⟩
  · simp only [sample, CleanMap]
    refine ⟨?_, by simp⟩
    intro e he
    simp only [List.mem_singleton] at he
    subst he
    exact ⟨hv _ (by simp), hv _ (by simp), by simp, by simp⟩
  · intro l hl g hg
    simp only [sample, Option.some.injEq] at hl
    subst hl
    simp only [List.mem_singleton] at hg
    subst hg
    refine ⟨hv _ (by simp [sampleGroup]), ?_⟩
    intro l hl c hc
    simp only [sampleGroup, Option.some.injEq] at hl
    subst hl
    simp only [List.mem_singleton] at hc
    subst hc
    exact ⟨hv _ (by simp [sampleCase]), hv _ (by simp [sampleCase]), ⟨hv _ (by simp [sampleCase]),
      by simp [sampleCase], by simp [sampleCase]⟩, trivial, by simp [sampleCase]⟩
  · rw [C83_sendable]
    refine ⟨?_, hz, hz, hz, trivial, trivial, ?_⟩
    · simp only [sample, SendableMap]
      intro e he
      simp only [List.mem_singleton] at he
      subst he
      exact ⟨trivial, trivial, trivial⟩
    · intro l hl g hg
      simp only [sample, Option.some.injEq] at hl
      subst hl
      simp only [List.mem_singleton] at hg
      subst hg
      refine ⟨hz, hz, hz, ?_⟩
      intro l hl c hc
      simp only [sampleGroup, Option.some.injEq] at hl
      subst hl
      simp only [List.mem_singleton] at hc
      subst hc
      exact ⟨hz, hz, hz, ⟨trivial, trivial, trivial⟩, trivial⟩

/-- The claim without the condition on texts is false: a compiler message that is not valid UTF-8
arrives changed. -/
theorem C83_message_changed (ofF : ℚ → ℚ) :
    ∃ r j r', encResult r = some j ∧ decResult ofF j = some r' ∧ r.compileError = some latin1 ∧
      r'.compileError = some [0x61, 0xEF, 0xBF, 0xBD, 0x6F] := by
  have hz : Wire.Sendable (some 0) := by simp [Wire.Sendable, Float.roundQ_zero]
  have hsend : (encResult (RunResult.mk [] (some latin1) none (some 0) (some 0) (some 0) (.fin 0)
      (.fin 0) 0 [] none)).isSome := by
    rw [C83_sendable]
    exact ⟨trivial, hz, hz, hz, trivial, trivial, by simp⟩
  obtain ⟨j, hj⟩ := Option.isSome_iff_exists.1 hsend
  refine ⟨_, j, _, hj, C83_result_arrives ofF _ j hj, rfl, ?_⟩
  have : clean latin1 = [0x61, 0xEF, 0xBF, 0xBD, 0x6F] := by decide +kernel
  simp [RunResult.carried, this]

/-- A `details.json` consisting of `null` is accepted, and the result it gives, which is not a judge
error, has no scores and cannot be written again: `Close` panics when it encodes it. -/
theorem C83_null_result (ofF : ℚ → ℚ) :
    ∃ r, decResult ofF .null = some r ∧ r.verdict ≠ [0x4A, 0x45] ∧ encResult r = none := by
  refine ⟨{}, rfl, by simp, rfl⟩

end Quark.Wire
