import Verif.Sandbox.Model
import Verif.Sandbox.Spec
import Verif.Files.Props

/-! # Command lines and limits (C84, C91) -/

namespace Quark.Sandbox

open Path Spec

theorem options_mounts (ms : List (Str × Str)) (tail : List Str) :
    options (ms.flatMap (fun m => [c!"-b", m.1 ++ ',' :: m.2]) ++ tail) =
      ms.map (fun m => (c!"-b", m.1 ++ ',' :: m.2)) ++ options tail := by
  induction ms with
  | nil => simp
  | cons m ms ih =>
    simp only [List.flatMap_cons, List.map_cons, List.cons_append, List.nil_append]
    rw [options, if_neg (by decide), ih]

theorem rest_mounts (ms : List (Str × Str)) (tail : List Str) :
    rest (ms.flatMap (fun m => [c!"-b", m.1 ++ ',' :: m.2]) ++ tail) = rest tail := by
  induction ms with
  | nil => simp
  | cons m ms ih =>
    simp only [List.flatMap_cons, List.cons_append, List.nil_append]
    rw [rest, if_neg (by decide), ih]

theorem options_extra (es : List Str) :
    options (if es = [] then [] else c!"--" :: es) = [] := by
  cases es with
  | nil => rfl
  | cons e es =>
    rw [if_neg (by simp), options, if_pos (by decide)]

theorem rest_extra (es : List Str) : rest (if es = [] then [] else c!"--" :: es) = es := by
  cases es with
  | nil => rfl
  | cons e es =>
    rw [if_neg (by simp), rest, if_pos (by decide)]

/-- The options of the command line of `Run`. -/
theorem options_runParams (c : RunCall) :
    options (runParams c) =
      [(c!"-d", c!"/home"), (c!"-b", c.chdir ++ c!",/home"), (c!"-0", stdin c),
       (c!"-1", c.output), (c!"-2", c.error), (c!"-M", c.metaFile),
       (c!"-m", Files.fmtD (hardLimit c.limits)),
       (c!"-t", Files.fmtD (millis (runTime c.lang c.limits))),
       (c!"-w", Files.fmtD (millis c.limits.extraWallTime)),
       (c!"-O", Files.fmtD c.limits.outputLimit), (c!"--root", omegajailPath),
       (c!"--run", c.lang), (c!"--run-target", c.target)] ++
      c.extraMounts.map fun m => (c!"-b", m.1 ++ ',' :: m.2) := by
  unfold runParams
  simp only [List.cons_append, List.nil_append]
  iterate 13 (rw [options, if_neg (by decide)])
  rw [options_mounts, options_extra]
  simp

theorem rest_runParams (c : RunCall) : rest (runParams c) = c.extraParams := by
  unfold runParams
  simp only [List.cons_append, List.nil_append]
  iterate 13 (rw [rest, if_neg (by decide)])
  rw [rest_mounts, rest_extra]

theorem filterMap_mounts {k : Str} (h : c!"-b" ≠ k) (ms : List (Str × Str)) :
    (ms.map fun m => (c!"-b", m.1 ++ ',' :: m.2)).filterMap
      (fun o : Str × Str => if o.1 = k then some o.2 else none) = [] := by
  rw [List.filterMap_eq_nil_iff]
  intro o ho
  obtain ⟨m, -, rfl⟩ := List.mem_map.1 ho
  exact if_neg h

macro "vals" : tactic => `(tactic| (
  unfold values
  rw [options_runParams, List.filterMap_append]
  first
    | rw [filterMap_mounts (by decide)]
    | skip
  simp (decide := true) only [List.filterMap_cons, List.filterMap_nil, if_true, if_false, List.append_nil]))

theorem values_m (c : RunCall) : values c!"-m" (runParams c) = [Files.fmtD (hardLimit c.limits)] := by vals
theorem values_t (c : RunCall) :
    values c!"-t" (runParams c) = [Files.fmtD (millis (runTime c.lang c.limits))] := by vals
theorem values_w (c : RunCall) :
    values c!"-w" (runParams c) = [Files.fmtD (millis c.limits.extraWallTime)] := by vals
theorem values_O (c : RunCall) : values c!"-O" (runParams c) = [Files.fmtD c.limits.outputLimit] := by vals
theorem values_0 (c : RunCall) : values c!"-0" (runParams c) = [stdin c] := by vals
theorem values_1 (c : RunCall) : values c!"-1" (runParams c) = [c.output] := by vals
theorem values_2 (c : RunCall) : values c!"-2" (runParams c) = [c.error] := by vals
theorem values_M (c : RunCall) : values c!"-M" (runParams c) = [c.metaFile] := by vals
theorem values_run (c : RunCall) : values c!"--run" (runParams c) = [c.lang] := by vals

/-! ## The programs of a job -/

/-- `b` is the program of interface `name`, which the contestant's source is compiled for. -/
def IsChild (j : Job) (b : Binary) : Prop :=
  ∃ ia rs, j.interactive = some ia ∧ b.name ≠ ia.main ∧ b.name ∈ ia.interfaces.map Prod.fst ∧
    b = childBinary j b.name rs

theorem children_mem {j : Job} {ia : Interactive} {fs : List (Str × List (Str × Iface))} {bs : List Binary}
    (h : children j ia fs = .ok bs) {b : Binary} (hb : b ∈ bs) :
    b.name ≠ ia.main ∧ b.name ∈ fs.map Prod.fst ∧ ∃ rs, b = childBinary j b.name rs := by
  induction fs generalizing bs with
  | nil => simp only [children, Prepared.ok.injEq] at h; subst h; simp at hb
  | cons f fs ih =>
    obtain ⟨name, langs⟩ := f
    rw [children] at h
    by_cases hm : name = ia.main
    · rw [if_pos hm] at h
      obtain ⟨h1, h2, h3⟩ := ih h hb
      exact ⟨h1, List.mem_cons_of_mem _ h2, h3⟩
    · rw [if_neg hm] at h
      cases hg : get (extension j.language) langs with
      | none => simp [hg] at h
      | some iface =>
        simp only [hg] at h
        cases hr : iface.requisites with
        | none => simp [hr] at h
        | some rs =>
          simp only [hr] at h
          cases hc : children j ia fs with
          | panics => simp [hc] at h
          | unsupported => simp [hc] at h
          | ok bs' =>
            simp only [hc, Prepared.ok.injEq] at h
            subst h
            rcases List.mem_cons.1 hb with rfl | hb
            · exact ⟨hm, by simp [childBinary], rs, rfl⟩
            · obtain ⟨h1, h2, h3⟩ := ih hc hb
              exact ⟨h1, List.mem_cons_of_mem _ h2, h3⟩

/-- What the programs of a job are. -/
theorem binaries_mem {j : Job} {bs : List Binary} (h : binaries j = .ok bs) {b : Binary} (hb : b ∈ bs) :
    (j.interactive = none ∧ j.language ≠ c!"cat" ∧ b = mainBinary j) ∨
    (∃ ia rs, j.interactive = some ia ∧ b = parentBinary j ia rs) ∨ IsChild j b ∨
    (∃ lang, j.validator = some lang ∧ b = validatorBinary j lang) := by
  unfold binaries at h
  cases hr : regularBinaries j with
  | panics => simp [hr] at h
  | unsupported => simp [hr] at h
  | ok rb =>
    simp only [hr, Prepared.ok.injEq] at h
    subst h
    rcases List.mem_append.1 hb with hb | hb
    · unfold regularBinaries at hr
      cases hi : j.interactive with
      | none =>
        simp only [hi] at hr
        by_cases hl : j.language = c!"cat"
        · rw [if_pos hl] at hr
          simp only [Prepared.ok.injEq] at hr
          subst hr; simp at hb
        · rw [if_neg hl] at hr
          simp only [Prepared.ok.injEq] at hr
          subst hr
          exact Or.inl ⟨rfl, hl, by simpa using hb⟩
      | some ia =>
        simp only [hi] at hr
        cases hg : (get ia.main ia.interfaces).bind (get ia.parentLang) with
        | none => simp [hg] at hr
        | some iface =>
          simp only [hg] at hr
          cases hq : iface.requisites with
          | none => simp [hq] at hr
          | some rs =>
            simp only [hq] at hr
            cases hc : children j ia ia.interfaces with
            | panics => simp [hc] at hr
            | unsupported => simp [hc] at hr
            | ok cs =>
              simp only [hc, Prepared.ok.injEq] at hr
              subst hr
              rcases List.mem_cons.1 hb with rfl | hb
              · exact Or.inr (Or.inl ⟨ia, rs, rfl, rfl⟩)
              · obtain ⟨h1, h2, rs', h3⟩ := children_mem hc hb
                exact Or.inr (Or.inr (Or.inl ⟨ia, rs', hi, h1, h2, h3⟩))
    · cases hv : j.validator with
      | none => simp [hv] at hb
      | some lang =>
        simp only [hv, List.mem_singleton] at hb
        exact Or.inr (Or.inr (Or.inr ⟨lang, rfl, hb⟩))

/-- A contestant's program is the only one of its job or belongs to an interface. -/
theorem contestant_cases {j : Job} {bs : List Binary} (h : binaries j = .ok bs) {b : Binary} (hb : b ∈ bs)
    (ht : b.type = .contestant) :
    (j.interactive = none ∧ j.language ≠ c!"cat" ∧ b = mainBinary j) ∨ IsChild j b := by
  rcases binaries_mem h hb with h | ⟨ia, rs, _, h⟩ | h | ⟨lang, _, h⟩
  · exact Or.inl h
  · subst h; simp [parentBinary] at ht
  · exact Or.inr h
  · subst h; simp [validatorBinary] at ht

theorem contestant_lang_limits {j : Job} {bs : List Binary} (h : binaries j = .ok bs) {b : Binary} (hb : b ∈ bs)
    (ht : b.type = .contestant) : b.language = j.language ∧ b.limits = effectiveLimits j := by
  rcases contestant_cases h hb ht with ⟨_, _, h⟩ | ⟨ia, rs, hi, _, _, h⟩
  · subst h; exact ⟨rfl, rfl⟩
  · rw [h]
    refine ⟨rfl, ?_⟩
    unfold effectiveLimits
    rw [if_neg (by simp [hi])]
    rfl

/-! ## C84 -/

/-- The run is one with the address sanitizer: a debug run of a C or C++ program alone. -/
def Sanitized (j : Job) : Prop :=
  j.interactive = none ∧ j.debug = true ∧ j.language ∈ [c!"c", c!"cpp", c!"cpp11"]

theorem effectiveLimits_of_not {j : Job} (h : ¬ Sanitized j) : effectiveLimits j = j.limits := by
  unfold effectiveLimits
  rw [if_neg]
  rintro ⟨h1, h2⟩
  apply h
  unfold sanitized at h2
  simp only [Bool.decide_and, Bool.and_eq_true, decide_eq_true_eq] at h2
  refine ⟨by simpa using h1, h2.1, by simpa using h2.2⟩

theorem effectiveLimits_of {j : Job} (h : Sanitized j) :
    effectiveLimits j =
      { extraWallTime := j.limits.extraWallTime, memoryLimit := -1, outputLimit := j.limits.outputLimit + 16384,
        overallWallTimeLimit := j.limits.overallWallTimeLimit, timeLimit := 2 * j.limits.timeLimit + 1000000000 } := by
  obtain ⟨h1, h2, h3⟩ := h
  unfold effectiveLimits
  rw [if_pos]
  · rw [show j.limits.timeLimit * 2 = 2 * j.limits.timeLimit by omega]; rfl
  · refine ⟨by simp [h1], ?_⟩
    unfold sanitized
    simp only [Bool.decide_and, Bool.and_eq_true, decide_eq_true_eq]
    exact ⟨h2, by simpa using h3⟩

/-- C84, except for the extra time of Java: the contestant's program is run as a program of the language it was
submitted in, exactly once with each limit: the time limit in milliseconds, the extra wall time, the output limit,
and the memory limit or 640 MiB, whichever is less. (For Java see `C84_java_extra_time`.) -/
theorem C84_limits_partial (j : Job) (bs : List Binary) (h : binaries j = .ok bs) (b : Binary) (hb : b ∈ bs)
    (ht : b.type = .contestant) (hs : ¬ Sanitized j) (case : Str) :
    let args := runParams (runCall j case b)
    values c!"--run" args = [j.language] ∧
    (j.language ≠ c!"java" → values c!"-t" args = [Files.fmtD (j.limits.timeLimit.tdiv 1000000)]) ∧
    values c!"-w" args = [Files.fmtD (j.limits.extraWallTime.tdiv 1000000)] ∧
    values c!"-O" args = [Files.fmtD j.limits.outputLimit] ∧
    values c!"-m" args = [Files.fmtD (min 671088640 j.limits.memoryLimit)] := by
  obtain ⟨h1, h2⟩ := contestant_lang_limits h hb ht
  rw [effectiveLimits_of_not hs] at h2
  simp only
  rw [values_run, values_t, values_w, values_O, values_m]
  simp only [runCall, h1, h2]
  refine ⟨by trivial, fun hj => ?_, by trivial, by trivial, by trivial⟩
  unfold runTime millis
  rw [if_neg hj]

/-- The extra time of a Java program is 1000 nanoseconds, not a second: for a limit in whole milliseconds it is run
with exactly the limit every other language has. -/
theorem C84_java_extra_time (j : Job) (bs : List Binary) (h : binaries j = .ok bs) (b : Binary) (hb : b ∈ bs)
    (ht : b.type = .contestant) (hj : j.language = c!"java") (case : Str) :
    let args := runParams (runCall j case b)
    values c!"-t" args = [Files.fmtD ((j.limits.timeLimit + 1000).tdiv 1000000)] ∧
    ∀ ms : Nat, j.limits.timeLimit = 1000000 * ms →
      values c!"-t" args = [Files.fmtD ms] ∧ values c!"-t" args ≠ [Files.fmtD (ms + 1000)] := by
  obtain ⟨h1, h2⟩ := contestant_lang_limits h hb ht
  have hs : ¬ Sanitized j := by
    rintro ⟨_, _, hl⟩
    rw [hj] at hl
    exact absurd hl (by decide)
  rw [effectiveLimits_of_not hs] at h2
  simp only
  rw [values_t]
  simp only [runCall, h1, h2, hj]
  have e : millis (runTime c!"java" j.limits) = (j.limits.timeLimit + 1000).tdiv 1000000 := by
    unfold runTime millis
    rw [if_pos rfl]
  rw [e]
  refine ⟨rfl, fun ms hms => ?_⟩
  have : (j.limits.timeLimit + 1000).tdiv 1000000 = ms := by
    rw [hms, Int.tdiv_eq_ediv_of_nonneg (by omega)]
    omega
  rw [this]
  refine ⟨rfl, fun he => ?_⟩
  have := Files.fmtD_inj (List.cons.inj he).1
  omega

/-- C91 (debug runs): a C or C++ program in a debug run has no memory limit, twice the time and a second more, and
16 KiB more output. -/
theorem C91_debug (j : Job) (bs : List Binary) (h : binaries j = .ok bs) (b : Binary) (hb : b ∈ bs)
    (ht : b.type = .contestant) (hs : Sanitized j) (case : Str) :
    let args := runParams (runCall j case b)
    values c!"-t" args = [Files.fmtD ((2 * j.limits.timeLimit + 1000000000).tdiv 1000000)] ∧
    values c!"-w" args = [Files.fmtD (j.limits.extraWallTime.tdiv 1000000)] ∧
    values c!"-O" args = [Files.fmtD (j.limits.outputLimit + 16384)] ∧
    values c!"-m" args = [Files.fmtD (-1)] ∧
    (compileCall j b).extraFlags = [c!"-static-libasan", c!"-fsanitize=address"] := by
  obtain ⟨h1, h2⟩ := contestant_lang_limits h hb ht
  have he : b = mainBinary j := by
    rcases contestant_cases h hb ht with ⟨_, _, h⟩ | ⟨ia, rs, hi, _⟩
    · exact h
    · rw [hs.1] at hi; cases hi
  have hj : j.language ≠ c!"java" := by
    intro hj
    have := hs.2.2
    rw [hj] at this
    exact absurd this (by decide)
  have hz : sanitized j = true := by
    obtain ⟨_, h2, h3⟩ := hs
    unfold sanitized
    simp only [Bool.decide_and, Bool.and_eq_true, decide_eq_true_eq]
    exact ⟨h2, by simpa using h3⟩
  rw [effectiveLimits_of hs] at h2
  simp only
  rw [values_t, values_w, values_O, values_m]
  simp only [runCall, h1, h2]
  refine ⟨?_, by trivial, by trivial, by trivial, ?_⟩
  · unfold runTime millis
    rw [if_neg hj]
  · subst he
    simp only [compileCall, mainBinary, hz, if_true]

/-- No other program is compiled with the sanitizer. -/
theorem C91_flags (j : Job) (bs : List Binary) (h : binaries j = .ok bs) (b : Binary) (hb : b ∈ bs)
    (hs : ¬ Sanitized j) : c!"-fsanitize=address" ∉ (compileCall j b).extraFlags := by
  rcases binaries_mem h hb with ⟨hi, _, rfl⟩ | ⟨ia, rs, _, rfl⟩ | ⟨ia, rs, _, _, _, he⟩ | ⟨lang, _, rfl⟩
  · have : sanitized j = false := by
      by_contra hc
      rw [Bool.not_eq_false] at hc
      unfold sanitized at hc
      simp only [Bool.decide_and, Bool.and_eq_true, decide_eq_true_eq] at hc
      exact hs ⟨hi, hc.1, by simpa using hc.2⟩
    simp only [compileCall, mainBinary, this]
    simp
  · simp only [compileCall, parentBinary, extraParentFlags]
    split <;> simp
  · rw [he]; simp [compileCall, childBinary]
  · simp [compileCall, validatorBinary]

/-- C91 (validator and parent): the custom validator, and the problem's own program of an interactive problem, run
with the validator's limits if it has any, and otherwise with 256 MiB, 10 KiB of output, no extra wall time, and
the time limit of the contestant's program. The language is the one of the problem, and the program is told the
case and the contestant's language. -/
theorem C91_validator (j : Job) (lang case : Str) (hasOutput : Bool) (hl : lang ≠ c!"java") :
    let args := runParams (validatorCall j lang case hasOutput)
    values c!"--run" args = [lang] ∧ rest args = [case, j.language] ∧
    (∀ own, j.validatorOwnLimits = some own →
      values c!"-t" args = [Files.fmtD (own.timeLimit.tdiv 1000000)] ∧
      values c!"-w" args = [Files.fmtD (own.extraWallTime.tdiv 1000000)] ∧
      values c!"-O" args = [Files.fmtD own.outputLimit] ∧
      values c!"-m" args = [Files.fmtD (min 671088640 own.memoryLimit)]) ∧
    (j.validatorOwnLimits = none →
      (¬ Sanitized j → values c!"-t" args = [Files.fmtD (j.limits.timeLimit.tdiv 1000000)]) ∧
      (Sanitized j → values c!"-t" args = [Files.fmtD ((2 * j.limits.timeLimit + 1000000000).tdiv 1000000)]) ∧
      values c!"-w" args = [Files.fmtD 0] ∧
      values c!"-O" args = [Files.fmtD 10240] ∧
      values c!"-m" args = [Files.fmtD 268435456]) := by
  simp only
  rw [values_run, rest_runParams, values_t, values_w, values_O, values_m]
  refine ⟨rfl, rfl, fun own ho => ?_, fun ho => ?_⟩
  · simp only [validatorCall, ho, validatorLimits, runTime, if_neg hl, millis, hardLimit]
    exact ⟨by trivial, by trivial, by trivial, by trivial⟩
  · simp only [validatorCall, ho, validatorLimits, runTime, if_neg hl, millis, hardLimit, defaultValidatorLimits]
    refine ⟨fun hs => ?_, fun hs => ?_, by trivial, by trivial, by trivial⟩
    · rw [effectiveLimits_of_not hs]
    · rw [effectiveLimits_of hs]

theorem C91_parent (j : Job) (bs : List Binary) (h : binaries j = .ok bs) (b : Binary) (hb : b ∈ bs)
    (ht : b.type = .problemsetter) (hl : b.language ≠ c!"java") (case : Str) :
    let args := runParams (runCall j case b)
    rest args = [case, j.language] ∧
    (∀ own, j.validatorOwnLimits = some own →
      values c!"-t" args = [Files.fmtD (own.timeLimit.tdiv 1000000)] ∧
      values c!"-w" args = [Files.fmtD (own.extraWallTime.tdiv 1000000)] ∧
      values c!"-O" args = [Files.fmtD own.outputLimit] ∧
      values c!"-m" args = [Files.fmtD (min 671088640 own.memoryLimit)]) ∧
    (j.validatorOwnLimits = none →
      values c!"-t" args = [Files.fmtD (j.limits.timeLimit.tdiv 1000000)] ∧
      values c!"-w" args = [Files.fmtD 0] ∧
      values c!"-O" args = [Files.fmtD 10240] ∧
      values c!"-m" args = [Files.fmtD 268435456]) := by
  have : ∃ ia rs, b = parentBinary j ia rs := by
    rcases binaries_mem h hb with ⟨_, _, rfl⟩ | ⟨ia, rs, _, h⟩ | ⟨ia, rs, _, _, _, he⟩ | ⟨lang, _, rfl⟩
    · simp [mainBinary] at ht
    · exact ⟨ia, rs, h⟩
    · rw [he] at ht; simp [childBinary] at ht
    · simp [validatorBinary] at ht
  obtain ⟨ia, rs, rfl⟩ := this
  simp only
  rw [rest_runParams, values_t, values_w, values_O, values_m]
  have e : ∀ l, runTime (runCall j case (parentBinary j ia rs)).lang l = l.timeLimit := by
    intro l
    unfold runTime
    rw [if_neg]
    exact hl
  simp only [e]
  refine ⟨rfl, fun own ho => ?_, fun ho => ?_⟩
  · simp only [runCall, parentBinary, ho, validatorLimits, millis, hardLimit]
    exact ⟨by trivial, by trivial, by trivial, by trivial⟩
  · simp only [runCall, parentBinary, ho, validatorLimits, millis, hardLimit, defaultValidatorLimits]
    exact ⟨by trivial, by trivial, by trivial, by trivial⟩

end Quark.Sandbox
