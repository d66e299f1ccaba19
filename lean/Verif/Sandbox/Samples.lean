import Verif.Sandbox.Interactive
import Verif.Sandbox.Programs

/-! # Cases in which the hypotheses of Verif/Sandbox hold, and those in which the full properties fail -/

namespace Quark.Sandbox

open Path Spec

instance (d p : Str) : Decidable (Within d p) :=
  inferInstanceAs (Decidable (rooted d = rooted p ∧ names d <+: names p))

/-- A file system with some files. -/
def fsOf (files : List (Str × Str)) : FS where
  ino p := files.findIdx? fun f => f.1 = p
  data i := (files[i]?.map Prod.snd).getD []
  next := files.length

theorem fresh_fsOf (j : Job) (files : List (Str × Str)) (h : ∀ f ∈ files, ¬ Within j.root f.1) : Fresh j (fsOf files) where
  bound p i hp := by
    obtain ⟨hi, _⟩ := List.findIdx?_eq_some_iff_getElem.1 hp
    exact hi
  own p q i hp hq := by
    obtain ⟨_, h1, _⟩ := List.findIdx?_eq_some_iff_getElem.1 hp
    obtain ⟨_, h2, _⟩ := List.findIdx?_eq_some_iff_getElem.1 hq
    simp only [decide_eq_true_eq] at h1 h2
    exact h1.symm.trans h2
  empty p hp := by
    simp only [fsOf]
    rw [List.findIdx?_eq_none_iff]
    intro f hf
    simp only [decide_eq_false_iff_not]
    rintro rfl
    exact h f hf hp

def sampleLimits : Limits where
  extraWallTime := 0
  memoryLimit := 33554432
  outputLimit := 10240
  overallWallTimeLimit := 60000000000
  timeLimit := 1000000000

/-- A problem with a custom validator and two cases. -/
def sampleJob : Job where
  root := c!"/run/grade/7"
  inputPath := c!"/input/ab"
  limits := sampleLimits
  validator := some c!"cpp"
  cases := [c!"1", c!"2"]
  language := c!"java"
  source := c!"class Main {}"

/-- An interactive problem with one interface. -/
def sampleIa : Interactive where
  interfaces :=
    [(c!"Main", [(c!"cpp", { requisites := some [c!"Main.cpp", c!"Main_entry.cpp"], files := [(c!"x/Main_entry.cpp", c!"P")] })]),
     (c!"alice", [(c!"py", { requisites := some [c!"alice_entry.py", c!"sums.py"], files := [(c!"x/alice_entry.py", c!"E")] })])]
  main := c!"Main"
  moduleName := c!"sums"
  parentLang := c!"cpp"

def iaJob : Job := { sampleJob with interactive := some sampleIa, language := c!"py3", source := c!"S" }

/-- The input of `sampleJob`; the second case has no expected output. -/
def sampleFiles : List (Str × Str) :=
  [(c!"/input/ab/validator.cpp", c!"V"),
   (c!"/input/ab/cases/1.in", c!"i1"), (c!"/input/ab/cases/1.out", c!"o1"), (c!"/input/ab/cases/2.in", c!"i2"),
   (c!"/input/ab/interactive/Main.cpp", c!"M")]

theorem sample_fresh : Fresh sampleJob (fsOf sampleFiles) := fresh_fsOf _ _ (by decide +kernel)
theorem ia_fresh : Fresh iaJob (fsOf sampleFiles) := fresh_fsOf _ _ (by decide +kernel)

theorem sample_apart : Apart sampleJob := ⟨by decide, by decide, by decide +kernel, by decide +kernel⟩
theorem ia_apart : Apart iaJob := ⟨by decide, by decide, by decide +kernel, by decide +kernel⟩

theorem sample_noSlashes : NoSlashes sampleJob :=
  ⟨fun _ h => (by cases h), fun _ h => by cases h; decide⟩
theorem ia_noSlashes : NoSlashes iaJob := ⟨fun _ h => by cases h; decide, fun _ h => by cases h; decide⟩

theorem ia_tidy : Tidy iaJob sampleIa := ⟨by decide +kernel, by decide +kernel, by decide +kernel⟩

/-- The programs of a job, `[]` if there are none. -/
def bins (j : Job) : List Binary :=
  match binaries j with
  | .ok bs => bs
  | _ => []

/-- The steps of setting up, when all work. -/
def sampleSteps (j : Job) : List (Op × Bool × CopyEnv) := ((setupOps j (bins j)).getD []).map fun o => (o, true, {})

/-- There are three programs in the interactive sample, and two in the other. -/
example : (bins iaJob).map Binary.name = [c!"Main", c!"alice", c!"validator"] ∧
    (bins iaJob).map Binary.target = [c!"Main_entry", c!"alice_entry", c!"validator"] ∧
    (bins sampleJob).map Binary.name = [c!"Main", c!"validator"] := by decide +kernel

example : binaries iaJob = .ok (bins iaJob) ∧ binaries sampleJob = .ok (bins sampleJob) := ⟨rfl, rfl⟩

/-- The two cases of the sample, everything working. -/
def sampleValidated : List Validated := [⟨c!"1", {}, {}⟩, ⟨c!"2", {}, {}⟩]

/-- What running leaves: metadata of the two cases. -/
def sampleWrites : List (Str × Str) :=
  [(c!"/run/grade/7/1.meta", c!"m1"), (c!"/run/grade/7/2.meta", c!"m2"), (c!"/run/grade/7/Main/bin/Main.class", c!"B")]

theorem works_default : ({} : CopyEnv).Works := Or.inl rfl

/-- The hypotheses of C87 and C92 hold of the sample; what the validator of the first case finds. -/
example : ∃ inv, (grading sampleJob (sampleSteps sampleJob) sampleWrites sampleValidated (fsOf sampleFiles)).2[0]? =
      some (c!"1", inv) ∧ ∃ i, inv = some i ∧ i.fs.read (dataIn sampleJob) = some c!"i1" ∧
      i.fs.read (metaIn sampleJob) = some c!"m1" ∧ i.fs.read (dataOut sampleJob) = some c!"o1" := by
  obtain ⟨inv, h1, -, h3⟩ := C87_view_partial (j := sampleJob) (bs := bins sampleJob) sample_apart sample_noSlashes rfl
    (C92_setup_free (bs := bins sampleJob) (by decide) sample_noSlashes (by decide) (fun _ h => (by cases h)) rfl)
    (sampleSteps sampleJob) (by decide +kernel) sampleWrites (by decide +kernel) (lang := c!"cpp") rfl
    [] ⟨c!"1", {}, {}⟩ [⟨c!"2", {}, {}⟩] (by decide) (by simp) sample_fresh (by decide +kernel)
  refine ⟨inv, h1, ?_⟩
  obtain ⟨i, hi, a, b, c⟩ := h3 (by
    intro w hw t
    simp only [List.nil_append, List.mem_cons, List.not_mem_nil, or_false] at hw
    rcases hw with rfl | rfl <;> exact works_default)
  exact ⟨i, hi, a.trans (by decide +kernel), b.trans (by decide +kernel), c.trans (by decide +kernel)⟩

example : (grading sampleJob (sampleSteps sampleJob) sampleWrites sampleValidated (fsOf sampleFiles)).1.read
    c!"/input/ab/cases/1.in" = some c!"i1" :=
  (C92_input_unmodified_partial (j := sampleJob) (bs := bins sampleJob) sample_apart sample_noSlashes rfl
    (C92_setup_free (bs := bins sampleJob) (by decide) sample_noSlashes (by decide) (fun _ h => (by cases h)) rfl)
    (sampleSteps sampleJob) (by decide +kernel) sampleWrites (by decide +kernel) sampleValidated (by decide) (by
      intro v hv t
      simp only [sampleValidated, List.mem_cons, List.not_mem_nil, or_false] at hv
      rcases hv with rfl | rfl <;> rfl) sample_fresh
    c!"/input/ab/cases/1.in" (by decide +kernel)).trans (by decide +kernel)

/-- **C87 is false of the code**: the validator of the second case, which has no expected output, finds the expected
output of the first as `data.out`. -/
theorem C87_stale :
    (fsOf sampleFiles).read (caseOut sampleJob c!"2") = none ∧
    (grading sampleJob (sampleSteps sampleJob) sampleWrites sampleValidated (fsOf sampleFiles)).2.map
      (fun r => (r.1, r.2.map fun i => i.fs.read (dataOut sampleJob))) =
    [(c!"1", some (some c!"o1")), (c!"2", some (some c!"o1"))] := by
  decide +kernel

/-- **C92 is false of the code** in a directory that is left from an earlier run (`PreserveFiles`): setting up the same
interactive run again empties the problem's `Main` in the input. -/
theorem C92_leftover :
    let fs := (execOps (sampleSteps iaJob) (fsOf sampleFiles)).1
    fs.read c!"/input/ab/interactive/Main.cpp" = some c!"M" ∧
    (execOps (sampleSteps iaJob) fs).1.read c!"/input/ab/interactive/Main.cpp" = some [] := by
  decide +kernel

/-- An interface `Main` with a file of the same name as the problem's `Main`. -/
def clashingIa : Interactive :=
  { sampleIa with interfaces :=
    [(c!"Main", [(c!"cpp", { requisites := some [c!"Main.cpp"], files := [(c!"Main.cpp", c!"P")] })]),
     (c!"alice", [(c!"py", { requisites := some [c!"alice_entry.py"] })])] }

/-- **C92 is false of the code** for such a problem: setting up a run overwrites the problem's `Main` in the input. -/
theorem C92_same_name :
    (execOps (sampleSteps { iaJob with interactive := some clashingIa }) (fsOf sampleFiles)).1.read
      c!"/input/ab/interactive/Main.cpp" = some c!"P" := by
  decide +kernel

/-- **C92 is false of the code** if a placed file cannot be removed before the next one is placed: the input of the
first case is emptied and overwritten with that of the second. -/
theorem C92_not_removed :
    (grading sampleJob (sampleSteps sampleJob) sampleWrites
      [⟨c!"1", {}, {}⟩, ⟨c!"2", { remove := fun _ => false }, {}⟩] (fsOf sampleFiles)).1.read c!"/input/ab/cases/1.in" =
      some c!"i2" := by
  decide +kernel

/-- The hypotheses of C88 and C89 hold of the interactive sample, which has 27 output files. -/
example : (outputs iaJob (bins iaJob)).length = 27 ∧ (outputs iaJob (bins iaJob)).Nodup := by
  refine ⟨by decide +kernel, C88_outputs_distinct_partial iaJob _ rfl (by decide) (by decide +kernel) ?_ ?_
    (by decide) (by decide) (by decide)⟩
  · intro ia h; cases h; decide
  · intro ia h _; cases h; decide

/-- **C88 is false of the code** for a case called `compile`: the validator's output on it goes to the file with the
validator's compilation output. -/
theorem C88_case_compile :
    let j := { sampleJob with cases := [c!"compile"] }
    (validatorCall j c!"cpp" c!"compile" true).output = (compileCall j (validatorBinary j c!"cpp")).output ∧
    ¬ (outputs j (bins j)).Nodup := by
  decide +kernel

/-- An interactive problem with an interface called `validator`. -/
def namesakeJob : Job :=
  { iaJob with
    interactive := some { sampleIa with interfaces :=
      [(c!"Main", [(c!"cpp", { requisites := some [c!"Main.cpp"] })]),
       (c!"validator", [(c!"py", { requisites := some [c!"validator_entry.py", c!"sums.py"] })])] } }

/-- A case called `compile` does no harm without a validator and without interfaces: the exact theorem says so. -/
example : (outputs { sampleJob with cases := [c!"compile", c!"2"], validator := none }
      (bins { sampleJob with cases := [c!"compile", c!"2"], validator := none })).Nodup := by
  refine (C88_exactly_partial { sampleJob with cases := [c!"compile", c!"2"], validator := none } _ rfl (by decide)
    (by decide +kernel) ?_ (by decide) (by decide)).2 ⟨?_, fun _ => ⟨rfl, ?_⟩⟩
  · intro ia h; cases h
  · intro ia h _; cases h
  · intro ia h; cases h

/-- **C88 is false of the code** for an interface called `validator` next to a custom validator. -/
theorem C88_interface_validator : ¬ (outputs namesakeJob (bins namesakeJob)).Nodup := by decide +kernel

/-- **C85 is false of the code** for such a problem: the source of the custom validator is put into the directory the
contestant's program runs in. -/
theorem C85_interface_validator :
    ∃ b ∈ bins namesakeJob, b.type = .contestant ∧
      Op.copy c!"/input/ab/validator.cpp" c!"/run/grade/7/validator/bin/validator.cpp" ∈
        (setupOps namesakeJob (bins namesakeJob)).getD [] ∧
      (runParams (runCall namesakeJob c!"1" b)).take 4 =
        [c!"-d", c!"/home", c!"-b", c!"/run/grade/7/validator/bin,/home"] := by
  refine ⟨childBinary namesakeJob c!"validator" [c!"validator_entry.py", c!"sums.py"], ?_, rfl, ?_, ?_⟩
  · have : bins namesakeJob = [parentBinary namesakeJob
        { sampleIa with interfaces :=
          [(c!"Main", [(c!"cpp", { requisites := some [c!"Main.cpp"] })]),
           (c!"validator", [(c!"py", { requisites := some [c!"validator_entry.py", c!"sums.py"] })])] } [c!"Main.cpp"],
        childBinary namesakeJob c!"validator" [c!"validator_entry.py", c!"sums.py"],
        validatorBinary namesakeJob c!"cpp"] := rfl
    rw [this]; simp
  · decide +kernel
  · decide +kernel

/-- The hypotheses of C90 hold of the interactive sample. -/
example : (execOps (sampleSteps iaJob) (fsOf sampleFiles)).1.read c!"/run/grade/7/alice/bin/sums.py" = some c!"S" ∧
    (execOps (sampleSteps iaJob) (fsOf sampleFiles)).1.read c!"/run/grade/7/alice/bin/alice_entry.py" = some c!"E" ∧
    (execOps (sampleSteps iaJob) (fsOf sampleFiles)).1.read c!"/run/grade/7/Main/bin/Main.cpp" = some c!"M" := by
  have h := C90_children iaJob ia_apart ia_noSlashes (by decide) sampleIa rfl ia_tidy (by decide) (bins iaJob) _ rfl
    (sampleSteps iaJob) (by decide +kernel) (fsOf sampleFiles) ia_fresh (by decide +kernel) c!"alice" _
    (List.mem_cons_of_mem _ (List.mem_cons_self ..))
  have h' := C90_parent iaJob ia_apart ia_noSlashes (by decide) sampleIa rfl ia_tidy (bins iaJob) _ rfl
    (sampleSteps iaJob) (by decide +kernel) (fsOf sampleFiles) ia_fresh (by
      intro s hs
      obtain ⟨o, _, rfl⟩ := List.mem_map.1 hs
      exact works_default) (by decide +kernel)
  refine ⟨h.1 (by decide), ?_, ?_⟩
  · exact h.2 _ rfl (by decide) (c!"x/alice_entry.py", c!"E") (by simp) (by decide +kernel)
  · exact h'.trans (by decide +kernel)

/-- The hypotheses of C84, C85, C86 and C91 hold of the samples: what the contestant's Java program is run with. -/
example : PlainNames sampleJob (mainBinary sampleJob) ∧ (mainBinary sampleJob) ∈ bins sampleJob ∧
    runParams (runCall sampleJob c!"1" (mainBinary sampleJob)) =
      [c!"-d", c!"/home", c!"-b", c!"/run/grade/7/Main/bin,/home", c!"-0", c!"/input/ab/cases/1.in",
       c!"-1", c!"/run/grade/7/1.out", c!"-2", c!"/run/grade/7/1.err", c!"-M", c!"/run/grade/7/1.meta",
       c!"-m", c!"33554432", c!"-t", c!"1000", c!"-w", c!"0", c!"-O", c!"10240",
       c!"--root", c!"/var/lib/omegajail", c!"--run", c!"java", c!"--run-target", c!"Main"] := by
  refine ⟨⟨by decide, by decide, by decide, by decide⟩, ?_, by decide +kernel⟩
  have : bins sampleJob = [mainBinary sampleJob, validatorBinary sampleJob c!"cpp"] := rfl
  rw [this]; simp

/-- What the child of the interactive sample is run with. -/
example : (runParams (runCall iaJob c!"1" (childBinary iaJob c!"alice" [c!"alice_entry.py", c!"sums.py"]))) =
      [c!"-d", c!"/home", c!"-b", c!"/run/grade/7/alice/bin,/home", c!"-0", c!"/var/lib/omegajail/root/dev/null",
       c!"-1", c!"/run/grade/7/alice/1.out", c!"-2", c!"/run/grade/7/alice/1.err",
       c!"-M", c!"/run/grade/7/alice/1.meta",
       c!"-m", c!"33554432", c!"-t", c!"1000", c!"-w", c!"0", c!"-O", c!"10240",
       c!"--root", c!"/var/lib/omegajail", c!"--run", c!"py3", c!"--run-target", c!"alice_entry",
       c!"-b", c!"/run/grade/7/alice/pipes,/home/alice_pipes"] := by decide +kernel

/-- The hypotheses of C93 hold of the interactive sample: what its two programs see. -/
example : (∃ b ∈ bins iaJob, b.name = c!"alice" ∧ b.type = .contestant ∧
      values c!"-b" (runParams (runCall iaJob c!"1" b)) =
        [c!"/run/grade/7/alice/bin,/home", c!"/run/grade/7/alice/pipes,/home/alice_pipes"]) ∧
    (∃ b ∈ bins iaJob, b.type = .problemsetter ∧
      values c!"-b" (runParams (runCall iaJob c!"1" b)) =
        [c!"/run/grade/7/Main/bin,/home", c!"/run/grade/7/alice/pipes,/home/alice_pipes"]) := by
  have h := C93_pipes iaJob sampleIa rfl rfl (by decide) (bins iaJob) rfl _ rfl c!"alice" (by decide) (by decide)
    (by decide) c!"1"
  obtain ⟨⟨b, hb, h1, h2⟩, ⟨b', hb', h1', h2'⟩, h3, h4, -⟩ := h
  refine ⟨⟨b, hb, h1, h2, ?_⟩, ⟨b', hb', h2', ?_⟩⟩
  · rw [h3 b hb h2 h1]; decide +kernel
  · rw [C93_parent_view iaJob sampleIa rfl (bins iaJob) rfl b' hb' h2' c!"1"]; decide +kernel

/-- The hypotheses of C94 hold of the samples. -/
example : ∃ args, compileParams 30000000000 10485760 (compileCall sampleJob (mainBinary sampleJob)) = some args ∧
    values c!"--compile" args = [c!"java"] ∧ values c!"-t" args = [c!"30000"] := by
  refine ⟨_, rfl, ?_⟩
  decide +kernel

/-- A debug run of a C++ program. -/
example : Sanitized { sampleJob with language := c!"cpp11", debug := true } := ⟨rfl, rfl, by decide⟩

example : (compileParams 30000000000 10485760 (compileCall sampleJob (mainBinary sampleJob))).map
      (Spec.values c!"--compile-source") = some [c!"Main.java"] := by decide +kernel

/-- What is sent back of the sample. -/
example : (zipMembers sampleJob.root (fun p => if p = c!"/run/grade/7/1.out" then some c!"42" else
      if p = c!"/run/grade/7/validator/compile.err" then some c!"warning" else none)
      (generatedFiles sampleJob (bins sampleJob) [(c!"1", [mainBinary sampleJob])] [c!"1"])) =
    [(c!"validator/compile.err", c!"warning"), (c!"1.out", c!"42")] := by decide +kernel

theorem ia_bins : bins iaJob = [parentBinary iaJob sampleIa [c!"Main.cpp", c!"Main_entry.cpp"],
    childBinary iaJob c!"alice" [c!"alice_entry.py", c!"sums.py"], validatorBinary iaJob c!"cpp"] := rfl

/-- The hypotheses of C88 and C89 hold of the interactive sample: the outputs of both cases and both programs have names
of their own in the archive. -/
example (contents : Str → Option Str) :
    ((zipMembers iaJob.root contents (generatedFiles iaJob (bins iaJob)
      [(c!"1", [childBinary iaJob c!"alice" [c!"alice_entry.py", c!"sums.py"],
        parentBinary iaJob sampleIa [c!"Main.cpp", c!"Main_entry.cpp"]]),
       (c!"2", [parentBinary iaJob sampleIa [c!"Main.cpp", c!"Main_entry.cpp"],
        childBinary iaJob c!"alice" [c!"alice_entry.py", c!"sums.py"]])] iaJob.cases)).map Prod.fst).Nodup :=
  C89_names_distinct_partial iaJob (bins iaJob) rfl (by decide) (by decide) (by decide +kernel) (by decide +kernel)
    (fun ia h => by cases h; decide) (fun ia h _ => by cases h; decide) (by decide) (by decide) (by decide) _ rfl (by
      intro r hr
      simp only [List.mem_cons, List.not_mem_nil, or_false] at hr
      rw [ia_bins]
      rcases hr with rfl | rfl
      · exact .swap ..
      · exact .refl _) contents

/-- The same of the answers to an output-only problem with a validator. -/
example (contents : Str → Option Str) :
    ((zipMembers sampleJob.root contents (generatedFiles { sampleJob with language := c!"cat" }
      (bins { sampleJob with language := c!"cat" }) (sampleJob.cases.map fun c => (c, [])) sampleJob.cases)).map
        Prod.fst).Nodup :=
  C89_names_output_only { sampleJob with language := c!"cat" } _ rfl (by decide) rfl rfl (by decide) (by decide)
    (by decide) _ (by decide) (by intro r hr; obtain ⟨c, -, rfl⟩ := List.mem_map.1 hr; rfl) _ (by decide) contents

/-- The same when the second case is skipped and the first is not validated. -/
example (contents : Str → Option Str) :
    ((zipMembers iaJob.root contents (generatedFiles iaJob (bins iaJob)
      [(c!"1", [childBinary iaJob c!"alice" [c!"alice_entry.py", c!"sums.py"],
        parentBinary iaJob sampleIa [c!"Main.cpp", c!"Main_entry.cpp"]])] [])).map Prod.fst).Nodup :=
  C89_names_distinct_skipping_partial iaJob (bins iaJob) (by decide) (by decide) (by decide +kernel) (by decide +kernel)
    (by decide) (by decide +kernel) _ (by decide) (by
      intro r hr
      rw [List.mem_singleton] at hr
      rw [ia_bins]
      subst hr
      exact .swap ..) [] (by decide) contents

/-- The hypotheses of C85 hold of the interactive sample: neither the problem's program nor its validator is copied to
where the contestant's program runs. -/
example : ¬ Within c!"/run/grade/7/alice" c!"/run/grade/7/validator/bin/validator.cpp" :=
  C85_nothing_copied iaJob (bins iaJob) rfl (childBinary iaJob c!"alice" [c!"alice_entry.py", c!"sums.py"])
    (by rw [ia_bins]; simp) rfl (by decide) (by decide) (fun ia h => by cases h; decide) (fun l h => by cases h; decide)
    ((setupOps iaJob (bins iaJob)).getD []) (by decide +kernel) c!"/input/ab/validator.cpp" _ (by decide +kernel)

end Quark.Sandbox
