import Verif.Sandbox.Samples

/-!
# The runs that a runner grades, one after the other: C183
-/

namespace Quark.Sandbox

open Path Spec

/-- `os.RemoveAll`, when it works. Directories are not modelled, only the files in them. -/
def removeAll (dir : Str) (fs : FS) : FS := { fs with ino := fun q => if Within dir q then none else fs.ino q }

/-- A run with all that happens while it is graded: the programs, what the steps of setting up answer, what is written
until the validation, and the validations. -/
structure Graded where
  job : Job
  programs : List Binary
  steps : List (Op × Bool × CopyEnv)
  writes : List (Str × Str)
  validated : List Validated

/-- `Grade` as far as files are concerned (/repo/runner/runner.go:443-1257): the directory of the run is removed when it
returns, also with an error (459-461). For a runner that does not have the option `PreserveFiles`. -/
def gradeOnce (g : Graded) (fs : FS) : FS := removeAll g.job.root (grading g.job g.steps g.writes g.validated fs).1

/-- A runner grades one run after the other (/repo/cmd/omegaup-runner/main.go:359-377, C142). -/
def life (gs : List Graded) (fs : FS) : FS := gs.foldl (fun fs g => gradeOnce g fs) fs

/-- What may be graded: the directories are apart, no part of the settings that becomes part of a path has a slash, what
is written lies in the directory of the run and not where files of the input are linked to, and what was linked can be
removed. -/
structure Sound (g : Graded) : Prop where
  apart : Apart g.job
  noSlashes : NoSlashes g.job
  setup : setupOps g.job g.programs = some (g.steps.map Prod.fst)
  own : ∀ p c, Op.write p c ∈ g.steps.map Prod.fst → Within g.job.root p ∧ p ∉ copyTargets g.job
  writes : ∀ w ∈ g.writes, Within g.job.root w.1 ∧ w.1 ∉ copyTargets g.job
  cases : ∀ v ∈ g.validated, '/' ∉ v.case
  removes : ∀ v ∈ g.validated, ∀ t, v.env.remove t = true

/-- No two names have the same file. -/
structure NoLinks (fs : FS) : Prop where
  bound : ∀ p i, fs.ino p = some i → i < fs.next
  own : ∀ p q i, fs.ino p = some i → fs.ino q = some i → p = q

theorem read_eq_none {fs : FS} {p : Str} : fs.read p = none ↔ fs.ino p = none := by
  unfold FS.read
  cases fs.ino p <;> simp

/-- Only names in the directory of the run share files when it has been graded. -/
theorem grading_links {g : Graded} (hs : Sound g) {fs : FS} (hf : Fresh g.job fs) :
    Good (· ∈ copyTargets g.job) (Written g.job) (grading g.job g.steps g.writes g.validated fs).1 := by
  obtain ⟨b1, b2, -⟩ := beforeValidation_spec hs.apart hs.noSlashes hs.setup hs.own g.steps rfl g.writes hs.writes hf
  have hg := b1.weaken fun p hp => free_of_written hs.apart.root hs.noSlashes hp
  unfold grading
  cases hx : beforeValidation g.steps g.writes fs with
  | mk fs1 err =>
    rw [hx] at hg
    cases err with
    | true => exact hg
    | false =>
      cases hv : g.job.validator with
      | none => exact hg
      | some lang => exact (validate_keeps hs.apart hs.noSlashes lang g.validated hs.cases hs.removes hg).1

theorem gradeOnce_spec {g : Graded} (hs : Sound g) {fs : FS} (hf : Fresh g.job fs) :
    NoLinks (gradeOnce g fs) ∧ ∀ p, (gradeOnce g fs).read p = fs.read p := by
  have hg := grading_links hs hf
  constructor
  · constructor
    · intro p i hp
      unfold gradeOnce removeAll at hp ⊢
      dsimp only at hp ⊢
      split at hp
      · cases hp
      · exact hg.bound p i hp
    · intro p q i hp hq
      unfold gradeOnce removeAll at hp hq
      dsimp only at hp hq
      split at hp
      · cases hp
      · rename_i hp'
        split at hq
        · cases hq
        · rename_i hq'
          by_contra hne
          rcases (hg.share p q i hp hq hne).1 with ht | ht
          · exact hp' (copyTargets_within hs.apart.root hs.noSlashes ht)
          · exact hq' (copyTargets_within hs.apart.root hs.noSlashes ht)
  · intro p
    by_cases hp : Within g.job.root p
    · have h1 : (gradeOnce g fs).ino p = none := if_pos hp
      rw [read_eq_none.2 h1, read_eq_none.2 (hf.empty p hp)]
    · rw [← C92_input_unmodified_partial hs.apart hs.noSlashes hs.setup hs.own g.steps rfl g.writes hs.writes g.validated
        hs.cases hs.removes hf p hp]
      show Option.map _ (if Within g.job.root p then none else _) = _
      rw [if_neg hp]
      rfl

theorem life_spec : ∀ (gs : List Graded) {fs : FS}, (∀ g ∈ gs, Sound g) → NoLinks fs →
    (∀ g ∈ gs, ∀ p, Within g.job.root p → fs.ino p = none) → NoLinks (life gs fs) ∧ ∀ p, (life gs fs).read p = fs.read p
  | [], _, _, hl, _ => ⟨hl, fun _ => rfl⟩
  | g :: gs, fs, hs, hl, he => by
    obtain ⟨h1, h2⟩ := gradeOnce_spec (hs g (by simp)) ⟨hl.bound, hl.own, he g (by simp)⟩
    obtain ⟨h3, h4⟩ := life_spec gs (fs := gradeOnce g fs) (fun g hg => hs g (by simp [hg])) h1 (fun g' hg p hp => by
      rw [← read_eq_none, h2, read_eq_none]
      exact he g' (by simp [hg]) p hp)
    exact ⟨h3, fun p => (h4 p).trans (h2 p)⟩

/-- **C183** (for a runner that is not killed). However many runs a runner grades, and whatever happens while it grades
them: each finds its directory empty and no links; while it is graded nothing changes outside of it; and before and
after it all files are as they were before the first one. -/
theorem C183_nothing_left_partial (gs : List Graded) (hs : ∀ g ∈ gs, Sound g) {fs : FS} (hl : NoLinks fs)
    (he : ∀ g ∈ gs, ∀ p, Within g.job.root p → fs.read p = none) :
    (∀ p, (life gs fs).read p = fs.read p) ∧
    ∀ pre g post, gs = pre ++ g :: post →
      Fresh g.job (life pre fs) ∧ (∀ p, (life pre fs).read p = fs.read p) ∧
      ∀ p, ¬ Within g.job.root p →
        (grading g.job g.steps g.writes g.validated (life pre fs)).1.read p = fs.read p := by
  have he' : ∀ g ∈ gs, ∀ p, Within g.job.root p → fs.ino p = none := fun g hg p hp => read_eq_none.1 (he g hg p hp)
  refine ⟨(life_spec gs hs hl he').2, fun pre g post hgs => ?_⟩
  have hg : g ∈ gs := by rw [hgs]; simp
  obtain ⟨h1, h2⟩ := life_spec pre (fun g hg => hs g (by rw [hgs]; simp [hg])) hl
    (fun g hg => he' g (by rw [hgs]; simp [hg]))
  have hf : Fresh g.job (life pre fs) := ⟨h1.bound, h1.own, fun p hp => by
    rw [← read_eq_none, h2]
    exact he g hg p hp⟩
  have hs' := hs g hg
  refine ⟨hf, h2, fun p hp => ?_⟩
  rw [C92_input_unmodified_partial hs'.apart hs'.noSlashes hs'.setup hs'.own g.steps rfl g.writes hs'.writes g.validated
    hs'.cases hs'.removes hf p hp]
  exact h2 p

/-! ## A runner that is killed -/

theorem noLinks_write {fs : FS} (h : NoLinks fs) (p c : Str) : NoLinks (fs.write p c) := by
  unfold FS.write FS.create
  cases hp : fs.ino p with
  | some i => exact ⟨h.bound, h.own⟩
  | none =>
    constructor
    · intro q i hq
      dsimp only [FS.set] at hq ⊢
      split at hq
      · injection hq with hq; omega
      · have := h.bound q i hq; omega
    · intro q r i hq hr
      dsimp only [FS.set] at hq hr
      split at hq <;> split at hr
      · rename_i h1 h2; rw [h1, h2]
      · injection hq with hq; have := h.bound r i hr; omega
      · injection hr with hr; have := h.bound q i hq; omega
      · exact h.own q r i hq hr

/-- A runner that is killed during a run after `n` steps of setting up; nothing is removed then, and nothing when it is
started again (/repo/cmd/omegaup-runner/main.go:237-377). -/
def killedAfter (n : Nat) (g : Graded) (fs : FS) : FS := (execOps (g.steps.take n) fs).1

/-- The sample. -/
def sampleGraded : Graded :=
  { job := sampleJob, programs := bins sampleJob, steps := sampleSteps sampleJob, writes := sampleWrites
    validated := sampleValidated }

theorem sample_sound : Sound sampleGraded where
  apart := sample_apart
  noSlashes := sample_noSlashes
  setup := by decide +kernel
  own p c hp := C92_setup_free (bs := bins sampleJob) (by decide) sample_noSlashes (by decide) (fun _ h => (by cases h))
    (ops := sampleGraded.steps.map Prod.fst) (by decide +kernel) p c hp
  writes := by decide +kernel
  cases := by decide +kernel
  removes v hv t := by
    simp only [sampleGraded, sampleValidated, List.mem_cons, List.not_mem_nil, or_false] at hv
    rcases hv with rfl | rfl <;> rfl

/-- The runs of the same problem with other numbers are graded after the first, the hypotheses of the theorem hold. -/
example : ∀ p, (life [sampleGraded, sampleGraded] (fsOf sampleFiles)).read p = (fsOf sampleFiles).read p :=
  (C183_nothing_left_partial [sampleGraded, sampleGraded] (by simpa using sample_sound)
    ⟨sample_fresh.bound, sample_fresh.own⟩ (by
      intro g hg p hp
      rw [read_eq_none]
      simp only [List.mem_cons, List.not_mem_nil, or_false, or_self] at hg
      subst hg
      exact sample_fresh.empty p hp)).1

/-- **C183 is false of a runner that is killed**: the source of the submission that it was grading stays on its disk,
whatever it grades afterwards. -/
theorem C183_killed_false : ∃ (g : Graded) (fs : FS) (n : Nat), Sound g ∧ Fresh g.job fs ∧
    ∃ p, fs.read p = none ∧ (killedAfter n g fs).read p = some g.job.source ∧
      ∀ gs : List Graded, (∀ g' ∈ gs, Sound g') →
        (∀ g' ∈ gs, ∀ p, Within g'.job.root p → (killedAfter n g fs).read p = none) →
        (life gs (killedAfter n g fs)).read p = some g.job.source := by
  refine ⟨sampleGraded, fsOf sampleFiles, 2, sample_sound, sample_fresh, c!"/run/grade/7/Main/bin/Main.java",
    by decide +kernel, by decide +kernel, fun gs hs he => ?_⟩
  have hl : NoLinks (killedAfter 2 sampleGraded (fsOf sampleFiles)) := by
    have hk : killedAfter 2 sampleGraded (fsOf sampleFiles) =
        (fsOf sampleFiles).write c!"/run/grade/7/Main/bin/Main.java" sampleJob.source := rfl
    rw [hk]
    exact noLinks_write ⟨sample_fresh.bound, sample_fresh.own⟩ _ _
  rw [(C183_nothing_left_partial gs hs hl he).1]
  decide +kernel

end Quark.Sandbox
