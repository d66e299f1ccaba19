import Verif.Sandbox.Samples

/-! # Setting up a run: directories before files (C137), and what the problem's program reads (C93) -/

namespace Quark.Sandbox

open Path Spec

/-! ## C137 -/

/-- The file or pipe that a step puts in place. -/
def Op.target : Op → Option Str
  | .mkdir _ => none
  | .copy _ dst => some dst
  | .write p _ => some p
  | .fifo p => some p

/-- Every file or pipe goes to a directory that an earlier step has made. -/
def DirsFirst (ops : List Op) : Prop :=
  ∀ pre op post p, ops = pre ++ op :: post → op.target = some p →
    ∃ d n, Name n ∧ p = join [d, n] ∧ Op.mkdir d ∈ pre

/-- The same, with some steps done before. -/
def Ready (D ops : List Op) : Prop :=
  ∀ pre op post p, ops = pre ++ op :: post → op.target = some p →
    ∃ d n, Name n ∧ p = join [d, n] ∧ Op.mkdir d ∈ D ++ pre

theorem ready_nil (D : List Op) : Ready D [] := by
  intro pre op post p h
  simp at h

theorem ready_cons {D : List Op} {op : Op} {ops : List Op}
    (h1 : ∀ p, op.target = some p → ∃ d n, Name n ∧ p = join [d, n] ∧ Op.mkdir d ∈ D)
    (h2 : Ready (D ++ [op]) ops) : Ready D (op :: ops) := by
  intro pre o post p h ht
  cases pre with
  | nil =>
    simp only [List.nil_append, List.cons.injEq] at h
    obtain ⟨d, n, a, b, c⟩ := h1 p (by rw [h.1]; exact ht)
    exact ⟨d, n, a, b, by simpa using c⟩
  | cons x pre =>
    simp only [List.cons_append, List.cons.injEq] at h
    obtain ⟨d, n, a, b, c⟩ := h2 pre o post p h.2 ht
    refine ⟨d, n, a, b, ?_⟩
    rw [← h.1]
    simpa using c

theorem ready_append {D a b : List Op} (ha : Ready D a) (hb : Ready (D ++ a) b) : Ready D (a ++ b) := by
  induction a generalizing D with
  | nil => simpa using hb
  | cons x a ih =>
    refine ready_cons (fun p hp => ?_) (ih (fun pre op post p h hp => ?_) (by simpa using hb))
    · obtain ⟨d, n, u, v, w⟩ := ha [] x a p rfl hp
      exact ⟨d, n, u, v, by simpa using w⟩
    · obtain ⟨d, n, u, v, w⟩ := ha (x :: pre) op post p (by rw [h]; rfl) hp
      exact ⟨d, n, u, v, by simpa using w⟩

theorem ready_mono {D D' ops : List Op} (h : Ready D ops) (hs : ∀ d, Op.mkdir d ∈ D → Op.mkdir d ∈ D') : Ready D' ops := by
  intro pre op post p he ht
  obtain ⟨d, n, u, v, w⟩ := h pre op post p he ht
  refine ⟨d, n, u, v, ?_⟩
  rcases List.mem_append.1 w with w | w
  · exact List.mem_append_left _ (hs _ w)
  · exact List.mem_append_right _ w

/-- Steps that all go to directories made before. -/
theorem ready_all {D ops : List Op}
    (h : ∀ op ∈ ops, ∀ p, op.target = some p → ∃ d n, Name n ∧ p = join [d, n] ∧ Op.mkdir d ∈ D) : Ready D ops := by
  intro pre op post p he ht
  obtain ⟨d, n, u, v, w⟩ := h op (by rw [he]; simp) p ht
  exact ⟨d, n, u, v, List.mem_append_left _ w⟩

theorem join_bin {d n x : Str} (hd : d ≠ []) : join [d, n, c!"bin", x] = join [join [d, n, c!"bin"], x] :=
  (join_join hd [n, c!"bin"] [x]).symm

theorem ready_iface {j : Job} {ia : Interactive} (hr : j.root ≠ []) (ht : Tidy j ia) {ifaces : List Str}
    {f : Str × List (Str × Iface)} (hf : f ∈ ia.interfaces) {D ops : List Op}
    (ho : ifaceOps j ia ifaces f.1 f.2 = some ops) (hD : Op.mkdir (join [j.root, f.1, c!"bin"]) ∈ D) : Ready D ops := by
  unfold ifaceOps at ho
  dsimp only at ho
  split at ho
  · cases ho
  next iface hg =>
  cases ho
  refine ready_append (ready_all ?_) ?_
  · intro op hop p hp
    obtain ⟨g, hgm, rfl⟩ := List.mem_map.1 hop
    have hn := (ht.files f hf _ (get_mem hg) g hgm).1
    simp only [Op.target, Option.some.injEq] at hp
    refine ⟨_, _, hn, ?_, hD⟩
    rw [← hp, slash_iface hr (ht.names f hf).1 hn, join_bin hr]
  · split
    · refine ready_all ?_
      intro op hop p hp
      obtain ⟨g, -, rfl⟩ := List.mem_map.1 hop
      simp [Op.target] at hp
    · refine ready_cons (fun p hp => ?_) (ready_cons (fun p hp => ?_) (ready_cons (fun p hp => ?_)
        (ready_cons (fun p hp => ?_) (ready_cons (fun p hp => ?_) (ready_nil _)))))
      · simp only [Op.target, Option.some.injEq] at hp
        refine ⟨_, _, ht.moduleName, ?_, List.mem_append_left _ hD⟩
        rw [← hp, ← join_bin hr, ← slash_iface hr (ht.names f hf).1 ht.moduleName]
        simp
      · simp [Op.target] at hp
      · simp [Op.target] at hp
      · simp only [Op.target, Option.some.injEq] at hp
        exact ⟨_, c!"in", by decide, hp.symm, by simp⟩
      · simp only [Op.target, Option.some.injEq] at hp
        exact ⟨_, c!"out", by decide, hp.symm, by simp⟩

theorem ready_ifaces {j : Job} {ia : Interactive} (hr : j.root ≠ []) (ht : Tidy j ia) {ifaces : List Str}
    {l : List (Str × List (Str × Iface))} (hl : ∀ f ∈ l, f ∈ ia.interfaces) {D ops : List Op}
    (ho : ifacesOps j ia ifaces l = some ops) (hD : ∀ f ∈ l, Op.mkdir (join [j.root, f.1, c!"bin"]) ∈ D) :
    Ready D ops := by
  induction l generalizing ops D with
  | nil => cases ho; exact ready_nil _
  | cons f l ih =>
    obtain ⟨name, langs⟩ := f
    rw [ifacesOps] at ho
    split at ho
    next o1 o2 h1 h2 =>
      cases ho
      refine ready_append (ready_iface hr ht (f := (name, langs)) (hl _ (by simp)) h1 (hD _ (by simp))) ?_
      exact ih (fun f hf => hl f (by simp [hf])) h2 (fun f hf => List.mem_append_left _ (hD f (by simp [hf])))
    · cases ho

theorem binDirs_mem {j : Job} {bs : List Binary} {b : Binary} (hb : b ∈ bs) (ht : b.type ≠ .validator) :
    Op.mkdir (join [j.root, b.name, c!"bin"]) ∈ binDirs j bs :=
  List.mem_map.2 ⟨b, List.mem_filter.2 ⟨hb, by simpa using ht⟩, rfl⟩

/-- **C137** Setting up a run puts files and pipes only into directories that it has made before, whatever the
problem and the submission. -/
theorem C137_directories_first (j : Job) (hr : j.root ≠ []) (hs : NoSlashes j) (hl : '/' ∉ j.language)
    (hia : ∀ ia, j.interactive = some ia → ia.main = c!"Main" ∧ Tidy j ia)
    (bs : List Binary) (h : binaries j = .ok bs) (ops : List Op) (ho : setupOps j bs = some ops) : DirsFirst ops := by
  suffices hR : Ready [] ops by
    intro pre op post p he ht
    simpa using hR pre op post p he ht
  have hval : ∀ D, Ready D (match j.validator with
      | some lang => [Op.mkdir (validatorBin j),
          Op.copy (join [j.inputPath, c!"validator." ++ lang]) (join [validatorBin j, c!"validator." ++ extension lang])]
      | none => []) := by
    intro D
    cases hv : j.validator with
    | none => exact ready_nil _
    | some lang =>
      refine ready_cons (fun p hp => by simp [Op.target] at hp) (ready_cons (fun p hp => ?_) (ready_nil _))
      simp only [Op.target, Option.some.injEq] at hp
      exact ⟨_, _, name_ext (a := c!"validator") (by decide) (by decide) (slash_extension (hs.validator lang hv)),
        hp.symm, by simp⟩
  unfold setupOps at ho
  dsimp only at ho
  cases hi : j.interactive with
  | none =>
    simp only [hi, Option.map_some, Option.some.injEq] at ho
    rw [← ho]
    refine ready_append (ready_cons (fun p hp => by simp [Op.target] at hp) (ready_cons (fun p hp => ?_) (ready_nil _)))
      (hval _)
    simp only [Op.target, Option.some.injEq] at hp
    exact ⟨_, _, name_ext (a := c!"Main") (by decide) (by decide) (slash_extension hl), hp.symm, by simp⟩
  | some ia =>
    obtain ⟨hmain, htidy⟩ := hia ia hi
    simp only [hi] at ho
    cases hio : ifacesOps j ia (ia.interfaces.map Prod.fst) ia.interfaces with
    | none => simp [hio] at ho
    | some o =>
      simp only [hio, Option.map_some, Option.some.injEq] at ho
      rw [← ho]
      obtain ⟨rb, h1, h2, -, h4⟩ := binaries_split h
      rcases h4 with ⟨h4, -⟩ | ⟨ia', rs, cs, h4, h5, h6⟩
      · rw [hi] at h4; cases h4
      rw [hi] at h4; cases h4
      have hsub : ∀ b ∈ rb, b ∈ bs ∧ b.type ≠ .validator := fun b hb => by
        rw [← h2] at hb; simpa using List.mem_filter.1 hb
      have hdir : ∀ n : Str, n = c!"Main" ∨ n ∈ ia.interfaces.map Prod.fst →
          Op.mkdir (join [j.root, n, c!"bin"]) ∈ binDirs j bs := by
        intro n hn
        have main : Op.mkdir (join [j.root, c!"Main", c!"bin"]) ∈ binDirs j bs := by
          obtain ⟨a, b⟩ := hsub (parentBinary j ia rs) (by rw [h5]; simp)
          have := binDirs_mem (j := j) a b
          rwa [show (parentBinary j ia rs).name = c!"Main" from hmain] at this
        by_cases hM : n = c!"Main"
        · rw [hM]; exact main
        · have hm := hn.resolve_left hM
          obtain ⟨c1, -, -⟩ := children_names h6
          have : n ∈ cs.map Binary.name := by
            rw [c1, List.mem_filter]
            exact ⟨hm, by rw [hmain]; simpa using hM⟩
          obtain ⟨b, hb, rfl⟩ := List.mem_map.1 this
          obtain ⟨a, c⟩ := hsub b (by rw [h5]; simp [hb])
          exact binDirs_mem a c
      refine ready_append (ready_append (ready_all ?_) (ready_cons (fun p hp => ?_) (ready_ifaces hr htidy
        (fun f hf => hf) hio ?_))) (hval _)
      · intro op hop p hp
        obtain ⟨b, -, rfl⟩ := List.mem_map.1 hop
        simp [Op.target] at hp
      · simp only [Op.target, Option.some.injEq] at hp
        refine ⟨join [j.root, c!"Main", c!"bin"], c!"Main." ++ extension ia.parentLang,
          name_ext (a := c!"Main") (by decide) (by decide) (slash_extension (hs.parent ia hi)), ?_,
          by simpa using hdir _ (.inl rfl)⟩
        rw [← hp, ← join_bin hr, join_mainbin hr (hs.parent ia hi)]
      · intro f hf
        exact List.mem_append_left _ (by simpa using hdir f.1 (.inr (List.mem_map.2 ⟨f, hf, rfl⟩)))

/-- **C137** Every program that is going to be compiled and run has its directory made. -/
theorem C137_every_program (j : Job) (bs : List Binary) (h : binaries j = .ok bs) (ops : List Op)
    (ho : setupOps j bs = some ops) (b : Binary) (hb : b ∈ bs) : Op.mkdir (join [j.root, b.name, c!"bin"]) ∈ ops := by
  unfold setupOps at ho
  dsimp only at ho
  rcases binaries_mem h hb with ⟨hi, -, rfl⟩ | ⟨ia, rs, hi, rfl⟩ | ⟨ia, rs, hi, -, -, he⟩ | ⟨lang, hv, rfl⟩
  · simp only [hi, Option.map_some, Option.some.injEq] at ho
    rw [← ho]
    simp [mainBinary]
  · simp only [hi] at ho
    cases hio : ifacesOps j ia (ia.interfaces.map Prod.fst) ia.interfaces with
    | none => simp [hio] at ho
    | some o =>
      simp only [hio, Option.map_some, Option.some.injEq] at ho
      rw [← ho]
      exact List.mem_append_left _ (List.mem_append_left _ (binDirs_mem hb (by simp [parentBinary])))
  · simp only [hi] at ho
    cases hio : ifacesOps j ia (ia.interfaces.map Prod.fst) ia.interfaces with
    | none => simp [hio] at ho
    | some o =>
      simp only [hio, Option.map_some, Option.some.injEq] at ho
      rw [← ho]
      exact List.mem_append_left _ (List.mem_append_left _ (binDirs_mem hb (by rw [he]; simp [childBinary])))
  · obtain ⟨r, -, hr⟩ := Option.map_eq_some_iff.1 ho
    rw [← hr, hv]
    simp [validatorBinary, validatorBin]

/-- The hypotheses are met by the interactive sample, whose steps are these. -/
example : DirsFirst ((setupOps iaJob (bins iaJob)).getD []) ∧
    (setupOps iaJob (bins iaJob)).isSome = true ∧
    ((setupOps iaJob (bins iaJob)).getD []).filterMap Op.target =
      [c!"/run/grade/7/Main/bin/Main.cpp", c!"/run/grade/7/Main/bin/Main_entry.cpp",
       c!"/run/grade/7/alice/bin/alice_entry.py", c!"/run/grade/7/alice/bin/sums.py", c!"/run/grade/7/alice/pipes/in",
       c!"/run/grade/7/alice/pipes/out", c!"/run/grade/7/validator/bin/validator.cpp"] := by
  refine ⟨C137_directories_first iaJob (by decide) ia_noSlashes (by decide) ?_ (bins iaJob) rfl _ ?_, ?_, ?_⟩
  · intro ia hi; cases hi; exact ⟨by decide, ia_tidy⟩
  · decide +kernel
  · decide +kernel
  · decide +kernel

/-! ## C93: what the parent reads -/

/-- **C93** The problem's program reads the input of the case and is told its name and the language of the
contestant. -/
theorem C93_parent_input (j : Job) (bs : List Binary)
    (h : binaries j = .ok bs) (b : Binary) (hb : b ∈ bs) (ht : b.type = .problemsetter) (case : Str)
    (hin : join [j.inputPath, c!"cases", case ++ c!".in"] ≠ c!"/dev/null") :
    values c!"-0" (runParams (runCall j case b)) = [join [j.inputPath, c!"cases", case ++ c!".in"]] ∧
    rest (runParams (runCall j case b)) = [case, j.language] := by
  obtain ⟨ia, rs, -, rfl⟩ := problemsetter_cases h hb ht
  refine ⟨?_, by rw [rest_runParams]; rfl⟩
  rw [values_0]
  have : (runCall j case (parentBinary j ia rs)).input = join [j.inputPath, c!"cases", case ++ c!".in"] := rfl
  unfold stdin
  rw [this, if_neg hin]

/-! ## C94: what the validator is told -/

/-- **C94** The custom validator reads what the contestant's program printed, and is told the name of the case and the language of the
contestant. -/
theorem C94_validator_input (j : Job) (lang case : Str) (hasOutput : Bool) (hin : join [j.root, case ++ c!".out"] ≠ c!"/dev/null") :
    values c!"-0" (runParams (validatorCall j lang case hasOutput)) = [join [j.root, case ++ c!".out"]] ∧
    rest (runParams (validatorCall j lang case hasOutput)) = [case, j.language] := by
  refine ⟨?_, by rw [rest_runParams]; rfl⟩
  rw [values_0]
  have : (validatorCall j lang case hasOutput).input = join [j.root, case ++ c!".out"] := rfl
  unfold stdin
  rw [this, if_neg hin]

/-- The C++ validator of the interactive sample, on case 1. -/
example : rest (runParams (validatorCall iaJob c!"cpp" c!"1" true)) = [c!"1", iaJob.language] ∧
    join [iaJob.root, c!"1.out"] ≠ c!"/dev/null" :=
  ⟨(C94_validator_input iaJob c!"cpp" c!"1" true (by decide)).2, by decide⟩

/-! ## A failed setup ends the run -/

/-- **C92** If setting up fails, nothing is compiled, run or validated: no file is written after the step that failed. -/
theorem C92_failed_setup (j : Job) (steps : List (Op × Bool × CopyEnv)) (writes : List (Str × Str)) (vs : List Validated)
    (fs : FS) (h : (execOps steps fs).2 = true) : grading j steps writes vs fs = ((execOps steps fs).1, []) := by
  unfold grading beforeValidation
  generalize execOps steps fs = x at *
  obtain ⟨fs', b⟩ := x
  obtain rfl : b = true := h
  rfl

/-- A full disk at the first step. -/
example : (execOps ((sampleSteps sampleJob).map fun x => (x.1, false, x.2.2)) (fsOf sampleFiles)).2 = true := by
  decide +kernel

end Quark.Sandbox
