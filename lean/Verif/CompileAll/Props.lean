import Verif.CompileAll.Model
import Mathlib.Data.List.Perm.Basic
import Mathlib.Tactic.Push

/-!
# What a compile error tells (C164)
-/

namespace Quark.CompileAll
open Quark.ErrorFile (Jail Compiled compile getCompileError)
open Quark.MetaFile (Meta Verdict parseMetaFile)

/-! ## Specification -/

/-- The language a program is compiled as: nobody is forced to use the old C++, except contestants. -/
def asLanguage (p : Program) : String :=
  if p.kind = .contestant then p.language
  else if p.language = "cpp" then "cpp11"
  else p.language

/-- What the sandbox's meta file says. -/
def report (p : Program) (m : List Char) : Meta × Bool := parseMetaFile none (asLanguage p) m false false

/-- A program is compiled: its sources are its own, the sandbox left a meta file that can be read and says OK, and, for Java,
there is the class. -/
def IsCompiled (p : Program) : Prop :=
  p.sourcesInside = true ∧ ∃ m, p.jail.metaFile = some m ∧ (report p m).2 = false ∧ (report p m).1.verdict = .OK ∧
    (p.language = "java" → p.classFound = true)

/-- The system failed: the sources are not the program's, or there is no meta file, or it cannot be read. -/
def IsBroken (p : Program) : Prop :=
  p.sourcesInside = false ∨ p.jail.metaFile = none ∨ ∃ m, p.jail.metaFile = some m ∧ (report p m).2 = true

/-- The programs of a submission, in the order in which they are compiled, or `none` if it is refused before. -/
def programs (s : Submission) (validator : Option Program) : Option (List Program) :=
  match s with
  | .interactive parent interfaces _ =>
    if interfaces.all Option.isSome then some (parent :: interfaces.filterMap id ++ validator.toList) else none
  | .outputOnly (some _) => none
  | .outputOnly none => some validator.toList
  | .single main => some (main :: validator.toList)

/-- The metadata the sandbox gives for a program. -/
def metadata (p : Program) : Meta := (sandboxCompile p).1

/-! ## One program -/

theorem compilerLanguage_eq (p : Program) : p.compilerLanguage = asLanguage p := by
  unfold Program.compilerLanguage asLanguage
  by_cases h1 : p.kind = .contestant <;> by_cases h2 : p.language = "cpp" <;> simp [h1, h2]

theorem java_iff (p : Program) : p.compilerLanguage = "java" ↔ p.language = "java" := by
  unfold Program.compilerLanguage
  split
  · rename_i h; rw [h.2]; decide
  · rfl

theorem failed_iff (p : Program) :
    ((sandboxCompile p).2.1 = true ∨ (sandboxCompile p).1.verdict ≠ .OK) ↔ ¬IsCompiled p := by
  unfold sandboxCompile IsCompiled
  cases hs : p.sourcesInside
  · simp
  simp only [Bool.not_true, Bool.false_eq_true, if_false, true_and]
  unfold compile
  cases hm : p.jail.metaFile with
  | none => simp
  | some m =>
    have hr : report p m = parseMetaFile none p.compilerLanguage m false false := by rw [report, compilerLanguage_eq]
    simp only [Option.some.injEq, exists_eq_left', hr]
    by_cases hj : p.compilerLanguage = "java" ∧ (parseMetaFile none p.compilerLanguage m false false).1.verdict = .OK ∧
        (!p.classFound) = true
    · rw [if_pos hj]
      have h1 := (java_iff p).mp hj.1
      have h2 : p.classFound = false := by simpa using hj.2.2
      simp [h1, h2]
    · rw [if_neg hj]
      constructor
      · rintro (h | h) ⟨h1, h2, -⟩
        · exact absurd (show (parseMetaFile none p.compilerLanguage m false false).2 = true from h) (by rw [h1]; decide)
        · exact h h2
      · intro h
        by_contra hc
        push Not at hc
        apply h
        refine ⟨by simpa using hc.1, hc.2, ?_⟩
        intro hl
        by_contra hf
        exact hj ⟨(java_iff p).mpr hl, hc.2, by simpa using hf⟩

theorem err_iff (p : Program) : (sandboxCompile p).2.1 = true ↔ IsBroken p := by
  unfold sandboxCompile IsBroken
  cases hs : p.sourcesInside
  · simp
  simp only [Bool.not_true, Bool.false_eq_true, if_false]
  unfold compile
  cases hm : p.jail.metaFile with
  | none => simp
  | some m =>
    have hr : report p m = parseMetaFile none p.compilerLanguage m false false := by rw [report, compilerLanguage_eq]
    simp only [Option.some.injEq, exists_eq_left', hr]
    by_cases hj : p.compilerLanguage = "java" ∧ (parseMetaFile none p.compilerLanguage m false false).1.verdict = .OK ∧
        (!p.classFound) = true
    · rw [if_pos hj]; simp
    · rw [if_neg hj]; simp

theorem not_compiled_of_broken {p : Program} (h : IsBroken p) : ¬IsCompiled p :=
  (failed_iff p).mp (.inl ((err_iff p).mpr h))

/-! ## All programs -/

theorem compileAll_ok (missing : Str) : ∀ (ps : List Program) (done : List (Str × Meta)), (∀ p ∈ ps, IsCompiled p) →
    compileAll missing ps done =
      { verdict := .OK, compileMeta := ps.foldl (fun d p => store p.name (metadata p) d) done }
  | [], done, _ => rfl
  | p :: ps, done, h => by
    rw [compileAll, if_neg (fun hf => (failed_iff p).mp hf (h p (by simp))),
      compileAll_ok missing ps _ fun q hq => h q (by simp [hq])]
    rfl

theorem compileAll_first (missing : Str) (p : Program) (hp : ¬IsCompiled p) (after : List Program) :
    ∀ (before : List Program) (done : List (Str × Meta)), (∀ q ∈ before, IsCompiled q) →
    compileAll missing (before ++ p :: after) done =
      { verdict := .CE
        compileMeta := (before ++ [p]).foldl (fun d q => store q.name (metadata q) d) done
        compileError := some (p.name ++ [':', '\n'] ++ getCompileError missing
          (if p.language = "pas" ∨ p.language = "cs" then (sandboxCompile p).2.2.out else (sandboxCompile p).2.2.err))
        err := (sandboxCompile p).2.1 }
  | [], done, _ => by
    rw [List.nil_append, compileAll, if_pos ((failed_iff p).mpr hp)]
    rfl
  | q :: before, done, h => by
    rw [List.cons_append, compileAll, if_neg (fun hf => (failed_iff q).mp hf (h q (by simp))),
      compileAll_first missing p hp after before _ fun r hr => h r (by simp [hr])]
    rfl

/-- Either all programs of a list are compiled or there is a first one that is not. -/
theorem first_failure : ∀ ps : List Program, (∀ p ∈ ps, IsCompiled p) ∨
    ∃ before p after, ps = before ++ p :: after ∧ (∀ q ∈ before, IsCompiled q) ∧ ¬IsCompiled p
  | [] => .inl (by simp)
  | p :: ps => by
    by_cases hp : IsCompiled p
    · rcases first_failure ps with h | ⟨b, q, a, rfl, hb, hq⟩
      · left
        intro r hr
        rcases List.mem_cons.mp hr with rfl | hr
        · exact hp
        · exact h r hr
      · right
        refine ⟨p :: b, q, a, rfl, ?_, hq⟩
        intro r hr
        rcases List.mem_cons.mp hr with rfl | hr
        · exact hp
        · exact hb r hr
    · exact .inr ⟨[], p, ps, rfl, by simp, hp⟩

theorem allOf_eq : ∀ l : List (Option Program), allOf l = if l.all Option.isSome then some (l.filterMap id) else none
  | [] => rfl
  | none :: l => by simp [allOf]
  | some p :: l => by
    rw [allOf, allOf_eq l]
    by_cases h : l.all Option.isSome = true
    · rw [if_pos h, if_pos (by simpa using h)]; rfl
    · rw [if_neg h, if_neg (by simpa using h)]; rfl

/-- What is listed before anything is compiled. -/
def initially : Submission → List (Str × Meta)
  | .outputOnly none => [(['M', 'a', 'i', 'n'], { verdict := .OK, exitStatus := 0 })]
  | _ => []

theorem grade_eq (missing : Str) (s : Submission) (v : Option Program) (ps : List Program)
    (h : programs s v = some ps) : grade missing s v = compileAll missing ps (initially s) := by
  cases s with
  | interactive parent interfaces u =>
    simp only [programs] at h
    split at h
    · rename_i hn
      cases h
      simp only [grade, allOf_eq, if_pos hn, initially, List.cons_append]
    · cases h
  | outputOnly e =>
    cases e with
    | none => cases h; rfl
    | some e => cases h
  | single m => cases h; rfl

theorem grade_refused (missing : Str) (s : Submission) (v : Option Program) (h : programs s v = none) :
    ∃ e, grade missing s v = { verdict := .CE, compileError := some e } := by
  cases s with
  | interactive parent interfaces u =>
    simp only [programs] at h
    split at h
    · cases h
    · rename_i hn
      exact ⟨u, by simp only [grade, allOf_eq, if_neg hn]⟩
  | outputOnly e =>
    cases e with
    | none => cases h
    | some e => exact ⟨e, rfl⟩
  | single m => cases h

theorem foldl_store_fresh : ∀ (ps : List Program) (done : List (Str × Meta)),
    (ps.map Program.name).Nodup → (∀ p ∈ ps, p.name ∉ done.map Prod.fst) →
    ps.foldl (fun d p => store p.name (metadata p) d) done = done ++ ps.map fun p => (p.name, metadata p)
  | [], done, _, _ => by simp
  | p :: ps, done, hn, hd => by
    have hst : ∀ (l : List (Str × Meta)), p.name ∉ l.map Prod.fst → store p.name (metadata p) l = l ++ [(p.name, metadata p)] := by
      intro l
      induction l with
      | nil => intro _; rfl
      | cons x l ih =>
        intro h
        simp only [List.map_cons, List.mem_cons, not_or] at h
        rw [store, if_neg (fun e => h.1 e.symm), ih h.2]
        rfl
    rw [List.foldl_cons, hst done (hd p (by simp))]
    rw [List.map_cons, List.nodup_cons] at hn
    rw [foldl_store_fresh ps _ hn.2 ?_]
    · simp
    · intro q hq
      rw [List.map_append, List.mem_append, not_or]
      refine ⟨hd q (by simp [hq]), ?_⟩
      simp only [List.map_cons, List.map_nil, List.mem_singleton]
      intro e
      exact hn.1 (e ▸ List.mem_map_of_mem hq)

/-! ## C164 -/

/-- **C164** The cases are run exactly if the submission is not refused and every one of its programs, the problem's
included, is compiled. -/
theorem C164_run_iff (missing : Str) (s : Submission) (v : Option Program) :
    (sent (grade missing s v)).verdict = .OK ↔ ∃ ps, programs s v = some ps ∧ ∀ p ∈ ps, IsCompiled p := by
  cases hp : programs s v with
  | none =>
    obtain ⟨e, he⟩ := grade_refused missing s v hp
    rw [he]; simp [sent]
  | some ps =>
    rw [grade_eq _ _ _ _ hp]
    simp only [Option.some.injEq, exists_eq_left']
    rcases first_failure ps with h | ⟨b, q, a, rfl, hb, hq⟩
    · rw [compileAll_ok _ _ _ h]
      exact ⟨fun _ => h, fun _ => rfl⟩
    · rw [compileAll_first _ _ hq _ _ _ hb]
      constructor
      · intro h
        unfold sent at h
        by_cases he : (sandboxCompile q).2.1 = true <;> simp [he] at h
      · intro h
        exact absurd (h q (by simp)) hq

/-- **C164** The runner reports CE exactly if the submission is refused, or the first program that is not compiled (the
contestant's or the problem's own) fails without the system failing; and in this case, and in no other, there is a compile
error, which begins with the name of this program. -/
theorem C164_ce_iff_partial (missing : Str) (s : Submission) (v : Option Program) :
    ((sent (grade missing s v)).verdict = .CE ↔ programs s v = none ∨
      ∃ before p after, programs s v = some (before ++ p :: after) ∧ (∀ q ∈ before, IsCompiled q) ∧ ¬IsCompiled p ∧
        ¬IsBroken p) ∧
    ((sent (grade missing s v)).compileError.isSome = true ↔ (sent (grade missing s v)).verdict = .CE) ∧
    (∀ before p after, programs s v = some (before ++ p :: after) → (∀ q ∈ before, IsCompiled q) → ¬IsCompiled p →
      ¬IsBroken p → ∃ text, (sent (grade missing s v)).compileError = some (p.name ++ [':', '\n'] ++ text)) := by
  cases hp : programs s v with
  | none =>
    obtain ⟨e, he⟩ := grade_refused missing s v hp
    rw [he]; simp [sent]
  | some ps =>
    rw [grade_eq _ _ _ _ hp]
    rcases first_failure ps with h | ⟨b, q, a, rfl, hb, hq⟩
    · rw [compileAll_ok _ _ _ h]
      refine ⟨⟨fun h' => absurd h' (by simp [sent]), ?_⟩, by simp [sent], ?_⟩
      · rintro (h' | ⟨b, p, a, h', -, hq, -⟩)
        · cases h'
        · cases h'; exact absurd (h p (by simp)) hq
      · intro b p a h' _ hq
        cases h'; exact absurd (h p (by simp)) hq
    · have uniq : ∀ b' p' a', b ++ q :: a = b' ++ p' :: a' → (∀ r ∈ b', IsCompiled r) → ¬IsCompiled p' → p' = q := by
        intro b' p' a' he hb' hp'
        rcases List.append_eq_append_iff.mp he with ⟨c, h1, h2⟩ | ⟨c, h1, h2⟩
        · cases c with
          | nil => simp at h2; exact h2.1.symm
          | cons x c =>
            injection h2 with h3 h4
            exact absurd (hb' q (by rw [h1, h3]; simp)) hq
        · cases c with
          | nil => simp at h2; exact h2.1
          | cons x c =>
            injection h2 with h3 h4
            exact absurd (hb p' (by rw [h1, h3]; simp)) hp'
      rw [compileAll_first _ _ hq _ _ _ hb]
      by_cases hbr : IsBroken q
      · have herr := (err_iff q).mpr hbr
        simp only [sent, herr, if_true]
        refine ⟨⟨fun h => absurd h (by simp), ?_⟩, by simp, ?_⟩
        · rintro (h' | ⟨b', p', a', h', hb', hp', hnb⟩)
          · cases h'
          · injection h' with h'
            exact absurd ((uniq b' p' a' h' hb' hp') ▸ hbr) hnb
        · intro b' p' a' h' hb' hp' hnb
          injection h' with h'
          exact absurd ((uniq b' p' a' h' hb' hp') ▸ hbr) hnb
      · have herr : (sandboxCompile q).2.1 = false := by
          rw [← Bool.not_eq_true, err_iff]; exact hbr
        simp only [sent, herr, Bool.false_eq_true, if_false]
        refine ⟨⟨fun _ => .inr ⟨b, q, a, rfl, hb, hq, hbr⟩, fun _ => trivial⟩, by simp, ?_⟩
        intro b' p' a' h' hb' hp' _
        injection h' with h'
        rw [uniq b' p' a' h' hb' hp']
        exact ⟨_, rfl⟩

/-- **C164** When the system fails at the first program that is not compiled, what is sent is JE, without anything of what
the compiler said and without the metadata of the programs compiled before. -/
theorem C164_system (missing : Str) (s : Submission) (v : Option Program) (before : List Program) (p : Program)
    (after : List Program) (h : programs s v = some (before ++ p :: after)) (hb : ∀ q ∈ before, IsCompiled q)
    (hp : IsBroken p) : sent (grade missing s v) = { verdict := .JE, compileMeta := [], compileError := none, err := false } := by
  rw [grade_eq _ _ _ _ h, compileAll_first _ _ (not_compiled_of_broken hp) _ _ _ hb, sent, if_pos ((err_iff p).mpr hp)]

/-- **C164** With programs of different names, the result lists each program up to and including the first that is not
compiled, in order and with its own metadata, and no other (but for output-only submissions, where it begins with Main). -/
theorem C164_listed (missing : Str) (s : Submission) (v : Option Program) (ps : List Program) (h : programs s v = some ps)
    (hn : (ps.map Program.name).Nodup) (hmain : s = .outputOnly none → ∀ p ∈ ps, p.name ≠ ['M', 'a', 'i', 'n']) :
    ((∀ p ∈ ps, IsCompiled p) →
      (grade missing s v).compileMeta = initially s ++ ps.map fun p => (p.name, metadata p)) ∧
    ∀ before p after, ps = before ++ p :: after → (∀ q ∈ before, IsCompiled q) → ¬IsCompiled p →
      (grade missing s v).compileMeta = initially s ++ (before ++ [p]).map fun p => (p.name, metadata p) := by
  have hd : ∀ qs : List Program, (∀ p ∈ qs, p ∈ ps) → ∀ p ∈ qs, p.name ∉ (initially s).map Prod.fst := by
    intro qs hsub p hp
    cases s with
    | outputOnly e =>
      cases e with
      | none => simpa [initially] using hmain rfl p (hsub p hp)
      | some e => simp [initially]
    | _ => simp [initially]
  constructor
  · intro hall
    rw [grade_eq _ _ _ _ h, compileAll_ok _ _ _ hall]
    exact foldl_store_fresh ps _ hn (hd ps fun _ hp => hp)
  · rintro b p a rfl hb hp
    rw [grade_eq _ _ _ _ h, compileAll_first _ _ hp _ _ _ hb]
    refine foldl_store_fresh _ _ ?_ (hd _ ?_)
    · have : (b ++ p :: a) = (b ++ [p]) ++ a := by simp
      rw [this, List.map_append, List.nodup_append] at hn
      exact hn.1
    · intro q hq
      rcases List.mem_append.mp hq with hq | hq
      · simp [hq]
      · rw [List.mem_singleton.mp hq]; simp

/-- The metadata listed for a program is what its meta file says, but for a Java program without its class. -/
theorem C164_metadata (p : Program) (hs : p.sourcesInside = true) (m : List Char) (hm : p.jail.metaFile = some m) :
    ((p.language ≠ "java" ∨ p.classFound = true) → metadata p = (report p m).1) ∧
    (p.language = "java" → p.classFound = false → (report p m).1.verdict = .OK →
      metadata p = { (report p m).1 with verdict := .CE }) := by
  have hr : report p m = parseMetaFile none p.compilerLanguage m false false := by rw [report, compilerLanguage_eq]
  unfold metadata sandboxCompile compile
  simp only [hs, hm, hr, Bool.not_true, Bool.false_eq_true, if_false]
  constructor
  · intro h
    rw [if_neg]
    rintro ⟨h1, -, h2⟩
    rcases h with h | h
    · exact h ((java_iff p).mp h1)
    · rw [h] at h2; cases h2
  · intro h1 h2 h3
    rw [if_pos ⟨(java_iff p).mpr h1, h3, by rw [h2]; rfl⟩]

theorem all_perm {l l' : List (Option Program)} (h : l.Perm l') : l.all Option.isSome = l'.all Option.isSome := by
  rw [Bool.eq_iff_iff, List.all_eq_true, List.all_eq_true]
  simp only [h.mem_iff]

/-- **C164** Whether the cases are run does not depend on the order in which Go visits the interfaces. -/
theorem C164_order (missing : Str) (parent : Program) (l l' : List (Option Program)) (u : Str) (v : Option Program)
    (h : l.Perm l') :
    (sent (grade missing (.interactive parent l u) v)).verdict = .OK ↔
      (sent (grade missing (.interactive parent l' u) v)).verdict = .OK := by
  rw [C164_run_iff, C164_run_iff]
  simp only [programs, all_perm h]
  by_cases hn : l'.all Option.isSome = true
  swap
  · simp [hn]
  · simp only [hn, if_true, Option.some.injEq, exists_eq_left']
    have : ∀ p, p ∈ parent :: l.filterMap id ++ v.toList ↔ p ∈ parent :: l'.filterMap id ++ v.toList := by
      intro p
      simp only [List.cons_append, List.mem_cons, List.mem_append, (h.filterMap id).mem_iff]
    simp only [this]

/-- **C164** As long as the system does not fail, neither does the verdict. -/
theorem C164_order_verdict (missing : Str) (parent : Program) (l l' : List (Option Program)) (u : Str)
    (v : Option Program) (h : l.Perm l')
    (hb : ∀ p ∈ parent :: l.filterMap id ++ v.toList, ¬IsBroken p) :
    (sent (grade missing (.interactive parent l u) v)).verdict =
      (sent (grade missing (.interactive parent l' u) v)).verdict := by
  have two : ∀ l : List (Option Program), (∀ p ∈ parent :: l.filterMap id ++ v.toList, ¬IsBroken p) →
      (sent (grade missing (.interactive parent l u) v)).verdict ≠ .OK →
      (sent (grade missing (.interactive parent l u) v)).verdict = .CE := by
    intro l hb hne
    rw [(C164_ce_iff_partial _ _ _).1]
    by_cases hn : l.all Option.isSome = true
    swap
    · left; simp only [programs, if_neg hn]
    · right
      have hps : programs (.interactive parent l u) v = some (parent :: l.filterMap id ++ v.toList) := by
        simp only [programs, if_pos hn]
      rcases first_failure (parent :: l.filterMap id ++ v.toList) with h | ⟨b, q, a, he, hb', hq⟩
      · exact absurd ((C164_run_iff _ _ _).mpr ⟨_, hps, h⟩) hne
      · exact ⟨b, q, a, he ▸ hps, hb', hq, hb q (by rw [he]; simp)⟩
  have hb2 : ∀ p ∈ parent :: l'.filterMap id ++ v.toList, ¬IsBroken p := by
    intro p hp
    apply hb
    simp only [List.cons_append, List.mem_cons, List.mem_append, (h.filterMap id).mem_iff] at hp ⊢
    exact hp
  by_cases hok : (sent (grade missing (.interactive parent l u) v)).verdict = .OK
  · rw [hok, ((C164_order missing parent l l' u v h).mp hok)]
  · rw [two l hb hok, two l' hb2 (fun h' => hok ((C164_order missing parent l l' u v h).mpr h'))]

/-! ## Examples -/

/-- A program for which the compiler's status is given. -/
def sample (name : String) (kind : Kind) (lang : String) (metaText : Option String) (err : String) : Program where
  name := name.toList
  target := name.toList
  language := lang
  kind := kind
  jail := { out := some [], err := some err.toList, metaFile := metaText.map String.toList, said := some [] }

def good (name : String) (kind : Kind) : Program := sample name kind "cpp" (some "status:0\n") ""
def bad (name : String) (kind : Kind) : Program := sample name kind "cpp" (some "status:1\n") "oops"
def lost (name : String) (kind : Kind) : Program := sample name kind "cpp" none "oops"

instance (p : Program) : Decidable (IsCompiled p) :=
  if h : (sandboxCompile p).2.1 = true ∨ (sandboxCompile p).1.verdict ≠ .OK then .isFalse ((failed_iff p).mp h)
  else .isTrue (by by_contra hc; exact h ((failed_iff p).mpr hc))

-- the contestant's program is compiled but the validator is not
theorem C164_validator_blamed :
    IsCompiled (good "Main" .contestant) ∧
    ((sent (grade [] (.single (good "Main" .contestant)) (some (bad "validator" .validator)))).verdict,
     (sent (grade [] (.single (good "Main" .contestant)) (some (bad "validator" .validator)))).compileError.map
      String.ofList) = (.CE, some "validator:\noops") := by
  decide +kernel

/-- **C164** So it is false that CE means that the contestant's program was not compiled. -/
theorem C164_false : ¬ ∀ (missing : Str) (main validator : Program), main.kind = .contestant → validator.kind = .validator →
    IsCompiled main → (sent (grade missing (.single main) (some validator))).verdict ≠ .CE := by
  intro h
  have h1 := C164_validator_blamed
  exact h [] _ _ rfl rfl h1.1 (congrArg Prod.fst h1.2)

-- the order of the interfaces decides between CE and JE
example : (sent (grade [] (.interactive (good "Main" .problemsetter)
      [some (bad "a" .contestant), some (lost "b" .contestant)] []) none)).verdict = .CE ∧
    (sent (grade [] (.interactive (good "Main" .problemsetter)
      [some (lost "b" .contestant), some (bad "a" .contestant)] []) none)).verdict = .JE := by
  decide +kernel

-- an interactive problem whose second interface fails
example : ((grade [] (.interactive (good "Main" .problemsetter)
      [some (good "a" .contestant), some (bad "b" .contestant)] []) (some (good "validator" .validator))).compileMeta.map
      fun x => (String.ofList x.1, x.2.verdict)) = [("Main", .OK), ("a", .OK), ("b", .RTE)] := by
  decide +kernel

-- the hypotheses of `C164_listed`, `C164_order` and `C164_order_verdict`: an interactive problem with a validator
example : (grade [] (.interactive (good "Main" .problemsetter)
      [some (good "a" .contestant), some (bad "b" .contestant)] []) (some (good "validator" .validator))).compileMeta =
    ([good "Main" .problemsetter, good "a" .contestant] ++ [bad "b" .contestant]).map fun p => (p.name, metadata p) :=
  (C164_listed [] _ (some (good "validator" .validator)) [good "Main" .problemsetter, good "a" .contestant,
    bad "b" .contestant, good "validator" .validator] rfl (by decide +kernel) (by simp)).2
    [good "Main" .problemsetter, good "a" .contestant] (bad "b" .contestant) [good "validator" .validator] rfl
    (by decide +kernel) (by decide +kernel)

example : (sent (grade [] (.interactive (good "Main" .problemsetter) [some (bad "a" .contestant), some (good "b" .contestant)]
      []) none)).verdict =
    (sent (grade [] (.interactive (good "Main" .problemsetter) [some (good "b" .contestant), some (bad "a" .contestant)]
      []) none)).verdict :=
  C164_order_verdict _ _ _ _ _ _ (.swap _ _ _) (by
    intro p hp
    have : p = good "Main" .problemsetter ∨ p = bad "a" .contestant ∨ p = good "b" .contestant := by
      simpa using hp
    rcases this with rfl | rfl | rfl <;> rw [← err_iff] <;> decide +kernel)

-- the hypotheses of `C164_system`: the meta file of the second program is missing
example : sent (grade [] (.single (good "Main" .contestant)) (some (lost "validator" .validator))) =
    { verdict := .JE, compileMeta := [], compileError := none, err := false } :=
  C164_system _ _ _ [good "Main" .contestant] (lost "validator" .validator) [] rfl (by decide +kernel)
    ((err_iff _).mp (by decide +kernel))

-- and of `C164_metadata`: a Java program that compiles without the class it should have
example : (metadata { sample "Main" .contestant "java" (some "status:0\n") "" with classFound := false }).verdict = .CE := by
  rw [(C164_metadata { sample "Main" .contestant "java" (some "status:0\n") "" with classFound := false } rfl
    "status:0\n".toList rfl).2 rfl rfl (by decide +kernel)]

end Quark.CompileAll
