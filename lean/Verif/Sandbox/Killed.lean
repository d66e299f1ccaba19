import Verif.Sandbox.First

/-!
# What a killed runner left does not matter to other runs: C183

A runner that is killed leaves the directory of its run (C183_killed_false). Here: runs whose directory is another one
are graded as if that had not happened.
-/

namespace Quark.Sandbox

open Path Spec

section
variable {D : Str → Prop}

theorem run_same (env : PlaceEnv) (o : Outcome) (c : RunCall) (hl : ∀ x ∈ fileLinks c, D x.1 ∧ D x.2) (h1 : D c.output)
    (h2 : D c.error) (h3 : D c.metaFile) {fs fs' : FS} (h : Same D fs fs') :
    Same D (run env o c fs).1 (run env o c fs').1 ∧
      Option.Rel (fun a b => a.params = b.params ∧ Same D a.fs b.fs) (run env o c fs).2 (run env o c fs').2 := by
  obtain ⟨p1, p2⟩ := Same.place env (fileLinks c) h hl
  unfold run
  rcases hx : place env (fileLinks c) fs with ⟨f, e⟩
  rcases hy : place env (fileLinks c) fs' with ⟨f', e'⟩
  rw [hx, hy] at p1 p2
  dsimp only at p1 p2
  subst p2
  cases e with
  | true => exact ⟨p1, .none⟩
  | false => exact ⟨((p1.write h1 _).write h2 _).write h3 _, .some ⟨rfl, p1⟩⟩

/-- What the calls of the validator find, as far as the names in `D` go. -/
def SameCallsOn (D : Str → Prop) (a b : Str × Option Invocation) : Prop :=
  a.1 = b.1 ∧ Option.Rel (fun x y : Invocation => x.params = y.params ∧ Same D x.fs y.fs) a.2 b.2

theorem validate_same {j : Job} (ha : Apart j) (hr : ∀ p, Within j.root p → D p) (hi : ∀ p, Within j.inputPath p → D p)
    (lang : Str) : ∀ (vs : List Validated) {fs fs' : FS}, (∀ v ∈ vs, '/' ∉ v.case) → Same D fs fs' →
    Same D (validate j lang vs fs).1 (validate j lang vs fs').1 ∧
      List.Forall₂ (SameCallsOn D) (validate j lang vs fs).2 (validate j lang vs fs').2
  | [], _, _, _, h => ⟨h, .nil⟩
  | v :: rest, fs, fs', hc, h => by
    have hv := hc v (by simp)
    have hout : D (join [j.inputPath, c!"cases", v.case ++ c!".out"]) :=
      hi _ (within_case ha.input hv (by decide) (by decide))
    have hin : D (join [j.inputPath, c!"cases", v.case ++ c!".in"]) :=
      hi _ (within_case ha.input hv (by decide) (by decide))
    have ho : (fs.ino (join [j.inputPath, c!"cases", v.case ++ c!".out"])).isSome =
        (fs'.ino (join [j.inputPath, c!"cases", v.case ++ c!".out"])).isSome := by
      have hn := h.none_iff hout
      cases h1 : fs.ino (join [j.inputPath, c!"cases", v.case ++ c!".out"]) <;>
        cases h2 : fs'.ino (join [j.inputPath, c!"cases", v.case ++ c!".out"]) <;> rw [h1, h2] at hn <;> simp_all
    have hdirect : ∀ es : List Str, (∀ e ∈ es, Name e) → D (join (j.root :: es)) :=
      fun es he => hr _ (within_join ha.root he)
    have hw : ∀ p ∈ validatorFiles j v.case, D p := fun p hp => hr _ (written_within ha.root ⟨v.case, hv, hp⟩)
    unfold validate
    dsimp only
    rw [ho]
    obtain ⟨h1, h2⟩ := run_same v.env v.outcome
      (validatorCall j lang v.case (fs'.ino (join [j.inputPath, c!"cases", v.case ++ c!".out"])).isSome)
      (by
        rw [fileLinks_validator ha.root lang v.case _ (caseOut_ne_null ha.input hv)]
        have d1 : D (dataIn j) := hdirect _ (by decide)
        have d2 : D (dataOut j) := hdirect _ (by decide)
        have d3 : D (metaIn j) := hdirect _ (by decide)
        have d4 : D (caseMeta j v.case) := hdirect _ (by
          intro e he
          rw [List.mem_singleton.1 he]
          exact name_long hv (by decide) (by decide))
        intro x hx
        rcases List.mem_cons.1 hx with rfl | hx
        · exact ⟨hin, d1⟩
        · rcases List.mem_append.1 hx with hx | hx
          · split at hx
            · rw [List.mem_singleton.1 hx]; exact ⟨hout, d2⟩
            · cases hx
          · rw [List.mem_singleton.1 hx]; exact ⟨d4, d3⟩)
      (hw _ (List.mem_cons_self ..)) (hw _ (List.mem_cons_of_mem _ (List.mem_cons_self ..)))
      (hw _ (List.mem_cons_of_mem _ (List.mem_cons_of_mem _ (List.mem_cons_self ..)))) h
    obtain ⟨h3, h4⟩ := validate_same ha hr hi lang rest (fun w hw => hc w (by simp [hw])) h1
    exact ⟨h3, .cons ⟨rfl, h2⟩ h4⟩

theorem execOps_same : ∀ (steps : List (Op × Bool × CopyEnv)) {fs fs' : FS},
    (∀ s ∈ steps, ∀ p c, s.1 = .write p c → D p) → (∀ s ∈ steps, ∀ a b, s.1 = .copy a b → D a ∧ D b) → Same D fs fs' →
    Same D (execOps steps fs).1 (execOps steps fs').1 ∧ (execOps steps fs).2 = (execOps steps fs').2
  | [], _, _, _, _, h => ⟨h, rfl⟩
  | (op, works, env) :: rest, fs, fs', hw, hcp, h => by
    have h0 : Same D (op.exec works env fs).1 (op.exec works env fs').1 ∧
        (op.exec works env fs).2 = (op.exec works env fs').2 := by
      cases op with
      | mkdir p => exact ⟨h, rfl⟩
      | fifo p => exact ⟨h, rfl⟩
      | copy a b =>
        obtain ⟨d1, d2⟩ := hcp _ (List.mem_cons_self ..) a b rfl
        exact h.copyFile env d1 d2
      | write p c =>
        have d := hw _ (List.mem_cons_self ..) p c rfl
        cases works with
        | true => exact ⟨h.write d c, rfl⟩
        | false => exact ⟨h, rfl⟩
    obtain ⟨c1, c2⟩ := h0
    unfold execOps
    rcases hx : op.exec works env fs with ⟨f, e⟩
    rcases hy : op.exec works env fs' with ⟨f', e'⟩
    rw [hx, hy] at c1 c2
    dsimp only at c1 c2
    subst c2
    cases e with
    | true => exact ⟨c1, rfl⟩
    | false =>
      exact execOps_same rest (fun s hs => hw s (by simp [hs])) (fun s hs => hcp s (by simp [hs])) c1

theorem writes_same : ∀ (ws : List (Str × Str)) {fs fs' : FS}, (∀ w ∈ ws, D w.1) → Same D fs fs' →
    Same D (ws.foldl (fun fs w => fs.write w.1 w.2) fs) (ws.foldl (fun fs w => fs.write w.1 w.2) fs')
  | [], _, _, _, h => h
  | w :: ws, _, _, hw, h =>
    writes_same ws (fun x hx => hw x (by simp [hx])) (h.write (hw w (by simp)) w.2)

end

/-- What is linked in the beginning comes from the input. -/
theorem src_within {j : Job} (ha : Apart j) (hs : NoSlashes j) :
    (∀ ia, j.interactive = some ia →
      Within j.inputPath (join [j.inputPath, c!"interactive/Main." ++ extension ia.parentLang])) ∧
    (∀ lang, j.validator = some lang → Within j.inputPath (join [j.inputPath, c!"validator." ++ lang])) := by
  constructor
  · intro ia hi
    refine ⟨(rooted_join ha.input _).symm, ?_⟩
    have he : elems (c!"interactive/Main." ++ extension ia.parentLang) =
        [c!"interactive", c!"Main." ++ extension ia.parentLang] := by
      have e1 : c!"interactive/Main." ++ extension ia.parentLang = c!"interactive" ++ '/' ::
          (c!"Main." ++ extension ia.parentLang) := by simp
      rw [e1, elems_append_slash, elems_noslash (by decide), elems_noslash]
      · rfl
      · simp only [List.mem_append, not_or]
        exact ⟨by decide, slash_extension (hs.parent ia hi)⟩
    rw [Files.names_join_names ha.input]
    · exact List.prefix_append _ _
    · simp only [List.flatMap_cons, List.flatMap_nil, List.append_nil, he]
      intro e hm
      simp only [List.mem_cons, List.not_mem_nil, or_false] at hm
      rcases hm with rfl | rfl
      · decide
      · exact name_ext (a := c!"Main") (by decide) (by decide) (slash_extension (hs.parent ia hi))
  · intro lang hl
    apply within_join ha.input
    intro e he
    rw [List.mem_singleton.1 he]
    exact name_ext (a := c!"validator") (by decide) (by decide) (hs.validator lang hl)

/-- Grading depends on nothing but the files in the directory of the run and in its input. -/
theorem grading_same {D : Str → Prop} {g : Graded} (hs : Sound g) (hr : ∀ p, Within g.job.root p → D p)
    (hi : ∀ p, Within g.job.inputPath p → D p) {fs fs' : FS} (h : Same D fs fs') :
    Same D (grading g.job g.steps g.writes g.validated fs).1 (grading g.job g.steps g.writes g.validated fs').1 ∧
      List.Forall₂ (SameCallsOn D) (grading g.job g.steps g.writes g.validated fs).2
        (grading g.job g.steps g.writes g.validated fs').2 := by
  have hsrc := src_within hs.apart hs.noSlashes
  have hmem : ∀ s ∈ g.steps, s.1 ∈ g.steps.map Prod.fst := fun s hs' => List.mem_map.2 ⟨s, hs', rfl⟩
  have hct := (setup_copied_nodup hs.apart.root hs.noSlashes).2
  obtain ⟨h1, h2⟩ := execOps_same g.steps
    (fun s hs' p c he => hr p (hs.own p c (he ▸ hmem s hs')).1)
    (by
      intro s hs' a b he
      have hm := hmem s hs'
      rw [he] at hm
      have hb : b ∈ setupTargets g.job := by
        rw [← setup_copied hs.setup, ← copied_eq]
        unfold copied
        exact List.mem_filterMap.2 ⟨s, hs', by rw [he]; rfl⟩
      refine ⟨?_, hr _ (copyTargets_within hs.apart.root hs.noSlashes (hct b hb).1)⟩
      rcases setup_copies hs.setup hm with ⟨ia, hia, rfl, _⟩ | ⟨lang, hl, rfl, _⟩
      · exact hi _ (hsrc.1 ia hia)
      · exact hi _ (hsrc.2 lang hl)) h
  unfold grading beforeValidation
  rcases hx : execOps g.steps fs with ⟨f, e⟩
  rcases hy : execOps g.steps fs' with ⟨f', e'⟩
  rw [hx, hy] at h1 h2
  dsimp only at h1 h2
  subst h2
  cases e with
  | true => exact ⟨h1, .nil⟩
  | false =>
    have h3 := writes_same g.writes (fun w hw => hr _ (hs.writes w hw).1) h1
    cases hv : g.job.validator with
    | none => exact ⟨h3, .nil⟩
    | some lang => exact validate_same hs.apart hr hi lang g.validated hs.cases h3

/-- Two disks on which the same files are in the directory of the run and in its input, and none of them links to another:
the run is graded the same way on both. -/
theorem C183_depends_partial {g : Graded} (hs : Sound g) {fs fs' : FS} (hl : NoLinks fs) (hl' : NoLinks fs')
    (he : ∀ p, Within g.job.root p ∨ Within g.job.inputPath p → fs.read p = fs'.read p) :
    (∀ p, Within g.job.root p ∨ Within g.job.inputPath p →
      (grading g.job g.steps g.writes g.validated fs).1.read p =
        (grading g.job g.steps g.writes g.validated fs').1.read p) ∧
    List.Forall₂ (fun a b : Str × Option Invocation => a.1 = b.1 ∧
        Option.Rel (fun x y : Invocation => x.params = y.params ∧
          ∀ p, Within g.job.root p ∨ Within g.job.inputPath p → x.fs.read p = y.fs.read p) a.2 b.2)
      (grading g.job g.steps g.writes g.validated fs).2 (grading g.job g.steps g.writes g.validated fs').2 := by
  have h : Same (fun p => Within g.job.root p ∨ Within g.job.inputPath p) fs fs' := by
    have hn : ∀ p, Within g.job.root p ∨ Within g.job.inputPath p → (fs.ino p = none ↔ fs'.ino p = none) := fun p hp => by
      rw [← read_eq_none, ← read_eq_none, he p hp]
    refine ⟨hl.bound, hl'.bound, fun p q hp hq => ⟨fun e => ?_, fun e => ?_⟩, he⟩
    · cases h1 : fs.ino p with
      | none => rw [(hn p hp).1 h1, (hn q hq).1 (e ▸ h1)]
      | some i => rw [hl.own p q i h1 (e ▸ h1)]
    · cases h1 : fs'.ino p with
      | none => rw [(hn p hp).2 h1, (hn q hq).2 (e ▸ h1)]
      | some i => rw [hl'.own p q i h1 (e ▸ h1)]
  obtain ⟨h1, h2⟩ := grading_same hs (fun _ hp => .inl hp) (fun _ hp => .inr hp) h
  refine ⟨h1.read, h2.imp fun a b hab => ⟨hab.1, ?_⟩⟩
  rcases a with ⟨a1, a2⟩
  rcases b with ⟨b1, b2⟩
  have hab2 := hab.2
  dsimp only at hab2 ⊢
  cases hab2 with
  | none => exact .none
  | some hxy => exact .some ⟨hxy.1, hxy.2.read⟩

/-- What a killed run leaves differs in its directory only. -/
theorem killed_same {k : Graded} (hk : Sound k) {fs : FS} (hl : NoLinks fs)
    (hek : ∀ p, Within k.job.root p → fs.read p = none) :
    Same (fun p => ¬ Within k.job.root p) (grading k.job k.steps k.writes k.validated fs).1 fs := by
  have hf : Fresh k.job fs := ⟨hl.bound, hl.own, fun p hp => read_eq_none.1 (hek p hp)⟩
  have hg := grading_links hk hf
  have hrd : ∀ p, ¬ Within k.job.root p →
      (grading k.job k.steps k.writes k.validated fs).1.read p = fs.read p := fun p hp =>
    C92_input_unmodified_partial hk.apart hk.noSlashes hk.setup hk.own k.steps rfl k.writes hk.writes k.validated
      hk.cases hk.removes hf p hp
  have hn : ∀ p, ¬ Within k.job.root p →
      ((grading k.job k.steps k.writes k.validated fs).1.ino p = none ↔ fs.ino p = none) := fun p hp => by
    rw [← read_eq_none, ← read_eq_none, hrd p hp]
  refine ⟨hg.bound, hl.bound, fun p q hp hq => ⟨fun e => ?_, fun e => ?_⟩, hrd⟩
  · cases h1 : (grading k.job k.steps k.writes k.validated fs).1.ino p with
    | none => rw [(hn p hp).1 h1, (hn q hq).1 (e ▸ h1)]
    | some i =>
      by_cases hpq : p = q
      · rw [hpq]
      · rcases (hg.share p q i h1 (e ▸ h1) hpq).1 with ht | ht
        · exact absurd (copyTargets_within hk.apart.root hk.noSlashes ht) hp
        · exact absurd (copyTargets_within hk.apart.root hk.noSlashes ht) hq
  · cases h1 : fs.ino p with
    | none => rw [(hn p hp).2 h1, (hn q hq).2 (e ▸ h1)]
    | some i => rw [hl.own p q i h1 (e ▸ h1)]

/-- **C183** (for a runner that is killed). `k` is a run during which the runner is killed, so that its directory is not
removed: its files are those that grading leaves, where a kill while the programs are set up is a step that does not work,
and a later one a shorter list of writes or validations. A run with another directory is graded as if that run had not
been. -/
theorem C183_killed_apart_partial {k g : Graded} (hk : Sound k) (hs : Sound g) {fs : FS} (hl : NoLinks fs)
    (hek : ∀ p, Within k.job.root p → fs.read p = none)
    (h1 : ¬ Within k.job.root g.job.root) (h2 : ¬ Within g.job.root k.job.root)
    (h3 : ¬ Within k.job.root g.job.inputPath) (h4 : ¬ Within g.job.inputPath k.job.root) :
    let left := (grading k.job k.steps k.writes k.validated fs).1
    (∀ p, ¬ Within k.job.root p →
      (grading g.job g.steps g.writes g.validated left).1.read p =
        (grading g.job g.steps g.writes g.validated fs).1.read p) ∧
    List.Forall₂ (fun a b : Str × Option Invocation => a.1 = b.1 ∧
        Option.Rel (fun x y : Invocation => x.params = y.params ∧
          ∀ p, ¬ Within k.job.root p → x.fs.read p = y.fs.read p) a.2 b.2)
      (grading g.job g.steps g.writes g.validated left).2 (grading g.job g.steps g.writes g.validated fs).2 := by
  have h := killed_same hk hl hek
  obtain ⟨r1, r2⟩ := grading_same hs
    (fun p hp hp' => (within_comparable hp hp').elim h2 h1)
    (fun p hp hp' => (within_comparable hp hp').elim h4 h3) h
  refine ⟨r1.read, r2.imp fun a b hab => ⟨hab.1, ?_⟩⟩
  rcases a with ⟨a1, a2⟩
  rcases b with ⟨b1, b2⟩
  have hab2 := hab.2
  dsimp only at hab2 ⊢
  cases hab2 with
  | none => exact .none
  | some hxy => exact .some ⟨hxy.1, hxy.2.read⟩

/-! ## Many runs, some killed -/

theorem Same.mono {D D' : Str → Prop} {fs fs' : FS} (h : Same D fs fs') (hd : ∀ p, D' p → D p) : Same D' fs fs' :=
  ⟨h.bound, h.bound', fun p q hp hq => h.share p q (hd p hp) (hd q hq), fun p hp => h.read p (hd p hp)⟩

theorem Same.trans {D : Str → Prop} {a b c : FS} (h : Same D a b) (h' : Same D b c) : Same D a c :=
  ⟨h.bound, h'.bound', fun p q hp hq => (h.share p q hp hq).trans (h'.share p q hp hq),
    fun p hp => (h.read p hp).trans (h'.read p hp)⟩

theorem Same.removeAll {D : Str → Prop} {fs fs' : FS} (h : Same D fs fs') (dir : Str) :
    Same D (removeAll dir fs) (removeAll dir fs') where
  bound q i hq := by
    unfold Sandbox.removeAll at hq
    dsimp only at hq
    split at hq
    · cases hq
    · exact h.bound q i hq
  bound' q i hq := by
    unfold Sandbox.removeAll at hq
    dsimp only at hq
    split at hq
    · cases hq
    · exact h.bound' q i hq
  share q r hq hr := by
    unfold Sandbox.removeAll
    dsimp only
    by_cases h1 : Within dir q <;> by_cases h2 : Within dir r
    · simp [h1, h2]
    · rw [if_pos h1, if_neg h2, if_pos h1, if_neg h2, eq_comm, h.none_iff hr, eq_comm]
    · rw [if_neg h1, if_pos h2, if_neg h1, if_pos h2, h.none_iff hq]
    · rw [if_neg h1, if_neg h2, if_neg h1, if_neg h2]
      exact h.share q r hq hr
  read q hq := by
    have hr := h.read q hq
    unfold FS.read Sandbox.removeAll at *
    dsimp only at *
    by_cases h1 : Within dir q
    · rw [if_pos h1, if_pos h1]; rfl
    · rw [if_neg h1, if_neg h1]; exact hr

/-- The runs of a runner that is started again whenever it was killed (/repo/cmd/omegaup-runner/main.go:237-377, which
removes nothing); the Boolean says that it was killed during this run. -/
def lifeKilled (gs : List (Graded × Bool)) (fs : FS) : FS :=
  gs.foldl (fun fs g =>
    if g.2 then (grading g.1.job g.1.steps g.1.writes g.1.validated fs).1 else gradeOnce g.1 fs) fs

/-- The names that are not in the directory of a run during which the runner was killed. -/
def Outside (gs : List (Graded × Bool)) (p : Str) : Prop := ∀ k ∈ gs, k.2 = true → ¬ Within k.1.job.root p

/-- The directory of a run and its input are apart from the directory of another run. -/
structure Clear (k g : Graded) : Prop where
  root : ¬ Within k.job.root g.job.root
  root' : ¬ Within g.job.root k.job.root
  input : ¬ Within k.job.root g.job.inputPath
  input' : ¬ Within g.job.inputPath k.job.root

theorem outside_of_clear {pre : List (Graded × Bool)} {g : Graded} (h : ∀ k ∈ pre, k.2 = true → Clear k.1 g) :
    (∀ p, Within g.job.root p → Outside pre p) ∧ ∀ p, Within g.job.inputPath p → Outside pre p :=
  ⟨fun _ hp k hk hk' hw => (within_comparable hp hw).elim (h k hk hk').root' (h k hk hk').root,
    fun _ hp k hk hk' hw => (within_comparable hp hw).elim (h k hk hk').input' (h k hk hk').input⟩

theorem lifeKilled_same {fs : FS} (hl : NoLinks fs) (pre : List (Graded × Bool)) (hs : ∀ g ∈ pre, Sound g.1)
    (he : ∀ g ∈ pre, ∀ p, Within g.1.job.root p → fs.read p = none)
    (hc : pre.Pairwise fun k g => k.2 = true → Clear k.1 g.1) : Same (Outside pre) (lifeKilled pre fs) fs := by
  induction pre using List.reverseRecOn with
  | nil => exact ⟨hl.bound, hl.bound, fun _ _ _ _ => Iff.rfl, fun _ _ => rfl⟩
  | append_singleton pre g ih =>
    have hg := hs g (by simp)
    have hge := he g (by simp)
    rw [List.pairwise_append] at hc
    have ih := ih (fun x hx => hs x (by simp [hx])) (fun x hx => he x (by simp [hx])) hc.1
    obtain ⟨o1, o2⟩ := outside_of_clear (pre := pre) (g := g.1) fun k hk => hc.2.2 k hk g (by simp)
    have h1 := (grading_same hg o1 o2 ih).1
    have hout : ∀ p, Outside (pre ++ [g]) p → Outside pre p := fun p hp k hk => hp k (by simp [hk])
    unfold lifeKilled
    rw [List.foldl_append]
    show Same _ (if g.2 then (grading g.1.job g.1.steps g.1.writes g.1.validated (lifeKilled pre fs)).1 else
      gradeOnce g.1 (lifeKilled pre fs)) fs
    by_cases hgk : g.2 = true
    · rw [if_pos hgk]
      exact (h1.mono hout).trans ((killed_same hg hl hge).mono fun p hp => hp g (by simp) hgk)
    · rw [if_neg hgk]
      have hf : Fresh g.1.job fs := ⟨hl.bound, hl.own, fun p hp => read_eq_none.1 (hge p hp)⟩
      obtain ⟨n1, n2⟩ := gradeOnce_spec hg hf
      exact ((h1.removeAll g.1.job.root).mono hout).trans ((alike_of_noLinks n1 hl n2).mono fun _ _ => trivial)

/-- **C183** (for a runner that is killed any number of times, if no later run has the directory of a run during which it
was killed). Every run is graded as if it were the first of the runner, and all files outside of the directories of the
killed runs are as in the beginning. -/
theorem C183_kills_partial (gs : List (Graded × Bool)) (hs : ∀ g ∈ gs, Sound g.1) {fs : FS} (hl : NoLinks fs)
    (he : ∀ g ∈ gs, ∀ p, Within g.1.job.root p → fs.read p = none)
    (hc : gs.Pairwise fun k g => k.2 = true → Clear k.1 g.1) (pre : List (Graded × Bool)) (g : Graded) (b : Bool)
    (post : List (Graded × Bool)) (hgs : gs = pre ++ (g, b) :: post) :
    (∀ p, Outside pre p → (lifeKilled pre fs).read p = fs.read p) ∧
    (∀ p, Within g.job.root p ∨ Within g.job.inputPath p → Outside pre p) ∧
    (∀ p, Outside pre p → (grading g.job g.steps g.writes g.validated (lifeKilled pre fs)).1.read p =
      (grading g.job g.steps g.writes g.validated fs).1.read p) ∧
    List.Forall₂ (fun a b : Str × Option Invocation => a.1 = b.1 ∧
        Option.Rel (fun x y : Invocation => x.params = y.params ∧
          ∀ p, Outside pre p → x.fs.read p = y.fs.read p) a.2 b.2)
      (grading g.job g.steps g.writes g.validated (lifeKilled pre fs)).2
      (grading g.job g.steps g.writes g.validated fs).2 := by
  subst hgs
  rw [List.pairwise_append] at hc
  have h := lifeKilled_same hl pre (fun x hx => hs x (by simp [hx])) (fun x hx => he x (by simp [hx])) hc.1
  obtain ⟨o1, o2⟩ := outside_of_clear (pre := pre) (g := g) fun k hk => hc.2.2 k hk (g, b) (by simp)
  obtain ⟨r1, r2⟩ := grading_same (hs (g, b) (by simp)) o1 o2 h
  refine ⟨h.read, fun p hp => hp.elim (o1 p) (o2 p), r1.read, r2.imp fun a b hab => ⟨hab.1, ?_⟩⟩
  rcases a with ⟨a1, a2⟩
  rcases b with ⟨b1, b2⟩
  have hab2 := hab.2
  dsimp only at hab2 ⊢
  cases hab2 with
  | none => exact .none
  | some hxy => exact .some ⟨hxy.1, hxy.2.read⟩

/-- The directory of a run (/repo/runner/runner.go:454-458). -/
def rootOf (runtime : Str) (attempt : Nat) : Str := join [runtime, c!"grade", Files.fmtD attempt]

/-- The directory of an input (/repo/runner/input.go:69-73), cut after the first two characters of its hash. -/
def inputOf (runtime a b : Str) : Str := join [runtime, c!"input", a, b]

/-- Runs with different attempt identifiers do not get in the way of each other, and neither do inputs. -/
theorem clear_of_attempts {k g : Graded} {runtime a b : Str} {i j : Nat} (hr : runtime ≠ []) (ha : Name a) (hb : Name b)
    (hk : k.job.root = rootOf runtime i) (hg : g.job.root = rootOf runtime j)
    (hi : g.job.inputPath = inputOf runtime a b) (hij : i ≠ j) : Clear k g := by
  have nr : ∀ n : Nat, names (rootOf runtime n) = names runtime ++ [c!"grade", Files.fmtD n] := fun n =>
    names_join_plain hr (by
      intro e he
      simp only [List.mem_cons, List.not_mem_nil, or_false] at he
      rcases he with rfl | rfl
      · decide
      · exact Files.name_fmtD _)
  have ni : names (inputOf runtime a b) = names runtime ++ [c!"input", a, b] := names_join_plain hr (by
    intro e he
    simp only [List.mem_cons, List.not_mem_nil, or_false] at he
    rcases he with rfl | rfl | rfl
    · decide
    · exact ha
    · exact hb)
  have hne : Files.fmtD (i : Int) ≠ Files.fmtD (j : Int) := fun h => hij (by exact_mod_cast Files.fmtD_inj h)
  constructor
  · rintro ⟨_, h⟩
    rw [hk, hg, nr, nr, List.prefix_append_right_inj] at h
    simp [hne] at h
  · rintro ⟨_, h⟩
    rw [hk, hg, nr, nr, List.prefix_append_right_inj] at h
    simp [hne.symm] at h
  · rintro ⟨_, h⟩
    rw [hk, hi, nr, ni, List.prefix_append_right_inj] at h
    simp at h
  · rintro ⟨_, h⟩
    rw [hk, hi, nr, ni, List.prefix_append_right_inj] at h
    simp at h

/-- **C183**, for the directories that the runner uses: whenever the runner is killed, all later runs with other attempt
identifiers are graded as if they were the first. -/
theorem C183_attempts_partial (runtime : Str) (hrt : runtime ≠ []) (gs : List (Graded × Bool)) (attempt : Graded → Nat)
    (hs : ∀ g ∈ gs, Sound g.1) (hroot : ∀ g ∈ gs, g.1.job.root = rootOf runtime (attempt g.1))
    (hin : ∀ g ∈ gs, ∃ a b, Name a ∧ Name b ∧ g.1.job.inputPath = inputOf runtime a b) {fs : FS} (hl : NoLinks fs)
    (he : ∀ g ∈ gs, ∀ p, Within g.1.job.root p → fs.read p = none)
    (hd : gs.Pairwise fun k g => k.2 = true → attempt k.1 ≠ attempt g.1) (pre : List (Graded × Bool)) (g : Graded)
    (b : Bool) (post : List (Graded × Bool)) (hgs : gs = pre ++ (g, b) :: post) :
    (∀ p, Within g.job.root p ∨ Within g.job.inputPath p →
      (grading g.job g.steps g.writes g.validated (lifeKilled pre fs)).1.read p =
        (grading g.job g.steps g.writes g.validated fs).1.read p) ∧
    List.Forall₂ (fun a b : Str × Option Invocation => a.1 = b.1 ∧
        Option.Rel (fun x y : Invocation => x.params = y.params ∧
          ∀ p, Within g.job.root p ∨ Within g.job.inputPath p → x.fs.read p = y.fs.read p) a.2 b.2)
      (grading g.job g.steps g.writes g.validated (lifeKilled pre fs)).2
      (grading g.job g.steps g.writes g.validated fs).2 := by
  have hc : gs.Pairwise fun k g => k.2 = true → Clear k.1 g.1 := by
    refine hd.imp_of_mem ?_
    intro k g hk hg h hk'
    obtain ⟨a, b, ha, hb, hi⟩ := hin g hg
    exact clear_of_attempts hrt ha hb (hroot k hk) (hroot g hg) hi (h hk')
  obtain ⟨-, h2, h3, h4⟩ := C183_kills_partial gs hs hl he hc pre g b post hgs
  refine ⟨fun p hp => h3 p (h2 p hp), h4.imp fun a b hab => ⟨hab.1, ?_⟩⟩
  rcases a with ⟨a1, a2⟩
  rcases b with ⟨b1, b2⟩
  have hab2 := hab.2
  dsimp only at hab2 ⊢
  cases hab2 with
  | none => exact .none
  | some hxy => exact .some ⟨hxy.1, fun p hp => hxy.2 p (h2 p hp)⟩

/-! ## A sample -/

/-- The sample, killed after the second file was written. -/
def sampleKilled : Graded := { sampleGraded with writes := sampleWrites.take 2, validated := [] }

theorem sampleKilled_sound : Sound sampleKilled where
  apart := sample_apart
  noSlashes := sample_noSlashes
  setup := sample_sound.setup
  own := sample_sound.own
  writes := by decide +kernel
  cases := by decide
  removes v hv := by cases hv

/-- The same problem in another directory. -/
def nextJob : Job := { sampleJob with root := c!"/run/grade/8" }

def sampleNext : Graded :=
  { job := nextJob, programs := bins nextJob, steps := sampleSteps nextJob
    writes := [(c!"/run/grade/8/1.meta", c!"m1"), (c!"/run/grade/8/2.meta", c!"m2")], validated := sampleValidated }

theorem sampleNext_sound : Sound sampleNext where
  apart := ⟨by decide, by decide, by decide +kernel, by decide +kernel⟩
  noSlashes := ⟨fun _ h => (by cases h), fun _ h => by cases h; decide⟩
  setup := by decide +kernel
  own p c hp := C92_setup_free (bs := bins nextJob) (by decide) ⟨fun _ h => (by cases h), fun _ h => by cases h; decide⟩
    (by decide) (fun _ h => (by cases h)) (ops := sampleNext.steps.map Prod.fst) (by decide +kernel) p c hp
  writes := by decide +kernel
  cases := by decide +kernel
  removes v hv t := by
    simp only [sampleNext, sampleValidated, List.mem_cons, List.not_mem_nil, or_false] at hv
    rcases hv with rfl | rfl <;> rfl

/-- The killed run left its source and results; the validator of the next run is called for both cases as without it. -/
example :
    (grading sampleKilled.job sampleKilled.steps sampleKilled.writes sampleKilled.validated (fsOf sampleFiles)).1.read
      c!"/run/grade/7/2.meta" = some c!"m2" ∧
    (grading nextJob sampleNext.steps sampleNext.writes sampleNext.validated
      (grading sampleKilled.job sampleKilled.steps sampleKilled.writes sampleKilled.validated (fsOf sampleFiles)).1).2.length
      = 2 := by
  have h := C183_killed_apart_partial sampleKilled_sound sampleNext_sound (fs := fsOf sampleFiles)
    ⟨sample_fresh.bound, sample_fresh.own⟩ (fun p hp => read_eq_none.2 (sample_fresh.empty p hp))
    (by decide +kernel) (by decide +kernel) (by decide +kernel) (by decide +kernel)
  exact ⟨by decide +kernel, h.2.length_eq.trans (by decide +kernel)⟩

/-- Killed in the first run, the next two complete: the third is graded as if it were the first. -/
example :
    let pre := [(sampleKilled, true), (sampleNext, false)]
    ∀ p, Outside pre p →
      (grading nextJob sampleNext.steps sampleNext.writes sampleNext.validated (lifeKilled pre (fsOf sampleFiles))).1.read p =
        (grading nextJob sampleNext.steps sampleNext.writes sampleNext.validated (fsOf sampleFiles)).1.read p := by
  have hclear : Clear sampleKilled sampleNext :=
    ⟨by decide +kernel, by decide +kernel, by decide +kernel, by decide +kernel⟩
  have hfresh : Fresh nextJob (fsOf sampleFiles) := fresh_fsOf _ _ (by decide +kernel)
  exact (C183_kills_partial [(sampleKilled, true), (sampleNext, false), (sampleNext, false)]
    (by simpa using ⟨sampleKilled_sound, sampleNext_sound⟩) ⟨sample_fresh.bound, sample_fresh.own⟩
    (by
      intro g hg p hp
      rw [read_eq_none]
      simp only [List.mem_cons, List.not_mem_nil, or_false] at hg
      rcases hg with rfl | rfl | rfl
      · exact sample_fresh.empty p hp
      · exact hfresh.empty p hp
      · exact hfresh.empty p hp)
    (by simpa using hclear) [(sampleKilled, true), (sampleNext, false)] sampleNext false [] rfl).2.2.1

/-- The sample in the directories that the runner uses. -/
def placedJob (attempt : Nat) : Job :=
  { sampleJob with root := rootOf c!"/run" attempt, inputPath := inputOf c!"/run" c!"ab" c!"cd" }

def placedGraded (attempt : Nat) (writes : List (Str × Str)) (vs : List Validated) : Graded :=
  { job := placedJob attempt, programs := bins (placedJob attempt), steps := sampleSteps (placedJob attempt)
    writes := writes, validated := vs }

def placedFiles : List (Str × Str) :=
  [(c!"/run/input/ab/cd/validator.cpp", c!"V"), (c!"/run/input/ab/cd/cases/1.in", c!"i1")]

theorem placed_sound7 : Sound (placedGraded 7 [(c!"/run/grade/7/1.meta", c!"m")] []) where
  apart := ⟨by decide +kernel, by decide +kernel, by decide +kernel, by decide +kernel⟩
  noSlashes := ⟨fun _ h => (by cases h), fun _ h => by cases h; decide⟩
  setup := by decide +kernel
  own p c hp := C92_setup_free (j := placedJob 7) (bs := bins (placedJob 7)) (by decide +kernel)
    ⟨fun _ h => (by cases h), fun _ h => by cases h; decide⟩
    (by decide) (fun _ h => (by cases h)) (by decide +kernel) p c hp
  writes := by decide +kernel
  cases := by decide
  removes v hv := by cases hv

theorem placed_sound8 : Sound (placedGraded 8 [(c!"/run/grade/8/1.meta", c!"m")] sampleValidated) where
  apart := ⟨by decide +kernel, by decide +kernel, by decide +kernel, by decide +kernel⟩
  noSlashes := ⟨fun _ h => (by cases h), fun _ h => by cases h; decide⟩
  setup := by decide +kernel
  own p c hp := C92_setup_free (j := placedJob 8) (bs := bins (placedJob 8)) (by decide +kernel)
    ⟨fun _ h => (by cases h), fun _ h => by cases h; decide⟩
    (by decide) (fun _ h => (by cases h)) (by decide +kernel) p c hp
  writes := by decide +kernel
  cases := by decide +kernel
  removes v hv t := by
    simp only [placedGraded, sampleValidated, List.mem_cons, List.not_mem_nil, or_false] at hv
    rcases hv with rfl | rfl <;> rfl

/-- Killed while it grades attempt 7, the runner grades attempt 8 as if it were its first. -/
example :
    (grading (placedJob 8) (sampleSteps (placedJob 8)) [(c!"/run/grade/8/1.meta", c!"m")] sampleValidated
      (lifeKilled [(placedGraded 7 [(c!"/run/grade/7/1.meta", c!"m")] [], true)] (fsOf placedFiles))).1.read
      c!"/run/grade/8/validator/bin/data.in" =
    (grading (placedJob 8) (sampleSteps (placedJob 8)) [(c!"/run/grade/8/1.meta", c!"m")] sampleValidated
      (fsOf placedFiles)).1.read c!"/run/grade/8/validator/bin/data.in" := by
  have f7 : Fresh (placedJob 7) (fsOf placedFiles) := fresh_fsOf _ _ (by decide +kernel)
  have f8 : Fresh (placedJob 8) (fsOf placedFiles) := fresh_fsOf _ _ (by decide +kernel)
  have hin : ∀ n, ∃ a b, Name a ∧ Name b ∧ (placedJob n).inputPath = inputOf c!"/run" a b :=
    fun n => ⟨c!"ab", c!"cd", by decide, by decide, rfl⟩
  refine (C183_attempts_partial c!"/run" (by decide)
    [(placedGraded 7 [(c!"/run/grade/7/1.meta", c!"m")] [], true),
      (placedGraded 8 [(c!"/run/grade/8/1.meta", c!"m")] sampleValidated, false)]
    (fun g => if g.job.root = rootOf c!"/run" 7 then 7 else 8) ?_ ?_ ?_ ⟨f7.bound, f7.own⟩ ?_ ?_
    [(placedGraded 7 [(c!"/run/grade/7/1.meta", c!"m")] [], true)] _ false [] rfl).1 _ (Or.inl (by decide +kernel))
  · simpa using ⟨placed_sound7, placed_sound8⟩
  · intro g hg
    simp only [List.mem_cons, List.not_mem_nil, or_false] at hg
    rcases hg with rfl | rfl
    · decide +kernel
    · decide +kernel
  · intro g hg
    simp only [List.mem_cons, List.not_mem_nil, or_false] at hg
    rcases hg with rfl | rfl
    · exact hin 7
    · exact hin 8
  · intro g hg p hp
    rw [read_eq_none]
    simp only [List.mem_cons, List.not_mem_nil, or_false] at hg
    rcases hg with rfl | rfl
    · exact f7.empty p hp
    · exact f8.empty p hp
  · refine List.pairwise_cons.2 ⟨fun g hg _ => ?_, List.pairwise_singleton ..⟩
    rw [List.mem_singleton.1 hg]
    decide +kernel

end Quark.Sandbox
